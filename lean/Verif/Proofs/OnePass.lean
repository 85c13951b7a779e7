import Verif.Spec.OnePass
import Verif.Proofs.ProgramFormat
/-
C82: printing in one pass.
-/
namespace PPP
variable {P : PrettyDoc} {w : Nat}

/-- `a` is what has to be on the current line, if `K` comes next. -/
def Sees (w : Nat) (K : List (NTree P)) (a : Ahead) : Prop :=
  ∀ st : LineSt, SecondsFit w st K ↔ st.col + a.cols ≤ w ∧ a.clash = false ∧ ¬ (st.eol = true ∧ a.text = true)

theorem Sees.nil : Sees w ([] : List (NTree P)) .nothing := by
  intro st; simp [SecondsFit, Ahead.nothing]

theorem Sees.cons {t : NTree P} : ∀ {K a}, Sees w K a → Sees w (t :: K) (t.ahead a) := by
  induction t with
  | fail => intro K a h; exact h
  | empty => intro K a h; exact h
  | mark => intro K a h; exact h
  | eol =>
    intro K a h st
    have := h ⟨st.col, true⟩
    unfold SecondsFit at this ⊢
    rw [List.flatMap_cons, NTree.seconds, List.singleton_append, lineFits_eol, this]
    cases h1 : a.clash <;> cases h2 : a.text <;> simp [NTree.ahead, h1, h2]
  | newline ind =>
    intro K a h st
    simp [SecondsFit, NTree.seconds, NTree.ahead, Ahead.nothing]
  | text t =>
    intro K a h st
    have := h ⟨st.col + t.width, st.eol⟩
    unfold SecondsFit at this ⊢
    rw [List.flatMap_cons, NTree.seconds, List.singleton_append, lineFits_text, this]
    cases h1 : st.eol <;> simp [NTree.ahead, Nat.add_assoc]
  | child i c t ih => intro K a h; exact ih h
  | concat x y ihx ihy =>
    intro K a h st
    rw [show NTree.ahead (.concat x y) a = x.ahead (y.ahead a) from rfl, ← ihx (ihy h) st]
    simp [SecondsFit, NTree.seconds]
  | choice x y _ ihy => intro K a h; exact ihy h

theorem Sees.fits {K : List (NTree P)} {a} (h : Sees w K a) {d : Draft} {st : LineSt} (h1 : d.cur.width = st.col) (h2 : d.eol = st.eol) :
    d.fits w a = true ↔ SecondsFit w st K := by
  rw [h st, Draft.fits, h1, h2]
  cases h3 : a.clash <;> cases h4 : a.text <;> cases h5 : st.eol <;> simp

/-- The greedy layout of a tree is what is written. -/
theorem Greedy.written {id : P.Id} {t : NTree P} {K st st' T} (h : Greedy w id t K st st' T) :
    ∀ {a cur}, Sees w K a → segsWidth cur = st.col →
      ∃ ls last, linesFrom cur (erase T) = ls ++ [last] ∧ segsWidth last = st'.col ∧
        ∀ done bad, t.write w a ⟨done, lineW cur, st.eol, bad⟩ =
          ⟨done ++ ls.map lineW, lineW last, st'.eol, bad || (eolRun st.eol (erase T)).isNone⟩ := by
  induction h with
  | empty => intro a cur _ hc; exact ⟨[], cur, rfl, hc, fun done bad => by simp [NTree.write, erase, eolRun]⟩
  | mark => intro a cur _ hc; exact ⟨[], cur, rfl, hc, fun done bad => by simp [NTree.write, erase, eolRun]⟩
  | eol => intro a cur _ hc; exact ⟨[], cur, rfl, hc, fun done bad => by simp [NTree.write, erase, eolRun]⟩
  | @newline id k st ind => 
    intro a cur _ hc
    exact ⟨[cur], ind, rfl, rfl, fun done bad => by simp [NTree.write, erase, eolRun, lineW]⟩
  | @text id k st t =>
    intro a cur _ hc
    refine ⟨[], cur ++ [t.segment], rfl, by simp [segsWidth_snoc, hc], fun done bad => ?_⟩
    rw [lineW_snoc]
    cases h : st.eol <;> simp [NTree.write, erase, eolRun, Textual.word]
  | child _ ih => intro a cur hs hc; exact ih hs hc
  | @concat id x y k st st1 st2 T U ga gb iha ihb =>
    intro a cur hs hc
    obtain ⟨ls, last, h1, h2, h3⟩ := iha hs.cons hc
    obtain ⟨ls', last', i1, i2, i3⟩ := ihb hs h2
    refine ⟨ls ++ ls', last', ?_, i2, fun done bad => ?_⟩
    · rw [erase_append, linesFrom_append h1.symm, i1, List.append_assoc]
    · show NTree.write w y a (NTree.write w x (y.ahead a) _) = _
      rw [h3, i3, erase_append, eolRun_append]
      cases he : eolRun st.eol (erase T) with
      | none => simp
      | some e =>
        have := eolRun_lineAfter _ st e he
        rw [← greedy_lineAfter ga] at this
        simp [this]
  | @choice_first id x y k st st' T hf g ih =>
    intro a cur hs hc
    obtain ⟨ls, last, h1, h2, h3⟩ := ih hs hc
    refine ⟨ls, last, h1, h2, fun done bad => ?_⟩
    have : Draft.fits w ⟨done, lineW cur, st.eol, bad⟩ (x.ahead a) = true := (hs.cons.fits hc rfl).2 hf
    rw [NTree.write, if_pos this, h3]; rfl
  | @choice_second id x y k st st' T hf g ih =>
    intro a cur hs hc
    obtain ⟨ls, last, h1, h2, h3⟩ := ih hs hc
    refine ⟨ls, last, h1, h2, fun done bad => ?_⟩
    have : ¬ Draft.fits w ⟨done, lineW cur, st.eol, bad⟩ (x.ahead a) = true := fun h => hf ((hs.cons.fits hc rfl).1 h)
    rw [NTree.write, if_neg this, h3]; rfl

/-! ### What comes before does not matter, except for the column -/

/-- The drafts `d` and `e`, continued in the same way. -/
def SameRest (d e d' e' : Draft) : Prop :=
  d'.cur.width = e'.cur.width ∧ d'.eol = e'.eol ∧ (∃ b, d'.bad = (d.bad || b) ∧ e'.bad = (e.bad || b)) ∧
  ((∃ x, d'.done = d.done ∧ e'.done = e.done ∧ d'.cur = d.cur ++ x ∧ e'.cur = e.cur ++ x) ∨
    ∃ x L, d'.done = d.done ++ (d.cur ++ x) :: L ∧ e'.done = e.done ++ (e.cur ++ x) :: L ∧ d'.cur = e'.cur)

theorem SameRest.refl {d e : Draft} (h1 : d.cur.width = e.cur.width) (h2 : d.eol = e.eol) : SameRest d e d e :=
  ⟨h1, h2, ⟨false, by simp, by simp⟩, .inl ⟨.none, rfl, rfl, by simp, by simp⟩⟩

theorem SameRest.trans {d e d' e' d'' e'' : Draft} (h : SameRest d e d' e') (h' : SameRest d' e' d'' e'') : SameRest d e d'' e'' := by
  obtain ⟨_, _, ⟨b, b1, b2⟩, h⟩ := h
  obtain ⟨k1, k2, ⟨b', b1', b2'⟩, h'⟩ := h'
  refine ⟨k1, k2, ⟨b || b', by rw [b1', b1, Bool.or_assoc], by rw [b2', b2, Bool.or_assoc]⟩, ?_⟩
  rcases h with ⟨x, h1, h2, h3, h4⟩ | ⟨x, L, h1, h2, h3⟩
  · rcases h' with ⟨y, i1, i2, i3, i4⟩ | ⟨y, M, i1, i2, i3⟩
    · exact .inl ⟨x ++ y, i1.trans h1, i2.trans h2, by rw [i3, h3, Word.append_assoc], by rw [i4, h4, Word.append_assoc]⟩
    · exact .inr ⟨x ++ y, M, by rw [i1, h1, h3, Word.append_assoc], by rw [i2, h2, h4, Word.append_assoc], i3⟩
  · rcases h' with ⟨y, i1, i2, i3, i4⟩ | ⟨y, M, i1, i2, i3⟩
    · exact .inr ⟨x, L, i1.trans h1, i2.trans h2, by rw [i3, i4, h3]⟩
    · exact .inr ⟨x, L ++ (d'.cur ++ y) :: M, by rw [i1, h1]; simp, by rw [i2, h2, h3]; simp, i3⟩

theorem write_rest (t : NTree P) : ∀ (a : Ahead) {d e : Draft}, d.cur.width = e.cur.width → d.eol = e.eol →
    SameRest d e (t.write w a d) (t.write w a e) := by
  induction t with
  | fail => intro a d e h1 h2; exact .refl h1 h2
  | empty => intro a d e h1 h2; exact .refl h1 h2
  | mark => intro a d e h1 h2; exact .refl h1 h2
  | eol => intro a d e h1 h2; exact ⟨h1, rfl, ⟨false, by simp [NTree.write], by simp [NTree.write]⟩, .inl ⟨.none, rfl, rfl, by simp [NTree.write], by simp [NTree.write]⟩⟩
  | newline ind =>
    intro a d e h1 h2
    exact ⟨rfl, rfl, ⟨false, by simp [NTree.write], by simp [NTree.write]⟩, .inr ⟨.none, [], by simp [NTree.write], by simp [NTree.write], rfl⟩⟩
  | text t =>
    intro a d e h1 h2
    refine ⟨?_, h2, ⟨d.eol, rfl, by rw [h2]; rfl⟩, .inl ⟨_, rfl, rfl, rfl, rfl⟩⟩
    show (d.cur ++ _).width = (e.cur ++ _).width
    rw [Word.append_width, Word.append_width, h1]
  | child i c t ih => intro a d e h1 h2; exact ih a h1 h2
  | concat x y ihx ihy =>
    intro a d e h1 h2
    have h := ihx (y.ahead a) h1 h2
    exact h.trans (ihy a h.1 h.2.1)
  | choice x y ihx ihy =>
    intro a d e h1 h2
    have : d.fits w (x.ahead a) = e.fits w (x.ahead a) := by simp [Draft.fits, h1, h2]
    unfold NTree.write
    rw [this]
    split
    · exact ihx a h1 h2
    · exact ihy a h1 h2

/-! ### Whole documents -/

theorem eolDefect_iff (T : List (Tok P)) : EolDefect T ↔ (eolRun false T).isNone = true := by
  constructor
  · intro h
    cases he : eolRun false T with
    | none => rfl
    | some e => exact absurd h (eolRun_no_defect T he)
  · intro h
    refine Classical.byContradiction fun hn => ?_
    have := eolRun_of_no_defect T hn
    rw [Option.isNone_iff_eq_none] at h
    exact this h

theorem page_of_greedy {id : P.Id} {t : NTree P} {T} (h : GreedyDoc w id t T) :
    (t.page w).lines = (linesOf (erase T)).map lineW ∧ ((t.page w).bad = true ↔ EolDefect (erase T)) := by
  obtain ⟨st', g⟩ := h
  obtain ⟨ls, last, h1, _, h3⟩ := g.written (a := .nothing) (cur := []) .nil rfl
  have h3 : t.page w = _ := h3 [] false
  rw [h3, eolDefect_iff]
  refine ⟨?_, by simp⟩
  rw [show linesOf (erase T) = ls ++ [last] from h1]
  simp [Draft.lines]

theorem tooWide_iff (T : List (Tok P)) : TooWide T ↔ ¬ ∀ l ∈ (linesOf T).map lineW, l.width ≤ maxWidth := by
  unfold TooWide
  constructor
  · rintro ⟨l, h1, h2⟩ h
    have := h (lineW l) (List.mem_map_of_mem h1)
    simp only [lineW] at this
    omega
  · intro h
    refine Decidable.byContradiction fun h' => h fun n hn => ?_
    obtain ⟨l, hl, rfl⟩ := List.mem_map.1 hn
    refine Decidable.byContradiction fun h'' => h' ⟨l, hl, ?_⟩
    simp only [lineW] at h''
    omega

theorem linesString_eq (L : List (List (Segment P))) : linesString L = "\n".intercalate ((L.map lineW).map Word.str) := by
  simp [linesString, lineW, Function.comp_def]

/-- Some lines, after the start of a line. -/
def tailString : List String → String
  | [] => ""
  | x :: L => "\n" ++ (x ++ tailString L)

theorem intercalate_extend (A : List String) (c x : String) (L : List String) :
    "\n".intercalate (A ++ (c ++ x) :: L) = "\n".intercalate (A ++ [c]) ++ (x ++ tailString L) := by
  induction A with
  | nil =>
    induction L generalizing c x with
    | nil => simp [tailString]
    | cons y L ih =>
      have := ih "" y
      simp only [List.nil_append, String.empty_append] at this ⊢
      rw [intercalate_cons_cons, this]
      simp [tailString, String.append_assoc]
  | cons a A ih =>
    obtain ⟨b, B, hB⟩ : ∃ b B, A ++ (c ++ x) :: L = b :: B := by cases A <;> simp
    obtain ⟨b', B', hB'⟩ : ∃ b B, A ++ [c] = b :: B := by cases A <;> simp
    rw [List.cons_append, List.cons_append, hB, hB', intercalate_cons_cons, intercalate_cons_cons, ← hB, ← hB', ih]
    simp only [String.append_assoc]

end PPP
