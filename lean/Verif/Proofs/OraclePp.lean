import Verif.Proofs.Oracle
import Mathlib.Data.List.Induction
/-
The oracle printer displays the greedy layout, continued.
-/
namespace PPP
variable {P : PrettyDoc}

/-! ### Ways of resolving choices -/

/-- `Opt t U`: `U` is a way of displaying `t` (focus marks may be left out). -/
inductive Opt : NTree P → List (Tok P) → Prop where
  | empty : Opt .empty []
  | noMark : Opt .mark []
  | mark {i} : Opt .mark [.mark i]
  | eol : Opt .eol [.eol]
  | newline {ind} : Opt (.newline ind) [.nl ind]
  | text {t} : Opt (.text t) [.text t]
  | child {i c t T} : Opt t T → Opt (.child i c t) T
  | concat {a b T U} : Opt a T → Opt b U → Opt (.concat a b) (T ++ U)
  | choice_first {a b T} : Opt a T → Opt (.choice a b) T
  | choice_second {a b T} : Opt b T → Opt (.choice a b) T

/-- The same, for a sequence of trees. -/
inductive OptK : List (NTree P) → List (Tok P) → Prop where
  | nil : OptK [] []
  | cons {t k T U} : Opt t T → OptK k U → OptK (t :: k) (T ++ U)

theorem NTree.SecondsOk.opt {t : NTree P} (h : t.SecondsOk) : Opt t t.seconds := by
  induction t with
  | fail f => exact absurd h (by simp [NTree.SecondsOk])
  | empty => exact .empty
  | mark => exact .noMark
  | eol => exact .eol
  | newline ind => exact .newline
  | text x => exact .text
  | concat a b iha ihb => exact .concat (iha h.1) (ihb h.2)
  | choice a b iha ihb => exact .choice_second (ihb h)
  | child i id t ih => exact .child (ih h)

theorem optK_seconds {k : List (NTree P)} (h : ∀ t ∈ k, t.SecondsOk) : OptK k (k.flatMap NTree.seconds) := by
  induction k with
  | nil => exact .nil
  | cons t k ih =>
    rw [List.flatMap_cons]
    exact .cons (h t (by simp)).opt (ih fun t ht => h t (by simp [ht]))

theorem greedy_opt {w : Nat} {id : P.Id} {t k st st' T} (h : Greedy w id t k st st' T) : Opt t (erase T) := by
  induction h with
  | empty => exact .empty
  | mark => exact .mark
  | eol => exact .eol
  | newline => exact .newline
  | text => exact .text
  | child _ ih => exact .child ih
  | concat _ _ iha ihb => rw [erase_append]; exact .concat iha ihb
  | choice_first _ _ ih => exact .choice_first (by simpa only [erase] using ih)
  | choice_second _ _ ih => exact .choice_second (by simpa only [erase] using ih)

/-- All the ids of children are known. -/
def NTree.IdsOk : NTree P → Prop
  | .concat a b => a.IdsOk ∧ b.IdsOk
  | .choice a b => a.IdsOk ∧ b.IdsOk
  | .child _ id t => (∃ i, id = .ok i) ∧ t.IdsOk
  | _ => True

theorem NTree.NoFail.idsOk {t : NTree P} (h : t.NoFail) : t.IdsOk := by
  induction t with
  | concat a b iha ihb => exact ⟨iha h.1, ihb h.2⟩
  | choice a b iha ihb => exact ⟨iha h.1, ihb h.2⟩
  | child i id t ih => exact ⟨h.1, ih h.2⟩
  | _ => trivial

theorem Opt.resolves {t : NTree P} {U} (h : Opt t U) : t.IdsOk → ∀ id, ∃ T, Resolves id t T ∧
    ∀ e V, NoZero e (erase T ++ V) → NoZero e (U ++ V) := by
  induction h with
  | empty => intro _ id; exact ⟨_, .empty, fun e V h => h⟩
  | noMark => intro _ id; exact ⟨_, .mark, fun e V h => h⟩
  | mark => intro _ id; exact ⟨_, .mark, fun e V h => h⟩
  | eol => intro _ id; exact ⟨_, .eol, fun e V h => h⟩
  | newline => intro _ id; exact ⟨_, .newline, fun e V h => h⟩
  | text => intro _ id; exact ⟨_, .text, fun e V h => h⟩
  | child _ ih =>
    rintro ⟨⟨c, rfl⟩, hi⟩ id
    obtain ⟨T, h1, h2⟩ := ih hi c
    exact ⟨T, .child h1, h2⟩
  | @concat a b U1 U2 _ _ iha ihb =>
    rintro ⟨hia, hib⟩ id
    obtain ⟨T1, h1, h2⟩ := iha hia id
    obtain ⟨T2, g1, g2⟩ := ihb hib id
    refine ⟨T1 ++ T2, .concat h1 g1, ?_⟩
    intro e V h
    rw [erase_append, List.append_assoc] at h
    rw [List.append_assoc]
    have h := h2 e _ h
    exact noZero_congr_right (fun e => g2 e V) U1 e h
  | choice_first _ ih =>
    rintro ⟨hia, hib⟩ id
    obtain ⟨T, h1, h2⟩ := ih hia id
    exact ⟨_, .choice_first h1, h2⟩
  | choice_second _ ih =>
    rintro ⟨hia, hib⟩ id
    obtain ⟨T, h1, h2⟩ := ih hib id
    exact ⟨_, .choice_second h1, h2⟩

theorem noZero_of_not (T : List (Tok P)) (h : ¬ ZeroAfterEol T) : NoZero false T := by
  have key : ∀ (T A B : List (Tok P)) (e : Bool), (e = true → ∃ A0, A = A0 ++ [.eol]) →
      (e = true → (∀ ind, .nl ind ∉ B) ∧ ∀ y, .text y ∉ B) → ¬ ZeroAfterEol (A ++ B ++ T) → NoZero e T := by
    intro T
    induction T with
    | nil => intros; trivial
    | cons t T ih =>
      intro A B e hA hB hz
      cases t with
      | text x =>
        refine ⟨?_, ?_⟩
        · intro he
          rcases Nat.eq_zero_or_pos x.width with h0 | h0
          · obtain ⟨A0, rfl⟩ := hA he
            exact absurd ⟨A0, B, x, T, by simp, (hB he).1, (hB he).2, h0⟩ hz
          · exact h0
        · intro he
          subst he
          exact ih A (B ++ [.text x]) false (by simp) (by simp) (by simpa using hz)
      | nl ind =>
        exact ih (A ++ B ++ [.nl ind]) [] false (by simp) (by simp) (by simpa using hz)
      | eol =>
        exact ih (A ++ B ++ [.eol]) [] true (fun _ => ⟨_, rfl⟩) (by simp) (by simpa using hz)
      | mark i =>
        refine ih A (B ++ [.mark i]) e hA ?_ (by simpa using hz)
        intro he
        refine ⟨fun ind hm => ?_, fun y hm => ?_⟩
        · simp at hm
          exact (hB he).1 ind hm
        · simp at hm
          exact (hB he).2 y hm
  exact key T [] [] false (by simp) (by simp) (by simpa using h)

/-- No way of displaying the trees has a text without width as the first one after an end-of-line mark. -/
def ZeroFree (e : Bool) (t : NTree P) (k : List (NTree P)) : Prop :=
  ∀ U V, Opt t U → OptK k V → NoZero e (U ++ V)

theorem ZeroFree.left {e : Bool} {a b : NTree P} {k} (h : ZeroFree e (.concat a b) k) : ZeroFree e a (b :: k) := by
  intro U V hU hV
  cases hV with
  | cons hb hk =>
    rw [← List.append_assoc]
    exact h _ _ (.concat hU hb) hk

theorem ZeroFree.right {st : LineSt} {a b : NTree P} {k} (h : ZeroFree st.eol (.concat a b) k) {T}
    (ha : Opt a T) (hc : EolClean st.eol T) : ZeroFree (lineAfter st T).eol b k := by
  intro U V hU hV
  have := h _ _ (.concat ha hU) hV
  rw [List.append_assoc] at this
  exact noZero_after _ _ st hc this

/-! ### The oracle's lines -/

/-- The strings of the lines. -/
def OLayout.Shows (pre : OLayout) (A : List (Tok P)) : Prop :=
  pre.lines = (linesOf A).map segsString ∧ pre.endsWithEol = (lineAfter ⟨0, false⟩ A).eol

/-- The recorded widths are the widths of the strings. -/
def WidthTok : Tok P → Prop
  | .text x => x.width = P.strWidth x.str
  | .nl ind => ∀ s ∈ ind, s.width = P.strWidth s.str
  | _ => True

theorem segsString_append (a b : List (Segment P)) : segsString (a ++ b) = segsString a ++ segsString b := by
  rw [segsString_eq, segsString_eq, segsString_eq, styledChars_append]
  simp

theorem segsString_singleton (s : Segment P) : segsString [s] = s.str := by
  simp [segsString]

theorem linesOf_snoc_split (A : List (Tok P)) :
    ∃ ls cur, linesOf A = ls ++ [cur] ∧ ∀ T, linesOf (A ++ T) = ls ++ linesFrom cur T := by
  have hne := linesFrom_ne_nil [] A
  refine ⟨(linesFrom [] A).dropLast, (linesFrom [] A).getLast hne, (List.dropLast_concat_getLast hne).symm, ?_⟩
  intro T
  exact linesFrom_append (List.dropLast_concat_getLast hne) T

theorem widthTok_lines {A : List (Tok P)} (h : ∀ x ∈ A, WidthTok x) : ∀ {cur : List (Segment P)},
    (∀ s ∈ cur, s.width = P.strWidth s.str) → ∀ l ∈ linesFrom cur A, ∀ s ∈ l, s.width = P.strWidth s.str := by
  induction A with
  | nil => intro cur hc l hl; simp [linesFrom] at hl; subst hl; exact hc
  | cons t A ih =>
    have ih := @ih fun x hx => h x (by simp [hx])
    intro cur hc
    cases t with
    | text x =>
      refine ih ?_
      intro s hs
      simp at hs
      rcases hs with hs | rfl
      · exact hc s hs
      · exact h (.text x) (by simp)
    | nl ind =>
      intro l hl
      simp only [linesFrom, List.mem_cons] at hl
      rcases hl with rfl | hl
      · exact hc
      · exact ih (h (.nl ind) (by simp)) l hl
    | eol => exact ih hc
    | mark i => exact ih hc

theorem strWidth_segs (hsw : WidthsAdd P.strWidth) (segs : List (Segment P))
    (h : ∀ s ∈ segs, s.width = P.strWidth s.str) (hm : segsWidth segs ≤ maxWidth) :
    P.strWidth (segsString segs) = segsWidth segs := by
  induction segs using List.reverseRecOn with
  | nil => simpa [segsString, segsWidth] using hsw.1
  | append_singleton segs s ih =>
    have hw : segsWidth (segs ++ [s]) = segsWidth segs + s.width := by simp [segsWidth]
    rw [hw] at hm
    have ih := ih (fun s hs => h s (by simp [hs])) (by omega)
    have hs := h s (by simp)
    rw [segsString_append, segsString_singleton, hw, hsw.2 _ _ (by rw [ih, ← hs]; exact hm), ih, ← hs]

theorem Shows.lastLineLen (hsw : WidthsAdd P.strWidth) {pre : OLayout} {A : List (Tok P)} (h : pre.Shows A)
    (hA : ∀ x ∈ A, WidthTok x) {B : Nat} (hB : B ≤ maxWidth) (hw : ∀ l ∈ linesOf A, segsWidth l ≤ B) :
    pre.lastLineLen (E := P.Err) P.strWidth = Exec.ofRes (.ok (lineAfter ⟨0, false⟩ A).col) ∧
      (lineAfter ⟨0, false⟩ A).col ≤ B := by
  have hne := linesFrom_ne_nil [] A
  have hmem : (linesOf A).getLast hne ∈ linesOf A := List.getLast_mem hne
  have hle := hw _ hmem
  rw [lineAfter_col]
  refine ⟨?_, hle⟩
  unfold OLayout.lastLineLen
  have hl : (linesOf A).getLast? = some ((linesOf A).getLast hne) := List.getLast?_eq_some_getLast hne
  rw [h.1, List.getLast?_map, hl]
  change pure (P.strWidth (segsString _)) = _
  rw [strWidth_segs hsw _ (widthTok_lines hA (by simp) _ hmem) (by omega)]
  rfl

theorem Shows.appendText {pre : OLayout} {A : List (Tok P)} (h : pre.Shows A) (x : Textual P) :
    if (lineAfter ⟨0, false⟩ A).eol = true then
      pre.appendText (E := P.Err) x.str = Exec.ofRes (.error .panic)
    else ∃ pre', pre.appendText (E := P.Err) x.str = Exec.ofRes (.ok pre') ∧ pre'.Shows (A ++ [.text x]) := by
  unfold OLayout.appendText
  split
  · rename_i he
    rw [h.2, if_pos he]
    rfl
  · rename_i he
    rw [h.2, if_neg he]
    obtain ⟨ls, cur, h1, h2⟩ := linesOf_snoc_split A
    have hl : pre.lines = ls.map segsString ++ [segsString cur] := by rw [h.1, h1]; simp
    rw [hl]
    simp only [List.getLast?_append, List.getLast?_singleton, Option.some_or, List.dropLast_concat]
    refine ⟨_, rfl, ?_, ?_⟩
    · rw [h2]
      simp [linesFrom, segsString_append, segsString_singleton, Textual.segment]
    · rw [lineAfter_append]
      simp only [lineAfter]

theorem join_eq_segsString (segs : List (Segment P)) : String.join (segs.map (·.str)) = segsString segs := by
  unfold String.join segsString
  rw [List.foldl_map]

theorem Shows.appendNewline {pre : OLayout} {A : List (Tok P)} (h : pre.Shows A) (ind : List (Segment P)) :
    (pre.appendNewline (String.join (ind.map (·.str)).reverse)).Shows (A ++ [.nl ind.reverse]) := by
  refine ⟨?_, ?_⟩
  · rw [linesOf, linesFrom_append_nl, ← List.map_reverse, join_eq_segsString]
    simp only [OLayout.appendNewline, linesFrom, List.map_append, List.map_cons, List.map_nil]
    rw [h.1]; rfl
  · rw [lineAfter_append]; rfl

theorem EolDefect.append {A : List (Tok P)} (h : EolDefect A) (B : List (Tok P)) : EolDefect (A ++ B) := by
  obtain ⟨A1, A2, x, A3, rfl, h2⟩ := h
  exact ⟨A1, A2, x, A3 ++ B, by simp, h2⟩

theorem eolDefect_snoc {A : List (Tok P)} (h : (lineAfter ⟨0, false⟩ A).eol = true) (x : Textual P) :
    EolDefect (A ++ [.text x]) := by
  exact hasDefect_eol ⟨A, .text x, [], rfl, by simp [tokDefect, h]⟩

/-! ### `pp` -/

theorem exec_ite {E α : Type} {c : Prop} [Decidable c] (h : c) (x : Exec E α) :
    (if c then x else panicking) = x := if_pos h

theorem oracleFits_eq {w lastLen : Nat} {st : LineSt} {r : Option Nat} {T : List (Tok P)} {m B : Nat}
    (hw : w < oracleMaxWidth) (hlen : lastLen = st.col) {pre : OLayout} (he : pre.endsWithEol = st.eol) (hz : NoZero st.eol T)
    (hr : SameLen r (V T)) (hm : ∀ n, r = some n → n ≤ m + oracleMaxWidth) (hB : st.col ≤ B)
    (hsum : m + B + oracleMaxWidth ≤ maxWidth) :
    ∃ b : Bool, oracleFits (E := P.Err) pre w lastLen r = Exec.ofRes (.ok b) ∧ (b = true ↔ LineFits w st T) := by
  subst hlen
  rw [V_lineFits hz]
  cases r with
  | none =>
    refine ⟨false, rfl, by simp, ?_⟩
    rintro ⟨n, hn, _⟩
    rw [hn] at hr
    exact absurd hr (by simp [SameLen])
  | some a =>
    have ha := hm a rfl
    cases hV : V T with
    | none => rw [hV] at hr; exact absurd hr (by simp [SameLen])
    | some b =>
      rw [hV] at hr
      simp only [SameLen] at hr
      have hmx : oracleMaxWidth = 10000 := rfl
      by_cases hc : st.eol = true ∧ a > 0
      · refine ⟨false, if_pos (by rw [he]; exact hc), by simp, ?_⟩
        rintro ⟨n, hn, h1, h2⟩
        simp only [Option.some.injEq] at hn
        subst hn
        exact absurd ⟨hc.1, by omega⟩ h1
      · refine ⟨decide (st.col + a ≤ w), ?_, ?_⟩
        · simp only [oracleFits]
          rw [if_neg (by rw [he]; exact hc)]
          unfold addWidths
          rw [if_pos (by omega)]
          rfl
        · rw [decide_eq_true_iff]
          constructor
          · intro h
            exact ⟨b, rfl, fun h' => hc ⟨h'.1, by omega⟩, by omega⟩
          · rintro ⟨n, hn, h1, h2⟩
            simp only [Option.some.injEq] at hn
            omega

/-- What is known about the texts and indentations of a tree. -/
def NTree.Sized (m : Nat) (t : NTree P) : Prop :=
  t.NoFail ∧ t.TextsWithin m ∧ t.FailIn ⟨fun _ => True, fun x => x.width = P.strWidth x.str,
    fun ind => ∀ s ∈ ind, s.width = P.strWidth s.str⟩

theorem NTree.Sized.concat {m : Nat} {a b : NTree P} (h : (NTree.concat a b).Sized m) : a.Sized m ∧ b.Sized m :=
  ⟨⟨h.1.1, h.2.1.1, h.2.2.1⟩, h.1.2, h.2.1.2, h.2.2.2⟩

theorem NTree.Sized.choice {m : Nat} {a b : NTree P} (h : (NTree.choice a b).Sized m) : a.Sized m ∧ b.Sized m :=
  ⟨⟨h.1.1, h.2.1.1, h.2.2.1⟩, h.1.2, h.2.1.2, h.2.2.2⟩

theorem NTree.Sized.child {m : Nat} {i id} {t : NTree P} (h : (NTree.child i id t).Sized m) : t.Sized m :=
  ⟨h.1.2, h.2.1, h.2.2.2⟩

theorem NTree.Sized.toks {m : Nat} {t : NTree P} {U} (ho : Opt t U) : t.Sized m → ∀ x ∈ U, WidthTok x := by
  induction ho with
  | empty => intro _ x hx; simp at hx
  | noMark => intro _ x hx; simp at hx
  | mark => intro _ x hx; simp at hx; subst hx; trivial
  | eol => intro _ x hx; simp at hx; subst hx; trivial
  | newline => intro h x hx; simp at hx; subst hx; exact h.2.2
  | text => intro h x hx; simp at hx; subst hx; exact h.2.2
  | child _ ih => intro h; exact ih h.child
  | concat _ _ iha ihb =>
    intro h x hx
    rcases List.mem_append.1 hx with hx | hx
    · exact iha h.concat.1 x hx
    · exact ihb h.concat.2 x hx
  | choice_first _ ih => intro h; exact ih h.choice.1
  | choice_second _ ih => intro h; exact ih h.choice.2

theorem Rep.eval_ok {d : DCN P} {rid t} (h : Rep d rid t) (hn : t.NoFail) :
    ∃ c, d.eval = Exec.ofRes (.ok c) ∧ CNRep rid c t := by
  rcases h.cases' with ⟨f, _, rfl⟩ | h
  · exact absurd hn (by simp [NTree.NoFail])
  · exact h

theorem firstLineLen_ok {t : NTree P} {rid} {c : CN P} {sfx : Option Nat} {T : List (Tok P)} {m : Nat}
    (hc : CNRep rid c t) (hs : SameLen sfx (V T)) (hcl : Clamped sfx) (ht : t.Sized m)
    (hm : m + oracleMaxWidth ≤ maxWidth) :
    ∃ r, firstLineLen c sfx = Exec.ofRes (.ok r) ∧ SameLen r (V (t.seconds ++ T)) ∧
      ∀ n, r = some n → n ≤ m + oracleMaxWidth := by
  rcases (firstLineLen_sat t m hc hs hcl).exists_res with ⟨r, h1, _, h2, h3⟩ | ⟨e, _, h | ⟨_, h⟩⟩
  · exact ⟨r, h1, h2, h3 ht.2.1⟩
  · exact absurd ht.1 h
  · have := h ht.2.1
    omega

theorem oraclePp_greedy (hsw : WidthsAdd P.strWidth) {w m B : Nat} (hw : w < oracleMaxWidth)
    (hsum : m + B + oracleMaxWidth ≤ maxWidth) {id : P.Id} {t k st st' T}
    (hg : Greedy w id t k st st' T) : ∀ {rid} {c : CN P} {pre : OLayout} {sfx : Option Nat} {A : List (Tok P)},
    CNRep rid c t → t.Sized m → (∀ t ∈ k, t.SecondsOk) → SameLen sfx (V (k.flatMap NTree.seconds)) →
    Clamped sfx → ZeroFree st.eol t k → pre.Shows A → st = lineAfter ⟨0, false⟩ A → (∀ x ∈ A, WidthTok x) →
    (∀ l ∈ linesOf (A ++ erase T), segsWidth l ≤ B) →
    (∃ pre', oraclePp pre c sfx w = Exec.ofRes (.ok pre') ∧ pre'.Shows (A ++ erase T) ∧ EolClean st.eol (erase T)) ∨
      (oraclePp pre c sfx w = Exec.ofRes (.error .panic) ∧ EolDefect (A ++ erase T)) := by
  induction hg with
  | empty =>
    intro rid c pre sfx A hc ht hk hs hcl hz hpre hst hA hB
    cases hc
    refine .inl ⟨pre, ?_, by simpa [erase] using hpre, trivial⟩
    unfold oraclePp
    exact exec_ite hw _
  | mark =>
    intro rid c pre sfx A hc ht hk hs hcl hz hpre hst hA hB
    cases hc
    refine .inl ⟨pre, ?_, ?_, trivial⟩
    · unfold oraclePp
      exact exec_ite hw _
    · refine ⟨?_, ?_⟩
      · obtain ⟨ls, cur, h1, h2⟩ := linesOf_snoc_split A
        rw [h2, hpre.1, h1]
        simp [erase, linesFrom]
      · rw [lineAfter_append]; exact hpre.2
  | eol =>
    intro rid c pre sfx A hc ht hk hs hcl hz hpre hst hA hB
    cases hc
    refine .inl ⟨⟨pre.lines, true⟩, ?_, ?_, trivial⟩
    · unfold oraclePp
      exact exec_ite hw _
    · refine ⟨?_, ?_⟩
      · obtain ⟨ls, cur, h1, h2⟩ := linesOf_snoc_split A
        rw [h2, hpre.1, h1]
        simp [erase, linesFrom]
      · rw [lineAfter_append]; rfl
  | newline =>
    intro rid c pre sfx A hc ht hk hs hcl hz hpre hst hA hB
    cases hc
    refine .inl ⟨_, ?_, Shows.appendNewline hpre _, trivial⟩
    unfold oraclePp
    exact exec_ite hw _
  | @text _ _ _ x =>
    intro rid c pre sfx A hc ht hk hs hcl hz hpre hst hA hB
    cases hc
    have h := Shows.appendText hpre x
    have hpp : oraclePp pre (.textual x) sfx w = pre.appendText x.str := by
      unfold oraclePp
      exact exec_ite hw _
    rw [hpp]
    split at h
    · rename_i he
      exact .inr ⟨h, eolDefect_snoc he x⟩
    · rename_i he
      obtain ⟨pre', h1, h2⟩ := h
      exact .inl ⟨pre', h1, h2, by rw [hst]; simpa using he, trivial⟩
  | child _ ih =>
    intro rid c pre sfx A hc ht hk hs hcl hz hpre hst hA hB
    cases hc with
    | child hr =>
      obtain ⟨x, hx, hcx⟩ := hr.eval_ok ht.child.1
      have := ih hcx ht.child hk hs hcl (fun U V hU hV => hz U V (.child hU) hV) hpre hst hA hB
      rw [oraclePp.eq_def]
      simp only [exec_ite hw, hx, Exec.ofRes_ok_bind]
      exact this
  | @concat _ a b k st st1 st2 T U ha hb iha ihb =>
    intro rid c pre sfx A hc ht hk hs hcl hz hpre hst hA hB
    cases hc with
    | concat hra hrb =>
      obtain ⟨x, hx, hcx⟩ := hra.eval_ok ht.concat.1.1
      obtain ⟨y, hy, hcy⟩ := hrb.eval_ok ht.concat.2.1
      obtain ⟨r, hr, hr1, hr2⟩ := firstLineLen_ok hcy hs hcl ht.concat.2 (by omega)
      rw [erase_append, ← List.append_assoc] at hB ⊢
      have hBa : ∀ l ∈ linesOf (A ++ erase T), segsWidth l ≤ B := by
        intro l hl
        by_contra hcon
        obtain ⟨l', h1, h2⟩ := linesFrom_prefix_wide (C := erase U) (cur := []) ⟨l, hl, Nat.lt_of_not_le hcon⟩
        exact absurd (hB l' h1) (by omega)
      have h1 := iha hcx ht.concat.1 (by
          intro t ht'
          rcases List.mem_cons.1 ht' with rfl | ht'
          · exact ht.concat.2.1.secondsOk
          · exact hk t ht') (sfx := r.map (min · oracleMaxWidth))
        (by rw [List.flatMap_cons]; exact hr1.clamp) (clamped_map r) hz.left hpre hst hA hBa
      rw [oraclePp.eq_def]
      simp only [exec_ite hw, hx, hy, hr, Exec.ofRes_ok_bind]
      rcases h1 with ⟨pre', h1, h2, hcl1⟩ | ⟨h1, h2⟩
      · rw [h1, Exec.ofRes_ok_bind]
        have hA' : ∀ x ∈ A ++ erase T, WidthTok x := by
          intro x hx
          rcases List.mem_append.1 hx with hx | hx
          · exact hA x hx
          · exact NTree.Sized.toks (greedy_opt ha) ht.concat.1 x hx
        have hst1 := greedy_lineAfter ha
        have h3 := ihb hcy ht.concat.2 hk hs hcl (by rw [hst1]; exact hz.right (greedy_opt ha) hcl1) h2
          (by rw [lineAfter_append, ← hst]; exact hst1) hA' hB
        rcases h3 with ⟨pre'', g1, g2, g3⟩ | h3
        · refine .inl ⟨pre'', g1, g2, (eolClean_append _ _ st).2 ⟨hcl1, ?_⟩⟩
          rw [← hst1]
          exact g3
        · exact .inr h3
      · rw [h1, Exec.ofRes_error_bind]
        exact .inr ⟨rfl, h2.append _⟩
  | @choice_first _ a b k st st' T hf _ ih =>
    intro rid c pre sfx A hc ht hk hs hcl hz hpre hst hA hB
    cases hc with
    | choice hra hrb =>
      obtain ⟨x, hx, hcx⟩ := hra.eval_ok ht.choice.1.1
      obtain ⟨r, hr, hr1, hr2⟩ := firstLineLen_ok hcx hs hcl ht.choice.1 (by omega)
      have hBA : ∀ l ∈ linesOf A, segsWidth l ≤ B := by
        intro l hl
        by_contra hcon
        obtain ⟨l', h1, h2⟩ := linesFrom_prefix_wide (C := erase (.first :: T)) (cur := []) ⟨l, hl, Nat.lt_of_not_le hcon⟩
        exact absurd (hB l' h1) (by omega)
      obtain ⟨hl1, hl2⟩ := Shows.lastLineLen hsw hpre hA (by omega) hBA
      rw [← hst] at hl1 hl2
      obtain ⟨f, hf1, hf2⟩ := oracleFits_eq (st := st) hw rfl (by rw [hpre.2, hst])
        (hz _ _ (.choice_first ht.choice.1.1.secondsOk.opt) (optK_seconds hk)) hr1 hr2 hl2 hsum
      have hb : f = true := by
        rw [hf2]
        unfold SecondsFit at hf
        rw [List.flatMap_cons] at hf
        exact hf
      subst hb
      have := ih hcx ht.choice.1 hk hs hcl (fun U V hU hV => hz U V (.choice_first hU) hV) hpre hst hA
        (by simpa only [erase] using hB)
      rw [oraclePp.eq_def]
      simp only [exec_ite hw, hx, hl1, hr, hf1, Exec.ofRes_ok_bind]
      exact this
  | @choice_second _ a b k st st' T hf _ ih =>
    intro rid c pre sfx A hc ht hk hs hcl hz hpre hst hA hB
    cases hc with
    | choice hra hrb =>
      obtain ⟨x, hx, hcx⟩ := hra.eval_ok ht.choice.1.1
      obtain ⟨y, hy, hcy⟩ := hrb.eval_ok ht.choice.2.1
      obtain ⟨r, hr, hr1, hr2⟩ := firstLineLen_ok hcx hs hcl ht.choice.1 (by omega)
      have hBA : ∀ l ∈ linesOf A, segsWidth l ≤ B := by
        intro l hl
        by_contra hcon
        obtain ⟨l', h1, h2⟩ := linesFrom_prefix_wide (C := erase (.second :: T)) (cur := []) ⟨l, hl, Nat.lt_of_not_le hcon⟩
        exact absurd (hB l' h1) (by omega)
      obtain ⟨hl1, hl2⟩ := Shows.lastLineLen hsw hpre hA (by omega) hBA
      rw [← hst] at hl1 hl2
      obtain ⟨f, hf1, hf2⟩ := oracleFits_eq (st := st) hw rfl (by rw [hpre.2, hst])
        (hz _ _ (.choice_first ht.choice.1.1.secondsOk.opt) (optK_seconds hk)) hr1 hr2 hl2 hsum
      have hb : f = false := by
        rw [← Bool.not_eq_true, hf2]
        unfold SecondsFit at hf
        rw [List.flatMap_cons] at hf
        exact hf
      subst hb
      have := ih hcy ht.choice.2 hk hs hcl (fun U V hU hV => hz U V (.choice_second hU) hV) hpre hst hA
        (by simpa only [erase] using hB)
      rw [oraclePp.eq_def]
      simp only [exec_ite hw, hx, hl1, hr, hf1, Exec.ofRes_ok_bind]
      simp only [Bool.false_eq_true, if_false, hy, Exec.ofRes_ok_bind]
      exact this

end PPP
