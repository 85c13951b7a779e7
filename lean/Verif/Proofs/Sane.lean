import Verif.Props.FirstOptions
import Verif.Proofs.Ink
import Verif.Props.Oracle
import Verif.Props.Choices
/-
Trees that always print, in which line breaks are only made when needed.
-/
namespace PPP
variable {P : PrettyDoc}

/-- A tree without failures and ends of lines, whose choices are as they should be; `n` bounds the width of all of its
    text, and `B` the width of the indentation. -/
structure NTree.Sane (B : Nat) (t : NTree P) (n : Nat) : Prop where
  noFail : t.NoFail
  noEol : t.NoEol
  good : ∀ w, t.GoodChoices w
  within : t.TextsWithin n
  width : ∀ {id T}, Resolves id t T → toksWidth (erase T) ≤ n
  inds : ∀ {id T ind}, Resolves id t T → .nl ind ∈ erase T → segsWidth ind ≤ B

/-- With first options, the tree is on one line, with the text `s`. -/
def NTree.Inline (t : NTree P) (n : Nat) (s : String) : Prop :=
  ∀ id, ∃ T, Resolves id t T ∧ .second ∉ T ∧ (∀ ind, .nl ind ∉ erase T) ∧ toksString (erase T) = s ∧
    toksWidth (erase T) = n

theorem TextsWithin_mono {m n : Nat} (h : m ≤ n) {t : NTree P} (ht : t.TextsWithin m) : t.TextsWithin n := by
  induction t with
  | text x => exact Nat.le_trans ht h
  | concat a b iha ihb => exact ⟨iha ht.1, ihb ht.2⟩
  | choice a b iha ihb => exact ⟨iha ht.1, ihb ht.2⟩
  | child i id t ih => exact ih ht
  | _ => trivial

theorem NTree.Sane.mono {B B' n n' : Nat} {t : NTree P} (h : t.Sane B n) (hB : B ≤ B') (hn : n ≤ n') : t.Sane B' n' where
  noFail := h.noFail
  noEol := h.noEol
  good := h.good
  within := TextsWithin_mono hn h.within
  width hr := Nat.le_trans (h.width hr) hn
  inds hr hi := Nat.le_trans (h.inds hr hi) hB

theorem toksWidth_append (A B : List (Tok P)) : toksWidth (A ++ B) = toksWidth A + toksWidth B := by
  simp [toksWidth]

theorem NTree.Sane.text {B : Nat} (x : Textual P) : (NTree.text x).Sane B x.width where
  noFail := trivial
  noEol := trivial
  good _ := trivial
  within := Nat.le_refl _
  width hr := by cases hr; simp [erase, toksWidth]
  inds hr hi := by cases hr; simp [erase] at hi

theorem NTree.Sane.newline {B : Nat} {ind : List (Segment P)} (h : segsWidth ind ≤ B) : (NTree.newline ind).Sane B 0 where
  noFail := trivial
  noEol := trivial
  good _ := trivial
  within := trivial
  width hr := by cases hr; simp [erase, toksWidth]
  inds hr hi := by
    cases hr
    simp [erase] at hi
    subst hi
    exact h

theorem NTree.Sane.concat {B m n : Nat} {a b : NTree P} (ha : a.Sane B m) (hb : b.Sane B n) :
    (NTree.concat a b).Sane B (m + n) where
  noFail := ⟨ha.noFail, hb.noFail⟩
  noEol := ⟨ha.noEol, hb.noEol⟩
  good w := ⟨ha.good w, hb.good w⟩
  within := ⟨TextsWithin_mono (by omega) ha.within, TextsWithin_mono (by omega) hb.within⟩
  width hr := by
    cases hr with
    | concat h1 h2 =>
      rw [erase_append, toksWidth_append]
      exact Nat.add_le_add (ha.width h1) (hb.width h2)
  inds hr hi := by
    cases hr with
    | concat h1 h2 =>
      rw [erase_append] at hi
      rcases List.mem_append.1 hi with hi | hi
      · exact ha.inds h1 hi
      · exact hb.inds h2 hi

theorem NTree.Sane.choice {B n : Nat} {a b : NTree P} (ha : a.Sane B n) (hb : b.Sane B n)
    (h : ∀ w k st, SecondsFit w st (a :: k) → SecondsFit w st (b :: k)) : (NTree.choice a b).Sane B n where
  noFail := ⟨ha.noFail, hb.noFail⟩
  noEol := ⟨ha.noEol, hb.noEol⟩
  good w := ⟨ha.good w, hb.good w, h w⟩
  within := ⟨ha.within, hb.within⟩
  width hr := by
    cases hr with
    | choice_first h => exact (ha.width h :)
    | choice_second h => exact (hb.width h :)
  inds hr hi := by
    cases hr with
    | choice_first h => exact ha.inds h hi
    | choice_second h => exact hb.inds h hi

theorem NTree.Sane.child {B n i : Nat} {id : P.Id} {t : NTree P} (h : t.Sane B n) :
    (NTree.child i (.ok id) t).Sane B n where
  noFail := ⟨⟨id, rfl⟩, h.noFail⟩
  noEol := h.noEol
  good w := h.good w
  within := h.within
  width hr := by cases hr with | child hr => exact h.width hr
  inds hr hi := by cases hr with | child hr => exact h.inds hr hi

theorem resolves_firsts {t : NTree P} : ∀ {id T}, Resolves id t.firsts T → ∃ T', Resolves id t T' ∧ erase T' = erase T := by
  induction t with
  | concat a b iha ihb =>
    intro id T h
    cases h with
    | concat h1 h2 =>
      obtain ⟨A, hA, eA⟩ := iha h1
      obtain ⟨B, hB, eB⟩ := ihb h2
      exact ⟨A ++ B, .concat hA hB, by rw [erase_append, erase_append, eA, eB]⟩
  | choice a b iha ihb =>
    intro id T h
    obtain ⟨A, hA, eA⟩ := iha h
    exact ⟨.first :: A, .choice_first hA, eA⟩
  | child i cid t ih =>
    intro id T h
    cases h with
    | child h =>
      obtain ⟨A, hA, eA⟩ := ih h
      exact ⟨A, .child hA, eA⟩
  | _ => intro id T h; exact ⟨T, h, rfl⟩

theorem firsts_resolves {t : NTree P} {id : P.Id} {T} (h : Resolves id t T) : .second ∉ T →
    ∃ T', Resolves id t.firsts T' ∧ .second ∉ T' ∧ erase T' = erase T := by
  induction h with
  | concat h1 h2 ih1 ih2 =>
    intro hs
    obtain ⟨A, a1, a2, a3⟩ := ih1 (fun h => hs (by simp [h]))
    obtain ⟨B, b1, b2, b3⟩ := ih2 (fun h => hs (by simp [h]))
    exact ⟨A ++ B, .concat a1 b1, by simp [a2, b2], by rw [erase_append, erase_append, a3, b3]⟩
  | choice_first h ih =>
    intro hs
    obtain ⟨A, a1, a2, a3⟩ := ih (fun h => hs (by simp [h]))
    exact ⟨A, a1, a2, a3⟩
  | choice_second h ih => intro hs; simp at hs
  | child h ih =>
    intro hs
    obtain ⟨A, a1, a2, a3⟩ := ih hs
    exact ⟨A, .child a1, a2, a3⟩
  | empty => intro hs; exact ⟨_, .empty, hs, rfl⟩
  | mark => intro hs; exact ⟨_, .mark, hs, rfl⟩
  | eol => intro hs; exact ⟨_, .eol, hs, rfl⟩
  | newline => intro hs; exact ⟨_, .newline, hs, rfl⟩
  | text => intro hs; exact ⟨_, .text, hs, rfl⟩

theorem goodChoices_of_free {t : NTree P} (h : t.ChoiceFree) (w : Nat) : t.GoodChoices w := by
  induction t with
  | concat a b iha ihb => exact ⟨iha h.1, ihb h.2⟩
  | choice a b iha ihb => exact h.elim
  | child i id t ih => exact ih h
  | _ => trivial

theorem NTree.Sane.firsts {B n : Nat} {t : NTree P} (h : t.Sane B n) : t.firsts.Sane B n where
  noFail := by
    have := h.noFail
    clear h
    induction t with
    | concat a b iha ihb => exact ⟨iha this.1, ihb this.2⟩
    | choice a b iha ihb => exact iha this.1
    | child i id t ih => exact ⟨this.1, ih this.2⟩
    | _ => exact this
  noEol := by
    have := h.noEol
    clear h
    induction t with
    | concat a b iha ihb => exact ⟨iha this.1, ihb this.2⟩
    | choice a b iha ihb => exact iha this.1
    | child i id t ih => exact ih this
    | _ => exact this
  good w := goodChoices_of_free (firsts_choiceFree t) w
  within := by
    have := h.within
    clear h
    induction t with
    | concat a b iha ihb => exact ⟨iha this.1, ihb this.2⟩
    | choice a b iha ihb => exact iha this.1
    | child i id t ih => exact ih this
    | _ => exact this
  width hr := by
    obtain ⟨T', h1, h2⟩ := resolves_firsts hr
    rw [← h2]
    exact h.width h1
  inds hr hi := by
    obtain ⟨T', h1, h2⟩ := resolves_firsts hr
    rw [← h2] at hi
    exact h.inds h1 hi

theorem NTree.Inline.text (x : Textual P) : (NTree.text x).Inline x.width x.str := fun id =>
  ⟨_, .text, by simp, by simp [erase], by simp [erase, toksString, Tok.chars], by simp [erase, toksWidth]⟩

theorem NTree.Inline.concat {m n : Nat} {s u : String} {a b : NTree P} (ha : a.Inline m s) (hb : b.Inline n u) :
    (NTree.concat a b).Inline (m + n) (s ++ u) := fun id => by
  obtain ⟨A, a1, a2, a3, a4, a5⟩ := ha id
  obtain ⟨B, b1, b2, b3, b4, b5⟩ := hb id
  refine ⟨A ++ B, .concat a1 b1, by simp [a2, b2], ?_, ?_, ?_⟩
  · intro ind h
    rw [erase_append] at h
    rcases List.mem_append.1 h with h | h
    · exact a3 ind h
    · exact b3 ind h
  · rw [erase_append, toksString_append, a4, b4]
  · rw [erase_append, toksWidth_append, a5, b5]

theorem NTree.Inline.choice {n : Nat} {s : String} {a : NTree P} (b : NTree P) (ha : a.Inline n s) :
    (NTree.choice a b).Inline n s := fun id => by
  obtain ⟨A, a1, a2, a3⟩ := ha id
  exact ⟨.first :: A, .choice_first a1, by simp [a2], a3⟩

theorem NTree.Inline.child {n i : Nat} {s : String} {id : P.Id} {t : NTree P} (h : t.Inline n s) :
    (NTree.child i (.ok id) t).Inline n s := fun _ => by
  obtain ⟨A, a1, a2⟩ := h id
  exact ⟨A, .child a1, a2⟩

theorem NTree.Inline.firsts {n : Nat} {s : String} {t : NTree P} (h : t.Inline n s) : t.firsts.Inline n s := fun id => by
  obtain ⟨A, a1, a2, a3⟩ := h id
  obtain ⟨A', b1, b2, b3⟩ := firsts_resolves a1 a2
  exact ⟨A', b1, b2, by rw [b3]; exact a3⟩

/-! ### Printing -/

theorem line_le {B n : Nat} (T : List (Tok P)) (hi : ∀ ind, .nl ind ∈ T → segsWidth ind ≤ B) :
    toksWidth T ≤ n → ∀ cur, segsWidth cur + toksWidth T ≤ B + n → ∀ l ∈ linesFrom cur T, segsWidth l ≤ B + n := by
  induction T with
  | nil =>
    intro _ cur h l hl
    simp only [linesFrom, List.mem_singleton] at hl
    subst hl
    omega
  | cons t T ih =>
    intro hn cur h l hl
    have hi' : ∀ ind, .nl ind ∈ T → segsWidth ind ≤ B := fun ind h => hi ind (by simp [h])
    cases t with
    | text x =>
      refine ih hi' ?_ (cur ++ [x.segment]) ?_ l hl
      · simp only [toksWidth, List.map_cons, List.sum_cons] at hn ⊢
        omega
      have : segsWidth (cur ++ [x.segment]) = segsWidth cur + x.width := by simp [segsWidth, Textual.segment]
      simp only [toksWidth, List.map_cons, List.sum_cons] at h ⊢
      omega
    | nl ind =>
      simp only [linesFrom, List.mem_cons] at hl
      have e : toksWidth (.nl ind :: T) = toksWidth T := by simp [toksWidth]
      rw [e] at h
      rcases hl with rfl | hl
      · omega
      · have := hi ind (by simp)
        rw [e] at hn
        exact ih hi' hn ind (by omega) l hl
    | eol =>
      refine ih hi' ?_ cur ?_ l hl
      · simpa [toksWidth] using hn
      · simpa [toksWidth] using h
    | mark i =>
      refine ih hi' ?_ cur ?_ l hl
      · simpa [toksWidth] using hn
      · simpa [toksWidth] using h

section
variable {B n : Nat} {t : NTree P} {id : P.Id}

theorem NTree.Sane.lines (h : t.Sane B n) {T} (hr : Resolves id t T) : ∀ l ∈ linesOf (erase T), segsWidth l ≤ B + n := by
  refine line_le (erase T) (fun ind hi => h.inds hr hi) (h.width hr) [] ?_
  have := h.width hr
  simp only [segsWidth, List.map_nil, List.sum_nil]
  omega

theorem noEol_resolves (h : t.NoEol) {T} (hr : Resolves id t T) : .eol ∉ erase T := by
  induction hr with
  | eol => exact h.elim
  | concat _ _ iha ihb =>
    intro hx
    rw [erase_append] at hx
    rcases List.mem_append.1 hx with hx | hx
    · exact iha h.1 hx
    · exact ihb h.2 hx
  | choice_first _ ih => exact ih h.1
  | choice_second _ ih => exact ih h.2
  | child _ ih => exact ih h
  | _ => simp [erase]

theorem noEol_defect {T : List (Tok P)} (h : .eol ∉ T) : ¬ EolDefect T := by
  rintro ⟨A, B, x, C, rfl, _⟩
  exact h (by simp)

variable (law : P.Lawful) {doc : P.Node} (hr : rootTree law doc none = .ok (id, t))
include hr

/-- A sane tree prints, if it is not too large. -/
theorem NTree.Sane.prints (h : t.Sane B n) (hm : B + n ≤ maxWidth) (w : Nat) :
    ∃ s, prettyPrintToString doc w = Exec.ofRes (.ok s) := by
  obtain ⟨T, hg, _⟩ := C10_greedy_exists_unique (w := w) (id := id) h.noFail
  have hT := greedy_resolves hg.choose_spec
  refine ⟨_, (C10_iff law _ hr h.noFail).2 ⟨T, hg, ⟨?_, noEol_defect (noEol_resolves h.noEol hT)⟩, rfl⟩⟩
  rintro ⟨l, g1, g2⟩
  have := h.lines hT l g1
  omega

/-- A sane tree is printed on one line, if that is wide enough. -/
theorem NTree.Sane.oneLine (h : t.Sane B n) {m : Nat} {s : String} (hs : t.Inline m s) {w : Nat} (hw : m ≤ w) (hm : w ≤ maxWidth) :
    prettyPrintToString doc w = Exec.ofRes (.ok s) := by
  obtain ⟨T, a1, a2, a3, a4, a5⟩ := hs id
  have hl : ∀ l ∈ linesOf (erase T), segsWidth l ≤ w := by
    have := line_le (B := 0) (n := m) (erase T) (fun ind hi => absurd hi (a3 ind)) (by omega) []
      (by simp only [segsWidth, List.map_nil, List.sum_nil]; omega)
    intro l hl
    have := this l hl
    omega
  have := C72_printed law hr h.noFail (h.good w) a1 a2 hl (noEol_defect (noEol_resolves h.noEol a1)) hm
  rw [this, ← a4]
  exact congrArg _ (congrArg _ (join_lineStrs (erase T)))

/-- The oracle agrees on a sane tree. -/
theorem NTree.Sane.oracle (hsw : WidthsAdd P.strWidth) (h : t.Sane B n) {w : Nat} (hw : w < 10000) (hm : B + 2 * n ≤ 55535) :
    ∃ s, oracularPrettyPrint doc w = Exec.ofRes (.ok s) ∧ prettyPrintToString doc w = Exec.ofRes (.ok s) := by
  rcases C09_agree (m := n) (b := B + n) law hsw hr h.noFail hw (C09_no_eol h.noEol) h.within
    (fun T hg => h.lines (greedy_resolves hg.choose_spec)) (by omega) with h' | ⟨_, h'⟩
  · exact h'
  · obtain ⟨s, hs⟩ := h.prints law hr (by have : maxWidth = 65535 := rfl; omega) w
    rw [hs] at h'
    exact absurd (Exec.ofRes_inj h') (by simp)

end

end PPP
