import Mathlib.Data.List.Induction
import Verif.Proofs.Greedy
/-
Lines of the greedy layout: what is guaranteed after a first option (C11), when lines are too wide
(C12), and defects (C15, C36).
-/
namespace PPP
variable {P : PrettyDoc}

/-- If the line fits with second options, then it fits with what is really displayed. -/
theorem greedy_keeps_fit {w : Nat} {id : P.Id} {t k st st' T} (hg : Greedy w id t k st st' T) :
    SecondsFit w st (t :: k) → LineFits w st (erase T ++ k.flatMap NTree.seconds) := by
  induction hg with
  | concat ha hb iha ihb =>
    rename_i a b k st st1 st2 T U
    intro h
    have h1 := iha (by simpa [SecondsFit, NTree.seconds] using h)
    rw [erase_append, List.append_assoc]
    refine lineFits_replace h1 ?_
    intro _ h2
    rw [← greedy_lineAfter ha] at h2 ⊢
    exact ihb h2
  | child _ ih => intro h; exact ih h
  | choice_first hf _ ih => intro _; exact ih hf
  | choice_second _ _ ih => intro h; exact ih h
  | empty => intro h; exact h
  | mark => intro h; simpa [SecondsFit, NTree.seconds, erase] using h
  | eol => intro h; exact h
  | newline => intro h; exact h
  | text => intro h; exact h

/-- After a first option, the rest of the line fits. -/
theorem greedy_first_fits {w : Nat} {id : P.Id} {t k st st' T} (hg : Greedy w id t k st st' T) :
    ∀ {B A}, T = B ++ .first :: A →
      LineFits w (lineAfter st (erase B)) (erase A ++ k.flatMap NTree.seconds) := by
  induction hg with
  | child _ ih => intro B A h; exact ih h
  | choice_first hf hg ih =>
    intro B A h
    cases B with
    | nil =>
      simp only [List.nil_append, List.cons.injEq, true_and] at h
      subst h
      exact greedy_keeps_fit hg hf
    | cons x B =>
      simp only [List.cons_append, List.cons.injEq] at h
      obtain ⟨rfl, h⟩ := h
      exact ih (B := B) h
  | choice_second _ _ ih =>
    intro B A h
    cases B with
    | nil => simp at h
    | cons x B =>
      simp only [List.cons_append, List.cons.injEq] at h
      obtain ⟨rfl, h⟩ := h
      exact ih (B := B) h
  | concat ha hb iha ihb =>
    rename_i a b k st st1 st2 T U
    intro B A h
    rcases List.append_eq_append_iff.1 h with ⟨X, rfl, h2⟩ | ⟨X, h1, h2⟩
    · rw [erase_append, lineAfter_append, ← greedy_lineAfter ha]
      exact ihb h2
    · cases X with
      | nil =>
        simp only [List.nil_append] at h2
        simp only [List.append_nil] at h1
        subst h1
        rw [← greedy_lineAfter ha]
        exact ihb (B := []) (by simpa using h2.symm)
      | cons x X =>
        simp only [List.cons_append, List.cons.injEq] at h2
        obtain ⟨rfl, rfl⟩ := h2
        have h3 := iha h1
        rw [erase_append, List.append_assoc]
        rw [List.flatMap_cons] at h3
        refine lineFits_replace h3 ?_
        intro _ h4
        have h5 : lineAfter (lineAfter st (erase B)) (erase X) = st1 := by
          rw [greedy_lineAfter ha, h1, erase_append, lineAfter_append]
          rfl
        rw [h5] at h4 ⊢
        exact greedy_keeps_fit hb h4
  | _ =>
    intro B A h
    cases B <;> simp at h

/-! ### Other resolutions -/

theorem greedy_resolves {w : Nat} {id : P.Id} {t k st st' T} (hg : Greedy w id t k st st' T) :
    Resolves id t T := by
  induction hg with
  | empty => exact .empty
  | mark => exact .mark
  | eol => exact .eol
  | newline => exact .newline
  | text => exact .text
  | child _ ih => exact .child ih
  | concat _ _ iha ihb => exact .concat iha ihb
  | choice_first _ _ ih => exact .choice_first ih
  | choice_second _ _ ih => exact .choice_second ih

/-- Two resolutions of the same tree are the same as soon as one is the beginning of the other. -/
theorem resolves_prefix {id : P.Id} {t T1 T2} (h1 : Resolves id t T1) (h2 : Resolves id t T2) :
    ∀ {U1 U2}, T1 ++ U1 = T2 ++ U2 → T1 = T2 := by
  induction h1 generalizing T2 with
  | empty => cases h2; intros; rfl
  | mark => cases h2; intros; rfl
  | eol => cases h2; intros; rfl
  | newline => cases h2; intros; rfl
  | text => cases h2; intros; rfl
  | child _ ih => cases h2 with | child h => exact ih h
  | concat _ _ iha ihb =>
    cases h2 with
    | concat ha hb =>
      intro U1 U2 h
      rw [List.append_assoc, List.append_assoc] at h
      obtain rfl := iha ha h
      rw [ihb hb (List.append_cancel_left h)]
  | choice_first _ ih =>
    cases h2 with
    | choice_first h =>
      intro U1 U2 h'
      simp only [List.cons_append, List.cons.injEq, true_and] at h'
      rw [ih h h']
    | choice_second h => intro U1 U2 h'; simp at h'
  | choice_second _ ih =>
    cases h2 with
    | choice_second h =>
      intro U1 U2 h'
      simp only [List.cons_append, List.cons.injEq, true_and] at h'
      rw [ih h h']
    | choice_first h => intro U1 U2 h'; simp at h'

/-- If the line fits with some resolution, then it fits with second options. -/
theorem seconds_best {w : Nat} {id : P.Id} {t T} (hr : Resolves id t T) : t.GoodChoices w → ∀ {k st},
    LineFits w st (erase T ++ k.flatMap NTree.seconds) → SecondsFit w st (t :: k) := by
  induction hr with
  | empty => intro _ k st h; exact h
  | mark => intro _ k st h; simpa [SecondsFit, NTree.seconds, erase] using h
  | eol => intro _ k st h; exact h
  | newline => intro _ k st h; exact h
  | text => intro _ k st h; exact h
  | child _ ih => intro hc k st h; exact ih hc h
  | choice_first _ ih => intro hc k st h; exact hc.2.2 k st (ih hc.1 h)
  | choice_second _ ih => intro hc k st h; exact ih hc.2.1 h
  | concat _ _ iha ihb =>
    rename_i id a b T U _ _
    intro hc k st h
    rw [erase_append, List.append_assoc] at h
    have h1 : LineFits w st (erase T ++ (b :: k).flatMap NTree.seconds) := by
      refine lineFits_replace h ?_
      intro _ h2
      exact ihb hc.2 h2
    have h2 := iha hc.1 h1
    simpa [SecondsFit, NTree.seconds] using h2

/-- If, from the start of a line on, some resolution fits on the line, then the greedy one does. -/
theorem greedy_line_fits {w : Nat} {id : P.Id} {t k st st' T} (hg : Greedy w id t k st st' T) :
    t.GoodChoices w → ∀ {T' B ind A A'}, Resolves id t T' → T = B ++ .tok (.nl ind) :: A →
    T' = B ++ .tok (.nl ind) :: A' →
    LineFits w ⟨segsWidth ind, false⟩ (erase A' ++ k.flatMap NTree.seconds) →
    LineFits w ⟨segsWidth ind, false⟩ (erase A ++ k.flatMap NTree.seconds) := by
  induction hg with
  | child _ ih =>
    intro hc T' B ind A A' hr h1 h2 hf
    cases hr with
    | child hr => exact ih hc hr h1 h2 hf
  | newline =>
    intro hc T' B ind A A' hr h1 h2 hf
    cases hr
    rw [h1] at h2
    have h2 := List.append_cancel_left h2
    simp only [List.cons.injEq, true_and] at h2
    rw [h2]
    exact hf
  | choice_first _ _ ih =>
    intro hc T' B ind A A' hr h1 h2 hf
    cases B with
    | nil => simp at h1
    | cons x B =>
      simp only [List.cons_append, List.cons.injEq] at h1
      obtain ⟨rfl, h1⟩ := h1
      cases hr with
      | choice_first hr =>
        simp only [List.cons_append, List.cons.injEq, true_and] at h2
        exact ih hc.1 hr h1 h2 hf
      | choice_second hr => simp at h2
  | choice_second _ _ ih =>
    intro hc T' B ind A A' hr h1 h2 hf
    cases B with
    | nil => simp at h1
    | cons x B =>
      simp only [List.cons_append, List.cons.injEq] at h1
      obtain ⟨rfl, h1⟩ := h1
      cases hr with
      | choice_second hr =>
        simp only [List.cons_append, List.cons.injEq, true_and] at h2
        exact ih hc.2.1 hr h1 h2 hf
      | choice_first hr => simp at h2
  | concat ha hb iha ihb =>
    rename_i id a b k st st1 st2 T U
    intro hc T' B ind A A' hr h1 h2 hf
    cases hr with
    | concat hra hrb =>
      rename_i T1 U1
      -- where is the newline in `T ++ U`?
      have hcase : (∃ X, B = T ++ X ∧ U = X ++ .tok (.nl ind) :: A) ∨
          (∃ X, T = B ++ .tok (.nl ind) :: X ∧ A = X ++ U) := by
        rcases List.append_eq_append_iff.1 h1 with ⟨X, rfl, h3⟩ | ⟨X, h3, h4⟩
        · exact .inl ⟨X, rfl, h3⟩
        · cases X with
          | nil =>
            simp only [List.append_nil] at h3
            exact .inl ⟨[], by simp [h3], by simpa using h4.symm⟩
          | cons x X =>
            simp only [List.cons_append, List.cons.injEq] at h4
            obtain ⟨rfl, rfl⟩ := h4
            exact .inr ⟨X, h3, rfl⟩
      rcases hcase with ⟨X, rfl, h3⟩ | ⟨X, h3, rfl⟩
      · rw [List.append_assoc] at h2
        obtain rfl := resolves_prefix hra (greedy_resolves ha) h2
        exact ihb hc.2 hrb h3 (List.append_cancel_left h2) hf
      · -- the other resolution of `a` contains the newline too
        have hX' : ∃ X', T1 = B ++ .tok (.nl ind) :: X' ∧ A' = X' ++ U1 := by
          rcases List.append_eq_append_iff.1 h2 with ⟨Y, hB, h4⟩ | ⟨Y, h4, h5⟩
          · exfalso
            have hT : T1 = T := by
              refine resolves_prefix hra (greedy_resolves ha) (U1 := Y ++ .tok (.nl ind) :: X) (U2 := []) ?_
              rw [h3, hB]; simp
            rw [h3, hB] at hT
            have := congrArg List.length hT
            simp at this
          · cases Y with
            | nil =>
              exfalso
              have hB : T1 = B := by simpa using h4
              have hT : T1 = T := by
                refine resolves_prefix hra (greedy_resolves ha) (U1 := .tok (.nl ind) :: X) (U2 := []) ?_
                rw [h3, hB]; simp
              rw [h3, hB] at hT
              have := congrArg List.length hT
              simp at this
            | cons y Y =>
              simp only [List.cons_append, List.cons.injEq] at h5
              obtain ⟨rfl, rfl⟩ := h5
              exact ⟨Y, h4, rfl⟩
        obtain ⟨X', h4, rfl⟩ := hX'
        rw [erase_append, List.append_assoc] at hf ⊢
        have h5 : LineFits w ⟨segsWidth ind, false⟩ (erase X' ++ (b :: k).flatMap NTree.seconds) := by
          refine lineFits_replace hf ?_
          intro _ h6
          exact seconds_best hrb hc.2 h6
        have h6 := iha hc.1 hra h3 h4 h5
        refine lineFits_replace h6 ?_
        intro _ h7
        have h8 : lineAfter ⟨segsWidth ind, false⟩ (erase X) = st1 := by
          rw [greedy_lineAfter ha, h3, erase_append, lineAfter_append]
          rfl
        rw [h8] at h7 ⊢
        exact greedy_keeps_fit hb h7
  | _ =>
    intro hc T' B ind A A' hr h1
    cases B <;> simp at h1

theorem greedy_first_line_fits {w : Nat} {id : P.Id} {t k st st' T T'} (hg : Greedy w id t k st st' T)
    (hc : t.GoodChoices w) (hr : Resolves id t T')
    (hf : LineFits w st (erase T' ++ k.flatMap NTree.seconds)) :
    LineFits w st (erase T ++ k.flatMap NTree.seconds) :=
  greedy_keeps_fit hg (seconds_best hr hc hf)

/-! ### Lines and states -/

theorem linesFrom_lastCol (cur : List (Segment P)) (e : Bool) (T : List (Tok P)) :
    (lineAfter ⟨segsWidth cur, e⟩ T).col = segsWidth ((linesFrom cur T).getLast (linesFrom_ne_nil cur T)) := by
  induction T generalizing cur e with
  | nil => rfl
  | cons t T ih =>
    cases t with
    | text x =>
      have h := ih (cur ++ [x.segment]) e
      have hw : segsWidth (cur ++ [x.segment]) = segsWidth cur + x.width := by
        simp [segsWidth, Textual.segment]
      rw [hw] at h
      exact h
    | nl ind =>
      simp only [lineAfter, linesFrom]
      rw [List.getLast_cons (linesFrom_ne_nil ind T)]
      exact ih ind false
    | eol => exact ih cur true
    | mark i => exact ih cur e

/-- The column after some tokens is the width of the last line so far. -/
theorem lineAfter_col (T : List (Tok P)) :
    (lineAfter ⟨0, false⟩ T).col = segsWidth ((linesOf T).getLast (linesFrom_ne_nil [] T)) :=
  linesFrom_lastCol [] false T

theorem lineAfter_eol_iff (st : LineSt) (T : List (Tok P)) :
    (lineAfter st T).eol = true ↔
      (.eol ∈ lastLine T ∨ (st.eol = true ∧ ∀ ind, .nl ind ∉ T)) := by
  induction T using List.reverseRecOn with
  | nil => simp [lineAfter, lastLine]
  | append_singleton T t ih =>
    rw [lineAfter_append]
    have hl : lastLine (T ++ [t]) = if t.notNl then lastLine T ++ [t] else [] := by
      simp only [lastLine, List.reverse_append, List.reverse_cons, List.reverse_nil, List.nil_append,
        List.singleton_append, List.takeWhile_cons]
      split <;> simp
    rw [hl]
    cases t with
    | text x => simpa [lineAfter, Tok.notNl] using ih
    | nl ind =>
      simp only [lineAfter, Tok.notNl, Bool.false_eq_true, if_false, List.not_mem_nil, false_or,
        List.mem_append, List.mem_singleton, false_iff, not_and, not_forall, not_not]
      intro _
      exact ⟨ind, .inr rfl⟩
    | eol => simp [lineAfter, Tok.notNl]
    | mark i => simpa [lineAfter, Tok.notNl] using ih

theorem firstLine_width (cur : List (Segment P)) (T : List (Tok P)) :
    segsWidth cur + toksWidth (firstLine T) =
      segsWidth ((linesFrom cur T).head (linesFrom_ne_nil cur T)) := by
  induction T generalizing cur with
  | nil => rfl
  | cons t T ih =>
    cases t with
    | text x =>
      have h := ih (cur ++ [x.segment])
      have hw : segsWidth (cur ++ [x.segment]) = segsWidth cur + x.width := by
        simp [segsWidth, Textual.segment]
      rw [hw] at h
      simp only [linesFrom]
      rw [← h]
      simp only [firstLine, List.takeWhile_cons, Tok.notNl, if_true, toksWidth, List.map_cons,
        List.sum_cons]
      omega
    | nl ind => simp [firstLine, Tok.notNl, toksWidth, linesFrom]
    | eol =>
      simp only [linesFrom]
      rw [← ih cur]
      simp only [firstLine, List.takeWhile_cons, Tok.notNl, if_true, toksWidth, List.map_cons,
        List.sum_cons, Nat.zero_add]
    | mark i =>
      simp only [linesFrom]
      rw [← ih cur]
      simp only [firstLine, List.takeWhile_cons, Tok.notNl, if_true, toksWidth, List.map_cons,
        List.sum_cons, Nat.zero_add]

/-! ### Defects, declaratively -/

theorem defect_tooWide (cur : List (Segment P)) (e : Bool) (T : List (Tok P))
    (h : defect ⟨segsWidth cur, e⟩ T = some .overflow) :
    ∃ l ∈ linesFrom cur T, maxWidth < segsWidth l := by
  induction T generalizing cur e with
  | nil => simp [defect] at h
  | cons t T ih =>
    cases t with
    | text x =>
      have hw : segsWidth (cur ++ [x.segment]) = segsWidth cur + x.width := by
        simp [segsWidth, Textual.segment]
      simp only [defect] at h
      split at h
      · simp at h
      · split at h
        · rw [← hw] at h; exact ih _ _ h
        · -- the prefix is already too wide
          refine ⟨(linesFrom cur (.text x :: T)).head (linesFrom_ne_nil _ _), List.head_mem _, ?_⟩
          rw [← firstLine_width]
          have : toksWidth (firstLine (.text x :: T)) = x.width + toksWidth (firstLine T) := by
            simp [firstLine, List.takeWhile_cons, Tok.notNl, toksWidth]
          omega
    | nl ind =>
      simp only [defect] at h
      split at h
      · obtain ⟨l, h1, h2⟩ := ih _ _ h
        exact ⟨l, by simp [linesFrom, h1], h2⟩
      · refine ⟨(linesFrom ind T).head (linesFrom_ne_nil _ _), by simp [linesFrom], ?_⟩
        rw [← firstLine_width]
        omega
    | eol => exact ih cur true h
    | mark i => exact ih cur e h

theorem defect_eol (st : LineSt) (T : List (Tok P)) (h : defect st T = some (.err .textAfterEndOfLine)) :
    EolDefect T ∨ (st.eol = true ∧ ∃ A x C, T = A ++ .text x :: C ∧ ∀ ind, .nl ind ∉ A) := by
  induction T generalizing st with
  | nil => simp [defect] at h
  | cons t T ih =>
    have lift : ∀ {t : Tok P}, EolDefect T → EolDefect (t :: T) := by
      rintro t ⟨A, B, x, C, rfl, hB⟩
      exact ⟨t :: A, B, x, C, by simp, hB⟩
    cases t with
    | text x =>
      simp only [defect] at h
      split at h
      · rename_i he
        exact .inr ⟨he, [], x, T, rfl, by simp⟩
      · rename_i he
        split at h
        · rcases ih _ h with h | ⟨h, _⟩
          · exact .inl (lift h)
          · simp only at h; exact absurd h he
        · simp at h
    | nl ind =>
      simp only [defect] at h
      split at h
      · rcases ih _ h with h | ⟨h, _⟩
        · exact .inl (lift h)
        · simp at h
      · simp at h
    | eol =>
      rcases ih _ h with h | ⟨_, A, x, C, rfl, hA⟩
      · exact .inl (lift h)
      · exact .inl ⟨[], A, x, C, by simp, hA⟩
    | mark i =>
      rcases ih _ h with h | ⟨h', A, x, C, rfl, hA⟩
      · exact .inl (lift h)
      · exact .inr ⟨h', .mark i :: A, x, C, rfl, by simpa using hA⟩

theorem defect_cases (st : LineSt) (T : List (Tok P)) {f} (h : defect st T = some f) :
    f = .overflow ∨ f = .err .textAfterEndOfLine := by
  induction T generalizing st with
  | nil => simp [defect] at h
  | cons t T ih =>
    cases t with
    | text x =>
      simp only [defect] at h
      split at h
      · simp at h; exact .inr h.symm
      · split at h
        · exact ih _ h
        · simp at h; exact .inl h.symm
    | nl ind =>
      simp only [defect] at h
      split at h
      · exact ih _ h
      · simp at h; exact .inl h.symm
    | eol => exact ih _ h
    | mark i => exact ih _ h

theorem defect_none_width (cur : List (Segment P)) (e : Bool) (T : List (Tok P))
    (hc : segsWidth cur ≤ maxWidth) (h : defect ⟨segsWidth cur, e⟩ T = none) :
    ∀ l ∈ linesFrom cur T, segsWidth l ≤ maxWidth := by
  induction T generalizing cur e with
  | nil => intro l hl; simp only [linesFrom, List.mem_singleton] at hl; subst hl; exact hc
  | cons t T ih =>
    cases t with
    | text x =>
      have hw : segsWidth (cur ++ [x.segment]) = segsWidth cur + x.width := by
        simp [segsWidth, Textual.segment]
      simp only [defect] at h
      split at h
      · simp at h
      · split at h
        · rename_i hle
          rw [← hw] at h hle; exact ih _ _ hle h
        · simp at h
    | nl ind =>
      simp only [defect] at h
      split at h
      · rename_i hle
        intro l hl
        simp only [linesFrom, List.mem_cons] at hl
        rcases hl with rfl | hl
        · exact hc
        · exact ih _ _ hle h l hl
      · simp at h
    | eol => exact ih cur true hc h
    | mark i => exact ih cur e hc h

theorem defect_none_eol {T : List (Tok P)} : ∀ {st : LineSt}, defect st T = none → ¬ EolDefect T := by
  rintro st h ⟨A, B, x, C, rfl, hB⟩
  rw [show A ++ .eol :: B ++ .text x :: C = A ++ (.eol :: (B ++ .text x :: C)) by simp, defect_append] at h
  cases h1 : defect st A with
  | some f => rw [h1] at h; simp at h
  | none =>
    rw [h1] at h
    simp only [defect] at h
    rw [defect_append] at h
    cases h2 : defect ⟨(lineAfter st A).col, true⟩ B with
    | some f => rw [h2] at h; simp at h
    | none =>
      rw [h2] at h
      simp only [defect] at h
      have : (lineAfter ⟨(lineAfter st A).col, true⟩ B).eol = true := by
        rw [lineAfter_eol_iff]; exact .inr ⟨rfl, hB⟩
      rw [if_pos this] at h
      simp at h

/-- Tokens are printable exactly when no defect is met in reading order. -/
theorem printable_iff (T : List (Tok P)) : Printable T ↔ defect ⟨0, false⟩ T = none := by
  constructor
  · rintro ⟨h1, h2⟩
    cases h : defect ⟨0, false⟩ T with
    | none => rfl
    | some f =>
      exfalso
      rcases defect_cases _ _ h with rfl | rfl
      · exact h1 (defect_tooWide [] false T h)
      · rcases defect_eol _ _ h with h | ⟨h, _⟩
        · exact h2 h
        · simp at h
  · intro h
    refine ⟨?_, defect_none_eol h⟩
    rintro ⟨l, hl, hw⟩
    have := defect_none_width [] false T (by simp [segsWidth, maxWidth]) h l hl
    omega

end PPP
