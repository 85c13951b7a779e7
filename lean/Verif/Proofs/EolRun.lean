import Verif.Proofs.Greedy
/-
End-of-line marks in displayed tokens.
-/
namespace PPP
variable {P : PrettyDoc}

/-- Is there an end-of-line mark at the end?  `none` if there is a text after an end-of-line mark. -/
def eolRun (e : Bool) : List (Tok P) → Option Bool
  | [] => some e
  | .text _ :: T => if e then none else eolRun e T
  | .nl _ :: T => eolRun false T
  | .eol :: T => eolRun true T
  | .mark _ :: T => eolRun e T

theorem eolRun_append (A B : List (Tok P)) : ∀ e,
    eolRun e (A ++ B) = (eolRun e A).bind fun e' => eolRun e' B := by
  induction A with
  | nil => intro e; rfl
  | cons t A ih =>
    intro e
    cases t with
    | text x => cases e <;> simp [eolRun, ih]
    | nl ind => simp [eolRun, ih]
    | eol => simp [eolRun, ih]
    | mark i => simp [eolRun, ih]

theorem eolRun_lineAfter (T : List (Tok P)) : ∀ (st : LineSt) e, eolRun st.eol T = some e →
    (lineAfter st T).eol = e := by
  induction T with
  | nil => intro st e h; simpa [eolRun, lineAfter] using h
  | cons t T ih =>
    intro st e h
    cases t with
    | text x =>
      simp only [eolRun] at h
      split at h
      · cases h
      · exact ih _ _ h
    | nl ind => exact ih ⟨_, false⟩ _ h
    | eol => exact ih ⟨_, true⟩ _ h
    | mark i => exact ih _ _ h

theorem eolRun_no_defect (T : List (Tok P)) : ∀ {e e'}, eolRun e T = some e' → ¬ EolDefect T := by
  induction T with
  | nil =>
    rintro e e' _ ⟨A, B, x, C, h, _⟩
    simp at h
  | cons t T ih =>
    rintro e e' h ⟨A, B, x, C, hT, hB⟩
    cases A with
    | cons a A =>
      simp only [List.cons_append, List.cons.injEq] at hT
      obtain ⟨rfl, hT⟩ := hT
      have : ∃ e, eolRun e T = some e' := by
        cases t with
        | text x =>
          simp only [eolRun] at h
          split at h
          · cases h
          · exact ⟨_, h⟩
        | nl ind => exact ⟨_, h⟩
        | eol => exact ⟨_, h⟩
        | mark i => exact ⟨_, h⟩
      obtain ⟨e, he⟩ := this
      exact ih he ⟨A, B, x, C, by simpa using hT, hB⟩
    | nil =>
      simp only [List.nil_append, List.cons_append, List.cons.injEq] at hT
      obtain ⟨rfl, rfl⟩ := hT
      simp only [eolRun] at h
      rw [eolRun_append] at h
      have key : ∀ B : List (Tok P), (∀ ind, .nl ind ∉ B) → ∀ e', eolRun true B = some e' → e' = true := by
        intro B
        induction B with
        | nil => intro _ e' h; simpa [eolRun] using h.symm
        | cons b B ihB =>
          intro hB e' h
          have hB' : ∀ ind, .nl ind ∉ B := fun ind hm => hB ind (List.mem_cons_of_mem _ hm)
          cases b with
          | text => simp [eolRun] at h
          | nl ind => exact absurd List.mem_cons_self (hB ind)
          | eol => exact ihB hB' _ h
          | mark i => exact ihB hB' _ h
      cases hr : eolRun true B with
      | none => rw [hr] at h; simp at h
      | some e1 =>
        rw [hr, key B hB _ hr] at h
        simp [eolRun] at h

/-- If no text follows an end-of-line mark, the run is successful. -/
theorem eolRun_of_no_defect (T : List (Tok P)) : ¬ EolDefect T → eolRun false T ≠ none := by
  have key : ∀ (T : List (Tok P)) (e : Bool), eolRun e T = none →
      (e = true ∧ ∃ B x C, T = B ++ .text x :: C ∧ ∀ ind, .nl ind ∉ B) ∨ EolDefect T := by
    intro T
    induction T with
    | nil => intro e h; simp [eolRun] at h
    | cons t T ih =>
      intro e h
      have lift : EolDefect T → EolDefect (t :: T) := by
        rintro ⟨A, B, x, C, rfl, hB⟩
        exact ⟨t :: A, B, x, C, by simp, hB⟩
      cases t with
      | text x =>
        simp only [eolRun] at h
        split at h
        · rename_i he
          exact .inl ⟨he, [], x, T, rfl, by simp⟩
        · rename_i he
          rcases ih _ h with ⟨h1, _⟩ | h1
          · exact absurd h1 he
          · exact .inr (lift h1)
      | nl ind =>
        rcases ih _ h with ⟨h1, _⟩ | h1
        · cases h1
        · exact .inr (lift h1)
      | eol =>
        rcases ih _ h with ⟨_, B, x, C, rfl, hB⟩ | h1
        · exact .inr ⟨[], B, x, C, rfl, hB⟩
        · exact .inr (lift h1)
      | mark i =>
        rcases ih _ h with ⟨h1, B, x, C, rfl, hB⟩ | h1
        · exact .inl ⟨h1, .mark i :: B, x, C, rfl, by simpa using hB⟩
        · exact .inr (lift h1)
  intro h hn
  rcases key T false hn with ⟨h1, _⟩ | h1
  · cases h1
  · exact h h1

/-- Running over what a tree displays. -/
theorem eolRun_split {w id} {t : NTree P} {k st st' G} {U : List (Tok P)} (h : Greedy w id t k st st' G)
    (hr : eolRun st.eol (erase G ++ U) ≠ none) :
    eolRun st.eol (erase G) ≠ none ∧ eolRun st'.eol U ≠ none := by
  rw [eolRun_append] at hr
  cases he : eolRun st.eol (erase G) with
  | none => rw [he] at hr; exact absurd rfl hr
  | some e =>
    rw [he] at hr
    refine ⟨by simp, ?_⟩
    have := eolRun_lineAfter _ st e he
    rw [← greedy_lineAfter h] at this
    rw [this]
    exact hr

end PPP
