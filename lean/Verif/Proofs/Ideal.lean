import Verif.Spec.Ideal
import Verif.Props.Layout
/-
The reference layout is the greedy layout, if choices obey the documented requirement.
-/
namespace PPP
variable {P : PrettyDoc}

theorem fitsFrom_iff {w : Nat} {B A : List (Tok P)} :
    FitsFrom w B A ↔ LineFits w (lineAfter ⟨0, false⟩ B) A := by
  obtain ⟨line, h1, h2⟩ := line_at_split B A
  have he : (lineAfter ⟨0, false⟩ B).eol = true ↔ .eol ∈ lastLine B := by
    rw [lineAfter_eol_iff]; simp
  constructor
  · rintro ⟨⟨l, h3, h4⟩, h5, h6⟩
    rw [h1] at h3
    obtain rfl := Option.some.inj h3
    refine ⟨by omega, ?_⟩
    rintro ⟨X, x, Y, h7, h8 | h8⟩
    · exact h5 (he.1 h8) x (by rw [h7]; simp)
    · exact h6 X x Y h7 h8
  · rintro ⟨h3, h4⟩
    refine ⟨⟨line, h1, by omega⟩, ?_, ?_⟩
    · intro h5 x hx
      obtain ⟨X, Y, hXY⟩ := List.mem_iff_append.1 hx
      exact h4 ⟨X, x, Y, hXY, .inl (he.2 h5)⟩
    · intro X x Y h5 h6
      exact h4 ⟨X, x, Y, h5, .inr h6⟩

/-- The state of the line after some displayed tokens. -/
def stateAfter (B : List (GTok P)) : LineSt := lineAfter ⟨0, false⟩ (erase B)

theorem stateAfter_tok (B : List (GTok P)) (t : Tok P) :
    stateAfter (B ++ [.tok t]) = lineAfter (stateAfter B) [t] := by
  simp [stateAfter, erase_append, lineAfter_append, erase]

theorem stateAfter_first (B : List (GTok P)) : stateAfter (B ++ [.first]) = stateAfter B := by
  simp [stateAfter, erase_append, erase]

theorem stateAfter_second (B : List (GTok P)) : stateAfter (B ++ [.second]) = stateAfter B := by
  simp [stateAfter, erase_append, erase]

theorem fitsFrom_erase {w : Nat} {B A : List (GTok P)} :
    FitsFrom w (erase B) (erase A) ↔ LineFits w (stateAfter B) (erase A) := fitsFrom_iff

theorem secondsFit_cons {w st} {t : NTree P} {k} :
    SecondsFit w st (t :: k) ↔ LineFits w st (t.seconds ++ k.flatMap NTree.seconds) := by
  simp [SecondsFit]

/-- If the line fits with second options, it fits in the reference layout. -/
theorem finishes_fits {w : Nat} {B : List (GTok P)} {k A} (h : Finishes w B k A) :
    SecondsFit w (stateAfter B) (k.map (·.2)) → LineFits w (stateAfter B) (erase A) := by
  induction h with
  | nil => intro h; simpa [SecondsFit, erase] using h
  | empty _ ih => intro h; exact ih (by simpa [SecondsFit, NTree.seconds] using h)
  | mark _ ih =>
    intro h
    rw [stateAfter_tok] at ih
    simp only [erase, lineFits_mark]
    exact ih (by simpa [SecondsFit, NTree.seconds, lineAfter] using h)
  | eol _ ih =>
    intro h
    rw [stateAfter_tok] at ih
    simp only [erase, lineFits_eol]
    exact ih (by simpa [SecondsFit, NTree.seconds, lineAfter] using h)
  | newline _ ih =>
    intro h
    simp only [erase, lineFits_nl]
    exact LineFits.col h
  | text _ ih =>
    intro h
    rw [stateAfter_tok] at ih
    simp only [erase, lineFits_text]
    rw [List.map_cons, secondsFit_cons] at h
    simp only [NTree.seconds, List.cons_append, List.nil_append, lineFits_text] at h
    exact ⟨h.1, ih h.2⟩
  | child _ ih => intro h; exact ih (by simpa [SecondsFit, NTree.seconds] using h)
  | concat _ ih => intro h; exact ih (by simpa [SecondsFit, NTree.seconds] using h)
  | choice_first _ hf _ => intro _; simpa only [erase] using fitsFrom_erase.1 hf
  | choice_second _ _ _ _ ih =>
    intro h
    rw [stateAfter_second] at ih
    simp only [erase]
    exact ih (by simpa [SecondsFit, NTree.seconds] using h)

/-- And conversely, if choices obey the documented requirement. -/
theorem finishes_fits_only {w : Nat} {B : List (GTok P)} {k A} (h : Finishes w B k A) :
    (∀ x ∈ k, x.2.GoodChoices w) → LineFits w (stateAfter B) (erase A) → SecondsFit w (stateAfter B) (k.map (·.2)) := by
  induction h with
  | nil => intro _ h; simpa [SecondsFit, erase] using h
  | empty _ ih =>
    intro hc h
    simpa [SecondsFit, NTree.seconds] using ih (fun x hx => hc x (List.mem_cons_of_mem _ hx)) h
  | mark _ ih =>
    intro hc h
    rw [stateAfter_tok] at ih
    simp only [erase, lineFits_mark] at h
    simpa [SecondsFit, NTree.seconds, lineAfter] using ih (fun x hx => hc x (List.mem_cons_of_mem _ hx)) h
  | eol _ ih =>
    intro hc h
    rw [stateAfter_tok] at ih
    simp only [erase, lineFits_eol] at h
    simpa [SecondsFit, NTree.seconds, lineAfter] using ih (fun x hx => hc x (List.mem_cons_of_mem _ hx)) h
  | newline _ ih =>
    intro hc h
    simp only [erase, lineFits_nl] at h
    simpa [SecondsFit, NTree.seconds] using h
  | text _ ih =>
    intro hc h
    rw [stateAfter_tok] at ih
    simp only [erase, lineFits_text] at h
    rw [List.map_cons, secondsFit_cons]
    simp only [NTree.seconds, List.cons_append, List.nil_append, lineFits_text]
    exact ⟨h.1, ih (fun x hx => hc x (List.mem_cons_of_mem _ hx)) h.2⟩
  | child _ ih =>
    intro hc h
    have h0 := hc _ (List.mem_cons_self ..)
    have hh := ih (by
      intro x hx
      rcases List.mem_cons.1 hx with rfl | hx
      · exact h0
      · exact hc x (List.mem_cons_of_mem _ hx)) h
    simpa [SecondsFit, NTree.seconds] using hh
  | concat _ ih =>
    intro hc h
    have hh := ih (by
      intro x hx
      have h0 := hc _ (List.mem_cons_self ..)
      rcases List.mem_cons.1 hx with rfl | hx
      · exact h0.1
      · rcases List.mem_cons.1 hx with rfl | hx
        · exact h0.2
        · exact hc x (List.mem_cons_of_mem _ hx)) h
    simpa [SecondsFit, NTree.seconds] using hh
  | choice_first _ hf ih =>
    intro hc h
    rw [stateAfter_first] at ih
    have h0 := hc _ (List.mem_cons_self ..)
    have hh := ih (by
      intro x hx
      rcases List.mem_cons.1 hx with rfl | hx
      · exact h0.1
      · exact hc x (List.mem_cons_of_mem _ hx)) h
    have := h0.2.2 _ _ hh
    simpa [SecondsFit, NTree.seconds] using this
  | choice_second _ _ _ _ ih =>
    intro hc h
    rw [stateAfter_second] at ih
    have h0 := hc _ (List.mem_cons_self ..)
    have hh := ih (by
      intro x hx
      rcases List.mem_cons.1 hx with rfl | hx
      · exact h0.2.1
      · exact hc x (List.mem_cons_of_mem _ hx)) h
    simpa [SecondsFit, NTree.seconds] using hh

/-- The reference layout is unique. -/
theorem finishes_unique {w : Nat} {B : List (GTok P)} {k A} (h : Finishes w B k A) :
    ∀ A', Finishes w B k A' → A' = A := by
  induction h with
  | nil => intro A' h; cases h; rfl
  | empty _ ih => intro A' h; cases h with | empty h => exact ih _ h
  | mark _ ih => intro A' h; cases h with | mark h => rw [ih _ h]
  | eol _ ih => intro A' h; cases h with | eol h => rw [ih _ h]
  | newline _ ih => intro A' h; cases h with | newline h => rw [ih _ h]
  | text _ ih => intro A' h; cases h with | text h => rw [ih _ h]
  | child _ ih => intro A' h; cases h with | child h => exact ih _ h
  | concat _ ih => intro A' h; cases h with | concat h => exact ih _ h
  | choice_first _ hf ih =>
    intro A' h
    cases h with
    | choice_first h hf' => rw [ih _ h]
    | choice_second h hf' _ => rw [ih _ h] at hf'; exact absurd hf hf'
  | choice_second _ hf _ ih1 ih2 =>
    intro A' h
    cases h with
    | choice_first h hf' => rw [ih1 _ h] at hf'; exact absurd hf' hf
    | choice_second h hf' h2 => rw [ih2 _ h2]

/-- Every tree without failures has a reference layout. -/
theorem finishes_total {w : Nat} {t : NTree P} : t.NoFail → ∀ {id k}, (∀ B, ∃ A, Finishes w B k A) →
    ∀ B, ∃ A, Finishes w B ((id, t) :: k) A := by
  induction t with
  | fail e => intro h; exact h.elim
  | empty => intro _ id k hk B; obtain ⟨A, h⟩ := hk B; exact ⟨A, .empty h⟩
  | mark => intro _ id k hk B; obtain ⟨A, h⟩ := hk (B ++ [.tok (.mark id)]); exact ⟨_, .mark h⟩
  | eol => intro _ id k hk B; obtain ⟨A, h⟩ := hk (B ++ [.tok .eol]); exact ⟨_, .eol h⟩
  | newline ind => intro _ id k hk B; obtain ⟨A, h⟩ := hk (B ++ [.tok (.nl ind)]); exact ⟨_, .newline h⟩
  | text t => intro _ id k hk B; obtain ⟨A, h⟩ := hk (B ++ [.tok (.text t)]); exact ⟨_, .text h⟩
  | child i c t ih =>
    rintro ⟨⟨c, rfl⟩, hn⟩ id k hk B
    obtain ⟨A, h⟩ := ih hn (id := c) hk B
    exact ⟨A, .child h⟩
  | concat a b iha ihb =>
    rintro ⟨ha, hb⟩ id k hk B
    obtain ⟨A, h⟩ := iha ha (id := id) (ihb hb (id := id) hk) B
    exact ⟨A, .concat h⟩
  | choice a b iha ihb =>
    rintro ⟨ha, hb⟩ id k hk B
    obtain ⟨A, h⟩ := iha ha (id := id) hk (B ++ [.first])
    by_cases hf : FitsFrom w (erase B) (erase A)
    · exact ⟨_, .choice_first h hf⟩
    · obtain ⟨A', h'⟩ := ihb hb (id := id) hk (B ++ [.second])
      exact ⟨_, .choice_second h hf h'⟩

/-- The greedy layout is the reference layout. -/
theorem greedy_finishes {w : Nat} {id : P.Id} {t k st st' T} (hg : Greedy w id t k st st' T) :
    ∀ (K : List (P.Id × NTree P)), K.map (·.2) = k → t.NoFail → t.GoodChoices w → (∀ x ∈ K, x.2.GoodChoices w) →
    (∀ B, ∃ A, Finishes w B K A) →
    ∀ B A, stateAfter B = st → Finishes w (B ++ T) K A → Finishes w B ((id, t) :: K) (T ++ A) := by
  induction hg with
  | empty => intro K _ _ _ _ _ B A _ h; simp only [List.append_nil] at h; exact .empty h
  | mark => intro K _ _ _ _ _ B A _ h; exact .mark h
  | eol => intro K _ _ _ _ _ B A _ h; exact .eol h
  | newline => intro K _ _ _ _ _ B A _ h; exact .newline h
  | text => intro K _ _ _ _ _ B A _ h; exact .text h
  | child _ ih => intro K hK hn hc hcK htot B A hB h; exact .child (ih K hK hn.2 hc hcK htot B A hB h)
  | @concat id a b k st st1 st2 T U h1 h2 ih1 ih2 =>
    intro K hK hn hc hcK htot B A hB h
    refine .concat ?_
    have hb : Finishes w (B ++ T) ((id, b) :: K) (U ++ A) := by
      refine ih2 K hK hn.2 hc.2 hcK htot (B ++ T) A ?_ (by rwa [List.append_assoc])
      rw [greedy_lineAfter h1, ← hB]
      simp [stateAfter, erase_append, lineAfter_append]
    rw [List.append_assoc]
    refine ih1 ((id, b) :: K) (by simp [hK]) hn.1 hc.1 ?_ (finishes_total hn.2 htot) B _ hB hb
    intro x hx
    rcases List.mem_cons.1 hx with rfl | hx
    · exact hc.2
    · exact hcK x hx
  | @choice_first id a b k st st' T hs _ ih =>
    intro K hK hn hc hcK htot B A hB h
    have h1 := ih K hK hn.1 hc.1 hcK htot (B ++ [.first]) A (by rw [stateAfter_first, hB])
      (by simpa using h)
    refine .choice_first h1 ?_
    rw [fitsFrom_erase, ← stateAfter_first]
    refine finishes_fits h1 ?_
    simpa [stateAfter_first, hB, hK] using hs
  | @choice_second id a b k st st' T hs _ ih =>
    intro K hK hn hc hcK htot B A hB h
    have h1 := ih K hK hn.2 hc.2.1 hcK htot (B ++ [.second]) A (by rw [stateAfter_second, hB])
      (by simpa using h)
    obtain ⟨A', h'⟩ := finishes_total (id := id) hn.1 htot (B ++ [.first])
    refine .choice_second h' ?_ h1
    rw [fitsFrom_erase, ← stateAfter_first]
    intro hf
    have := finishes_fits_only h' (by
      intro x hx
      rcases List.mem_cons.1 hx with rfl | hx
      · exact hc.1
      · exact hcK x hx) hf
    exact hs (by simpa [stateAfter_first, hB, hK] using this)

end PPP
