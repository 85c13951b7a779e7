import Verif.Spec.Greedy
import Verif.Proofs.Seq
/-
The declarative greedy layout: agreement with `NTree.layout`, and its properties.
-/
namespace PPP
variable {P : PrettyDoc}

/-! ### Fitting, token by token -/

/-- The state of the line after some tokens. -/
def lineAfter (st : LineSt) : List (Tok P) → LineSt
  | [] => st
  | .text x :: T => lineAfter ⟨st.col + x.width, st.eol⟩ T
  | .nl ind :: T => lineAfter ⟨segsWidth ind, false⟩ T
  | .eol :: T => lineAfter ⟨st.col, true⟩ T
  | .mark _ :: T => lineAfter st T

theorem lineAfter_append (st : LineSt) (A B : List (Tok P)) :
    lineAfter st (A ++ B) = lineAfter (lineAfter st A) B := by
  induction A generalizing st with
  | nil => rfl
  | cons t A ih => cases t <;> simp [lineAfter, ih]

@[simp] theorem erase_append (A B : List (GTok P)) : erase (A ++ B) = erase A ++ erase B := by
  induction A with
  | nil => rfl
  | cons t A ih => cases t <;> simp [erase, ih]

theorem textAfterEol_nil (e : Bool) : ¬ TextAfterEol (P := P) e [] := by
  rintro ⟨A, x, C, h, _⟩
  simp at h

theorem textAfterEol_text (e : Bool) (x : Textual P) (T : List (Tok P)) :
    TextAfterEol e (.text x :: T) ↔ e = true ∨ TextAfterEol e T := by
  constructor
  · rintro ⟨A, y, C, h, h'⟩
    cases A with
    | nil =>
      rcases h' with h' | h'
      · exact .inl h'
      · simp at h'
    | cons a A =>
      simp only [List.cons_append, List.cons.injEq] at h
      obtain ⟨rfl, rfl⟩ := h
      refine .inr ⟨A, y, C, rfl, ?_⟩
      rcases h' with h' | h'
      · exact .inl h'
      · simp at h'; exact .inr h'
  · rintro (h | ⟨A, y, C, rfl, h⟩)
    · exact ⟨[], x, T, rfl, .inl h⟩
    · refine ⟨.text x :: A, y, C, rfl, ?_⟩
      rcases h with h | h
      · exact .inl h
      · exact .inr (by simp [h])

theorem textAfterEol_mark (e : Bool) (i : P.Id) (T : List (Tok P)) :
    TextAfterEol e (.mark i :: T) ↔ TextAfterEol e T := by
  constructor
  · rintro ⟨A, y, C, h, h'⟩
    cases A with
    | nil => simp at h
    | cons a A =>
      simp only [List.cons_append, List.cons.injEq] at h
      obtain ⟨rfl, rfl⟩ := h
      refine ⟨A, y, C, rfl, ?_⟩
      rcases h' with h' | h'
      · exact .inl h'
      · simp at h'; exact .inr h'
  · rintro ⟨A, y, C, rfl, h⟩
    refine ⟨.mark i :: A, y, C, rfl, ?_⟩
    rcases h with h | h
    · exact .inl h
    · exact .inr (by simp [h])

theorem textAfterEol_eol (e : Bool) (T : List (Tok P)) :
    TextAfterEol e (.eol :: T) ↔ TextAfterEol true T := by
  constructor
  · rintro ⟨A, y, C, h, h'⟩
    cases A with
    | nil => simp at h
    | cons a A =>
      simp only [List.cons_append, List.cons.injEq] at h
      obtain ⟨rfl, rfl⟩ := h
      exact ⟨A, y, C, rfl, .inl rfl⟩
  · rintro ⟨A, y, C, rfl, h⟩
    exact ⟨.eol :: A, y, C, rfl, .inr (by simp)⟩

@[simp] theorem lineFits_nil (w : Nat) (st : LineSt) : LineFits (P := P) w st [] ↔ st.col ≤ w := by
  simp [LineFits, firstLine, toksWidth, textAfterEol_nil]

@[simp] theorem lineFits_nl (w : Nat) (st : LineSt) (ind) (T : List (Tok P)) :
    LineFits w st (.nl ind :: T) ↔ st.col ≤ w := by
  simp [LineFits, firstLine, toksWidth, textAfterEol_nil, Tok.notNl]

@[simp] theorem lineFits_mark (w : Nat) (st : LineSt) (i) (T : List (Tok P)) :
    LineFits w st (.mark i :: T) ↔ LineFits w st T := by
  simp only [LineFits, firstLine, List.takeWhile_cons, Tok.notNl, if_true, textAfterEol_mark, toksWidth,
    List.map_cons, List.sum_cons, Nat.zero_add]

@[simp] theorem lineFits_eol (w : Nat) (st : LineSt) (T : List (Tok P)) :
    LineFits w st (.eol :: T) ↔ LineFits w ⟨st.col, true⟩ T := by
  simp only [LineFits, firstLine, List.takeWhile_cons, Tok.notNl, if_true, textAfterEol_eol, toksWidth,
    List.map_cons, List.sum_cons, Nat.zero_add]

theorem lineFits_text (w : Nat) (st : LineSt) (x) (T : List (Tok P)) :
    LineFits w st (.text x :: T) ↔ st.eol = false ∧ LineFits w ⟨st.col + x.width, st.eol⟩ T := by
  simp only [LineFits, firstLine, List.takeWhile_cons, Tok.notNl, if_true, textAfterEol_text, not_or,
    Bool.not_eq_true, toksWidth, List.map_cons, List.sum_cons]
  constructor
  · rintro ⟨h1, h2, h3⟩; exact ⟨h2, by omega, h3⟩
  · rintro ⟨h2, h1, h3⟩; exact ⟨by omega, h2, h3⟩

theorem LineFits.col {w : Nat} {st : LineSt} {T : List (Tok P)} (h : LineFits w st T) : st.col ≤ w := by
  have := h.1; omega

theorem lineFits_append_nl {A : List (Tok P)} {w ind} (hA : .nl ind ∈ A) : ∀ {st : LineSt} {U V : List (Tok P)},
    LineFits w st (A ++ U) → LineFits w st (A ++ V) := by
  induction A with
  | nil => simp at hA
  | cons t A ih =>
    intro st U V h
    cases t with
    | nl i => simpa using h
    | text x =>
      simp only [List.cons_append, lineFits_text] at h ⊢
      exact ⟨h.1, ih (by simpa using hA) h.2⟩
    | eol =>
      simp only [List.cons_append, lineFits_eol] at h ⊢
      exact ih (by simpa using hA) h
    | mark i =>
      simp only [List.cons_append, lineFits_mark] at h ⊢
      exact ih (by simpa using hA) h

theorem lineFits_append_after {A : List (Tok P)} {w} (hA : ∀ ind, .nl ind ∉ A) :
    ∀ {st : LineSt} {U : List (Tok P)}, LineFits w st (A ++ U) → LineFits w (lineAfter st A) U := by
  induction A with
  | nil => intro st U h; exact h
  | cons t A ih =>
    have hA' : ∀ ind, .nl ind ∉ A := fun ind h => hA ind (by simp [h])
    intro st U h
    cases t with
    | nl i => exact absurd (hA i) (by simp)
    | text x => simp only [List.cons_append, lineFits_text] at h; exact ih hA' h.2
    | eol => simp only [List.cons_append, lineFits_eol] at h; exact ih hA' h
    | mark i => simp only [List.cons_append, lineFits_mark] at h; exact ih hA' h

/-- Replace what follows `A`. -/
theorem lineFits_replace {A : List (Tok P)} {w} : ∀ {st : LineSt} {U V : List (Tok P)},
    LineFits w st (A ++ U) →
    ((∀ ind, .nl ind ∉ A) → LineFits w (lineAfter st A) U → LineFits w (lineAfter st A) V) →
    LineFits w st (A ++ V) := by
  induction A with
  | nil => intro st U V h h'; exact h' (by simp) h
  | cons t A ih =>
    intro st U V h h'
    cases t with
    | nl i => simpa using h
    | text x =>
      simp only [List.cons_append, lineFits_text] at h ⊢
      refine ⟨h.1, ih h.2 fun hA hu => h' (by simpa using hA) hu⟩
    | eol =>
      simp only [List.cons_append, lineFits_eol] at h ⊢
      exact ih h fun hA hu => h' (by simpa using hA) hu
    | mark i =>
      simp only [List.cons_append, lineFits_mark] at h ⊢
      exact ih h fun hA hu => h' (by simpa using hA) hu

/-! ### Agreement of the two ways of saying that a line fits -/

theorem fit_spec (w : Nat) (t : NTree P) : ∀ {col e o}, col ≤ w → t.fit (w - col) e = .ok o →
    ∀ U, match o with
      | .done r => (LineFits w ⟨col, e⟩ (t.seconds ++ U) ↔ r = true)
      | .more rem' e' => ∃ col', col' ≤ w ∧ rem' = w - col' ∧
          (LineFits w ⟨col, e⟩ (t.seconds ++ U) ↔ LineFits w ⟨col', e'⟩ U) := by
  induction t with
  | fail f => intro col e o hc h; simp [NTree.fit] at h
  | empty =>
    intro col e o hc h U
    simp only [NTree.fit, Except.ok.injEq] at h
    subst h
    exact ⟨col, hc, rfl, by simp [NTree.seconds]⟩
  | mark =>
    intro col e o hc h U
    simp only [NTree.fit, Except.ok.injEq] at h
    subst h
    exact ⟨col, hc, rfl, by simp [NTree.seconds]⟩
  | eol =>
    intro col e o hc h U
    simp only [NTree.fit, Except.ok.injEq] at h
    subst h
    exact ⟨col, hc, rfl, by simp [NTree.seconds]⟩
  | newline ind =>
    intro col e o hc h U
    simp only [NTree.fit, Except.ok.injEq] at h
    subst h
    simpa [NTree.seconds] using hc
  | text x =>
    intro col e o hc h U
    simp only [NTree.fit] at h
    split at h
    · rename_i he
      simp only [Except.ok.injEq] at h
      subst h
      simp [NTree.seconds, lineFits_text, he]
    · rename_i he
      have he : e = false := by simpa using he
      split at h
      · simp only [Except.ok.injEq] at h
        subst h
        refine ⟨col + x.width, by omega, by omega, ?_⟩
        simp [NTree.seconds, lineFits_text, he]
      · simp only [Except.ok.injEq] at h
        subst h
        simp only [NTree.seconds, List.singleton_append, lineFits_text, Bool.false_eq_true, iff_false]
        rintro ⟨_, h⟩
        have := h.col
        simp only at this
        omega
  | child i c t ih => intro col e o hc h U; exact ih hc h U
  | choice a b _ ihb => intro col e o hc h U; exact ihb hc h U
  | concat a b iha ihb =>
    intro col e o hc h U
    simp only [NTree.fit, Except.bind_eq] at h
    split at h
    rotate_left
    · simp at h
    split at h
    rotate_left
    · simp at h
    split at h
    rotate_left
    · simp at h
    rename_i oa ha
    have hA := iha hc ha (b.seconds ++ U)
    cases oa with
    | done r =>
      simp only [Except.ok.injEq] at h
      subst h
      simpa [NTree.seconds] using hA
    | more rem' e' =>
      obtain ⟨col', hc', rfl, hA⟩ := hA
      simp only at h
      have hB := ihb hc' h U
      cases o with
      | done r =>
        simp only [NTree.seconds, List.append_assoc]
        rw [hA]; exact hB
      | more r2 e2 =>
        obtain ⟨c2, h2, h3, hB⟩ := hB
        refine ⟨c2, h2, h3, ?_⟩
        simp only [NTree.seconds, List.append_assoc]
        rw [hA]; exact hB

theorem fitK_spec (w : Nat) (k : List (NTree P)) : ∀ {col e r}, col ≤ w → fitK k (w - col) e = .ok r →
    (SecondsFit w ⟨col, e⟩ k ↔ r = true) := by
  induction k with
  | nil =>
    intro col e r hc h
    simp only [fitK, Except.ok.injEq] at h
    subst h
    simp [SecondsFit, hc]
  | cons t k ih =>
    intro col e r hc h
    simp only [fitK, Except.bind_eq] at h
    split at h
    rotate_left
    · simp at h
    rename_i o ho
    have hT := fit_spec w t hc ho (k.flatMap NTree.seconds)
    cases o with
    | done r' =>
      simp only [Except.ok.injEq] at h
      subst h
      simpa [SecondsFit] using hT
    | more rem' e' =>
      obtain ⟨col', hc', rfl, hT⟩ := hT
      simp only at h
      have := ih hc' h
      unfold SecondsFit at this ⊢
      rw [List.flatMap_cons, hT]
      exact this

/-- The two specifications of "the rest of the line fits" agree. -/
theorem fitsLine_spec {w : Nat} {st : LineSt} {k : List (NTree P)} {r} (h : fitsLine w st k = .ok r) :
    SecondsFit w st k ↔ r = true := by
  unfold fitsLine at h
  split at h
  · rename_i hc
    exact fitK_spec w k hc h
  · rename_i hc
    simp only [Except.ok.injEq] at h
    subst h
    simp only [Bool.false_eq_true, iff_false]
    intro hf
    exact hc hf.col

theorem noFail_check {t : NTree P} (h : t.NoFail) : t.check = .ok () := by
  cases t <;> first | rfl | exact absurd h (by simp [NTree.NoFail])

theorem fit_noFail {t : NTree P} (h : t.NoFail) : ∀ rem e, ∃ o, t.fit rem e = .ok o := by
  induction t with
  | fail f => exact absurd h (by simp [NTree.NoFail])
  | text x =>
    intro rem e
    simp only [NTree.fit]
    split
    · exact ⟨_, rfl⟩
    · split <;> exact ⟨_, rfl⟩
  | child i c t ih => intro rem e; exact ih h.2 rem e
  | choice a b _ ihb => intro rem e; exact ihb h.2 rem e
  | concat a b iha ihb =>
    intro rem e
    obtain ⟨oa, ha⟩ := iha h.1 rem e
    simp only [NTree.fit, noFail_check h.1, noFail_check h.2, ha, Except.bind_eq]
    cases oa with
    | done r => exact ⟨_, rfl⟩
    | more r' e' => exact ihb h.2 r' e'
  | _ => intro rem e; exact ⟨_, rfl⟩

theorem fitK_noFail {k : List (NTree P)} (h : ∀ t ∈ k, t.NoFail) : ∀ rem e, ∃ r, fitK k rem e = .ok r := by
  induction k with
  | nil => intro rem e; exact ⟨_, rfl⟩
  | cons t k ih =>
    intro rem e
    obtain ⟨o, ho⟩ := fit_noFail (h t (by simp)) rem e
    simp only [fitK, ho, Except.bind_eq]
    cases o with
    | done r => exact ⟨_, rfl⟩
    | more r' e' => exact ih (fun t ht => h t (by simp [ht])) r' e'

theorem fitsLine_noFail {k : List (NTree P)} (h : ∀ t ∈ k, t.NoFail) (w st) :
    ∃ r, fitsLine w st k = .ok r := by
  unfold fitsLine
  split
  · exact fitK_noFail h _ _
  · exact ⟨_, rfl⟩

/-! ### The greedy layout exists and is unique -/

theorem greedy_total {w : Nat} {t : NTree P} (h : t.NoFail) : ∀ id k st, ∃ st' T, Greedy w id t k st st' T := by
  induction t with
  | fail f => exact absurd h (by simp [NTree.NoFail])
  | empty => intro id k st; exact ⟨_, _, .empty⟩
  | mark => intro id k st; exact ⟨_, _, .mark⟩
  | eol => intro id k st; exact ⟨_, _, .eol⟩
  | newline ind => intro id k st; exact ⟨_, _, .newline⟩
  | text x => intro id k st; exact ⟨_, _, .text⟩
  | child i c t ih =>
    intro id k st
    obtain ⟨⟨c, rfl⟩, ht⟩ := h
    obtain ⟨st', T, hT⟩ := ih ht c k st
    exact ⟨_, _, .child hT⟩
  | concat a b iha ihb =>
    intro id k st
    obtain ⟨st1, T, hT⟩ := iha h.1 id (b :: k) st
    obtain ⟨st2, U, hU⟩ := ihb h.2 id k st1
    exact ⟨_, _, .concat hT hU⟩
  | choice a b iha ihb =>
    intro id k st
    by_cases hf : SecondsFit w st (a :: k)
    · obtain ⟨st', T, hT⟩ := iha h.1 id k st
      exact ⟨_, _, .choice_first hf hT⟩
    · obtain ⟨st', T, hT⟩ := ihb h.2 id k st
      exact ⟨_, _, .choice_second hf hT⟩

theorem greedy_unique {w : Nat} {id : P.Id} {t k st st1 st2 T1 T2} (h1 : Greedy w id t k st st1 T1)
    (h2 : Greedy w id t k st st2 T2) : st1 = st2 ∧ T1 = T2 := by
  induction h1 generalizing st2 T2 with
  | empty => cases h2; exact ⟨rfl, rfl⟩
  | mark => cases h2; exact ⟨rfl, rfl⟩
  | eol => cases h2; exact ⟨rfl, rfl⟩
  | newline => cases h2; exact ⟨rfl, rfl⟩
  | text => cases h2; exact ⟨rfl, rfl⟩
  | child _ ih => cases h2 with | child h => exact ih h
  | concat _ _ iha ihb =>
    cases h2 with
    | concat ha hb =>
      obtain ⟨rfl, rfl⟩ := iha ha
      obtain ⟨rfl, rfl⟩ := ihb hb
      exact ⟨rfl, rfl⟩
  | choice_first hf _ ih =>
    cases h2 with
    | choice_first _ h => obtain ⟨rfl, rfl⟩ := ih h; exact ⟨rfl, rfl⟩
    | choice_second hn _ => exact absurd hf hn
  | choice_second hn _ ih =>
    cases h2 with
    | choice_first hf _ => exact absurd hf hn
    | choice_second _ h => obtain ⟨rfl, rfl⟩ := ih h; exact ⟨rfl, rfl⟩

theorem greedy_lineAfter {w : Nat} {id : P.Id} {t k st st' T} (h : Greedy w id t k st st' T) :
    st' = lineAfter st (erase T) := by
  induction h with
  | concat _ _ iha ihb => rw [erase_append, lineAfter_append, ← iha, ← ihb]
  | child _ ih => exact ih
  | choice_first _ _ ih => exact ih
  | choice_second _ _ ih => exact ih
  | _ => rfl

/-- The layout, when there is one, is the greedy one. -/
theorem layout_greedy (w : Nat) (t : NTree P) : ∀ {id k st st' L}, t.layout w id k st = .ok (st', L) →
    ∃ T, Greedy w id t k st st' T ∧ erase T = L.toks := by
  induction t with
  | fail f => intro id k st st' L h; simp [NTree.layout] at h
  | empty =>
    intro id k st st' L h
    simp only [NTree.layout, Except.ok.injEq, Prod.mk.injEq] at h
    obtain ⟨rfl, rfl⟩ := h
    exact ⟨_, .empty, rfl⟩
  | mark =>
    intro id k st st' L h
    simp only [NTree.layout, Except.ok.injEq, Prod.mk.injEq] at h
    obtain ⟨rfl, rfl⟩ := h
    exact ⟨_, .mark, rfl⟩
  | eol =>
    intro id k st st' L h
    simp only [NTree.layout, Except.ok.injEq, Prod.mk.injEq] at h
    obtain ⟨rfl, rfl⟩ := h
    exact ⟨_, .eol, rfl⟩
  | newline ind =>
    intro id k st st' L h
    simp only [NTree.layout] at h
    split at h
    · simp only [Except.ok.injEq, Prod.mk.injEq] at h
      obtain ⟨rfl, rfl⟩ := h
      exact ⟨_, .newline, rfl⟩
    · simp at h
  | text x =>
    intro id k st st' L h
    simp only [NTree.layout] at h
    split at h
    · simp at h
    · rename_i he
      split at h
      · simp only [Except.ok.injEq, Prod.mk.injEq] at h
        obtain ⟨rfl, rfl⟩ := h
        refine ⟨[.tok (.text x)], ?_, rfl⟩
        have he : st.eol = false := by simpa using he
        have := Greedy.text (w := w) (id := id) (k := k) (st := st) (t := x)
        rwa [he] at this
      · simp at h
  | child i c t ih =>
    intro id k st st' L h
    simp only [NTree.layout, Except.bind_eq] at h
    cases c with
    | error f => simp at h
    | ok c =>
      simp only at h
      split at h
      rotate_left
      · simp at h
      rename_i r hr
      simp only [Except.ok.injEq, Prod.mk.injEq] at h
      obtain ⟨rfl, rfl⟩ := h
      obtain ⟨T, h1, h2⟩ := ih (st' := r.1) (L := r.2) hr
      exact ⟨T, .child h1, h2⟩
  | concat a b iha ihb =>
    intro id k st st' L h
    simp only [NTree.layout, Except.bind_eq] at h
    split at h
    rotate_left
    · simp at h
    rename_i r hr
    split at h
    rotate_left
    · simp at h
    rename_i r2 hr2
    simp only [Except.ok.injEq, Prod.mk.injEq] at h
    obtain ⟨rfl, rfl⟩ := h
    obtain ⟨T, h1, h2⟩ := iha (st' := r.1) (L := r.2) hr
    obtain ⟨U, h3, h4⟩ := ihb (st' := r2.1) (L := r2.2) hr2
    exact ⟨_, .concat h1 h3, by simp [h2, h4, LTree.toks]⟩
  | choice a b iha ihb =>
    intro id k st st' L h
    simp only [NTree.layout, Except.bind_eq] at h
    split at h
    rotate_left
    · simp at h
    split at h
    rotate_left
    · simp at h
    rename_i r hr
    have hs := fitsLine_spec hr
    cases r with
    | true =>
      simp only [if_true] at h
      obtain ⟨T, h1, h2⟩ := iha h
      exact ⟨_, .choice_first (hs.2 rfl) h1, h2⟩
    | false =>
      simp only [Bool.false_eq_true, if_false] at h
      obtain ⟨T, h1, h2⟩ := ihb h
      exact ⟨_, .choice_second (fun hf => by simpa using hs.1 hf) h1, h2⟩

/-! ### Defects, in reading order -/

/-- The first defect of some tokens. -/
def defect (st : LineSt) : List (Tok P) → Option (Fail P.Err)
  | [] => none
  | .text x :: T =>
    if st.eol then some (.err .textAfterEndOfLine)
    else if st.col + x.width ≤ maxWidth then defect ⟨st.col + x.width, st.eol⟩ T
    else some .overflow
  | .nl ind :: T => if segsWidth ind ≤ maxWidth then defect ⟨segsWidth ind, false⟩ T else some .overflow
  | .eol :: T => defect ⟨st.col, true⟩ T
  | .mark _ :: T => defect st T

theorem defect_append (st : LineSt) (A B : List (Tok P)) :
    defect st (A ++ B) = match defect st A with
      | some f => some f
      | none => defect (lineAfter st A) B := by
  induction A generalizing st with
  | nil => rfl
  | cons t A ih =>
    cases t with
    | text x =>
      simp only [List.cons_append, defect, lineAfter]
      split
      · rfl
      · split
        · exact ih _
        · rfl
    | nl ind =>
      simp only [List.cons_append, defect, lineAfter]
      split
      · exact ih _
      · rfl
    | eol => exact ih _
    | mark i => exact ih _

/-- For a tree without failures, the layout fails exactly at the first defect of the greedy layout. -/
theorem layout_of_greedy {w : Nat} {id : P.Id} {t k st st' T} (hg : Greedy w id t k st st' T)
    (hn : t.NoFail) (hk : ∀ t ∈ k, t.NoFail) :
    match defect st (erase T) with
    | some f => t.layout w id k st = .error f
    | none => ∃ L, t.layout w id k st = .ok (st', L) ∧ L.toks = erase T := by
  induction hg with
  | empty => exact ⟨_, rfl, rfl⟩
  | mark => exact ⟨_, rfl, rfl⟩
  | eol => exact ⟨_, rfl, rfl⟩
  | newline =>
    rename_i ind
    simp only [erase, defect, NTree.layout]
    split
    · rename_i f hf
      split at hf
      · simp at hf
      · rename_i h
        simp at hf; subst hf; rw [if_neg h]
    · rename_i hf
      split at hf
      · rename_i h
        rw [if_pos h]; exact ⟨_, rfl, rfl⟩
      · simp at hf
  | text =>
    rename_i st x
    simp only [erase, defect, NTree.layout]
    by_cases he : st.eol = true
    · simp [he]
    · have he' : st.eol = false := by simpa using he
      by_cases hc : st.col + x.width ≤ maxWidth
      · simp only [he', Bool.false_eq_true, if_false, hc, if_true]
        exact ⟨_, rfl, rfl⟩
      · simp [he', hc]
  | child _ ih =>
    have := ih hn.2 hk
    simp only [NTree.layout, Except.bind_eq]
    revert this
    split
    · intro h; rw [h]
    · rintro ⟨L, h1, h2⟩
      rw [h1]
      exact ⟨_, rfl, h2⟩
  | concat ha hb iha ihb =>
    rename_i a b k st st1 st2 T U
    have hA := iha hn.1 (by simp only [List.mem_cons]; rintro t (rfl | h); exact hn.2; exact hk t h)
    have hB := ihb hn.2 hk
    have hst := greedy_lineAfter ha
    rw [erase_append, defect_append]
    simp only [NTree.layout, Except.bind_eq]
    cases hd : defect st (erase T) with
    | some f =>
      rw [hd] at hA
      simp only at hA ⊢
      rw [hA]
    | none =>
      rw [hd] at hA
      obtain ⟨L, h1, h2⟩ := hA
      simp only at h1 ⊢
      rw [h1, ← hst]
      simp only
      revert hB
      split
      · intro h; rw [h]
      · rintro ⟨L2, h3, h4⟩
        rw [h3]
        exact ⟨_, rfl, by simp [LTree.toks, h2, h4]⟩
  | choice_first hf hga ih =>
    rename_i a b k st st' T
    have := ih hn.1 hk
    obtain ⟨r, hr⟩ := fitsLine_noFail (P := P) (k := a :: k)
      (by simp only [List.mem_cons]; rintro t (rfl | h); exact hn.1; exact hk t h) w st
    have hr' := (fitsLine_spec hr).1 hf
    subst hr'
    simp only [NTree.layout, Except.bind_eq, noFail_check hn.1, hr, if_true]
    exact this
  | choice_second hf hga ih =>
    rename_i a b k st st' T
    have := ih hn.2 hk
    obtain ⟨r, hr⟩ := fitsLine_noFail (P := P) (k := a :: k)
      (by simp only [List.mem_cons]; rintro t (rfl | h); exact hn.1; exact hk t h) w st
    have hr' : r = false := by
      cases r with
      | false => rfl
      | true => exact absurd ((fitsLine_spec hr).2 rfl) hf
    subst hr'
    simp only [NTree.layout, Except.bind_eq, noFail_check hn.1, hr, Bool.false_eq_true, if_false]
    exact this

end PPP
