import Verif.Model.Oracle
import Verif.Spec.Oracle
import Verif.Proofs.Denote
import Verif.Proofs.DocPred
import Verif.Proofs.GreedyLines
import Verif.Proofs.ErrKind
/-
The oracle printer displays the greedy layout.
-/
namespace PPP
variable {P : PrettyDoc}

/-! ### Token-level first lines -/

/-- The width of the first line as the oracle sees it: `none` if there is a text of positive width
    after an end-of-line mark. -/
def V : List (Tok P) → Option Nat
  | [] => some 0
  | .text x :: T => (V T).map (x.width + ·)
  | .nl _ :: _ => some 0
  | .eol :: T => match V T with
    | some 0 => some 0
    | _ => none
  | .mark _ :: T => V T

/-- Equal, or both too large to matter. -/
def SameLen : Option Nat → Option Nat → Prop
  | none, none => True
  | some a, some b => a = b ∨ (oracleMaxWidth ≤ a ∧ oracleMaxWidth ≤ b)
  | _, _ => False

theorem SameLen.refl (a : Option Nat) : SameLen a a := by
  cases a <;> simp [SameLen]

theorem SameLen.clamp {a b : Option Nat} (h : SameLen a b) :
    SameLen (a.map (min · oracleMaxWidth)) b := by
  cases a <;> cases b <;> simp [SameLen] at h ⊢
  omega

theorem SameLen.add {a b : Option Nat} (n : Nat) (h : SameLen a b) :
    SameLen (a.map (n + ·)) (b.map (n + ·)) := by
  cases a <;> cases b <;> simp [SameLen] at h ⊢
  omega

/-- Scanning the tokens: the first text after an end-of-line mark is not one without width. -/
def NoZero (e : Bool) : List (Tok P) → Prop
  | [] => True
  | .text x :: T => (e = true → 0 < x.width) ∧ (e = false → NoZero e T)
  | .nl _ :: T => NoZero false T
  | .eol :: T => NoZero true T
  | .mark _ :: T => NoZero e T

/-- Scanning the tokens: no text is met after an end-of-line mark. -/
def EolClean (e : Bool) : List (Tok P) → Prop
  | [] => True
  | .text _ :: T => e = false ∧ EolClean e T
  | .nl _ :: T => EolClean false T
  | .eol :: T => EolClean true T
  | .mark _ :: T => EolClean e T

theorem eolClean_append (A B : List (Tok P)) : ∀ (st : LineSt),
    EolClean st.eol (A ++ B) ↔ EolClean st.eol A ∧ EolClean (lineAfter st A).eol B := by
  induction A with
  | nil => intro st; simp [EolClean, lineAfter]
  | cons t A ih =>
    intro st
    cases t with
    | text x =>
      have := ih ⟨st.col + x.width, st.eol⟩
      simp only [List.cons_append, EolClean, lineAfter]
      rw [and_assoc]
      exact and_congr_right fun _ => this
    | nl ind => exact ih ⟨_, false⟩
    | eol => exact ih ⟨_, true⟩
    | mark i => exact ih st

theorem noZero_after (A B : List (Tok P)) : ∀ (st : LineSt), EolClean st.eol A → NoZero st.eol (A ++ B) →
    NoZero (lineAfter st A).eol B := by
  induction A with
  | nil => intro st _ h; exact h
  | cons t A ih =>
    intro st hc h
    cases t with
    | text x => exact ih ⟨st.col + x.width, st.eol⟩ hc.2 (h.2 hc.1)
    | nl ind => exact ih ⟨_, false⟩ hc h
    | eol => exact ih ⟨_, true⟩ hc h
    | mark i => exact ih st hc h

theorem noZero_congr_right {X Y : List (Tok P)} (hXY : ∀ e, NoZero e X → NoZero e Y) (A : List (Tok P)) :
    ∀ e, NoZero e (A ++ X) → NoZero e (A ++ Y) := by
  induction A with
  | nil => exact hXY
  | cons t A ih =>
    intro e h
    cases t with
    | text x => exact ⟨h.1, fun he => ih e (h.2 he)⟩
    | nl ind => exact ih false h
    | eol => exact ih true h
    | mark i => exact ih e h

theorem V_width (T : List (Tok P)) : ∀ n, V T = some n → n = toksWidth (firstLine T) := by
  induction T with
  | nil =>
    intro n h
    simp [V] at h
    simp [h.symm, toksWidth, firstLine]
  | cons t T ih =>
    cases t with
    | text x =>
      have hfl : firstLine (.text x :: T) = .text x :: firstLine T := rfl
      have hw : toksWidth (.text x :: firstLine T) = x.width + toksWidth (firstLine T) := by simp [toksWidth]
      rw [hfl, hw]
      intro n hn
      simp only [V, Option.map_eq_some_iff] at hn
      obtain ⟨m, hm, rfl⟩ := hn
      rw [ih m hm]
    | nl ind =>
      have hfl : firstLine (.nl ind :: T) = [] := rfl
      rw [hfl]
      intro n h
      simp [V] at h
      simp [h.symm, toksWidth]
    | eol =>
      have hfl : firstLine (.eol :: T) = .eol :: firstLine T := rfl
      have hw : toksWidth (.eol :: firstLine T) = toksWidth (firstLine T) := by simp [toksWidth]
      rw [hfl, hw]
      intro n hn
      simp only [V] at hn
      split at hn
      · rename_i h0
        simp at hn
        subst hn
        exact ih _ h0
      · simp at hn
    | mark i =>
      have hfl : firstLine (.mark i :: T) = .mark i :: firstLine T := rfl
      have hw : toksWidth (.mark i :: firstLine T) = toksWidth (firstLine T) := by simp [toksWidth]
      rw [hfl, hw]
      exact ih

/-- The oracle's view of a line agrees with the specification's. -/
theorem V_fits (T : List (Tok P)) : ∀ {e : Bool}, NoZero e T →
    ((∃ n, V T = some n ∧ ¬ (e = true ∧ 0 < n)) ↔ ¬ TextAfterEol e (firstLine T)) := by
  induction T with
  | nil =>
    intro e _
    exact ⟨fun _ => textAfterEol_nil e, fun _ => ⟨0, rfl, by simp⟩⟩
  | cons t T ih =>
    intro e h
    cases t with
    | text x =>
      obtain ⟨h1, h2⟩ := h
      have hfl : firstLine (.text x :: T) = .text x :: firstLine T := rfl
      rw [hfl, textAfterEol_text]
      cases e with
      | true =>
        refine ⟨?_, fun h => absurd (.inl rfl) h⟩
        rintro ⟨n, hn, hn'⟩
        simp only [V, Option.map_eq_some_iff] at hn
        obtain ⟨m, _, rfl⟩ := hn
        exact absurd ⟨rfl, by have := h1 rfl; omega⟩ hn'
      | false =>
        have g1 := ih (h2 rfl)
        rw [show (false = true ∨ TextAfterEol false (firstLine T)) ↔ TextAfterEol false (firstLine T) by simp,
          ← g1]
        constructor
        · rintro ⟨n, hn, _⟩
          simp only [V, Option.map_eq_some_iff] at hn
          obtain ⟨m, hm, rfl⟩ := hn
          exact ⟨m, hm, by simp⟩
        · rintro ⟨m, hm, _⟩
          exact ⟨x.width + m, by simp [V, hm], by simp⟩
    | nl ind =>
      have hfl : firstLine (.nl ind :: T) = [] := rfl
      rw [hfl]
      exact ⟨fun _ => textAfterEol_nil e, fun _ => ⟨0, rfl, by simp⟩⟩
    | eol =>
      have g1 := ih (e := true) h
      have hfl : firstLine (.eol :: T) = .eol :: firstLine T := rfl
      rw [hfl, textAfterEol_eol, ← g1]
      constructor
      · rintro ⟨n, hn, _⟩
        simp only [V] at hn
        split at hn
        · rename_i h0
          exact ⟨0, h0, by simp⟩
        · simp at hn
      · rintro ⟨n, hn, hn'⟩
        have : n = 0 := by
          rcases Nat.eq_zero_or_pos n with h | h
          · exact h
          · exact absurd ⟨rfl, h⟩ hn'
        subst this
        exact ⟨0, by simp [V, hn], by simp⟩
    | mark i =>
      have hfl : firstLine (.mark i :: T) = .mark i :: firstLine T := rfl
      rw [hfl, textAfterEol_mark]
      exact ih h

theorem V_lineFits {T : List (Tok P)} {w : Nat} {st : LineSt} (h : NoZero st.eol T) :
    LineFits w st T ↔ ∃ n, V T = some n ∧ ¬ (st.eol = true ∧ 0 < n) ∧ st.col + n ≤ w := by
  have g1 := V_fits T h
  have g2 := V_width T
  unfold LineFits
  rw [← g1]
  constructor
  · rintro ⟨hw, n, hn, hn'⟩
    exact ⟨n, hn, hn', by rw [g2 n hn]; exact hw⟩
  · rintro ⟨n, hn, hn', hw⟩
    exact ⟨by rw [← g2 n hn]; exact hw, n, hn, hn'⟩

/-! ### `first_line_len` -/

/-- Everything met when taking second options can be looked at. -/
def NTree.SecondsOk : NTree P → Prop
  | .fail _ => False
  | .concat a b => a.SecondsOk ∧ b.SecondsOk
  | .choice _ b => b.SecondsOk
  | .child _ _ t => t.SecondsOk
  | _ => True

theorem NTree.NoFail.secondsOk {t : NTree P} (h : t.NoFail) : t.SecondsOk := by
  induction t with
  | fail f => exact h
  | concat a b iha ihb => exact ⟨iha h.1, ihb h.2⟩
  | choice a b iha ihb => exact ihb h.2
  | child i id t ih => exact ih h.2
  | _ => trivial

/-- At most the oracle's limit. -/
def Clamped (s : Option Nat) : Prop := ∀ n, s = some n → n ≤ oracleMaxWidth

theorem clamped_map (s : Option Nat) : Clamped (s.map (min · oracleMaxWidth)) := by
  intro n h
  simp only [Option.map_eq_some_iff] at h
  obtain ⟨m, _, rfl⟩ := h
  omega

theorem firstLineLen_sat (t : NTree P) : ∀ {rid} {c : CN P} {sfx : Option Nat} {T : List (Tok P)} (m : Nat),
    CNRep rid c t → SameLen sfx (V T) → Clamped sfx →
    Sat (firstLineLen c sfx)
      (fun r => t.SecondsOk ∧ SameLen r (V (t.seconds ++ T)) ∧
        (t.TextsWithin m → ∀ n, r = some n → n ≤ m + oracleMaxWidth))
      (fun e => ¬ t.NoFail ∨ (e = .overflow ∧ (t.TextsWithin m → maxWidth < m + oracleMaxWidth))) := by
  induction t with
  | fail f => intro rid c sfx T m hc; cases hc
  | empty =>
    intro rid c sfx T m hc hs hcl
    cases hc
    unfold firstLineLen
    exact Sat.pure ⟨trivial, hs, fun _ n h => by have := hcl n h; omega⟩
  | mark =>
    intro rid c sfx T m hc hs hcl
    cases hc
    unfold firstLineLen
    exact Sat.pure ⟨trivial, hs, fun _ n h => by have := hcl n h; omega⟩
  | newline ind =>
    intro rid c sfx T m hc hs hcl
    cases hc
    unfold firstLineLen
    exact Sat.pure ⟨trivial, .inl rfl, fun _ n h => by simp at h; omega⟩
  | eol =>
    intro rid c sfx T m hc hs hcl
    cases hc
    unfold firstLineLen
    change Sat _ (fun r => True ∧ SameLen r (match V T with | some 0 => some 0 | _ => none) ∧ _) _
    cases sfx with
    | none =>
      cases hV : V T with
      | none => exact Sat.pure ⟨trivial, trivial, fun _ n h => by simp at h⟩
      | some b => rw [hV] at hs; exact absurd hs (by simp [SameLen])
    | some a =>
      cases hV : V T with
      | none => rw [hV] at hs; exact absurd hs (by simp [SameLen])
      | some b =>
        rw [hV] at hs
        simp only [SameLen] at hs
        have hmx : oracleMaxWidth = 10000 := rfl
        cases a with
        | zero =>
          have : b = 0 := by omega
          subst this
          exact Sat.pure ⟨trivial, .inl rfl, fun _ n h => by simp at h; omega⟩
        | succ a =>
          cases b with
          | zero => omega
          | succ b => exact Sat.pure ⟨trivial, trivial, fun _ n h => by simp at h⟩
  | text x =>
    intro rid c sfx T m hc hs hcl
    cases hc
    unfold firstLineLen
    cases sfx with
    | none =>
      refine Sat.pure ⟨trivial, ?_, fun _ n h => by simp at h⟩
      exact hs.add x.width
    | some w =>
      have hw := hcl w rfl
      change Sat (addWidths x.width w >>= fun n => pure (some n)) _ _
      unfold addWidths
      split
      · refine Sat.pure ⟨trivial, hs.add x.width, ?_⟩
        intro hm n h
        simp only [NTree.TextsWithin] at hm
        simp at h
        omega
      · refine Sat.overflowing (.inr ⟨rfl, ?_⟩)
        intro hm
        simp only [NTree.TextsWithin] at hm
        omega
  | child i id t ih =>
    intro rid c sfx T m hc hs hcl
    cases hc with
    | child hr =>
      unfold firstLineLen
      refine Sat.bind' hr.eval_sat ?_ ?_
      · rintro x ⟨_, hx⟩
        refine (ih m hx hs hcl).mono ?_ ?_
        · rintro r ⟨h1, h2, h3⟩
          exact ⟨h1, h2, h3⟩
        · rintro e (h | h)
          · exact .inl fun hn => h hn.2
          · exact .inr h
      · rintro e rfl
        exact .inl fun hn => hn.2
  | choice a b iha ihb =>
    intro rid c sfx T m hc hs hcl
    cases hc with
    | choice ha hb =>
      unfold firstLineLen
      refine Sat.bind' hb.eval_sat ?_ ?_
      · rintro x ⟨_, hx⟩
        refine (ihb m hx hs hcl).mono ?_ ?_
        · rintro r ⟨h1, h2, h3⟩
          exact ⟨h1, h2, fun hm => h3 hm.2⟩
        · rintro e (h | ⟨h, h'⟩)
          · exact .inl fun hn => h hn.2
          · exact .inr ⟨h, fun hm => h' hm.2⟩
      · rintro e rfl
        exact .inl fun hn => hn.2
  | concat a b iha ihb =>
    intro rid c sfx T m hc hs hcl
    cases hc with
    | concat ha hb =>
      unfold firstLineLen
      refine Sat.bind' hb.eval_sat ?_ ?_
      · rintro y ⟨_, hy⟩
        refine Sat.bind' (ihb m hy hs hcl) ?_ ?_
        · rintro s ⟨h1, h2, h3⟩
          refine Sat.bind' ha.eval_sat ?_ ?_
          · rintro x ⟨_, hx⟩
            refine (iha m hx h2.clamp (clamped_map s)).mono ?_ ?_
            · rintro r ⟨g1, g2, g3⟩
              refine ⟨⟨g1, h1⟩, ?_, fun hm => g3 hm.1⟩
              simp only [NTree.seconds, List.append_assoc]
              exact g2
            · rintro e (h | ⟨h, h'⟩)
              · exact .inl fun hn => h hn.1
              · exact .inr ⟨h, fun hm => h' hm.1⟩
          · rintro e rfl
            exact .inl fun hn => hn.1
        · rintro e (h | ⟨h, h'⟩)
          · exact .inl fun hn => h hn.2
          · exact .inr ⟨h, fun hm => h' hm.2⟩
      · rintro e rfl
        exact .inl fun hn => hn.2

end PPP
