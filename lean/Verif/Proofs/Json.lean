import Verif.Spec.Json
import Verif.Proofs.EolRun
import Verif.Props.TreeStyle
import Verif.Props.Layout
/-
JSON documents: what the greedy layout of their notation trees displays.
-/
namespace PPP
variable {P : PrettyDoc}

/-! ### Reading tokens -/

/-- The characters of a token sequence. -/
def toksChars : List (Tok P) → List Char
  | [] => []
  | .text t :: T => t.str.toList ++ toksChars T
  | .nl ind :: T => '\n' :: (segsString ind).toList ++ toksChars T
  | .eol :: T => toksChars T
  | .mark _ :: T => toksChars T

theorem toksChars_append (A B : List (Tok P)) : toksChars (A ++ B) = toksChars A ++ toksChars B := by
  induction A with
  | nil => rfl
  | cons t A ih => cases t <;> simp [toksChars, ih]

theorem lexRun_append (A B : List Char) : ∀ s, lexRun s (A ++ B) =
    ((lexRun s A).1 ++ (lexRun (lexRun s A).2 B).1, (lexRun (lexRun s A).2 B).2) := by
  induction A with
  | nil => intro s; simp [lexRun]
  | cons c A ih => intro s; simp [lexRun, ih, List.append_assoc]

/-- Reading the characters of the tokens. -/
def Scan (s : Lex) (T : List (Tok P)) (out : List Char) (s' : Lex) : Prop :=
  lexRun s (toksChars T) = (out, s')

theorem Scan.append {s s1 s2 : Lex} {A B : List (Tok P)} {o o'} (h1 : Scan s A o s1) (h2 : Scan s1 B o' s2) :
    Scan s (A ++ B) (o ++ o') s2 := by
  unfold Scan at *
  rw [toksChars_append, lexRun_append, h1, h2]

/-! ### What trees display -/

/-- No line breaks. -/
def NTree.NoNl : NTree P → Prop
  | .newline _ => False
  | .concat a b => a.NoNl ∧ b.NoNl
  | .choice a b => a.NoNl ∧ b.NoNl
  | .child _ _ t => t.NoNl
  | _ => True

/-- However the choices are taken, there is a text after an end-of-line mark. -/
def DeadEnd (t : NTree P) : Prop := ∀ id T, Resolves id t T → eolRun false (erase T) = none

/-- However the choices are taken, displaying `t` leads from `(e0, s0)` to `(e1, s1)` and `out` is kept. -/
def FStep (C : Prop) (e0 : Bool) (s0 : Lex) (t : NTree P) (e1 : Bool) (s1 : Lex) (out : List Char) : Prop :=
  ∀ id T, Resolves id t T → eolRun e0 (erase T) = some e1 ∧ (C → Scan s0 (erase T) out s1)

/-- The greedy layout of `t` leads from `(e0, s0)` to `(e1, s1)` and `out` is kept. -/
def Step (C : Prop) (e0 : Bool) (s0 : Lex) (t : NTree P) (e1 : Bool) (s1 : Lex) (out : List Char) : Prop :=
  ∀ w id k st st' T, st.eol = e0 → Greedy w id t k st st' T →
    eolRun e0 (erase T) = some e1 ∧ (C → Scan s0 (erase T) out s1)

variable {C : Prop} {e0 e1 e2 : Bool} {s0 s1 s2 : Lex} {t a b : NTree P} {out out' : List Char}

theorem FStep.step (h : FStep C e0 s0 t e1 s1 out) : Step C e0 s0 t e1 s1 out :=
  fun _ _ _ _ _ _ _ hg => h _ _ (greedy_resolves hg)

theorem FStep.text {x : Textual P} (h : C → lexRun s0 x.str.toList = (out, s1)) :
    FStep C false s0 (.text x) false s1 out := by
  intro id T hr
  cases hr
  refine ⟨rfl, fun hC => ?_⟩
  simpa [Scan, erase, toksChars] using h hC

theorem FStep.empty : FStep (P := P) C e0 s0 .empty e0 s0 [] := by
  intro id T hr; cases hr; exact ⟨rfl, fun _ => rfl⟩

theorem FStep.mark : FStep (P := P) C e0 s0 .mark e0 s0 [] := by
  intro id T hr; cases hr; exact ⟨rfl, fun _ => rfl⟩

theorem FStep.eol : FStep (P := P) C e0 s0 .eol true s0 [] := by
  intro id T hr; cases hr; exact ⟨rfl, fun _ => rfl⟩

theorem FStep.newline {ind : List (Segment P)} (h : C → lexRun s0 ('\n' :: (segsString ind).toList) = (out, s1)) :
    FStep C e0 s0 (.newline ind) false s1 out := by
  intro id T hr
  cases hr
  refine ⟨rfl, fun hC => ?_⟩
  simpa [Scan, erase, toksChars] using h hC

theorem FStep.concat (ha : FStep C e0 s0 a e1 s1 out) (hb : FStep C e1 s1 b e2 s2 out') :
    FStep C e0 s0 (.concat a b) e2 s2 (out ++ out') := by
  intro id T hr
  cases hr with
  | concat h1 h2 =>
    obtain ⟨a1, a2⟩ := ha _ _ h1
    obtain ⟨b1, b2⟩ := hb _ _ h2
    rw [erase_append, eolRun_append, a1]
    exact ⟨b1, fun hC => (a2 hC).append (b2 hC)⟩

theorem FStep.child {i : Nat} {cid : Res P.Err P.Id} (h : FStep C e0 s0 t e1 s1 out) :
    FStep C e0 s0 (.child i cid t) e1 s1 out := by
  intro id T hr
  cases hr with
  | child h1 => exact h _ _ h1

theorem FStep.choice (ha : FStep C e0 s0 a e1 s1 out) (hb : FStep C e0 s0 b e1 s1 out) :
    FStep C e0 s0 (.choice a b) e1 s1 out := by
  intro id T hr
  cases hr with
  | choice_first h1 => simpa only [erase] using ha _ _ h1
  | choice_second h1 => simpa only [erase] using hb _ _ h1

theorem Step.concat (ha : Step C e0 s0 a e1 s1 out) (hb : Step C e1 s1 b e2 s2 out') :
    Step C e0 s0 (.concat a b) e2 s2 (out ++ out') := by
  intro w id k st st' T he hg
  cases hg with
  | concat h1 h2 =>
    obtain ⟨a1, a2⟩ := ha _ _ _ _ _ _ he h1
    have he1 := eolRun_lineAfter _ st e1 (by rw [he]; exact a1)
    rw [← greedy_lineAfter h1] at he1
    obtain ⟨b1, b2⟩ := hb _ _ _ _ _ _ he1 h2
    rw [erase_append, eolRun_append, a1]
    exact ⟨b1, fun hC => (a2 hC).append (b2 hC)⟩

theorem Step.child {i : Nat} {cid : Res P.Err P.Id} (h : Step C e0 s0 t e1 s1 out) :
    Step C e0 s0 (.child i cid t) e1 s1 out := by
  intro w id k st st' T he hg
  cases hg with
  | child h1 => exact h _ _ _ _ _ _ he h1

theorem DeadEnd.concat_left (h : DeadEnd a) : DeadEnd (.concat a b) := by
  intro id T hr
  cases hr with
  | concat h1 h2 => rw [erase_append, eolRun_append, h _ _ h1]; rfl

theorem DeadEnd.concat_right (ha : FStep C e0 s0 a e1 s1 out) (he : e0 = false) (he1 : e1 = false) (h : DeadEnd b) :
    DeadEnd (.concat a b) := by
  subst he he1
  intro id T hr
  cases hr with
  | concat h1 h2 => rw [erase_append, eolRun_append, (ha _ _ h1).1]; exact h _ _ h2

theorem DeadEnd.concat_text {x : Textual P} (ha : FStep C false s0 a true s1 out) :
    DeadEnd (.concat a (.text x)) := by
  intro id T hr
  cases hr with
  | concat h1 h2 => rw [erase_append, eolRun_append, (ha _ _ h1).1]; cases h2; rfl

theorem DeadEnd.child {i : Nat} {cid : Res P.Err P.Id} (h : DeadEnd t) : DeadEnd (.child i cid t) := by
  intro id T hr
  cases hr with
  | child h1 => exact h _ _ h1

/-- A tree without line breaks and choices that fits has no text after an end-of-line mark. -/
theorem not_deadEnd_of_fits {w : Nat} {st : LineSt} {k : List (NTree P)} {id : P.Id} {T : List (GTok P)}
    (hc : t.ChoiceFree) (hn : t.NoNl)
    (hr : Resolves id t T) (he : st.eol = false) (h : SecondsFit w st (t :: k)) : ¬ DeadEnd t := by
  intro hb
  have hb := hb _ _ hr
  -- the tokens, without the marks
  have key : ∀ {t : NTree P} {id : P.Id} {T : List (GTok P)}, Resolves id t T → t.ChoiceFree → t.NoNl →
      (∀ e, eolRun e (erase T) = eolRun e t.seconds) ∧ ∀ x ∈ t.seconds, Tok.notNl x = true := by
    intro t id T hr
    induction hr with
    | empty => intro _ _; exact ⟨fun _ => rfl, by simp [NTree.seconds]⟩
    | mark => intro _ _; exact ⟨fun _ => rfl, by simp [NTree.seconds]⟩
    | eol => intro _ _; exact ⟨fun _ => rfl, by simp [NTree.seconds, Tok.notNl]⟩
    | newline => intro _ h; exact absurd h (by simp [NTree.NoNl])
    | text => intro _ _; exact ⟨fun _ => rfl, by simp [NTree.seconds, Tok.notNl]⟩
    | child _ ih => intro hc hn; exact ih hc hn
    | concat _ _ ih1 ih2 =>
      intro hc hn
      obtain ⟨a1, a2⟩ := ih1 hc.1 hn.1
      obtain ⟨b1, b2⟩ := ih2 hc.2 hn.2
      refine ⟨?_, ?_⟩
      · intro e
        simp only [NTree.seconds]
        rw [erase_append, eolRun_append, eolRun_append, a1]
        congr 1
        funext e'
        exact b1 e'
      · intro x hx
        rcases List.mem_append.1 hx with hx | hx
        · exact a2 x hx
        · exact b2 x hx
    | choice_first _ _ => intro hc _; exact absurd hc (by simp [NTree.ChoiceFree])
    | choice_second _ _ => intro hc _; exact absurd hc (by simp [NTree.ChoiceFree])
  obtain ⟨h1, h2⟩ := key hr hc hn
  rw [h1] at hb
  -- the first line begins with them
  have hfl : firstLine ((t :: k).flatMap NTree.seconds) =
      t.seconds ++ firstLine (k.flatMap NTree.seconds) := by
    simp only [List.flatMap_cons, firstLine]
    rw [List.takeWhile_append_of_pos (by simpa using h2)]
  apply h.2
  rw [hfl, he]
  have : ∀ (S : List (Tok P)) (e : Bool), (∀ x ∈ S, Tok.notNl x = true) → eolRun e S = none → TextAfterEol e S := by
    intro S
    induction S with
    | nil => intro e _ h; simp [eolRun] at h
    | cons s S ih =>
      intro e hS h
      have hS' : ∀ x ∈ S, Tok.notNl x = true := fun x hx => hS x (List.mem_cons_of_mem _ hx)
      cases s with
      | text x =>
        cases e with
        | true => exact ⟨[], x, S, rfl, .inl rfl⟩
        | false =>
          simp only [eolRun] at h
          obtain ⟨A, y, D, h1, h2⟩ := ih false hS' (by simpa using h)
          exact ⟨.text x :: A, y, D, by simp [h1], by simpa using h2⟩
      | nl ind => exact absurd (hS _ List.mem_cons_self) (by simp [Tok.notNl])
      | eol =>
        obtain ⟨A, y, D, h1, h2⟩ := ih true hS' h
        exact ⟨.eol :: A, y, D, by simp [h1], .inr (by simp)⟩
      | mark i =>
        obtain ⟨A, y, D, h1, h2⟩ := ih e hS' h
        refine ⟨.mark i :: A, y, D, by simp [h1], ?_⟩
        simpa using h2
  obtain ⟨A, y, D, g1, g2⟩ := this _ _ h2 hb
  exact ⟨A, y, D ++ firstLine (k.flatMap NTree.seconds), by simp [g1], g2⟩

/-- A choice between a flat option and another one. -/
theorem Step.choice_flat (hc : a.ChoiceFree) (hn : a.NoNl) (ha : DeadEnd a ∨ FStep C false s0 a e1 s1 out)
    (hb : Step C false s0 b e1 s1 out) : Step C false s0 (.choice a b) e1 s1 out := by
  intro w id k st st' T he hg
  cases hg with
  | choice_first hf h1 =>
    rcases ha with ha | ha
    · exact absurd ha (not_deadEnd_of_fits hc hn (greedy_resolves h1) he hf)
    · simpa only [erase] using ha _ _ (greedy_resolves h1)
  | choice_second _ h1 => simpa only [erase] using hb _ _ _ _ _ _ he h1

end PPP
