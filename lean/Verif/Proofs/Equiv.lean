import Verif.Spec.Equiv
import Verif.Proofs.ErrKind
import Verif.Proofs.Denote
import Verif.Proofs.EolRun
/-
Equivalent notations have equivalent trees, and those have the same layout.
-/
namespace PPP
variable {P : PrettyDoc}

/-- Trees that behave in the same way: both have failures, or they have the same text if second options
    are taken, and the same greedy layouts (if no text follows an end-of-line mark in them). -/
structure TEquiv (t u : NTree P) : Prop where
  noFail : t.NoFail ↔ u.NoFail
  seconds' : t.NoFail → t.seconds = u.seconds
  greedy' : t.NoFail → ∀ {w id k st st' T}, eolRun st.eol T ≠ none →
    ((∃ G, Greedy w id t k st st' G ∧ erase G = T) ↔ ∃ G, Greedy w id u k st st' G ∧ erase G = T)

namespace TEquiv

theorem refl (t : NTree P) : TEquiv t t := ⟨.rfl, fun _ => rfl, fun _ {_ _ _ _ _ _} _ => .rfl⟩

theorem of_eq {t u : NTree P} (h : t = u) : TEquiv t u := h ▸ refl t

theorem symm {t u : NTree P} (h : TEquiv t u) : TEquiv u t :=
  ⟨h.noFail.symm, fun hn => (h.seconds' (h.noFail.2 hn)).symm, fun hn {_ _ _ _ _ _} ho => (h.greedy' (h.noFail.2 hn) ho).symm⟩

theorem trans {t u v : NTree P} (h : TEquiv t u) (h' : TEquiv u v) : TEquiv t v :=
  ⟨h.noFail.trans h'.noFail, fun hn => (h.seconds' hn).trans (h'.seconds' (h.noFail.1 hn)),
    fun hn {_ _ _ _ _ _} ho => (h.greedy' hn ho).trans (h'.greedy' (h.noFail.1 hn) ho)⟩

/-- Two trees with failures. -/
theorem failing {t u : NTree P} (ht : ¬ t.NoFail) (hu : ¬ u.NoFail) : TEquiv t u :=
  ⟨⟨fun h => (ht h).elim, fun h => (hu h).elim⟩, fun h => (ht h).elim, fun h => (ht h).elim⟩

theorem assoc (a b c : NTree P) : TEquiv (.concat (.concat a b) c) (.concat a (.concat b c)) := by
  refine ⟨by simp [NTree.NoFail, and_assoc], fun _ => by simp [NTree.seconds], fun _ => ?_⟩
  intro w id k st st' T ho
  constructor
  · rintro ⟨G, h, rfl⟩
    cases h with
    | concat h1 h2 =>
      cases h1 with
      | concat h0 h1 =>
        exact ⟨_, .concat (greedy_congr h0 (by simp [NTree.seconds])) (.concat h1 h2), by rw [List.append_assoc]⟩
  · rintro ⟨G, h, rfl⟩
    cases h with
    | concat h1 h2 =>
      cases h2 with
      | concat h2 h3 =>
        exact ⟨_, .concat (.concat (greedy_congr h1 (by simp [NTree.seconds])) h2) h3, by rw [List.append_assoc]⟩

theorem empty_left (a : NTree P) : TEquiv (.concat .empty a) a := by
  refine ⟨by simp [NTree.NoFail], fun _ => by simp [NTree.seconds], fun _ => ?_⟩
  intro w id k st st' T ho
  constructor
  · rintro ⟨G, h, rfl⟩
    cases h with
    | concat h1 h2 => cases h1; exact ⟨_, h2, rfl⟩
  · rintro ⟨G, h, rfl⟩; exact ⟨_, Greedy.concat .empty h, rfl⟩

theorem empty_right (a : NTree P) : TEquiv (.concat a .empty) a := by
  refine ⟨by simp [NTree.NoFail], fun _ => by simp [NTree.seconds], fun _ => ?_⟩
  intro w id k st st' T ho
  constructor
  · rintro ⟨G, h, rfl⟩
    cases h with
    | concat h1 h2 =>
      cases h2
      rw [List.append_nil]
      exact ⟨_, greedy_congr h1 (by simp [NTree.seconds]), rfl⟩
  · rintro ⟨G, h, rfl⟩
    have := Greedy.concat (greedy_congr h (k' := .empty :: k) (by simp [NTree.seconds])) .empty
    exact ⟨_, this, by rw [List.append_nil]⟩

theorem concat {a a' b b' : NTree P} (ha : TEquiv a a') (hb : TEquiv b b') :
    TEquiv (.concat a b) (.concat a' b') := by
  have key : ∀ {a a' b b' : NTree P}, TEquiv a a' → TEquiv b b' → (NTree.concat a b).NoFail →
      ∀ {w id k st st' T}, eolRun st.eol T ≠ none → (∃ G, Greedy w id (.concat a b) k st st' G ∧ erase G = T) →
        ∃ G, Greedy w id (.concat a' b') k st st' G ∧ erase G = T := by
    rintro a a' b b' ha hb hn w id k st st' T ho ⟨G, h, rfl⟩
    cases h with
    | concat h1 h2 =>
      rw [erase_append] at ho
      obtain ⟨o1, o2⟩ := eolRun_split h1 ho
      obtain ⟨G1, g1, e1⟩ := (ha.greedy' hn.1 o1).1 ⟨_, h1, rfl⟩
      obtain ⟨G2, g2, e2⟩ := (hb.greedy' hn.2 o2).1 ⟨_, h2, rfl⟩
      exact ⟨_, .concat (greedy_congr g1 (by simp [hb.seconds' hn.2])) g2, by rw [erase_append, erase_append, e1, e2]⟩
  have hn : (NTree.concat a b).NoFail ↔ (NTree.concat a' b').NoFail := by
    simp only [NTree.NoFail, ha.noFail, hb.noFail]
  exact ⟨hn, fun h => by simp only [NTree.seconds, ha.seconds' h.1, hb.seconds' h.2],
    fun h {_ _ _ _ _ _} ho => ⟨key ha hb h ho, key ha.symm hb.symm (hn.1 h) ho⟩⟩

theorem choice {a a' b b' : NTree P} (ha : TEquiv a a') (hb : TEquiv b b') :
    TEquiv (.choice a b) (.choice a' b') := by
  have key : ∀ {a a' b b' : NTree P}, TEquiv a a' → TEquiv b b' → (NTree.choice a b).NoFail →
      ∀ {w id k st st' T}, eolRun st.eol T ≠ none → (∃ G, Greedy w id (.choice a b) k st st' G ∧ erase G = T) →
        ∃ G, Greedy w id (.choice a' b') k st st' G ∧ erase G = T := by
    rintro a a' b b' ha hb hn w id k st st' T ho ⟨G, h, rfl⟩
    cases h with
    | choice_first hf h =>
      obtain ⟨G, g, e⟩ := (ha.greedy' hn.1 ho).1 ⟨_, h, rfl⟩
      exact ⟨_, .choice_first (by simpa [SecondsFit, ha.seconds' hn.1] using hf) g, e⟩
    | choice_second hf h =>
      obtain ⟨G, g, e⟩ := (hb.greedy' hn.2 ho).1 ⟨_, h, rfl⟩
      exact ⟨_, .choice_second (by simpa [SecondsFit, ha.seconds' hn.1] using hf) g, e⟩
  have hn : (NTree.choice a b).NoFail ↔ (NTree.choice a' b').NoFail := by
    simp only [NTree.NoFail, ha.noFail, hb.noFail]
  exact ⟨hn, fun h => by simp only [NTree.seconds, hb.seconds' h.2],
    fun h {_ _ _ _ _ _} ho => ⟨key ha hb h ho, key ha.symm hb.symm (hn.1 h) ho⟩⟩

theorem child {i id} {t t' : NTree P} (ht : TEquiv t t') : TEquiv (.child i id t) (.child i id t') := by
  have key : ∀ {t t' : NTree P}, TEquiv t t' → (NTree.child i id t).NoFail →
      ∀ {w n k st st' T}, eolRun st.eol T ≠ none → (∃ G, Greedy w n (.child i id t) k st st' G ∧ erase G = T) →
        ∃ G, Greedy w n (.child i id t') k st st' G ∧ erase G = T := by
    rintro t t' ht hn w n k st st' T ho ⟨G, h, rfl⟩
    cases h with
    | child h =>
      obtain ⟨G, g, e⟩ := (ht.greedy' hn.2 ho).1 ⟨_, h, rfl⟩
      exact ⟨_, .child g, e⟩
  have hn : (NTree.child i id t).NoFail ↔ (NTree.child i id t').NoFail := by
    simp only [NTree.NoFail, ht.noFail]
  exact ⟨hn, fun h => by simp only [NTree.seconds, ht.seconds' h.2],
    fun h {_ _ _ _ _ _} ho => ⟨key ht h ho, key ht.symm (hn.1 h) ho⟩⟩

theorem choice_self (a : NTree P) : TEquiv (.choice a a) a := by
  refine ⟨by simp [NTree.NoFail], fun _ => rfl, fun _ => ?_⟩
  intro w id k st st' T ho
  constructor
  · rintro ⟨G, h, rfl⟩
    cases h with
    | choice_first _ h => exact ⟨_, h, rfl⟩
    | choice_second _ h => exact ⟨_, h, rfl⟩
  · rintro ⟨G, h, rfl⟩
    by_cases hf : SecondsFit w st (a :: k)
    · exact ⟨_, .choice_first hf h, rfl⟩
    · exact ⟨_, .choice_second hf h, rfl⟩

theorem choice_concat (a b x : NTree P) :
    TEquiv (.concat (.choice a b) x) (.choice (.concat a x) (.concat b x)) := by
  refine ⟨⟨fun h => ⟨⟨h.1.1, h.2⟩, ⟨h.1.2, h.2⟩⟩, fun h => ⟨⟨h.1.1, h.2.1⟩, h.1.2⟩⟩,
    fun _ => rfl, fun _ => ?_⟩
  intro w id k st st' T ho
  have hs : SecondsFit w st (a :: x :: k) ↔ SecondsFit w st (.concat a x :: k) := by
    simp [SecondsFit, NTree.seconds]
  constructor
  · rintro ⟨G, h, rfl⟩
    cases h with
    | concat h1 h2 =>
      cases h1 with
      | choice_first hf h => exact ⟨_, .choice_first (hs.1 hf) (.concat h h2), rfl⟩
      | choice_second hf h => exact ⟨_, .choice_second (fun h => hf (hs.2 h)) (.concat h h2), rfl⟩
  · rintro ⟨G, h, rfl⟩
    cases h with
    | choice_first hf h =>
      cases h with
      | concat h h2 => exact ⟨_, .concat (.choice_first (hs.2 hf) h) h2, rfl⟩
    | choice_second hf h =>
      cases h with
      | concat h h2 => exact ⟨_, .concat (.choice_second (fun h => hf (hs.1 h)) h) h2, rfl⟩

/-- A leaf before a choice, on the same line. -/
theorem concat_choice {x : NTree P} (hx : x = .empty ∨ x = .mark ∨ x = .eol ∨ ∃ t, x = .text t) (a b : NTree P) :
    TEquiv (.concat x (.choice a b)) (.choice (.concat x a) (.concat x b)) := by
  refine ⟨?_, fun _ => rfl, fun _ => ?_⟩
  · simp only [NTree.NoFail]
    exact ⟨fun h => ⟨⟨h.1, h.2.1⟩, h.1, h.2.2⟩, fun h => ⟨h.1.1, h.1.2, h.2.2⟩⟩
  intro w id k st st' T ho
  have key : ∀ {st1 G}, Greedy w id x (.choice a b :: k) st st1 G → eolRun st.eol (erase G) ≠ none →
      (∀ k', Greedy w id x k' st st1 G) ∧ (SecondsFit w st1 (a :: k) ↔ SecondsFit w st (.concat x a :: k)) := by
    intro st1 G h ho
    rcases hx with rfl | rfl | rfl | ⟨t, rfl⟩
    · cases h; exact ⟨fun _ => .empty, by simp [SecondsFit, NTree.seconds]⟩
    · cases h; exact ⟨fun _ => .mark, by simp [SecondsFit, NTree.seconds]⟩
    · cases h
      refine ⟨fun _ => .eol, ?_⟩
      simp [SecondsFit, NTree.seconds]
    · cases h
      refine ⟨fun _ => .text, ?_⟩
      have he : st.eol = false := by
        cases h : st.eol with
        | false => rfl
        | true => simp [erase, eolRun, h] at ho
      simp [SecondsFit, NTree.seconds, lineFits_text, he]
  have back : ∀ {k' st1 G}, Greedy w id x k' st st1 G → Greedy w id x (.choice a b :: k) st st1 G := by
    intro k' st1 G h
    rcases hx with rfl | rfl | rfl | ⟨t, rfl⟩ <;> cases h <;> constructor
  constructor
  · rintro ⟨G, h, rfl⟩
    cases h with
    | concat h1 h2 =>
      rw [erase_append] at ho
      obtain ⟨o1, o2⟩ := eolRun_split h1 ho
      obtain ⟨c1, c2⟩ := key h1 o1
      cases h2 with
      | choice_first hf h => exact ⟨_, .choice_first (c2.1 hf) (.concat (c1 _) h), by simp [erase]⟩
      | choice_second hf h =>
        exact ⟨_, .choice_second (fun h => hf (c2.2 h)) (.concat (c1 _) h), by simp [erase]⟩
  · rintro ⟨G, h, rfl⟩
    cases h with
    | choice_first hf h =>
      cases h with
      | concat h1 h2 =>
        rw [erase, erase_append] at ho
        obtain ⟨o1, o2⟩ := eolRun_split h1 ho
        obtain ⟨c1, c2⟩ := key (back h1) o1
        exact ⟨_, .concat (c1 _) (.choice_first (c2.2 hf) h2), by simp [erase]⟩
    | choice_second hf h =>
      cases h with
      | concat h1 h2 =>
        rw [erase, erase_append] at ho
        obtain ⟨o1, o2⟩ := eolRun_split h1 ho
        obtain ⟨c1, c2⟩ := key (back h1) o1
        exact ⟨_, .concat (c1 _) (.choice_second (fun h => hf (c2.1 h)) h2), by simp [erase]⟩

/-- Trees without choices, line breaks and children. -/
inductive Flat : NTree P → Prop where
  | empty : Flat .empty
  | mark : Flat .mark
  | eol : Flat .eol
  | text {t} : Flat (.text t)
  | concat {a b} : Flat a → Flat b → Flat (.concat a b)

/-- What is before a choice, on the same line. -/
theorem concat_choice' {x : NTree P} (hx : Flat x) : ∀ a b : NTree P,
    TEquiv (.concat x (.choice a b)) (.choice (.concat x a) (.concat x b)) := by
  induction hx with
  | empty => exact .concat_choice (by simp)
  | mark => exact .concat_choice (by simp)
  | eol => exact .concat_choice (by simp)
  | text => exact .concat_choice (by simp)
  | concat _ _ iha ihb =>
    intro a b
    exact (TEquiv.assoc _ _ _).trans (((TEquiv.refl _).concat (ihb a b)).trans ((iha _ _).trans
      ((TEquiv.assoc _ _ _).symm.choice (TEquiv.assoc _ _ _).symm)))

/-- The first option once more. -/
theorem choice_absorb (a b : NTree P) : TEquiv (.choice a (.choice a b)) (.choice a b) := by
  refine ⟨by simp [NTree.NoFail], fun _ => rfl, fun _ => ?_⟩
  intro w id k st st' T ho
  constructor
  · rintro ⟨G, h, rfl⟩
    cases h with
    | choice_first hf h => exact ⟨_, .choice_first hf h, rfl⟩
    | choice_second hf h =>
      cases h with
      | choice_first hf' h => exact absurd hf' hf
      | choice_second _ h => exact ⟨_, .choice_second hf h, rfl⟩
  · rintro ⟨G, h, rfl⟩
    cases h with
    | choice_first hf h => exact ⟨_, .choice_first hf h, rfl⟩
    | choice_second hf h => exact ⟨_, .choice_second hf (.choice_second hf h), rfl⟩

/-- Choices can be grouped either way, if the middle option fits whenever the first one does. -/
theorem choice_assoc_at {w : Nat} {a b : NTree P} (c : NTree P) {id k st st' T}
    (hab : SecondsFit w st (a :: k) → SecondsFit w st (b :: k)) :
    (∃ G, Greedy w id (.choice (.choice a b) c) k st st' G ∧ erase G = T) ↔
      ∃ G, Greedy w id (.choice a (.choice b c)) k st st' G ∧ erase G = T := by
  have hb : SecondsFit w st (.choice a b :: k) ↔ SecondsFit w st (b :: k) := Iff.rfl
  constructor
  · rintro ⟨G, h, rfl⟩
    cases h with
    | choice_first hf h =>
      cases h with
      | choice_first hf' h => exact ⟨_, .choice_first hf' h, rfl⟩
      | choice_second hf' h => exact ⟨_, .choice_second hf' (.choice_first (hb.1 hf) h), rfl⟩
    | choice_second hf h =>
      exact ⟨_, .choice_second (fun h => hf (hb.2 (hab h))) (.choice_second (fun h => hf (hb.2 h)) h), rfl⟩
  · rintro ⟨G, h, rfl⟩
    cases h with
    | choice_first hf h => exact ⟨_, .choice_first (hb.2 (hab hf)) (.choice_first hf h), rfl⟩
    | choice_second hf h =>
      cases h with
      | choice_first hf' h => exact ⟨_, .choice_first (hb.2 hf') (.choice_second hf h), rfl⟩
      | choice_second hf' h => exact ⟨_, .choice_second (fun h => hf' (hb.1 h)) h, rfl⟩

@[inherit_doc choice_assoc_at]
theorem choice_assoc {a b : NTree P} (c : NTree P)
    (hab : a.NoFail → b.NoFail → ∀ w st k, SecondsFit w st (a :: k) → SecondsFit w st (b :: k)) :
    TEquiv (.choice (.choice a b) c) (.choice a (.choice b c)) :=
  ⟨by simp [NTree.NoFail, and_assoc], fun _ => rfl,
    fun hn {_ _ _ _ _ _} _ => choice_assoc_at c (hab hn.1.1 hn.1.2 _ _ _)⟩

end TEquiv

/-! ### Notations -/

/-- What `Left` and `Right` stand for is the same. -/
def EnvEquiv : Option (FoldEnv P) → Option (FoldEnv P) → Prop
  | none, none => True
  | some e, some e' => e.next = e'.next ∧ ∀ c, TEquiv (e.acc c) (e'.acc c)
  | _, _ => False

theorem EnvEquiv.symm {e e' : Option (FoldEnv P)} (h : EnvEquiv e e') : EnvEquiv e' e := by
  cases e <;> cases e' <;> first | trivial | exact h.elim | exact ⟨h.1.symm, fun c => (h.2 c).symm⟩

theorem EnvEquiv.refl (e : Option (FoldEnv P)) : EnvEquiv e e := by
  cases e
  · trivial
  · exact ⟨rfl, fun c => .refl _⟩

theorem orFail_equiv {α : Type} {c c' : Call P.Err α} {f f' : α → NTree P} (hc : c = c')
    (h : ∀ a, c = .ok a → TEquiv (f a) (f' a)) : TEquiv (.orFail c f) (.orFail c' f') := by
  subst hc
  cases c with
  | error e => exact .refl _
  | ok a => exact h a rfl

/-- The tree of a fold, after `k + 1` children. -/
def foldTree (node : P.Node) (kid : Nat → Ctx P → NTree P) (first join : Notation P.Label P.Cond) :
    Nat → Ctx P → NTree P :=
  Nat.rec (motive := fun _ => Ctx P → NTree P)
    (fun c => first.tree node kid none c)
    (fun k acc c => .orFail (P.childAt node (k + 1)) fun _ =>
      join.tree node kid (some ⟨acc, k + 1⟩) c)

/-- Two nodes, and what their children display. -/
structure SameNode (R : P.Node → P.Node → Prop) (p q : P.Node) (kid kid' : Nat → Ctx P → NTree P) : Prop where
  alike : Alike R
  rel : R p q
  kids : ∀ j c, TEquiv (kid j c) (kid' j c)

theorem inspected_alike {R : P.Node → P.Node → Prop} {p q : P.Node} (hR : Alike R) (hpq : R p q)
    {env env' : Option (FoldEnv P)} (he : EnvEquiv env env') (pos : CheckPos) :
    (∃ f, inspected p env pos = .error f ∧ inspected q env' pos = .error f) ∨
      ∃ p' q', inspected p env pos = .ok p' ∧ inspected q env' pos = .ok q' ∧ R p' q' := by
  have hchild : ∀ j, (∃ f, Call.toRes (P.childAt p j) = .error f ∧ Call.toRes (P.childAt q j) = .error f) ∨
      ∃ p' q', Call.toRes (P.childAt p j) = .ok p' ∧ Call.toRes (P.childAt q j) = .ok q' ∧ R p' q' := by
    intro j
    cases hc : P.childAt p j with
    | error e =>
      rw [hR.child_error p q j e hpq hc]
      exact .inl ⟨_, rfl, rfl⟩
    | ok c =>
      obtain ⟨d, h1, h2⟩ := hR.child p q j c hpq hc
      rw [h1]
      exact .inr ⟨c, d, rfl, rfl, h2⟩
  cases pos with
  | here => exact .inr ⟨p, q, rfl, rfl, hpq⟩
  | child i =>
    simp only [inspected, toRes_bind, ← hR.numChildren p q hpq]
    cases P.numChildren p with
    | error e => exact .inl ⟨_, rfl, rfl⟩
    | ok n =>
      cases n with
      | none => exact .inl ⟨_, rfl, rfl⟩
      | some n =>
        simp only
        cases childIndex i n with
        | none => exact .inl ⟨_, rfl, rfl⟩
        | some j => exact hchild j
  | leftChild =>
    cases env <;> cases env'
    · exact .inl ⟨_, rfl, rfl⟩
    · exact he.elim
    · exact he.elim
    · simp only [inspected, ← he.1]
      exact hchild _
  | rightChild =>
    cases env <;> cases env'
    · exact .inl ⟨_, rfl, rfl⟩
    · exact he.elim
    · exact he.elim
    · simp only [inspected, ← he.1]
      exact hchild _

/-- The same notation on two nodes that are alike. -/
theorem tree_lift {R : P.Node → P.Node → Prop} {p q : P.Node} {kid kid' : Nat → Ctx P → NTree P}
    (h : SameNode R p q kid kid') (a : Notation P.Label P.Cond) : ∀ {env env'}, EnvEquiv env env' →
    ∀ c, TEquiv (a.tree p kid env c) (a.tree q kid' env' c) := by
  have hn := h.alike.numChildren p q h.rel
  induction a with
  | empty => intros; exact .refl _
  | newline => intros; exact .refl _
  | endOfLine => intros; exact .refl _
  | literal s => intros; exact .refl _
  | focusMark => intros; exact .refl _
  | text =>
    intro env env' he c
    refine orFail_equiv hn ?_
    intro n _
    cases n with
    | some n => exact .refl _
    | none => exact orFail_equiv (h.alike.unwrapText p q h.rel) (fun _ _ => .refl _)
  | flat a ih => intro env env' he c; exact ih he _
  | indent pre l a ih =>
    intro env env' he c
    cases l with
    | none => exact ih he _
    | some l => exact orFail_equiv (h.alike.lookupStyle p q l h.rel) (fun s _ => ih he _)
  | concat a b iha ihb => intro env env' he c; exact .concat (iha he c) (ihb he c)
  | choice a b iha ihb =>
    intro env env' he c
    simp only [Notation.tree]
    split
    · exact iha he c
    · exact .choice (iha he c) (ihb he c)
  | check cond pos a b iha ihb =>
    intro env env' he c
    simp only [Notation.tree]
    rcases inspected_alike h.alike h.rel he pos with ⟨f, h1, h2⟩ | ⟨p', q', h1, h2, h3⟩
    · rw [h1, h2]; exact .refl _
    · rw [h1, h2]
      refine orFail_equiv (h.alike.condition p' q' cond h3) ?_
      rintro (_ | _) _
      · exact ihb he c
      · exact iha he c
  | child i =>
    intro env env' he c
    refine orFail_equiv hn ?_
    intro n _
    cases n with
    | none => exact .refl _
    | some n =>
      simp only
      cases childIndex i n with
      | none => exact .refl _
      | some j => exact h.kids j c
  | style l a ih =>
    intro env env' he c
    exact orFail_equiv (h.alike.lookupStyle p q l h.rel) (fun s _ => ih he _)
  | count z o m ihz iho ihm =>
    intro env env' he c
    refine orFail_equiv hn ?_
    intro n _
    match n with
    | none => exact .refl _
    | some 0 => exact ihz he c
    | some 1 => exact iho he c
    | some (k + 2) => exact ihm he c
  | fold first join ihf ihj =>
    intro env env' he c
    refine orFail_equiv hn ?_
    intro n hcount
    match n, hcount with
    | none, _ => exact .refl _
    | some 0, _ => exact .refl _
    | some (n + 1), hcount =>
      have key : ∀ k ≤ n, ∀ c, TEquiv (foldTree p kid first join k c) (foldTree q kid' first join k c) := by
        intro k
        induction k with
        | zero => intro _ c; exact ihf (env := none) (env' := none) trivial c
        | succ k ih =>
          intro hk c
          obtain ⟨ch, hch⟩ := h.alike.access p q (n + 1) (k + 1) h.rel hcount (by omega)
          obtain ⟨dh, hdh, _⟩ := h.alike.child p q (k + 1) ch h.rel hch
          change TEquiv (.orFail (P.childAt p (k + 1)) _) (.orFail (P.childAt q (k + 1)) _)
          rw [hch, hdh]
          exact ihj (env := some ⟨foldTree p kid first join k, k + 1⟩)
            (env' := some ⟨foldTree q kid' first join k, k + 1⟩) ⟨rfl, ih (by omega)⟩ c
      exact key n (Nat.le_refl n) c
  | left =>
    intro env env' he c
    cases env <;> cases env'
    · exact .refl _
    · exact he.elim
    · exact he.elim
    · exact he.2 c
  | right =>
    intro env env' he c
    cases env <;> cases env'
    · exact .refl _
    · exact he.elim
    · exact he.elim
    · simp only [Notation.tree, ← he.1]
      exact h.kids _ c

/-- Equality relates nodes that are alike. -/
theorem sameNode_refl {R : P.Node → P.Node → Prop} {p q : P.Node} {kid kid'} (h : SameNode R p q kid kid') :
    ∃ R', SameNode (P := P) R' p p kid kid := by
  refine ⟨fun x y => x = y ∧ ∃ z, R x z, ⟨?_, ⟨rfl, q, h.rel⟩, fun _ _ => .refl _⟩⟩
  have hR := h.alike
  constructor
  · rintro p q ⟨rfl, _⟩; rfl
  · rintro p q ⟨rfl, _⟩; rfl
  · rintro p q c ⟨rfl, _⟩; rfl
  · rintro p q l ⟨rfl, _⟩; rfl
  · rintro p q ⟨rfl, _⟩; rfl
  · rintro p q ⟨rfl, _⟩; rfl
  · rintro p q i c ⟨rfl, z, hz⟩ hc
    obtain ⟨d, _, hd⟩ := hR.child p z i c hz hc
    exact ⟨c, hc, rfl, d, hd⟩
  · rintro p q i e ⟨rfl, _⟩ h; exact h
  · rintro p q a nc ⟨rfl, _⟩ _ h; exact ⟨a, h, .refl a⟩
  · rintro p q e ⟨rfl, _⟩ h; exact h
  · rintro p q n i ⟨rfl, z, hz⟩ hn hi; exact hR.access p z n i hz hn hi
  · rintro p q ⟨rfl, z, hz⟩; exact hR.count p z hz

theorem tree_env {R : P.Node → P.Node → Prop} {p q : P.Node} {kid kid' : Nat → Ctx P → NTree P}
    (h : SameNode R p q kid kid') (a : Notation P.Label P.Cond) {env env'} (he : EnvEquiv env env')
    (c : Ctx P) : TEquiv (a.tree p kid env c) (a.tree p kid env' c) := by
  obtain ⟨R', h'⟩ := sameNode_refl h
  exact tree_lift h' a he c

theorem childIndex_ofNat {k n : Nat} (h : k < n) : childIndex (k : Int) n = some k := by
  simp [childIndex]
  omega

/-- The body of a join, with its `Left` and `Right` written out. -/
theorem inJoin_tree {p : P.Node} {kid : Nat → Ctx P → NTree P} {n k : Nat}
    (hn : P.numChildren p = .ok (some n)) (hk : k + 1 < n)
    (left : Notation P.Label P.Cond) (acc : Ctx P → NTree P) (hacc : ∀ c, left.tree p kid none c = acc c)
    (a : Notation P.Label P.Cond) : ∀ c,
    (a.inJoin left (k + 1)).tree p kid none c = a.tree p kid (some ⟨acc, k + 1⟩) c := by
  induction a with
  | empty => intro c; rfl
  | newline => intro c; rfl
  | endOfLine => intro c; rfl
  | literal s => intro c; rfl
  | focusMark => intro c; rfl
  | text => intro c; rfl
  | child i => intro c; rfl
  | fold f j => intro c; rfl
  | flat a ih => intro c; exact ih _
  | indent pre l a ih =>
    intro c
    cases l with
    | none => exact ih _
    | some l => simp only [Notation.inJoin, Notation.tree, ih]
  | concat a b iha ihb => intro c; simp only [Notation.inJoin, Notation.tree, iha, ihb]
  | choice a b iha ihb => intro c; simp only [Notation.inJoin, Notation.tree, iha, ihb]
  | style l a ih => intro c; simp only [Notation.inJoin, Notation.tree, ih]
  | count z o m ihz iho ihm => intro c; simp only [Notation.inJoin, Notation.tree, ihz, iho, ihm]
  | check cond pos a b iha ihb =>
    intro c
    have hchild : ∀ j : Nat, j < n → inspected p (none : Option (FoldEnv P)) (.child j) =
        Call.toRes (P.childAt p j) := by
      intro j hj
      simp only [inspected, toRes_bind, hn, childIndex_ofNat hj]
    cases pos with
    | here => simp only [Notation.inJoin, Notation.tree, iha, ihb]; rfl
    | child i => simp only [Notation.inJoin, Notation.tree, iha, ihb]; rfl
    | leftChild =>
      have h1 : (((k + 1 : Nat) : Int) - 1) = (k : Nat) := by omega
      simp only [Notation.inJoin, Notation.tree, iha, ihb]
      rw [h1, hchild k (by omega)]
      rfl
    | rightChild =>
      simp only [Notation.inJoin, Notation.tree, iha, ihb]
      rw [hchild (k + 1) hk]
      rfl
  | left => intro c; exact hacc c
  | right =>
    intro c
    simp only [Notation.inJoin, Notation.tree, hn, NTree.orFail, childIndex_ofNat hk]

/-- A fold is its unfolding. -/
theorem unfold_tree {p : P.Node} {kid : Nat → Ctx P → NTree P} {n : Nat}
    (hn : P.numChildren p = .ok (some n)) (hacc : ∀ i < n, ∃ c, P.childAt p i = .ok c)
    (first join : Notation P.Label P.Cond) (env : Option (FoldEnv P)) (c : Ctx P) :
    (Notation.fold first join).tree p kid env c = (Notation.unfold first join n).tree p kid none c := by
  cases n with
  | zero => simp only [Notation.tree, hn, NTree.orFail, Notation.unfold]
  | succ n =>
    have key : ∀ k ≤ n, ∀ c, foldTree p kid first join k c =
        (Notation.unfold first join (k + 1)).tree p kid none c := by
      intro k
      induction k with
      | zero => intro _ c; rfl
      | succ k ih =>
        intro hk c
        obtain ⟨ch, hch⟩ := hacc (k + 1) (by omega)
        have h1 : foldTree p kid first join (k + 1) c =
            join.tree p kid (some ⟨foldTree p kid first join k, k + 1⟩) c := by
          change NTree.orFail (P.childAt p (k + 1)) _ = _
          rw [hch]
          rfl
        rw [h1]
        exact (inJoin_tree hn (by omega) _ _ (fun c => (ih (by omega) c).symm) join c).symm
    simp only [Notation.tree, hn, NTree.orFail]
    exact key n (Nat.le_refl n) c

theorem closed_tree {p : P.Node} {kid : Nat → Ctx P → NTree P} (a : Notation P.Label P.Cond)
    (h : a.Closed) : ∀ (env env' : Option (FoldEnv P)) c, a.tree p kid env c = a.tree p kid env' c := by
  induction a with
  | left => exact h.elim
  | right => exact h.elim
  | flat a ih => intro env env' c; exact ih h env env' _
  | indent pre l a ih =>
    intro env env' c
    cases l with
    | none => exact ih h env env' _
    | some l => simp only [Notation.tree, ih h env env']
  | concat a b iha ihb => intro env env' c; simp only [Notation.tree, iha h.1 env env', ihb h.2 env env']
  | choice a b iha ihb => intro env env' c; simp only [Notation.tree, iha h.1 env env', ihb h.2 env env']
  | style l a ih => intro env env' c; simp only [Notation.tree, ih h env env']
  | count z o m ihz iho ihm =>
    intro env env' c
    simp only [Notation.tree, ihz h.1 env env', iho h.2.1 env env', ihm h.2.2 env env']
  | check cond pos a b iha ihb =>
    intro env env' c
    obtain ⟨h1, h2, h3, h4⟩ := h
    cases pos with
    | leftChild => exact absurd rfl h1
    | rightChild => exact absurd rfl h2
    | here => simp only [Notation.tree, iha h3 env env', ihb h4 env env', inspected]
    | child i => simp only [Notation.tree, iha h3 env env', ihb h4 env env', inspected]
  | _ => intro env env' c; rfl

theorem inJoin_closed {L C : Type} {left : Notation L C} (hl : left.Closed) (k : Nat) (a : Notation L C) :
    (a.inJoin left k).Closed := by
  induction a with
  | left => exact hl
  | check c pos a b iha ihb => cases pos <;> exact ⟨by simp, by simp, iha, ihb⟩
  | concat a b iha ihb => exact ⟨iha, ihb⟩
  | choice a b iha ihb => exact ⟨iha, ihb⟩
  | count a b c iha ihb ihc => exact ⟨iha, ihb, ihc⟩
  | flat a ih => exact ih
  | indent s l a ih => exact ih
  | style l a ih => exact ih
  | _ => trivial

theorem unfold_closed {L C : Type} {first : Notation L C} (hf : first.Closed) (join : Notation L C) (n : Nat) :
    (Notation.unfold first join n).Closed := by
  induction n with
  | zero => trivial
  | succ n ih =>
    cases n with
    | zero => exact hf
    | succ n => exact inJoin_closed ih _ join

theorem add_eq_concat {L C : Type} (a b : Notation L C) : a + b = .concat a b := rfl

/-- Two trees that are equal if no method fails. -/
macro "equal_or_failing" : tactic => `(tactic|
  (try simp only [NTree.orFail]
   repeat' first
     | exact TEquiv.refl _
     | (refine TEquiv.failing ?_ ?_ <;> (simp [NTree.NoFail]; done))
     | split))

/-- What is on one line, is on one line. -/
theorem oneLine_tree {node : P.Node} {kid : Nat → Ctx P → NTree P} {env : Option (FoldEnv P)}
    (x : Notation P.Label P.Cond) : x.oneLine = true → ∀ {c}, (x.tree node kid env c).NoFail →
      TEquiv.Flat (x.tree node kid env c) := by
  induction x with
  | empty => intro _ c _; exact .empty
  | endOfLine => intro _ c _; exact .eol
  | literal s => intro _ c _; exact .text
  | focusMark => intro _ c _; exact .mark
  | text =>
    intro _ c hn
    simp only [Notation.tree] at hn ⊢
    cases h1 : P.numChildren node with
    | error e => simp [h1, NTree.orFail, NTree.NoFail] at hn
    | ok n =>
      cases n with
      | some n => simp [h1, NTree.orFail, NTree.NoFail] at hn
      | none =>
        cases ht : P.unwrapText node with
        | error e => simp [h1, ht, NTree.orFail, NTree.NoFail] at hn
        | ok s => exact .text
  | concat a b iha ihb =>
    intro h c hn
    simp only [Notation.oneLine, Bool.and_eq_true] at h
    exact .concat (iha h.1 hn.1) (ihb h.2 hn.2)
  | flat a ih => intro h c hn; exact ih h hn
  | indent s l a ih =>
    intro h c hn
    cases l with
    | none => exact ih h hn
    | some l =>
      simp only [Notation.tree] at hn ⊢
      cases hl : P.lookupStyle node l with
      | error e => simp [hl, NTree.orFail, NTree.NoFail] at hn
      | ok s => simp only [hl, NTree.orFail] at hn ⊢; exact ih h hn
  | style l a ih =>
    intro h c hn
    simp only [Notation.tree] at hn ⊢
    cases hl : P.lookupStyle node l with
    | error e => simp [hl, NTree.orFail, NTree.NoFail] at hn
    | ok s => simp only [hl, NTree.orFail] at hn ⊢; exact ih h hn
  | check cond pos a b iha ihb =>
    intro h c hn
    simp only [Notation.oneLine, Bool.and_eq_true] at h
    simp only [Notation.tree] at hn ⊢
    cases hi : inspected node env pos with
    | error e => simp [hi, NTree.NoFail] at hn
    | ok p =>
      simp only [hi] at hn ⊢
      cases hc : P.condition p cond with
      | error e => simp [hc, NTree.orFail, NTree.NoFail] at hn
      | ok v =>
        simp only [hc, NTree.orFail] at hn ⊢
        cases v with
        | true => exact iha h.1 hn
        | false => exact ihb h.2 hn
  | count z o m ihz iho ihm =>
    intro h c hn
    simp only [Notation.oneLine, Bool.and_eq_true] at h
    simp only [Notation.tree] at hn ⊢
    cases h1 : P.numChildren node with
    | error e => simp [h1, NTree.orFail, NTree.NoFail] at hn
    | ok n =>
      simp only [h1, NTree.orFail] at hn ⊢
      match n with
      | none => simp [NTree.NoFail] at hn
      | some 0 => exact ihz h.1.1 hn
      | some 1 => exact iho h.1.2 hn
      | some (k + 2) => exact ihm h.2 hn
  | _ => intro h; simp [Notation.oneLine] at h

/-- What starts a new line displays a line break first. -/
theorem startsLine_seconds {node : P.Node} {kid : Nat → Ctx P → NTree P} {env : Option (FoldEnv P)}
    (b : Notation P.Label P.Cond) : b.startsLine = true → ∀ {c}, (b.tree node kid env c).NoFail →
      ∃ ind T, (b.tree node kid env c).seconds = .nl ind :: T := by
  induction b with
  | newline => intro _ c _; exact ⟨_, _, rfl⟩
  | concat a b iha _ =>
    intro h c hn
    obtain ⟨ind, T, e⟩ := iha h hn.1
    exact ⟨ind, T ++ (b.tree node kid env c).seconds, by simp [Notation.tree, NTree.seconds, e]⟩
  | flat a ih => intro h c hn; exact ih h hn
  | choice a b iha ihb =>
    intro h c hn
    simp only [Notation.startsLine, Bool.and_eq_true] at h
    simp only [Notation.tree] at hn ⊢
    split at hn
    · rename_i hf; simp only [hf, if_true]; exact iha h.1 hn
    · rename_i hf; simp only [hf]; exact ihb h.2 hn.2
  | indent s l a ih =>
    intro h c hn
    cases l with
    | none => exact ih h hn
    | some l =>
      simp only [Notation.tree] at hn ⊢
      cases hl : P.lookupStyle node l with
      | error e => simp [hl, NTree.orFail, NTree.NoFail] at hn
      | ok s => simp only [hl, NTree.orFail] at hn ⊢; exact ih h hn
  | style l a ih =>
    intro h c hn
    simp only [Notation.tree] at hn ⊢
    cases hl : P.lookupStyle node l with
    | error e => simp [hl, NTree.orFail, NTree.NoFail] at hn
    | ok s => simp only [hl, NTree.orFail] at hn ⊢; exact ih h hn
  | _ => intro h; simp [Notation.startsLine] at h

theorem startsLine_fits {node : P.Node} {kid : Nat → Ctx P → NTree P} {env : Option (FoldEnv P)}
    {b : Notation P.Label P.Cond} (hb : b.startsLine = true) {a : NTree P} {c} (_ : a.NoFail)
    (hn : (b.tree node kid env c).NoFail) (w st k) (hf : SecondsFit w st (a :: k)) :
    SecondsFit w st (b.tree node kid env c :: k) := by
  obtain ⟨ind, T, e⟩ := startsLine_seconds b hb hn
  unfold SecondsFit at hf ⊢
  rw [List.flatMap_cons, e]
  simp only [List.cons_append, lineFits_nl]
  exact Nat.le_trans (Nat.le_add_right _ _) hf.1

/-- Equivalent notations have equivalent trees. -/
theorem nequiv_tree {R : P.Node → P.Node → Prop} {p q : P.Node} {kid kid' : Nat → Ctx P → NTree P}
    (h : SameNode R p q kid kid') {nc} (hn : P.numChildren p = .ok nc) {a b : Notation P.Label P.Cond}
    (hab : NEquiv nc a b) : ∀ {env env'}, EnvEquiv env env' →
    ∀ c, TEquiv (a.tree p kid env c) (b.tree p kid env' c) := by
  have hacc : ∀ n i, nc = some n → i < n → ∃ c, P.childAt p i = .ok c := by
    rintro n i rfl hi
    exact h.alike.access p q n i h.rel hn hi
  induction hab with
  | refl a => intro env env' he c; exact tree_env h a he c
  | symm _ ih => intro env env' he c; exact (ih he.symm c).symm
  | trans _ _ ih1 ih2 => intro env env' he c; exact (ih1 he c).trans (ih2 (.refl _) c)
  | assoc x y z =>
    intro env env' he c
    exact (TEquiv.assoc _ _ _).trans (.concat (tree_env h x he c) (.concat (tree_env h y he c) (tree_env h z he c)))
  | empty_left x => intro env env' he c; exact (TEquiv.empty_left _).trans (tree_env h x he c)
  | empty_right x => intro env env' he c; exact (TEquiv.empty_right _).trans (tree_env h x he c)
  | @fold_unfold first join n hnc hf =>
    intro env env' he c
    rw [unfold_tree (hnc ▸ hn) (fun i hi => hacc n i hnc hi) first join env c,
      closed_tree _ (unfold_closed hf join n) none env']
    exact .refl _
  | choice_self a =>
    intro env env' he c
    refine TEquiv.trans ?_ (tree_env h a he c)
    simp only [Notation.tree]
    split
    · exact .refl _
    · exact .choice_self _
  | choice_concat a b x =>
    intro env env' he c
    refine TEquiv.trans ?_ (tree_env h _ he c)
    simp only [add_eq_concat, Notation.tree]
    split
    · exact .refl _
    · exact .choice_concat _ _ _
  | @concat_choice x hx a b =>
    intro env env' he c
    refine TEquiv.trans ?_ (tree_env h _ he c)
    simp only [add_eq_concat, Notation.tree]
    split
    · exact .refl _
    · by_cases hl : (x.tree p kid env c).NoFail
      · exact .concat_choice' (oneLine_tree x hx hl) _ _
      · exact .failing (fun h => hl h.1) (fun h => hl h.1.1)
  | choice_absorb a b =>
    intro env env' he c
    refine TEquiv.trans ?_ (tree_env h _ he c)
    simp only [Notation.tree]
    split
    · exact .refl _
    · exact .choice_absorb _ _
  | @choice_assoc a b x hb =>
    intro env env' he c
    refine TEquiv.trans ?_ (tree_env h _ he c)
    simp only [Notation.tree]
    split
    · exact .refl _
    · exact .choice_assoc _ (startsLine_fits hb)
  | check_concat cond pos a b x =>
    intro env env' he c
    refine TEquiv.trans ?_ (tree_env h _ he c)
    simp only [add_eq_concat, Notation.tree]
    equal_or_failing
  | concat_check cond pos a b x =>
    intro env env' he c
    refine TEquiv.trans ?_ (tree_env h _ he c)
    simp only [add_eq_concat, Notation.tree]
    equal_or_failing
  | choice_check cond pos a a' b b' =>
    intro env env' he c
    refine TEquiv.trans ?_ (tree_env h _ he c)
    simp only [Notation.tree]
    equal_or_failing
  | count_concat z o m x =>
    intro env env' he c
    refine TEquiv.trans ?_ (tree_env h _ he c)
    simp only [add_eq_concat, Notation.tree]
    equal_or_failing
  | concat_count z o m x =>
    intro env env' he c
    refine TEquiv.trans ?_ (tree_env h _ he c)
    simp only [add_eq_concat, Notation.tree]
    equal_or_failing
  | choice_count z z' o o' m m' =>
    intro env env' he c
    refine TEquiv.trans ?_ (tree_env h _ he c)
    simp only [Notation.tree]
    equal_or_failing
  | @flat_leaf a hl =>
    intro env env' he c
    refine TEquiv.trans ?_ (tree_env h _ he c)
    cases a <;> first | exact .refl _ | simp [Notation.isLeaf] at hl
  | flat_flat a => intro env env' he c; exact tree_env h (.flat a) he c
  | flat_concat a b => intro env env' he c; exact tree_env h (.flat a + .flat b) he c
  | flat_choice a b => intro env env' he c; exact tree_env h (.flat a) he c
  | flat_indent s l a =>
    intro env env' he c
    refine TEquiv.trans (.of_eq ?_) (tree_env h _ he c)
    cases l <;> rfl
  | flat_style l a => intro env env' he c; exact tree_env h (.style l (.flat a)) he c
  | flat_check cond pos a b =>
    intro env env' he c
    exact tree_env h (.check cond pos (.flat a) (.flat b)) he c
  | flat_count z o m =>
    intro env env' he c
    exact tree_env h (.count (.flat z) (.flat o) (.flat m)) he c
  | style_concat l a b =>
    intro env env' he c
    refine TEquiv.trans ?_ (tree_env h _ he c)
    simp only [add_eq_concat, Notation.tree]
    equal_or_failing
  | style_choice l a b =>
    intro env env' he c
    refine TEquiv.trans ?_ (tree_env h _ he c)
    simp only [Notation.tree]
    equal_or_failing
  | style_check l cond pos a b =>
    intro env env' he c
    refine TEquiv.trans ?_ (tree_env h _ he c)
    simp only [Notation.tree]
    equal_or_failing
  | style_count l z o m =>
    intro env env' he c
    refine TEquiv.trans ?_ (tree_env h _ he c)
    simp only [Notation.tree]
    equal_or_failing
  | @indent_leaf s a hl hne =>
    intro env env' he c
    refine TEquiv.trans ?_ (tree_env h _ he c)
    cases a <;> first | exact absurd rfl hne | exact .refl _ | simp [Notation.isLeaf] at hl
  | indent_concat s l a b =>
    intro env env' he c
    refine TEquiv.trans ?_ (tree_env h _ he c)
    cases l <;> simp only [add_eq_concat, Notation.tree] <;> equal_or_failing
  | indent_choice s l a b =>
    intro env env' he c
    refine TEquiv.trans ?_ (tree_env h _ he c)
    cases l <;> simp only [Notation.tree] <;> equal_or_failing
  | indent_check s l cond pos a b =>
    intro env env' he c
    refine TEquiv.trans ?_ (tree_env h _ he c)
    cases l <;> simp only [Notation.tree] <;> equal_or_failing
  | indent_count s l z o m =>
    intro env env' he c
    refine TEquiv.trans ?_ (tree_env h _ he c)
    cases l <;> simp only [Notation.tree] <;> equal_or_failing
  | concat _ _ iha ihb => intro env env' he c; exact .concat (iha he c) (ihb he c)
  | choice _ _ iha ihb =>
    intro env env' he c
    simp only [Notation.tree]
    split
    · exact iha he c
    · exact .choice (iha he c) (ihb he c)
  | @check cond pos a a' b b' _ _ iha ihb =>
    intro env env' he c
    obtain ⟨R', h'⟩ := sameNode_refl h
    simp only [Notation.tree]
    rcases inspected_alike h'.alike h'.rel he pos with ⟨f, h1, h2⟩ | ⟨p', q', h1, h2, h3⟩
    · rw [h1, h2]; exact .refl _
    · rw [h1, h2]
      refine orFail_equiv (h'.alike.condition p' q' cond h3) ?_
      rintro (_ | _) _
      · exact ihb he c
      · exact iha he c
  | flat _ ih => intro env env' he c; exact ih he _
  | @indent s l a a' _ ih =>
    intro env env' he c
    cases l with
    | none => exact ih he _
    | some l => exact orFail_equiv rfl (fun s _ => ih he _)
  | style _ ih => intro env env' he c; exact orFail_equiv rfl (fun s _ => ih he _)
  | count _ _ _ ihz iho ihm =>
    intro env env' he c
    refine orFail_equiv rfl ?_
    intro n _
    match n with
    | none => exact .refl _
    | some 0 => exact ihz he c
    | some 1 => exact iho he c
    | some (k + 2) => exact ihm he c
  | @fold f f' j j' _ _ ihf ihj =>
    intro env env' he c
    refine orFail_equiv rfl ?_
    intro n _
    match n with
    | none => exact .refl _
    | some 0 => exact .refl _
    | some (n + 1) =>
      have key : ∀ k c, TEquiv (foldTree p kid f j k c) (foldTree p kid f' j' k c) := by
        intro k
        induction k with
        | zero => intro c; exact ihf (env := none) (env' := none) trivial c
        | succ k ih =>
          intro c
          exact orFail_equiv rfl (fun _ _ => ihj (env := some ⟨foldTree p kid f j k, k + 1⟩)
            (env' := some ⟨foldTree p kid f' j' k, k + 1⟩) ⟨rfl, ih⟩ c)
      exact key n c

/-- Documents that are alike have equivalent trees. -/
theorem docTree_alike (law : P.Lawful) {R : P.Node → P.Node → Prop} (hR : Alike R) (p : P.Node) :
    ∀ {q}, R p q → ∀ flat indent outer,
    (∃ f, docTree law p flat indent outer = .error f ∧ docTree law q flat indent outer = .error f) ∨
      ∃ t u, docTree law p flat indent outer = .ok t ∧ docTree law q flat indent outer = .ok u ∧ TEquiv t u := by
  induction p using law.wf.induction with
  | h p ih =>
    intro q hpq flat indent outer
    cases ha : P.notn p with
    | error e =>
      have hb := hR.notn_error p q e hpq ha
      rw [docTree_eq, docTree_eq, ha, hb]
      exact .inl ⟨_, rfl, rfl⟩
    | ok a =>
      obtain ⟨nc, hn⟩ := hR.count p q hpq
      obtain ⟨b, hb, hab⟩ := hR.notn p q a nc hpq hn ha
      cases hs : P.nodeStyle p with
      | error e =>
        have hs' := (hR.nodeStyle p q hpq).symm.trans hs
        rw [docTree_eq, docTree_eq, ha, hb, hs, hs']
        exact .inl ⟨_, rfl, rfl⟩
      | ok s =>
        have hs' := (hR.nodeStyle p q hpq).symm.trans hs
        refine .inr ⟨_, _, docTree_of law ha hs _ _ _, docTree_of law hb hs' _ _ _, ?_⟩
        have hsame : SameNode R p q (docKid law p) (docKid law q) := by
          refine ⟨hR, hpq, ?_⟩
          intro j c
          unfold docKid
          cases hc : P.childAt p j with
          | error e =>
            rw [hR.child_error p q j e hpq hc]
            exact .refl _
          | ok x =>
            obtain ⟨y, hy, hxy⟩ := hR.child p q j x hpq hc
            rw [hy]
            simp only [NTree.orFail]
            rcases ih x ⟨j, hc⟩ hxy c.flat c.indent (some c.style) with ⟨f, h1, h2⟩ | ⟨t, u, h1, h2, h3⟩
            · rw [h1, h2]; exact .refl _
            · rw [h1, h2, ← hR.id x y hxy]
              exact .child h3
        exact (nequiv_tree hsame hn hab (.refl none) _).trans (tree_lift hsame b (.refl none) _)

end PPP
