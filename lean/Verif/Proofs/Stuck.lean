import Verif.Proofs.Shows
import Verif.Proofs.DocPred
/-
Where the failures in the notation tree of a document come from.
-/
namespace PPP
variable {P : PrettyDoc}

theorem Place.Around.snoc {x y z : Place P} (h : x.Around y) (ho : Opens y z) : x.Around z := by
  induction h with
  | refl => exact .opens ho .refl
  | opens h _ ih => exact .opens h (ih ho)
  | concat_left _ ih => exact .concat_left (ih ho)
  | concat_right _ ih => exact .concat_right (ih ho)

theorem Place.Around.left {x : Place P} {n f fl I S a b} (h : x.Around ⟨n, f, fl, I, S, .concat a b⟩) :
    x.Around ⟨n, f, fl, I, S, a⟩ := by
  generalize hy : (⟨n, f, fl, I, S, .concat a b⟩ : Place P) = y at h
  induction h with
  | refl => subst hy; exact .concat_left .refl
  | opens h _ ih => exact .opens h (ih hy)
  | concat_left _ ih => exact .concat_left (ih hy)
  | concat_right _ ih => exact .concat_right (ih hy)

theorem Place.Around.right {x : Place P} {n f fl I S a b} (h : x.Around ⟨n, f, fl, I, S, .concat a b⟩) :
    x.Around ⟨n, f, fl, I, S, b⟩ := by
  generalize hy : (⟨n, f, fl, I, S, .concat a b⟩ : Place P) = y at h
  induction h with
  | refl => subst hy; exact .concat_right .refl
  | opens h _ ih => exact .opens h (ih hy)
  | concat_left _ ih => exact .concat_left (ih hy)
  | concat_right _ ih => exact .concat_right (ih hy)

/-- What fails, and what is displayed, inside of the place `x`. -/
def placePred (x : Place P) : Pred P where
  fail f := f = .panic ∨ f = .overflow ∨ f = .err .textAfterEndOfLine ∨
    (∃ e, f = .err (.prettyDoc e) ∧ DocError e) ∨ ∃ y e, f = .err e ∧ x.Around y ∧ Stuck y e
  text _ := True
  nl _ := True

theorem placePred_ok (x : Place P) : QOk (placePred x) := by
  constructor <;> simp [placePred]

theorem placePred_doc {x : Place P} {e : DocFail P.Err} (h : ∀ e', e = .err e' → DocError e') :
    (placePred x) e.toFail := by
  cases e with
  | err e => exact .inr (.inr (.inr (.inl ⟨e, rfl, h e rfl⟩)))
  | panic => exact .inl rfl

theorem placePred_stuck {x y : Place P} {e} (h : x.Around y) (hs : Stuck y e) :
    (placePred x) (.err e) := .inr (.inr (.inr (.inr ⟨y, e, rfl, h, hs⟩)))

theorem docError_child {p : P.Node} {i e} (h : P.childAt p i = .error (.err e)) : DocError (P := P) e :=
  ⟨p, .inr (.inr (.inr (.inr (.inr (.inr (.inr ⟨i, h⟩))))))⟩

section
variable {x : Place P} {node : P.Node} {kid : Nat → Ctx P → NTree P}

/-- Children are fine, if they are entered from a place inside of `x`. -/
def KidIn (x : Place P) (node : P.Node) (kid : Nat → Ctx P → NTree P) : Prop :=
  ∀ j c S, combineAll S = some c.style →
    (∀ child a s, P.childAt node j = .ok child → P.notn child = .ok a → P.nodeStyle child = .ok s →
      x.Around ⟨child, none, c.flat, c.indent, S ++ [s], a⟩) → (kid j c).FailIn (placePred x)

/-- `Left` is fine. -/
def EnvIn (x : Place P) (node : P.Node) : Option (FoldEnv P) → Option (FoldPos P) → Prop
  | none, none => True
  | some e, some f => e.next = f.next ∧ 0 < f.next ∧ ∀ c S, combineAll S = some c.style →
      x.Around ⟨node, some f, c.flat, c.indent, S, .left⟩ → (e.acc c).FailIn (placePred x)
  | _, _ => False

theorem inspected_stuck {env : Option (FoldEnv P)} {fp : Option (FoldPos P)} {fl I S cond pos a b} {f}
    (ha : x.Around ⟨node, fp, fl, I, S, .check cond pos a b⟩)
    (h : inspected node env pos = .error f) : (placePred x) f := by
  cases pos with
  | here => simp [inspected] at h
  | child i =>
    simp only [inspected, toRes_bind] at h
    split at h
    · rename_i r hn
      cases r with
      | none => simp at h; subst h; exact placePred_stuck ha (.check_childless hn)
      | some n =>
        simp only at h
        split at h
        · rename_i hj
          simp at h; subst h
          exact placePred_stuck ha (.check_bounds hn hj)
        · rename_i j hj
          cases hc : P.childAt node j with
          | ok c => simp [hc, Call.toRes] at h
          | error e =>
            simp [hc, Call.toRes] at h
            subst h
            refine placePred_doc ?_
            rintro e' rfl
            exact docError_child hc
    · rename_i e he
      simp at h
      subst h
      refine placePred_doc ?_
      rintro e' rfl
      exact ⟨node, by simp [he]⟩
  | leftChild =>
    cases env with
    | none => simp [inspected] at h; subst h; exact .inl rfl
    | some e =>
      simp only [inspected] at h
      cases hc : P.childAt node (e.next - 1) with
      | ok c => simp [hc, Call.toRes] at h
      | error e =>
        simp [hc, Call.toRes] at h
        subst h
        refine placePred_doc ?_
        rintro e' rfl
        exact docError_child hc
  | rightChild =>
    cases env with
    | none => simp [inspected] at h; subst h; exact .inl rfl
    | some e =>
      simp only [inspected] at h
      cases hc : P.childAt node e.next with
      | ok c => simp [hc, Call.toRes] at h
      | error e =>
        simp [hc, Call.toRes] at h
        subst h
        refine placePred_doc ?_
        rintro e' rfl
        exact docError_child hc

theorem tree_stuck (hk : KidIn x node kid) (a : Notation P.Label P.Cond) :
    ∀ {env fp}, EnvIn x node env fp → ∀ {c : Ctx P} {S}, combineAll S = some c.style →
    x.Around ⟨node, fp, c.flat, c.indent, S, a⟩ → (a.tree node kid env c).FailIn (placePred x) := by
  induction a with
  | empty => intros; trivial
  | newline => intros; trivial
  | endOfLine => intros; trivial
  | literal s => intros; trivial
  | focusMark => intros; trivial
  | text =>
    intro env fp he c S hS h
    refine failIn_orFail ?_ ?_
    · intro e hn; refine placePred_doc ?_; rintro e' rfl; exact ⟨node, by simp [hn]⟩
    · rintro (_ | n) hn
      · refine failIn_orFail ?_ ?_
        · intro e hn; refine placePred_doc ?_; rintro e' rfl; exact ⟨node, by simp [hn]⟩
        · intros; trivial
      · exact placePred_stuck h (.text hn)
  | flat a ih =>
    intro env fp he c S hS h
    exact ih he (c := { c with flat := true }) hS (h.snoc .flat)
  | indent pre l a ih =>
    intro env fp he c S hS h
    cases l with
    | none =>
      exact ih he (c := { c with indent := c.indent ++ [⟨pre, P.strWidth pre, c.style⟩] }) hS
        (h.snoc (.indent hS))
    | some l =>
      refine failIn_orFail ?_ ?_
      · intro e hn; refine placePred_doc ?_; rintro e' rfl
        exact ⟨node, .inr (.inr (.inr (.inl ⟨l, hn⟩)))⟩
      · intro s hs
        exact ih he (c := { c with indent := c.indent ++ [⟨pre, P.strWidth pre, P.combine c.style s⟩] }) hS
          (h.snoc (.indent_label hs (combineAll_snoc hS s)))
  | concat a b iha ihb =>
    intro env fp he c S hS h
    exact ⟨iha he hS h.left, ihb he hS h.right⟩
  | choice a b iha ihb =>
    intro env fp he c S hS h
    simp only [Notation.tree]
    split
    · exact iha he hS (h.snoc .choice_first)
    · rename_i hf
      have hf : c.flat = false := by simpa using hf
      refine ⟨iha he hS (h.snoc .choice_first), ihb he hS ?_⟩
      rw [hf] at h ⊢
      exact h.snoc .choice_second
  | check cond pos a b iha ihb =>
    intro env fp he c S hS h
    simp only [Notation.tree]
    split
    · rename_i hp
      exact inspected_stuck h hp
    · rename_i p hp
      have hi : Inspects node fp pos p := by
        refine inspected_inspects ?_ ?_ hp
        · cases env <;> cases fp <;> simp [EnvIn] at he ⊢
          exact he.1
        · rintro f rfl
          cases env with
          | none => exact he.elim
          | some e => exact he.2.1
      refine failIn_orFail ?_ ?_
      · intro e hn; refine placePred_doc ?_; rintro e' rfl
        exact ⟨p, .inr (.inr (.inl ⟨cond, hn⟩))⟩
      · rintro (_ | _) hv
        · exact ihb he hS (h.snoc (.check_false hi hv))
        · exact iha he hS (h.snoc (.check_true hi hv))
  | child i =>
    intro env fp he c S hS h
    refine failIn_orFail ?_ ?_
    · intro e hn; refine placePred_doc ?_; rintro e' rfl; exact ⟨node, by simp [hn]⟩
    · rintro (_ | n) hn
      · exact placePred_stuck h (.child_childless hn)
      · simp only
        split
        · rename_i hj
          exact placePred_stuck h (.child_bounds hn hj)
        · rename_i j hj
          exact hk j c S hS (fun child a s h1 h2 h3 => h.snoc (.child hn hj h1 h2 h3))
  | style l a ih =>
    intro env fp he c S hS h
    refine failIn_orFail ?_ ?_
    · intro e hn; refine placePred_doc ?_; rintro e' rfl
      exact ⟨node, .inr (.inr (.inr (.inl ⟨l, hn⟩)))⟩
    · intro s hs
      exact ih he (c := ⟨c.flat, c.indent, P.combine c.style s⟩) (combineAll_snoc hS s) (h.snoc (.style hs))
  | count z o m ihz iho ihm =>
    intro env fp he c S hS h
    refine failIn_orFail ?_ ?_
    · intro e hn; refine placePred_doc ?_; rintro e' rfl; exact ⟨node, by simp [hn]⟩
    · intro n hn
      match n, hn with
      | none, hn => exact placePred_stuck h (.count hn)
      | some 0, hn => exact ihz he hS (h.snoc (.count_zero hn))
      | some 1, hn => exact iho he hS (h.snoc (.count_one hn))
      | some (k + 2), hn => exact ihm he hS (h.snoc (.count_many hn))
  | fold first join ihf ihj =>
    intro env fp he c S hS h
    refine failIn_orFail ?_ ?_
    · intro e hn; refine placePred_doc ?_; rintro e' rfl; exact ⟨node, by simp [hn]⟩
    · intro n hn
      match n, hn with
      | none, hn => exact placePred_stuck h (.fold hn)
      | some 0, hn => trivial
      | some (n + 1), hn =>
        have key : ∀ k c S, combineAll S = some (c : Ctx P).style →
            (match k with
              | 0 => x.Around ⟨node, none, c.flat, c.indent, S, first⟩
              | k + 1 => x.Around ⟨node, some ⟨first, join, k + 1⟩, c.flat, c.indent, S, join⟩) →
            NTree.FailIn (placePred x) (Nat.rec (motive := fun _ => Ctx P → NTree P)
              (fun c => first.tree node kid none c)
              (fun k acc c => .orFail (P.childAt node (k + 1)) fun _ =>
                join.tree node kid (some ⟨acc, k + 1⟩) c) k c) := by
          intro k
          induction k with
          | zero => intro c S hS h; exact ihf (env := none) (fp := none) trivial hS h
          | succ k ih =>
            intro c S hS h
            refine failIn_orFail ?_ ?_
            · intro e hn; refine placePred_doc ?_; rintro e' rfl
              exact docError_child hn
            · intro _ _
              refine ihj (env := some _) (fp := some ⟨first, join, k + 1⟩) ⟨rfl, Nat.succ_pos _, ?_⟩ hS h
              intro c S hS h
              cases k with
              | zero => exact ih c S hS (h.snoc .left_first)
              | succ k => exact ih c S hS (h.snoc .left_join)
        refine key n c S hS ?_
        cases n with
        | zero => exact h.snoc (.fold_one hn)
        | succ n => exact h.snoc (.fold_more hn)
  | left =>
    intro env fp he c S hS h
    cases env with
    | none => exact .inl rfl
    | some e =>
      cases fp with
      | none => exact he.elim
      | some f => exact he.2.2 c S hS h
  | right =>
    intro env fp he c S hS h
    cases env with
    | none => exact .inl rfl
    | some e =>
      cases fp with
      | none => exact he.elim
      | some f =>
        refine hk e.next c S hS (fun child a s h1 h2 h3 => ?_)
        rw [he.1] at h1
        exact h.snoc (.right h1 h2 h3)

end

theorem docTree_stuck (law : P.Lawful) (x : Place P) (node : P.Node) :
    ∀ {flat ind} {outer : Option P.Style} {S},
    (∀ s, combineAll (S ++ [s]) = some (enterStyle outer s)) →
    (∀ a s, P.notn node = .ok a → P.nodeStyle node = .ok s → x.Around ⟨node, none, flat, ind, S ++ [s], a⟩) →
    match docTree law node flat ind outer with
    | .error f => (placePred x) f
    | .ok t => t.FailIn (placePred x) := by
  induction node using law.wf.induction with
  | h node ih =>
    intro flat ind outer S hS hx
    rw [docTree_eq]
    cases ha : P.notn node with
    | error e =>
      refine placePred_doc ?_; rintro e' rfl; exact ⟨node, by simp [ha]⟩
    | ok a =>
      cases hs : P.nodeStyle node with
      | error e => refine placePred_doc ?_; rintro e' rfl; exact ⟨node, by simp [hs]⟩
      | ok s =>
        change NTree.FailIn (placePred x) (a.tree node (docKid law node) none ⟨flat, ind, enterStyle outer s⟩)
        refine tree_stuck (env := none) (fp := none) ?_ a trivial (hS s) (hx a s ha hs)
        intro j c S hS h
        unfold docKid
        refine failIn_orFail ?_ ?_
        · intro e hn; refine placePred_doc ?_; rintro e' rfl
          exact docError_child hn
        · intro child hc
          have := ih child ⟨j, hc⟩ (outer := some c.style) (flat := c.flat) (ind := c.indent)
            (fun s => combineAll_snoc hS s) (fun a s h1 h2 => h child a s hc h1 h2)
          cases ht : docTree law child c.flat c.indent (some c.style) with
          | error f => rw [ht] at this; exact this
          | ok t =>
            rw [ht] at this
            refine ⟨?_, this⟩
            intro f hf
            cases hi : P.id child with
            | ok i => simp [hi, Call.toRes] at hf
            | error e =>
              simp [hi, Call.toRes] at hf
              subst hf
              refine placePred_doc ?_; rintro e' rfl; exact ⟨child, by simp [hi]⟩

end PPP
