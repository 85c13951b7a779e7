import Verif.Proofs.Denote
import Verif.Proofs.Erase
import Verif.Spec.Work
/-
Evaluating delayed notations step by step gives the shape of the document.
-/
namespace PPP
variable {P : PrettyDoc}

/-! ### Taking steps -/

namespace Counted
variable {E α β : Type}

/-- `x` after `k` steps. -/
def after (k : Nat) (x : Counted E α) : Counted E α := tick k >>= fun _ => x

theorem after_some (k n : Nat) (r : Res E α) : after k (some (n, r)) = some (k + n, r) := rfl

theorem after_zero (x : Counted E α) : after 0 x = x := by
  match x with
  | none => rfl
  | some (n, r) => rw [after_some, Nat.zero_add]

theorem after_after (k m : Nat) (x : Counted E α) : after k (after m x) = after (k + m) x := by
  match x with
  | none => rfl
  | some (n, r) => simp only [after_some, Nat.add_assoc]; rfl

theorem after_pure (k : Nat) (a : α) : after k (pure a : Counted E α) = some (k, .ok a) := rfl

theorem callC_ok_bind (a : α) (g : α → Counted E β) : (callC (.ok a) >>= g) = after 1 (g a) := by
  show (ret 1 (.ok a)).andThen g = _
  unfold after
  show _ = (ret 1 (.ok ())).andThen _
  rfl

theorem callC_error_bind (e : DocFail E) (g : α → Counted E β) :
    (callC (.error e) >>= g) = some (1, .error e.toFail) := rfl

theorem pure_bind' (a : α) (g : α → Counted E β) : ((pure a : Counted E α) >>= g) = g a := by
  show (ret 0 (.ok a)).andThen g = _
  simp only [andThen, ret]
  match g a with
  | none => rfl
  | some (n, r) => simp; rfl

end Counted
open Counted

/-! ### When a shape describes a delayed notation -/

/-- `ShapeRep d s`: evaluating `d` and everything reachable from it takes the steps of `s`. -/
inductive ShapeRep : DCN P → Shape → Prop where
  | fail {d n e s} : d.evalC = some (n, .error e) → n ≤ 5 → ShapeRep d s
  | leaf {d n c} : d.evalC = some (n, .ok c) → n ≤ 5 →
      c = .empty ∨ c = .endOfLine ∨ c = .focusMark → ShapeRep d .leaf
  | newline {d n ind} : d.evalC = some (n, .ok (.newline ind)) → n ≤ 5 →
      ShapeRep d (.newline ind.length)
  | text {d n t} : d.evalC = some (n, .ok (.textual t)) → n ≤ 5 → ShapeRep d (.text t.width)
  | concat {d n a b sa sb} : d.evalC = some (n, .ok (.concat a b)) → n ≤ 5 →
      ShapeRep a sa → ShapeRep b sb → ShapeRep d (.concat sa sb)
  | choice {d n a b sa sb} : d.evalC = some (n, .ok (.choice a b)) → n ≤ 5 →
      ShapeRep a sa → ShapeRep b sb → ShapeRep d (.choice sa sb)
  | child {d n i c s} : d.evalC = some (n, .ok (.child i c)) → n ≤ 5 →
      ShapeRep c s → ShapeRep d (.child s)
  | step {d d' k s} : d.evalC = after k d'.evalC → 1 ≤ k ∧ k ≤ 5 → ShapeRep d' s → ShapeRep d (.step s)

/-- The shape describes an evaluated notation. -/
inductive CNShape : CN P → Shape → Prop where
  | leaf {c} : c = .empty ∨ c = .endOfLine ∨ c = .focusMark → CNShape c .leaf
  | newline {ind} : CNShape (.newline ind) (.newline ind.length)
  | text {t} : CNShape (.textual t) (.text t.width)
  | concat {a b sa sb} : ShapeRep a sa → ShapeRep b sb → CNShape (.concat a b) (.concat sa sb)
  | choice {a b sa sb} : ShapeRep a sa → ShapeRep b sb → CNShape (.choice a b) (.choice sa sb)
  | child {i c s} : ShapeRep c s → CNShape (.child i c) (.child s)

/-- The outermost construct that is not resolved. -/
def Shape.core : Shape → Shape
  | .step t => t.core
  | s => s

theorem Shape.steps_pos (s : Shape) : 1 ≤ s.steps := by
  cases s <;> simp [Shape.steps]

theorem Shape.work_pos (w : Nat) (s : Shape) (h : Nat → Nat) : 1 ≤ s.work w h := by
  cases s <;> simp only [Shape.work] <;> omega

theorem Shape.ahead_core (s : Shape) (h : Nat → Nat) (r : Nat) :
    s.ahead h r + 1 = s.steps + s.core.ahead h r := by
  induction s generalizing h r with
  | step t ih =>
    have := ih h r
    simp only [Shape.ahead, Shape.steps, Shape.core]
    omega
  | _ => simp only [Shape.core, Shape.steps]; omega

theorem Shape.work_core (w : Nat) (s : Shape) (h : Nat → Nat) :
    s.work w h + 1 = s.steps + s.core.work w h := by
  induction s generalizing h with
  | step t ih =>
    have := ih h
    simp only [Shape.work, Shape.steps, Shape.core]
    omega
  | _ => simp only [Shape.core, Shape.steps]; omega

theorem ShapeRep.eval {d : DCN P} {s} (h : ShapeRep d s) :
    ∃ n r, d.evalC = some (n, r) ∧ n ≤ 5 * s.steps ∧ ∀ c, r = .ok c → CNShape c s.core := by
  induction h with
  | @fail d n e s h1 h2 =>
    exact ⟨_, _, h1, by have := s.steps_pos; omega, fun c hc => by cases hc⟩
  | leaf h1 h2 h3 => exact ⟨_, _, h1, by simp only [Shape.steps]; omega, fun c hc => by cases hc; exact .leaf h3⟩
  | newline h1 h2 => exact ⟨_, _, h1, by simp only [Shape.steps]; omega, fun c hc => by cases hc; exact .newline⟩
  | text h1 h2 => exact ⟨_, _, h1, by simp only [Shape.steps]; omega, fun c hc => by cases hc; exact .text⟩
  | concat h1 h2 ha hb =>
    exact ⟨_, _, h1, by simp only [Shape.steps]; omega, fun c hc => by cases hc; exact .concat ha hb⟩
  | choice h1 h2 ha hb =>
    exact ⟨_, _, h1, by simp only [Shape.steps]; omega, fun c hc => by cases hc; exact .choice ha hb⟩
  | child h1 h2 hc' =>
    exact ⟨_, _, h1, by simp only [Shape.steps]; omega, fun c hc => by cases hc; exact .child hc'⟩
  | step h1 h2 _ ih =>
    obtain ⟨n, r, g1, g2, g3⟩ := ih
    refine ⟨_, r, by rw [h1, g1, after_some], by simp only [Shape.steps]; omega, g3⟩

/-! ### The shape of a document describes it -/

/-- What the code does to display a child, counted. -/
def childCNC (i : Nat) (ch : P.Node) (c : Ctx P) (jp : Option (JoinPos P)) : Counted P.Err (CN P) := do
  let notn ← callC (P.notn ch)
  let nodeStyle ← callC (P.nodeStyle ch)
  pure (.child i ⟨notn, ch, c.flat, c.indent.reverse, P.combine c.style nodeStyle, jp⟩)

/-- `kid` describes the children of `node`. -/
def KidShape (node : P.Node) (kid : Nat → Bool → Nat → Shape) : Prop :=
  ∀ i (c : Ctx P) jp (d : DCN P) ch k, P.childAt node i = .ok ch → d.evalC = after k (childCNC i ch c jp) →
    k ≤ 3 → ShapeRep d (kid i c.flat c.indent.length)

/-- The spec and the code agree on what `Left` and `Right` are. -/
def EnvShape (node : P.Node) (jp : Option (JoinPos P)) (env : Option ShapeEnv) : Prop :=
  ∀ e, env = some e → ∃ jp0, jp = some jp0 ∧ jp0.parent = node ∧ jp0.index = e.next ∧
    1 ≤ e.next ∧ P.childAt node e.next = .ok jp0.child ∧
    ∀ c : Ctx P, ShapeRep (mkD .left node c (some jp0)) (.step (e.acc c.flat c.indent.length))

theorem EnvShape.none (node : P.Node) (jp) : EnvShape node jp none := fun _ h => by simp at h

/-- The notation passed validation in a context where `Left`/`Right` are allowed only if `env` says
    what they are. -/
def ScopeShape (a : Notation P.Label P.Cond) (env : Option ShapeEnv) : Prop :=
  ∃ h ctx h', a.validateRec h ctx = .ok h' ∧ (ctx.fold = some .inFoldJoin → env.isSome)

theorem shape_orLeaf {α : Type} {d : DCN P} (call' : Call P.Err α) {f : α → Shape}
    {g : α → Counted P.Err (CN P)} {k : Nat} (he : d.evalC = after k (callC call' >>= g)) (hk : k + 1 ≤ 5)
    (h : ∀ a, call' = .ok a → d.evalC = after (k + 1) (g a) → ShapeRep d (f a)) :
    ShapeRep d (.orLeaf call' f) := by
  cases call' with
  | error e => exact .fail (by rw [he, callC_error_bind, after_some]) hk
  | ok a => exact h a rfl (by rw [he, callC_ok_bind, after_after])

theorem docToInspectC_eq {node : P.Node} {a c} {jp : Option (JoinPos P)} {env}
    (law : P.Lawful) (henv : EnvShape node jp env) (pos : CheckPos) {ctx : Context}
    (hv : validateCheckPos pos ctx = .ok ()) (hs : ctx.fold = some .inFoldJoin → env.isSome) :
    ∃ k, k ≤ 2 ∧ match inspectedNode node env pos with
      | some p => (mkD a node c jp).docToInspectC pos = some (k, .ok p)
      | none => ∃ e, (mkD a node c jp).docToInspectC pos = some (k, .error e) := by
  cases pos with
  | here => exact ⟨0, by omega, rfl⟩
  | child i =>
    simp only [DCN.docToInspectC, inspectedNode, mkD]
    cases hn : P.numChildren node with
    | error e => exact ⟨1, by omega, _, rfl⟩
    | ok r =>
      rw [callC_ok_bind]
      cases r with
      | none => exact ⟨1, by omega, _, rfl⟩
      | some n =>
        simp only [normalizeChildIndex_eq]
        cases hi : childIndex i n with
        | none => exact ⟨1, by omega, _, rfl⟩
        | some j =>
          simp only [childAt_eq hn (childIndex_lt hi)]
          cases P.unwrapChild node j with
          | error e => exact ⟨2, by omega, _, rfl⟩
          | ok p => exact ⟨2, by omega, rfl⟩
  | leftChild =>
    have : ctx.fold = some .inFoldJoin := by
      simp only [validateCheckPos] at hv
      split at hv
      · simp at hv
      · exact Decidable.not_not.1 ‹¬ _›
    obtain ⟨e, rfl⟩ := Option.isSome_iff_exists.1 (hs this)
    obtain ⟨jp0, rfl, h1, h2, h3, h4, _⟩ := henv e rfl
    obtain ⟨n, g1, g2, g3⟩ := childAt_ok h4
    simp only [DCN.docToInspectC, mkD, inspectedNode, h2]
    obtain ⟨k, hk⟩ := Nat.exists_eq_add_of_le' h3
    rw [hk] at g2 g3 ⊢
    simp only [h1, Nat.add_sub_cancel]
    rw [law.prev _ _ _ _ g1 g2 g3, childAt_eq g1 (by omega)]
    cases P.unwrapChild node k with
    | error e => exact ⟨1, by omega, _, rfl⟩
    | ok p => exact ⟨1, by omega, rfl⟩
  | rightChild =>
    have : ctx.fold = some .inFoldJoin := by
      simp only [validateCheckPos] at hv
      split at hv
      · simp at hv
      · exact Decidable.not_not.1 ‹¬ _›
    obtain ⟨e, rfl⟩ := Option.isSome_iff_exists.1 (hs this)
    obtain ⟨jp0, rfl, h1, h2, h3, h4, _⟩ := henv e rfl
    simp only [DCN.docToInspectC, mkD, inspectedNode, h4]
    exact ⟨0, by omega, rfl⟩

theorem evalC_mkD (a : Notation P.Label P.Cond) (node : P.Node) (c : Ctx P) (jp) {X}
    (h : (mkD a node c jp).evalC = (tick 1 >>= fun _ => X)) : (mkD a node c jp).evalC = after 1 X := h

theorem shape_rep (law : P.Lawful) (node : P.Node) {kid : Nat → Bool → Nat → Shape}
    (hkid : KidShape node kid) (a : Notation P.Label P.Cond) :
    ∀ {env jp}, EnvShape node jp env → ScopeShape a env → ∀ c : Ctx P,
      ShapeRep (mkD a node c jp) (a.shape node kid env c.flat c.indent.length) := by
  induction a with
  | empty => intro env jp henv hs c; exact .leaf (n := 1) (by rw [DCN.evalC.eq_def]; rfl) (by omega) (.inl rfl)
  | newline =>
    intro env jp henv hs c
    have := ShapeRep.newline (d := mkD .newline node c jp) (n := 1) (ind := c.indent.reverse)
      (by rw [DCN.evalC.eq_def]; rfl) (by omega)
    rw [List.length_reverse] at this
    exact this
  | endOfLine =>
    intro env jp henv hs c
    exact .leaf (n := 1) (by rw [DCN.evalC.eq_def]; rfl) (by omega) (.inr (.inl rfl))
  | focusMark =>
    intro env jp henv hs c
    exact .leaf (n := 1) (by rw [DCN.evalC.eq_def]; rfl) (by omega) (.inr (.inr rfl))
  | literal s =>
    intro env jp henv hs c
    exact .text (n := 1) (t := ⟨s, P.strWidth s, c.style, false⟩) (by rw [DCN.evalC.eq_def]; rfl) (by omega)
  | text =>
    intro env jp henv hs c
    simp only [Notation.shape]
    refine shape_orLeaf (k := 1) _ (by rw [DCN.evalC.eq_def]; rfl) (by omega) ?_
    intro r hr he
    cases r with
    | some n => exact .fail (n := 2) (by rw [he]; rfl) (by omega)
    | none =>
      refine shape_orLeaf (k := 2) _ he (by omega) fun s hs he => ?_
      exact .text (n := 3) (t := ⟨s, P.strWidth s, c.style, true⟩) he (by omega)
  | flat a ih =>
    intro env jp henv ⟨h, ctx, h', hv, hc⟩ c
    exact .step (k := 1) (by rw [DCN.evalC.eq_def]; rfl) (by omega)
      (ih henv ⟨h, ctx, h', hv, hc⟩ { c with flat := true })
  | indent pre label a ih =>
    intro env jp henv ⟨h, ctx, h', hv, hc⟩ c
    cases label with
    | none =>
      simp only [Notation.shape]
      have := ih henv ⟨h, ctx, h', hv, hc⟩
        { c with indent := c.indent ++ [⟨pre, P.strWidth pre, c.style⟩] }
      simp only [List.length_append, List.length_cons, List.length_nil, Nat.zero_add] at this
      refine .step (k := 1) ?_ (by omega) this
      rw [DCN.evalC.eq_def]
      simp only [mkD, List.reverse_append, List.reverse_cons, List.reverse_nil, List.nil_append,
        List.singleton_append, pure_bind']
      rfl
    | some label =>
      simp only [Notation.shape]
      refine shape_orLeaf (k := 1) _ (g := fun s => DCN.evalC (mkD a node
        { c with indent := c.indent ++ [⟨pre, P.strWidth pre, P.combine c.style s⟩] } jp)) ?_ (by omega) ?_
      · rw [DCN.evalC.eq_def]
        simp only [mkD, List.reverse_append, List.reverse_cons, List.reverse_nil, List.nil_append,
          List.singleton_append, pure_bind']
        rfl
      · intro s _ he
        have := ih henv ⟨h, ctx, h', hv, hc⟩
          { c with indent := c.indent ++ [⟨pre, P.strWidth pre, P.combine c.style s⟩] }
        simp only [List.length_append, List.length_cons, List.length_nil, Nat.zero_add] at this
        exact .step he (by omega) this
  | concat a b iha ihb =>
    intro env jp henv ⟨h, ctx, h', hv, hc⟩ c
    simp only [Notation.validateRec] at hv
    cases hva : a.validateRec h ctx with
    | error e => rw [hva] at hv; simp [bind, Except.bind] at hv
    | ok h1 =>
      rw [hva] at hv
      exact .concat (n := 1) (by rw [DCN.evalC.eq_def]; rfl) (by omega) (iha henv ⟨h, ctx, h1, hva, hc⟩ c)
        (ihb henv ⟨h1, ctx, h', hv, hc⟩ c)
  | choice a b iha ihb =>
    intro env jp henv ⟨h, ctx, h', hv, hc⟩ c
    simp only [Notation.validateRec] at hv
    cases hva : a.validateRec h ctx with
    | error e => rw [hva] at hv; simp [bind, Except.bind] at hv
    | ok h1 =>
      cases hvb : b.validateRec h ctx with
      | error e => rw [hva, hvb] at hv; simp [bind, Except.bind] at hv
      | ok h2 =>
        simp only [Notation.shape]
        split
        · refine .step (k := 1) ?_ (by omega) (iha henv ⟨h, ctx, h1, hva, hc⟩ c)
          rw [DCN.evalC.eq_def]
          simp_all [mkD]
          rfl
        · refine .choice (n := 1) ?_ (by omega) (iha henv ⟨h, ctx, h1, hva, hc⟩ c) (ihb henv ⟨h, ctx, h2, hvb, hc⟩ c)
          rw [DCN.evalC.eq_def]
          simp_all [mkD]
          rfl
  | check cond pos a b iha ihb =>
    intro env jp henv ⟨h, ctx, h', hv, hc⟩ c
    simp only [Notation.validateRec] at hv
    cases hvp : validateCheckPos pos ctx with
    | error e => rw [hvp] at hv; simp [bind, Except.bind] at hv
    | ok u =>
    cases hva : a.validateRec h ctx with
    | error e => rw [hvp, hva] at hv; simp [bind, Except.bind] at hv
    | ok h1 =>
      cases hvb : b.validateRec h ctx with
      | error e => rw [hvp, hva, hvb] at hv; simp [bind, Except.bind] at hv
      | ok h2 =>
        simp only [Notation.shape]
        obtain ⟨k, hk, hi⟩ := docToInspectC_eq (a := .check cond pos a b) (c := c) law henv pos hvp hc
        have he : (mkD (.check cond pos a b) node c jp).evalC = after 1 (do
            let doc ← (mkD (.check cond pos a b) node c jp).docToInspectC pos
            if ← callC (P.condition doc cond) then DCN.evalC (mkD a node c jp)
            else DCN.evalC (mkD b node c jp)) := by
          rw [DCN.evalC.eq_def]; rfl
        cases hn : inspectedNode node env pos with
        | none =>
          rw [hn] at hi
          obtain ⟨e, hi⟩ := hi
          rw [hi] at he
          exact .fail (n := 1 + k) he (by omega)
        | some p =>
          rw [hn] at hi
          simp only at hi
          rw [hi] at he
          refine shape_orLeaf (k := 1 + k) _ (g := fun r => if r then DCN.evalC (mkD a node c jp)
            else DCN.evalC (mkD b node c jp)) ?_ (by omega) ?_
          · rw [he, ← after_after]
            rfl
          intro r hr he
          cases r with
          | true => exact .step he (by omega) (iha henv ⟨h, ctx, h1, hva, hc⟩ c)
          | false => exact .step he (by omega) (ihb henv ⟨h, ctx, h2, hvb, hc⟩ c)
  | child i =>
    intro env jp henv hs c
    simp only [Notation.shape]
    refine shape_orLeaf (k := 1) _ (by rw [DCN.evalC.eq_def]; rfl) (by omega) ?_
    intro r hr he
    cases r with
    | none => exact .fail (n := 2) he (by omega)
    | some n =>
      simp only at he ⊢
      simp only [mkD, normalizeChildIndex_eq] at he
      cases hi : childIndex i n with
      | none => rw [hi] at he; exact .fail (n := 2) he (by omega)
      | some j =>
        rw [hi] at he
        simp only at he ⊢
        rw [← childAt_eq hr (childIndex_lt hi)] at he
        cases hch : P.childAt node j with
        | error e => rw [hch, callC_error_bind, after_some] at he; exact .fail he (by omega)
        | ok ch =>
          rw [hch, callC_ok_bind, after_after] at he
          exact hkid j c jp _ ch _ hch he (by omega)
  | style label a ih =>
    intro env jp henv ⟨h, ctx, h', hv, hc⟩ c
    simp only [Notation.shape]
    refine shape_orLeaf (k := 1) _ (by rw [DCN.evalC.eq_def]; rfl) (by omega) ?_
    intro s _ he
    exact .step he (by omega) (ih henv ⟨h, ctx, h', hv, hc⟩ { c with style := P.combine c.style s })
  | count zero one many ih0 ih1 ih2 =>
    intro env jp henv ⟨h, ctx, h', hv, hc⟩ c
    simp only [Notation.validateRec] at hv
    split at hv
    · simp at hv
    · cases hv0 : zero.validateRec h { ctx with count := some .zero } with
      | error e => rw [hv0] at hv; simp [bind, Except.bind] at hv
      | ok h0 =>
      cases hv1 : one.validateRec h { ctx with count := some .one } with
      | error e => rw [hv0, hv1] at hv; simp [bind, Except.bind] at hv
      | ok h1 =>
      cases hv2 : many.validateRec h { ctx with count := some .many } with
      | error e => rw [hv0, hv1, hv2] at hv; simp [bind, Except.bind] at hv
      | ok h2 =>
        simp only [Notation.shape]
        refine shape_orLeaf (k := 1) _ (by rw [DCN.evalC.eq_def]; rfl) (by omega) ?_
        intro r hr he
        match r with
        | none => exact .fail (n := 2) he (by omega)
        | some 0 => exact .step he (by omega) (ih0 henv ⟨_, _, _, hv0, hc⟩ c)
        | some 1 => exact .step he (by omega) (ih1 henv ⟨_, _, _, hv1, hc⟩ c)
        | some (n + 2) => exact .step he (by omega) (ih2 henv ⟨_, _, _, hv2, hc⟩ c)
  | fold first join ihf ihj =>
    intro env jp henv ⟨h, ctx, h', hv, hc⟩ c
    simp only [Notation.validateRec] at hv
    split at hv
    · simp at hv
    · cases hv0 : first.validateRec {} { ctx with fold := some .inFoldFirst } with
      | error e => rw [hv0] at hv; simp [bind, Except.bind] at hv
      | ok h0 =>
      cases hv1 : join.validateRec {} { ctx with fold := some .inFoldJoin } with
      | error e => rw [hv0, hv1] at hv; simp [bind, Except.bind] at hv
      | ok h1 =>
        simp only [Notation.shape]
        refine shape_orLeaf (k := 1) _ (by rw [DCN.evalC.eq_def]; rfl) (by omega) ?_
        intro r hr he
        match r with
        | none => exact .fail (n := 2) he (by omega)
        | some 0 => exact .leaf (n := 2) he (by omega) (.inl rfl)
        | some 1 => exact .step he (by omega) (ihf (EnvShape.none _ _) ⟨_, _, _, hv0, by simp⟩ c)
        | some (n + 2) =>
          simp only [mkD] at he
          rw [law.last _ _ hr, ← childAt_eq hr (Nat.lt_succ_self _)] at he
          -- the code and the spec agree on the fold of the first `k + 2` children
          have key : ∀ k, k + 1 < n + 2 → ∀ ch, P.childAt node (k + 1) = .ok ch → ∀ c : Ctx P,
              ShapeRep (mkD join node c (some ⟨node, ch, k + 1, first, join⟩))
                (join.shape node kid (some ⟨Nat.rec (motive := fun _ => Bool → Nat → Shape)
                  (fun fl m => first.shape node kid none fl m)
                  (fun k acc fl m => .orLeaf (P.childAt node (k + 1)) fun _ =>
                    join.shape node kid (some ⟨acc, k + 1⟩) fl m) k, k + 1⟩) c.flat c.indent.length) := by
            intro k
            induction k with
            | zero =>
              intro hk ch hch c
              refine ihj ?_ ⟨_, _, _, hv1, by simp⟩ c
              rintro e he
              simp only [Option.some.injEq] at he
              subst he
              refine ⟨_, rfl, rfl, rfl, Nat.le_refl _, hch, fun c => ?_⟩
              refine .step (k := 1) ?_ (by omega) (ihf (EnvShape.none _ none) ⟨_, _, _, hv0, by simp⟩ c)
              rw [DCN.evalC.eq_def]; rfl
            | succ k ihk =>
              intro hk ch hch c
              refine ihj ?_ ⟨_, _, _, hv1, by simp⟩ c
              rintro e he
              simp only [Option.some.injEq] at he
              subst he
              refine ⟨_, rfl, rfl, rfl, Nat.succ_le_succ (Nat.zero_le _), hch, fun c => ?_⟩
              obtain ⟨n', g1, g2, g3⟩ := childAt_ok hch
              have heq : (mkD .left node c (some ⟨node, ch, k + 1 + 1, first, join⟩)).evalC =
                  after 1 (callC (P.childAt node (k + 1)) >>= fun child =>
                    DCN.evalC (mkD join node c (some ⟨node, child, k + 1, first, join⟩))) := by
                rw [childAt_eq g1 (by omega), ← law.prev _ _ _ _ g1 g2 g3, DCN.evalC.eq_def]
                rfl
              cases hch' : P.childAt node (k + 1) with
              | error e => rw [hch', callC_error_bind, after_some] at heq; exact .fail heq (by omega)
              | ok ch' =>
                rw [hch', callC_ok_bind, after_after] at heq
                refine .step heq (by omega) ?_
                simp only [Shape.orLeaf]
                exact ihk (by omega) ch' hch' c
          cases hch : P.childAt node (n + 1) with
          | error e => rw [hch, callC_error_bind, after_some] at he; exact .fail he (by omega)
          | ok ch =>
            rw [hch, callC_ok_bind, after_after] at he
            refine .step he (by omega) ?_
            simp only [Shape.orLeaf, hch]
            exact key n (by omega) ch hch c
  | left =>
    intro env jp henv ⟨h, ctx, h', hv, hc⟩ c
    simp only [Notation.validateRec] at hv
    split at hv
    · simp at hv
    · obtain ⟨e, rfl⟩ := Option.isSome_iff_exists.1 (hc (Decidable.not_not.1 ‹¬ _›))
      obtain ⟨jp0, rfl, h1, h2, h3, h4, h5⟩ := henv e rfl
      exact h5 c
  | right =>
    intro env jp henv ⟨h, ctx, h', hv, hc⟩ c
    simp only [Notation.validateRec] at hv
    split at hv
    · simp at hv
    · obtain ⟨e, rfl⟩ := Option.isSome_iff_exists.1 (hc (Decidable.not_not.1 ‹¬ _›))
      obtain ⟨jp0, rfl, h1, h2, h3, h4, h5⟩ := henv e rfl
      refine hkid e.next c none _ _ 1 h4 ?_ (by omega)
      rw [DCN.evalC.eq_def, ← h2]
      rfl

/-- The children of a document, as `docShape` sees them. -/
def kidShape (law : P.Lawful) (node : P.Node) (i : Nat) (fl : Bool) (m : Nat) : Shape :=
  match P.childAt node i with
  | .error _ => .leaf
  | .ok child =>
    match P.notn child, P.nodeStyle child with
    | .ok _, .ok _ => .child (docShape law child fl m)
    | _, _ => .leaf

theorem docShape_of (law : P.Lawful) {node : P.Node} {a s} (ha : P.notn node = .ok a)
    (hs : P.nodeStyle node = .ok s) (flat levels) :
    docShape law node flat levels = a.shape node (kidShape law node) none flat levels := by
  rw [docShape, ha, hs]
  dsimp only
  congr 1
  funext i fl m
  unfold kidShape
  split <;> rename_i h <;> rw [h]
  all_goals rfl

theorem docShape_rep (law : P.Lawful) (node : P.Node) : ∀ (c : Ctx P) a s jp, P.notn node = .ok a →
    P.nodeStyle node = .ok s → ShapeRep (mkD a node c jp) (docShape law node c.flat c.indent.length) := by
  induction node using law.wf.induction with
  | _ node ih =>
    intro c a s jp ha hs
    rw [docShape_of law ha hs]
    refine shape_rep law node ?_ a (EnvShape.none _ _) ?_ c
    · intro i c jp d ch k hch he hk
      unfold kidShape
      rw [hch]
      unfold childCNC at he
      dsimp only
      cases hn : P.notn ch with
      | error e =>
        rw [hn, callC_error_bind, after_some] at he
        exact .fail he (by omega)
      | ok b =>
        rw [hn, callC_ok_bind, after_after] at he
        cases hst : P.nodeStyle ch with
        | error e =>
          rw [hst, callC_error_bind, after_some] at he
          exact .fail he (by omega)
        | ok st =>
          rw [hst, callC_ok_bind, after_after] at he
          exact .child he (by omega) (ih ch ⟨i, hch⟩ { c with style := P.combine c.style st } b st jp hn hst)
    · have hv := law.valid _ _ ha
      unfold Notation.Valid Notation.validate at hv
      cases hvr : a.validateRec {} {} with
      | error e => rw [hvr] at hv; simp [bind, Except.bind] at hv
      | ok h' => exact ⟨_, _, h', hvr, by simp⟩

end PPP
