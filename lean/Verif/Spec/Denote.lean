import Verif.Spec.NTree
import Verif.Model.Validate
/-
Specification, part 3: what a document means, as a notation tree.

`Notation.tree` says what each notation displays, by structural recursion on the notation;
`docTree` glues the notations of all nodes together, by recursion on the document.
-/
namespace PPP

/-- `c` or the failure of a document's method. -/
def NTree.orFail {P : PrettyDoc} {α : Type} (c : Call P.Err α) (f : α → NTree P) : NTree P :=
  match c with
  | .error e => .fail e.toFail
  | .ok a => f a

variable (P : PrettyDoc)

/-- Child `i` of the node `p`, for `i` less than the number of children of `p`. -/
def PrettyDoc.childAt (p : P.Node) (i : Nat) : Call P.Err P.Node :=
  match P.numChildren p with
  | .ok (some n) => if i < n then P.unwrapChild p i else .error .panic
  | .ok none => .error .panic
  | .error e => .error e

/-- `c` is a child of `p`. -/
def PrettyDoc.ChildOf (c p : P.Node) : Prop := ∃ i, P.childAt p i = .ok c

/-- The conditions that are used in the `Check`s of a notation. -/
def Notation.conds {L C : Type} : Notation L C → List C
  | .check c _ a b => c :: (a.conds ++ b.conds)
  | .flat a => a.conds
  | .indent _ _ a => a.conds
  | .style _ a => a.conds
  | .concat a b => a.conds ++ b.conds
  | .choice a b => a.conds ++ b.conds
  | .count z o m => z.conds ++ (o.conds ++ m.conds)
  | .fold f j => f.conds ++ j.conds
  | _ => []

/-- The style labels that are used in the `Style`s and the `Indent`s of a notation. -/
def Notation.labels {L C : Type} : Notation L C → List L
  | .indent _ none a => a.labels
  | .indent _ (some l) a => l :: a.labels
  | .style l a => l :: a.labels
  | .check _ _ a b => a.labels ++ b.labels
  | .flat a => a.labels
  | .concat a b => a.labels ++ b.labels
  | .choice a b => a.labels ++ b.labels
  | .count z o m => z.labels ++ (o.labels ++ m.labels)
  | .fold f j => f.labels ++ j.labels
  | _ => []

/-- The notation of `p`, or of a node that `p` is a child of, checks the condition `c`. -/
def PrettyDoc.ChecksCond (p : P.Node) (c : P.Cond) : Prop :=
  ∃ q a, P.notn q = .ok a ∧ c ∈ a.conds ∧ (p = q ∨ P.ChildOf p q)

/-- The notation of `p` uses the style label `l`. -/
def PrettyDoc.UsesLabel (p : P.Node) (l : P.Label) : Prop :=
  ∃ a, P.notn p = .ok a ∧ l ∈ a.labels

/-- What the documentation of the `PrettyDoc` trait asks of an implementation
    (/repo/src/pretty_doc.rs:32-104): documents are finitely deep, notations are valid, the
    redundant methods agree with `unwrap_child`, and methods do not panic when used as
    documented. -/
structure PrettyDoc.Lawful : Prop where
  /-- No infinite chains of children. -/
  wf : WellFounded P.ChildOf
  /-- `notation()` returns a `ValidNotation`. -/
  valid : ∀ p a, P.notn p = .ok a → a.Valid
  /-- `unwrap_last_child` is `unwrap_child` of the last child. -/
  last : ∀ p n, P.numChildren p = .ok (some (n + 1)) → P.unwrapLastChild p = P.unwrapChild p n
  /-- `unwrap_prev_sibling` is `unwrap_child` of the previous child. -/
  prev : ∀ p n i c, P.numChildren p = .ok (some n) → i + 1 < n → P.unwrapChild p (i + 1) = .ok c →
    P.unwrapPrevSibling c p i = P.unwrapChild p i
  id_no_panic : ∀ p, P.id p ≠ .error .panic
  notn_no_panic : ∀ p, P.notn p ≠ .error .panic
  /-- `condition` may panic for conditions that are not used in a `Check`, of this node's notation or
      of its parent's. -/
  condition_no_panic : ∀ p c, P.ChecksCond p c → P.condition p c ≠ .error .panic
  /-- `lookup_style` may panic for labels that are not used in this node's notation. -/
  lookupStyle_no_panic : ∀ p l, P.UsesLabel p l → P.lookupStyle p l ≠ .error .panic
  nodeStyle_no_panic : ∀ p, P.nodeStyle p ≠ .error .panic
  numChildren_no_panic : ∀ p, P.numChildren p ≠ .error .panic
  /-- `unwrap_text` may panic unless there are no children. -/
  unwrapText_no_panic : ∀ p, P.numChildren p = .ok none → P.unwrapText p ≠ .error .panic
  /-- `unwrap_child` may panic out of bounds. -/
  unwrapChild_no_panic : ∀ p n i, P.numChildren p = .ok (some n) → i < n →
    P.unwrapChild p i ≠ .error .panic

/-- What surrounds a place in a notation: whether it is inside a `Flat`, the enclosing
    indentations (outermost first) and the style in force. -/
structure Ctx where
  flat : Bool
  indent : List (Segment P)
  style : P.Style

/-- What `Left` and `Right` stand for inside the `join` of a `Fold`: everything folded so far, and
    the index of the next child. -/
structure FoldEnv where
  acc : Ctx P → NTree P
  next : Nat

variable {P}

/-- The child meant by a possibly negative index, when there are `n` children: `-1` is the last. -/
def childIndex (i : Int) (n : Nat) : Option Nat :=
  if 0 ≤ i ∧ i < n then some i.toNat
  else if i < 0 ∧ 0 ≤ n + i then some (n + i).toNat
  else none

/-- The node that a `Check` looks at. -/
def inspected (node : P.Node) (env : Option (FoldEnv P)) : CheckPos → Res P.Err P.Node
  | .here => .ok node
  | .child i => do
    match ← Call.toRes (P.numChildren node) with
    | none => .error (.err .checkPosChildOnChildlessDoc)
    | some n =>
      match childIndex i n with
      | none => .error (.err (.checkPosChildIndexOutOfBounds i n))
      | some j => Call.toRes (P.childAt node j)
  | .leftChild =>
    match env with
    | some e => Call.toRes (P.childAt node (e.next - 1))
    | none => .error .panic
  | .rightChild =>
    match env with
    | some e => Call.toRes (P.childAt node e.next)
    | none => .error .panic

/-- What a notation of the node `node` displays.  `kid i c` is what child `i` displays in the context
    `c`; `env` says what `Left` and `Right` are (they are only meaningful in a `join`, which is
    checked by validation). -/
def Notation.tree (node : P.Node) (kid : Nat → Ctx P → NTree P) :
    Notation P.Label P.Cond → Option (FoldEnv P) → Ctx P → NTree P
  | .empty, _, _ => .empty
  | .endOfLine, _, _ => .eol
  | .newline, _, c => .newline c.indent
  | .literal s, _, c => .text ⟨s, P.strWidth s, c.style, false⟩
  | .text, _, c =>
    .orFail (P.numChildren node) fun
      | some _ => .fail (.err .textNotationOnTextlessDoc)
      | none => .orFail (P.unwrapText node) fun s => .text ⟨s, P.strWidth s, c.style, true⟩
  | .flat a, env, c => a.tree node kid env { c with flat := true }
  | .indent pre none a, env, c =>
    a.tree node kid env { c with indent := c.indent ++ [⟨pre, P.strWidth pre, c.style⟩] }
  | .indent pre (some label) a, env, c =>
    .orFail (P.lookupStyle node label) fun s =>
      a.tree node kid env
        { c with indent := c.indent ++ [⟨pre, P.strWidth pre, P.combine c.style s⟩] }
  | .concat a b, env, c => .concat (a.tree node kid env c) (b.tree node kid env c)
  | .choice a b, env, c =>
    if c.flat then a.tree node kid env c
    else .choice (a.tree node kid env c) (b.tree node kid env c)
  | .check cond pos a b, env, c =>
    match inspected node env pos with
    | .error f => .fail f
    | .ok p => .orFail (P.condition p cond) fun
      | true => a.tree node kid env c
      | false => b.tree node kid env c
  | .child i, _, c =>
    .orFail (P.numChildren node) fun
      | none => .fail (.err .childNotationOnChildlessDoc)
      | some n =>
        match childIndex i n with
        | none => .fail (.err (.childIndexOutOfBounds i n))
        | some j => kid j c
  | .style label a, env, c =>
    .orFail (P.lookupStyle node label) fun s =>
      a.tree node kid env { c with style := P.combine c.style s }
  | .focusMark, _, _ => .mark
  | .count zero one many, env, c =>
    .orFail (P.numChildren node) fun
      | none => .fail (.err .countNotationOnChildlessDoc)
      | some 0 => zero.tree node kid env c
      | some 1 => one.tree node kid env c
      | some _ => many.tree node kid env c
  | .fold first join, _, c =>
    .orFail (P.numChildren node) fun
      | none => .fail (.err .numChildrenChanged)
      | some 0 => .empty
      | some (n + 1) =>
        -- the notation for children `0 .. k`, for `k = n`
        Nat.rec (motive := fun _ => Ctx P → NTree P)
          (fun c => first.tree node kid none c)
          (fun k acc c => .orFail (P.childAt node (k + 1)) fun _ =>
            join.tree node kid (some ⟨acc, k + 1⟩) c)
          n c
  | .left, some e, c => e.acc c
  | .right, some e, c => kid e.next c
  | .left, none, _ => .fail .panic
  | .right, none, _ => .fail .panic

/-- The style in force at the start of a node. -/
def enterStyle (outer : Option P.Style) (nodeStyle : P.Style) : P.Style :=
  match outer with
  | some s => P.combine s nodeStyle
  | none => nodeStyle

/-- The notation tree of the document `node`, in a place with the given flatness, indentation and
    surrounding style. -/
def docTree (law : P.Lawful) (node : P.Node) (flat : Bool) (indent : List (Segment P))
    (outer : Option P.Style) : Res P.Err (NTree P) := do
  let a ← Call.toRes (P.notn node)
  let s ← Call.toRes (P.nodeStyle node)
  .ok (a.tree node
    (fun i c =>
      match h : P.childAt node i with
      | .error f => .fail f.toFail
      | .ok child =>
        match docTree law child c.flat c.indent (some c.style) with
        | .error f => .fail f
        | .ok t => .child i (Call.toRes (P.id child)) t)
    none ⟨flat, indent, enterStyle outer s⟩)
termination_by law.wf.wrap node
decreasing_by exact ⟨i, h⟩

/-- The notation tree of a whole document, and the id of its root. -/
def rootTree (law : P.Lawful) (doc : P.Node) (rootStyle : Option P.Style) :
    Res P.Err (P.Id × NTree P) := do
  let t ← docTree law doc false [] rootStyle
  let id ← Call.toRes (P.id doc)
  .ok (id, t)

end PPP
