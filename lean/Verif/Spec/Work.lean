import Verif.Spec.Denote
/-
Specification: how much there is to do.

`docShape` is the notation of a whole document with everything written out: it is the notation tree of
the document (Spec/Denote.lean), reduced to what matters for counting (no strings, styles or ids) but
with a `step` for every construct that the notation tree leaves out because it has been resolved (Flat,
Indent, Style, Check, Count, Fold, Left).

`Shape.work` is an estimate of the work of printing such a tree at a width: every construct once; of a
choice, only one of the options (the more expensive one); and for every choice, a look at the rest of
its line.
-/
namespace PPP

/-- A document's notation, written out. -/
inductive Shape where
  /-- Nothing, a focus mark, an end-of-line mark, or a place that cannot be looked at. -/
  | leaf
  /-- A line break under so many levels of indentation. -/
  | newline (levels : Nat)
  /-- A text or literal of this width. -/
  | text (width : Nat)
  | concat (a b : Shape)
  | choice (a b : Shape)
  /-- A child node is displayed here. -/
  | child (t : Shape)
  /-- A construct that is resolved without regard to the width. -/
  | step (t : Shape)

/-! ### The shape of a document -/

section
variable {P : PrettyDoc}

/-- What `Left` and `Right` stand for, in the `join` of a `Fold`: what was folded so far, as a function of
    whether it is inside a `Flat` and of the number of enclosing indentations; and the index of the next
    child. -/
structure ShapeEnv where
  acc : Bool → Nat → Shape
  next : Nat

/-- `c`, or a leaf if it fails. -/
def Shape.orLeaf {E α : Type} (c : Call E α) (f : α → Shape) : Shape :=
  match c with
  | .error _ => .leaf
  | .ok a => f a

/-- The node that a `Check` looks at, if there is one. -/
def inspectedNode (node : P.Node) (env : Option ShapeEnv) : CheckPos → Option P.Node
  | .here => some node
  | .child i =>
    match P.numChildren node with
    | .ok (some n) =>
      match childIndex i n with
      | some j => (P.childAt node j).toOption
      | none => none
    | _ => none
  | .leftChild =>
    match env with
    | some e => (P.childAt node (e.next - 1)).toOption
    | none => none
  | .rightChild =>
    match env with
    | some e => (P.childAt node e.next).toOption
    | none => none

/-- The shape of a notation of the node `node`; `kid i flat levels` is the shape of child `i`. -/
def Notation.shape (node : P.Node) (kid : Nat → Bool → Nat → Shape) :
    Notation P.Label P.Cond → Option ShapeEnv → (flat : Bool) → (levels : Nat) → Shape
  | .empty, _, _, _ => .leaf
  | .endOfLine, _, _, _ => .leaf
  | .focusMark, _, _, _ => .leaf
  | .newline, _, _, m => .newline m
  | .literal s, _, _, _ => .text (P.strWidth s)
  | .text, _, _, _ =>
    .orLeaf (P.numChildren node) fun
      | some _ => .leaf
      | none => .orLeaf (P.unwrapText node) fun s => .text (P.strWidth s)
  | .flat a, env, _, m => .step (a.shape node kid env true m)
  | .indent _ none a, env, fl, m => .step (a.shape node kid env fl (m + 1))
  | .indent _ (some label) a, env, fl, m =>
    .orLeaf (P.lookupStyle node label) fun _ => .step (a.shape node kid env fl (m + 1))
  | .concat a b, env, fl, m => .concat (a.shape node kid env fl m) (b.shape node kid env fl m)
  | .choice a b, env, fl, m =>
    if fl then .step (a.shape node kid env fl m)
    else .choice (a.shape node kid env fl m) (b.shape node kid env fl m)
  | .check cond pos a b, env, fl, m =>
    match inspectedNode node env pos with
    | none => .leaf
    | some p => .orLeaf (P.condition p cond) fun
      | true => .step (a.shape node kid env fl m)
      | false => .step (b.shape node kid env fl m)
  | .child i, _, fl, m =>
    .orLeaf (P.numChildren node) fun
      | none => .leaf
      | some n =>
        match childIndex i n with
        | none => .leaf
        | some j => kid j fl m
  | .style label a, env, fl, m =>
    .orLeaf (P.lookupStyle node label) fun _ => .step (a.shape node kid env fl m)
  | .count zero one many, env, fl, m =>
    .orLeaf (P.numChildren node) fun
      | none => .leaf
      | some 0 => .step (zero.shape node kid env fl m)
      | some 1 => .step (one.shape node kid env fl m)
      | some _ => .step (many.shape node kid env fl m)
  | .fold first join, _, fl, m =>
    .orLeaf (P.numChildren node) fun
      | none => .leaf
      | some 0 => .leaf
      | some (n + 1) =>
        -- the shape of the fold of children `0 .. k`, for `k = n`
        .step (Nat.rec (motive := fun _ => Bool → Nat → Shape)
          (fun fl m => first.shape node kid none fl m)
          (fun k acc fl m => .orLeaf (P.childAt node (k + 1)) fun _ =>
            join.shape node kid (some ⟨acc, k + 1⟩) fl m)
          n fl m)
  | .left, some e, fl, m => .step (e.acc fl m)
  | .right, some e, fl, m => kid e.next fl m
  | .left, none, _, _ => .leaf
  | .right, none, _, _ => .leaf

/-- The shape of a document. -/
def docShape (law : P.Lawful) (node : P.Node) (flat : Bool) (levels : Nat) : Shape :=
  match P.notn node, P.nodeStyle node with
  | .ok a, .ok _ =>
    a.shape node
      (fun i fl m =>
        match h : P.childAt node i with
        | .error _ => .leaf
        | .ok child =>
          match P.notn child, P.nodeStyle child with
          | .ok _, .ok _ => .child (docShape law child fl m)
          | _, _ => .leaf)
      none flat levels
  | _, _ => .leaf
termination_by law.wf.wrap node
decreasing_by exact ⟨i, h⟩

end

/-! ### Work -/

/-- How often a shape has to be unwrapped until its outermost construct that matters is found. -/
def Shape.steps : Shape → Nat
  | .step t => 1 + t.steps
  | _ => 1

/-- What is looked at when trying to fit the rest of a line into `room` columns, where the rest of the
    line consists of a shape and what comes `after` it (as a function of the room that is left then).
    It ends at the first line break, and at the first text for which there is no room; of a choice, the
    second option is tried; both parts of a concatenation are unwrapped at once. -/
def Shape.ahead : Shape → (after : Nat → Nat) → (room : Nat) → Nat
  | .leaf, after, room => 1 + after room
  | .newline _, _, _ => 1
  | .text w, after, room => 1 + if w ≤ room then after (room - w) else 0
  | .concat a b, after, room => 1 + b.steps + a.ahead (b.ahead after) room
  | .choice _ b, after, room => 1 + b.ahead after room
  | .child t, after, room => 1 + t.ahead after room
  | .step t, after, room => 1 + t.ahead after room

/-- An estimate of the work of printing a shape at width `w`, when it is followed on its line by
    something that takes `after` to look at. -/
def Shape.work (w : Nat) : Shape → (after : Nat → Nat) → Nat
  | .leaf, _ => 1
  | .newline levels, _ => 1 + levels
  | .text _, _ => 1
  | .concat a b, after => 1 + a.work w (b.ahead after) + b.work w after
  | .choice a b, after => 1 + a.ahead after w + max (a.work w after) (b.work w after)
  | .child t, after => 1 + t.work w after
  | .step t, after => 1 + t.work w after

/-- An estimate of the work of printing a document at width `w`. -/
def docWork {P : PrettyDoc} (law : P.Lawful) (doc : P.Node) (w : Nat) : Nat :=
  (docShape law doc false 0).work w (fun _ => 0)

/-- The size of the largest layout: how many constructs there are (a line break counts once for every
    level of indentation, too) if of every choice only one option is taken, the larger one. -/
def Shape.largest : Shape → Nat
  | .leaf => 1
  | .newline levels => 1 + levels
  | .text _ => 1
  | .concat a b => 1 + a.largest + b.largest
  | .choice a b => 1 + max a.largest b.largest
  | .child t => 1 + t.largest
  | .step t => 1 + t.largest

/-- The size of the smallest layout: the same, if of every choice the smaller option is taken. -/
def Shape.smallest : Shape → Nat
  | .leaf => 1
  | .newline levels => 1 + levels
  | .text _ => 1
  | .concat a b => 1 + a.smallest + b.smallest
  | .choice a b => 1 + min a.smallest b.smallest
  | .child t => 1 + t.smallest
  | .step t => 1 + t.smallest

/-- The furthest look ahead at a choice. -/
def Shape.furthest (w : Nat) : Shape → (after : Nat → Nat) → Nat
  | .leaf, _ => 0
  | .newline _, _ => 0
  | .text _, _ => 0
  | .concat a b, after => max (a.furthest w (b.ahead after)) (b.furthest w after)
  | .choice a b, after => max (a.ahead after w) (max (a.furthest w after) (b.furthest w after))
  | .child t, after => t.furthest w after
  | .step t, after => t.furthest w after

/-- The size of the largest layout of a document. -/
def docLargest {P : PrettyDoc} (law : P.Lawful) (doc : P.Node) : Nat := (docShape law doc false 0).largest

/-- The size of the smallest layout of a document. -/
def docSmallest {P : PrettyDoc} (law : P.Lawful) (doc : P.Node) : Nat := (docShape law doc false 0).smallest

/-- The furthest look ahead when printing a document at width `w`. -/
def docFurthest {P : PrettyDoc} (law : P.Lawful) (doc : P.Node) (w : Nat) : Nat :=
  (docShape law doc false 0).furthest w (fun _ => 0)

end PPP
