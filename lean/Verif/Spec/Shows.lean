import Verif.Spec.Denote
import Verif.Spec.Greedy
/-
Specification, part 7: what a notation shows, as inductive rules.

`Notation.tree` (part 3) builds the notation tree of a document with functions for what children and
folds stand for.  Here the meaning of notations is given once more, by rules that mention only places
in the document: a place is a notation of a node, together with what encloses it.
-/
namespace PPP
variable (P : PrettyDoc)

/-- Where we are in a `Fold { first, join }` over the children of the current node: inside of the
    `join` that adds child `next` to the children `0 .. next - 1`. -/
structure FoldPos where
  first : Notation P.Label P.Cond
  join : Notation P.Label P.Cond
  next : Nat

/-- A place in a document. -/
structure Place where
  /-- The node whose notation this is. -/
  node : P.Node
  /-- If it is inside the `join` of a `Fold`, which one. -/
  fold : Option (FoldPos P)
  /-- Whether there is a `Flat` around it (in this node or in one above it). -/
  flat : Bool
  /-- The `Indent`s around it (in this node or in one above it), outermost first. -/
  indents : List (Segment P)
  /-- The styles around it, outermost first: the root style if there is one, the `node_style` of every
      node from the root to this one, and the styles of all the `Style` labels around it. -/
  styles : List P.Style
  /-- The notation. -/
  notn : Notation P.Label P.Cond

variable {P}

/-- Combine styles from the outside to the inside: `((s0 s1) s2) ...`. -/
def combineAll : List P.Style → Option P.Style
  | [] => none
  | s :: ss => some (ss.foldl P.combine s)

/-- `Inspects node fold pos p`: a `Check` at `pos` looks at the node `p`. -/
inductive Inspects (node : P.Node) : Option (FoldPos P) → CheckPos → P.Node → Prop where
  | here {f} : Inspects node f .here node
  | child {f i n j p} : P.numChildren node = .ok (some n) → childIndex i n = some j →
      P.childAt node j = .ok p → Inspects node f (.child i) p
  | left {first join k p} : P.childAt node k = .ok p →
      Inspects node (some ⟨first, join, k + 1⟩) .leftChild p
  | right {first join k p} : P.childAt node k = .ok p →
      Inspects node (some ⟨first, join, k⟩) .rightChild p

/-- The place where a child node begins. -/
def Place.enter (x : Place P) (child : P.Node) (a : Notation P.Label P.Cond) (s : P.Style) : Place P :=
  { x with node := child, fold := none, styles := x.styles ++ [s], notn := a }

/-- `Opens x y`: at the place `x`, what is shown is what is shown at the place `y`. -/
inductive Opens : Place P → Place P → Prop where
  | flat {n f fl I S a} : Opens ⟨n, f, fl, I, S, .flat a⟩ ⟨n, f, true, I, S, a⟩
  | indent {n f fl I S pre a st} : combineAll S = some st →
      Opens ⟨n, f, fl, I, S, .indent pre none a⟩ ⟨n, f, fl, I ++ [⟨pre, P.strWidth pre, st⟩], S, a⟩
  | indent_label {n f fl I S pre l a s st} : P.lookupStyle n l = .ok s → combineAll (S ++ [s]) = some st →
      Opens ⟨n, f, fl, I, S, .indent pre (some l) a⟩ ⟨n, f, fl, I ++ [⟨pre, P.strWidth pre, st⟩], S, a⟩
  | style {n f fl I S l a s} : P.lookupStyle n l = .ok s →
      Opens ⟨n, f, fl, I, S, .style l a⟩ ⟨n, f, fl, I, S ++ [s], a⟩
  /-- The first option can be shown anywhere. -/
  | choice_first {n f fl I S a b} : Opens ⟨n, f, fl, I, S, .choice a b⟩ ⟨n, f, fl, I, S, a⟩
  /-- The second option can only be shown outside of `Flat`. -/
  | choice_second {n f I S a b} : Opens ⟨n, f, false, I, S, .choice a b⟩ ⟨n, f, false, I, S, b⟩
  | check_true {n f fl I S c pos a b p} : Inspects n f pos p → P.condition p c = .ok true →
      Opens ⟨n, f, fl, I, S, .check c pos a b⟩ ⟨n, f, fl, I, S, a⟩
  | check_false {n f fl I S c pos a b p} : Inspects n f pos p → P.condition p c = .ok false →
      Opens ⟨n, f, fl, I, S, .check c pos a b⟩ ⟨n, f, fl, I, S, b⟩
  | child {n f fl I S i k j c a s} : P.numChildren n = .ok (some k) → childIndex i k = some j →
      P.childAt n j = .ok c → P.notn c = .ok a → P.nodeStyle c = .ok s →
      Opens ⟨n, f, fl, I, S, .child i⟩ (Place.enter ⟨n, f, fl, I, S, .child i⟩ c a s)
  | count_zero {n f fl I S z o m} : P.numChildren n = .ok (some 0) →
      Opens ⟨n, f, fl, I, S, .count z o m⟩ ⟨n, f, fl, I, S, z⟩
  | count_one {n f fl I S z o m} : P.numChildren n = .ok (some 1) →
      Opens ⟨n, f, fl, I, S, .count z o m⟩ ⟨n, f, fl, I, S, o⟩
  | count_many {n f fl I S z o m k} : P.numChildren n = .ok (some (k + 2)) →
      Opens ⟨n, f, fl, I, S, .count z o m⟩ ⟨n, f, fl, I, S, m⟩
  /-- One child: `first`. -/
  | fold_one {n f fl I S first join} : P.numChildren n = .ok (some 1) →
      Opens ⟨n, f, fl, I, S, .fold first join⟩ ⟨n, none, fl, I, S, first⟩
  /-- More children: the `join` that adds the last one. -/
  | fold_more {n f fl I S first join k} : P.numChildren n = .ok (some (k + 2)) →
      Opens ⟨n, f, fl, I, S, .fold first join⟩ ⟨n, some ⟨first, join, k + 1⟩, fl, I, S, join⟩
  /-- To the left of child 1 there is only child 0: `first`. -/
  | left_first {n fl I S first join} :
      Opens ⟨n, some ⟨first, join, 1⟩, fl, I, S, .left⟩ ⟨n, none, fl, I, S, first⟩
  /-- To the left of child `k + 2`: the `join` that adds child `k + 1`. -/
  | left_join {n fl I S first join k} :
      Opens ⟨n, some ⟨first, join, k + 2⟩, fl, I, S, .left⟩ ⟨n, some ⟨first, join, k + 1⟩, fl, I, S, join⟩
  | right {n fl I S first join k c a s} : P.childAt n k = .ok c → P.notn c = .ok a →
      P.nodeStyle c = .ok s →
      Opens ⟨n, some ⟨first, join, k⟩, fl, I, S, .right⟩
        (Place.enter ⟨n, some ⟨first, join, k⟩, fl, I, S, .right⟩ c a s)

/-- `Leaf x tok`: what is shown at the place `x` is the single token `tok`. -/
inductive Leaf : Place P → Tok P → Prop where
  | newline {n f fl I S} : Leaf ⟨n, f, fl, I, S, .newline⟩ (.nl I)
  | endOfLine {n f fl I S} : Leaf ⟨n, f, fl, I, S, .endOfLine⟩ .eol
  | literal {n f fl I S s st} : combineAll S = some st →
      Leaf ⟨n, f, fl, I, S, .literal s⟩ (.text ⟨s, P.strWidth s, st, false⟩)
  | text {n f fl I S s st} : P.numChildren n = .ok none → P.unwrapText n = .ok s → combineAll S = some st →
      Leaf ⟨n, f, fl, I, S, .text⟩ (.text ⟨s, P.strWidth s, st, true⟩)
  | focusMark {n f fl I S id} : P.id n = .ok id → Leaf ⟨n, f, fl, I, S, .focusMark⟩ (.mark id)

/-- `Shows x T`: with some way of taking the choices, the tokens shown at the place `x` are `T`. -/
inductive Shows : Place P → List (Tok P) → Prop where
  | opens {x y T} : Opens x y → Shows y T → Shows x T
  | leaf {x tok} : Leaf x tok → Shows x [tok]
  | empty {n f fl I S} : Shows ⟨n, f, fl, I, S, .empty⟩ []
  | concat {n f fl I S a b T U} : Shows ⟨n, f, fl, I, S, a⟩ T → Shows ⟨n, f, fl, I, S, b⟩ U →
      Shows ⟨n, f, fl, I, S, .concat a b⟩ (T ++ U)
  /-- No children: nothing. -/
  | fold_zero {n f fl I S first join} : P.numChildren n = .ok (some 0) →
      Shows ⟨n, f, fl, I, S, .fold first join⟩ []

/-- `x.Around y`: the place `y` is the place `x`, or is inside of it. -/
inductive Place.Around : Place P → Place P → Prop where
  | refl {x} : Around x x
  | opens {x y z} : Opens x y → y.Around z → Around x z
  | concat_left {n f fl I S a b z} : Around ⟨n, f, fl, I, S, a⟩ z → Around ⟨n, f, fl, I, S, .concat a b⟩ z
  | concat_right {n f fl I S a b z} : Around ⟨n, f, fl, I, S, b⟩ z → Around ⟨n, f, fl, I, S, .concat a b⟩ z

/-- `x.Surely y`: the place `y` is inside of the place `x`, and is shown whenever `x` is, however the
    choices are taken. -/
inductive Place.Surely : Place P → Place P → Prop where
  | refl {x} : Surely x x
  | opens {x y z} : Opens x y → (∀ y', Opens x y' → y' = y) → y.Surely z → Surely x z
  | concat_left {n f fl I S a b z} : Surely ⟨n, f, fl, I, S, a⟩ z → Surely ⟨n, f, fl, I, S, .concat a b⟩ z
  | concat_right {n f fl I S a b z} : Surely ⟨n, f, fl, I, S, b⟩ z → Surely ⟨n, f, fl, I, S, .concat a b⟩ z

/-- `Stuck x e`: the notation at the place `x` does not match the document, which is reported as `e`. -/
inductive Stuck : Place P → PrintingError P.Err → Prop where
  | text {n f fl I S k} : P.numChildren n = .ok (some k) →
      Stuck ⟨n, f, fl, I, S, .text⟩ .textNotationOnTextlessDoc
  | child_childless {n f fl I S i} : P.numChildren n = .ok none →
      Stuck ⟨n, f, fl, I, S, .child i⟩ .childNotationOnChildlessDoc
  | child_bounds {n f fl I S i k} : P.numChildren n = .ok (some k) → childIndex i k = none →
      Stuck ⟨n, f, fl, I, S, .child i⟩ (.childIndexOutOfBounds i k)
  | check_childless {n f fl I S c i a b} : P.numChildren n = .ok none →
      Stuck ⟨n, f, fl, I, S, .check c (.child i) a b⟩ .checkPosChildOnChildlessDoc
  | check_bounds {n f fl I S c i k a b} : P.numChildren n = .ok (some k) → childIndex i k = none →
      Stuck ⟨n, f, fl, I, S, .check c (.child i) a b⟩ (.checkPosChildIndexOutOfBounds i k)
  | count {n f fl I S z o m} : P.numChildren n = .ok none →
      Stuck ⟨n, f, fl, I, S, .count z o m⟩ .countNotationOnChildlessDoc
  /-- (The error for this case has a misleading name.) -/
  | fold {n f fl I S first join} : P.numChildren n = .ok none →
      Stuck ⟨n, f, fl, I, S, .fold first join⟩ .numChildrenChanged

/-- Some method of some node returned the error `e`. -/
def DocError (e : P.Err) : Prop :=
  ∃ p : P.Node, P.id p = .error (.err e) ∨ P.notn p = .error (.err e) ∨
    (∃ c, P.condition p c = .error (.err e)) ∨ (∃ l, P.lookupStyle p l = .error (.err e)) ∨
    P.nodeStyle p = .error (.err e) ∨ P.numChildren p = .error (.err e) ∨
    P.unwrapText p = .error (.err e) ∨ (∃ i, P.childAt p i = .error (.err e))

/-- `RootPlace doc rootStyle x`: `x` is the whole document. -/
def RootPlace (doc : P.Node) (rootStyle : Option P.Style) (x : Place P) : Prop :=
  ∃ a s, P.notn doc = .ok a ∧ P.nodeStyle doc = .ok s ∧
    x = ⟨doc, none, false, [], rootStyle.toList ++ [s], a⟩

end PPP
