import Verif.Spec.Denote
/-
Specification, part 8: notations that mean the same.
-/
namespace PPP
variable {L C : Type}

/-- Substitution in the `join` of a `Fold` over at least `k + 1` children: `Left` becomes `lhs`, `Right`
    becomes child `k`, and checks of the left or right child become checks of child `k - 1` or `k`. -/
def Notation.inJoin : Notation L C → (lhs : Notation L C) → (k : Nat) → Notation L C
  | .left, lhs, _ => lhs
  | .right, _, k => .child k
  | .check c .here a b, lhs, k => .check c .here (a.inJoin lhs k) (b.inJoin lhs k)
  | .check c (.child i) a b, lhs, k => .check c (.child i) (a.inJoin lhs k) (b.inJoin lhs k)
  | .check c .leftChild a b, lhs, k => .check c (.child ((k : Int) - 1)) (a.inJoin lhs k) (b.inJoin lhs k)
  | .check c .rightChild a b, lhs, k => .check c (.child k) (a.inJoin lhs k) (b.inJoin lhs k)
  | .flat a, lhs, k => .flat (a.inJoin lhs k)
  | .indent s l a, lhs, k => .indent s l (a.inJoin lhs k)
  | .style l a, lhs, k => .style l (a.inJoin lhs k)
  | .concat a b, lhs, k => .concat (a.inJoin lhs k) (b.inJoin lhs k)
  | .choice a b, lhs, k => .choice (a.inJoin lhs k) (b.inJoin lhs k)
  | .count z o m, lhs, k => .count (z.inJoin lhs k) (o.inJoin lhs k) (m.inJoin lhs k)
  | .fold first join, _, _ => .fold first join
  | .empty, _, _ => .empty
  | .newline, _, _ => .newline
  | .endOfLine, _, _ => .endOfLine
  | .literal s, _, _ => .literal s
  | .text, _, _ => .text
  | .child i, _, _ => .child i
  | .focusMark, _, _ => .focusMark

/-- There is no `Left` or `Right`, and no check of the left or right child, outside of the `join` of a
    `Fold`.  (Validation makes sure of this, see C21.) -/
def Notation.Closed : Notation L C → Prop
  | .left => False
  | .right => False
  | .check _ pos a b => pos ≠ .leftChild ∧ pos ≠ .rightChild ∧ a.Closed ∧ b.Closed
  | .flat a => a.Closed
  | .indent _ _ a => a.Closed
  | .style _ a => a.Closed
  | .concat a b => a.Closed ∧ b.Closed
  | .choice a b => a.Closed ∧ b.Closed
  | .count z o m => z.Closed ∧ o.Closed ∧ m.Closed
  | _ => True

/-- The left fold that `Fold { first, join }` stands for when there are `n` children:
    nothing for no child, `first` for one, `join` of that and child 1 for two, and so on. -/
def Notation.unfold (first join : Notation L C) : Nat → Notation L C
  | 0 => .empty
  | 1 => first
  | n + 2 => join.inJoin (unfold first join (n + 1)) (n + 1)

/-- Notations without parts, that do not refer to anything else. -/
def Notation.isLeaf : Notation L C → Bool
  | .empty | .newline | .endOfLine | .literal _ | .text | .focusMark => true
  | _ => false

/-- Notations without choices, line breaks, children and folds. -/
def Notation.oneLine : Notation L C → Bool
  | .empty | .endOfLine | .literal _ | .text | .focusMark => true
  | .concat a b => a.oneLine && b.oneLine
  | .flat a => a.oneLine
  | .style _ a => a.oneLine
  | .indent _ _ a => a.oneLine
  | .check _ _ a b => a.oneLine && b.oneLine
  | .count z o m => z.oneLine && o.oneLine && m.oneLine
  | _ => false

/-- Notations that start with a line break. -/
def Notation.startsLine : Notation L C → Bool
  | .newline => true
  | .concat a _ => a.startsLine
  | .flat a => a.startsLine
  | .style _ a => a.startsLine
  | .indent _ _ a => a.startsLine
  | .choice a b => a.startsLine && b.startsLine
  | _ => false

/-- Notations of a node with `nc` children (`none`: with a text) that mean the same: they differ in the
    grouping of concatenations, in extra `Empty`s, in folds that have been written out, and in `Flat`,
    `Style`, `Indent`, `Check`, `Count` and `Choice` being moved into the parts of a notation, or out of
    them. -/
inductive NEquiv (nc : Option Nat) : Notation L C → Notation L C → Prop where
  | refl (a) : NEquiv nc a a
  | symm {a b} : NEquiv nc a b → NEquiv nc b a
  | trans {a b c} : NEquiv nc a b → NEquiv nc b c → NEquiv nc a c
  | assoc (a b c) : NEquiv nc ((a + b) + c) (a + (b + c))
  | empty_left (a) : NEquiv nc (.empty + a) a
  | empty_right (a) : NEquiv nc (a + .empty) a
  | fold_unfold (first join) {n} : nc = some n → first.Closed → NEquiv nc (.fold first join) (.unfold first join n)
  /-- A choice between the same. -/
  | choice_self (a) : NEquiv nc (.choice a a) a
  /-- A choice whose second option is a choice with the same first option. -/
  | choice_absorb (a b) : NEquiv nc (.choice a (.choice a b)) (.choice a b)
  /-- Choices can be grouped either way, if the option in the middle starts on a new line.  (In general
      they can not.) -/
  | choice_assoc (a) {b} (c) : b.startsLine = true →
      NEquiv nc (.choice (.choice a b) c) (.choice a (.choice b c))
  /-- What follows a choice can be moved into it. -/
  | choice_concat (a b x) : NEquiv nc (.choice a b + x) (.choice (a + x) (b + x))
  /-- What precedes a choice on the same line can be moved into it.  (A line break can not.) -/
  | concat_choice {x} : x.oneLine = true → (a b : Notation L C) →
      NEquiv nc (x + .choice a b) (.choice (x + a) (x + b))
  /-- Conditions can be moved out of concatenations, to the left and to the right, and out of choices. -/
  | check_concat (c pos a b x) : NEquiv nc (.check c pos a b + x) (.check c pos (a + x) (b + x))
  | concat_check (c pos a b x) : NEquiv nc (x + .check c pos a b) (.check c pos (x + a) (x + b))
  | choice_check (c pos a a' b b') : NEquiv nc (.choice (.check c pos a b) (.check c pos a' b'))
      (.check c pos (.choice a a') (.choice b b'))
  | count_concat (z o m x) : NEquiv nc (.count z o m + x) (.count (z + x) (o + x) (m + x))
  | concat_count (z o m x) : NEquiv nc (x + .count z o m) (.count (x + z) (x + o) (x + m))
  | choice_count (z z' o o' m m') : NEquiv nc (.choice (.count z o m) (.count z' o' m'))
      (.count (.choice z z') (.choice o o') (.choice m m'))
  /-- `Flat`. -/
  | flat_leaf {a} : a.isLeaf = true → NEquiv nc (.flat a) a
  | flat_flat (a) : NEquiv nc (.flat (.flat a)) (.flat a)
  | flat_concat (a b) : NEquiv nc (.flat (a + b)) (.flat a + .flat b)
  | flat_choice (a b) : NEquiv nc (.flat (.choice a b)) (.flat a)
  | flat_indent (s l a) : NEquiv nc (.flat (.indent s l a)) (.indent s l (.flat a))
  | flat_style (l a) : NEquiv nc (.flat (.style l a)) (.style l (.flat a))
  | flat_check (c pos a b) : NEquiv nc (.flat (.check c pos a b)) (.check c pos (.flat a) (.flat b))
  | flat_count (z o m) : NEquiv nc (.flat (.count z o m)) (.count (.flat z) (.flat o) (.flat m))
  /-- `Style`. -/
  | style_concat (l a b) : NEquiv nc (.style l (a + b)) (.style l a + .style l b)
  | style_choice (l a b) : NEquiv nc (.style l (.choice a b)) (.choice (.style l a) (.style l b))
  | style_check (l c pos a b) : NEquiv nc (.style l (.check c pos a b)) (.check c pos (.style l a) (.style l b))
  | style_count (l z o m) : NEquiv nc (.style l (.count z o m)) (.count (.style l z) (.style l o) (.style l m))
  /-- `Indent`. -/
  | indent_leaf {s a} : a.isLeaf = true → a ≠ .newline → NEquiv nc (.indent s none a) a
  | indent_concat (s l a b) : NEquiv nc (.indent s l (a + b)) (.indent s l a + .indent s l b)
  | indent_choice (s l a b) : NEquiv nc (.indent s l (.choice a b)) (.choice (.indent s l a) (.indent s l b))
  | indent_check (s l c pos a b) :
      NEquiv nc (.indent s l (.check c pos a b)) (.check c pos (.indent s l a) (.indent s l b))
  | indent_count (s l z o m) :
      NEquiv nc (.indent s l (.count z o m)) (.count (.indent s l z) (.indent s l o) (.indent s l m))
  /-- Parts can be replaced. -/
  | concat {a a' b b'} : NEquiv nc a a' → NEquiv nc b b' → NEquiv nc (a + b) (a' + b')
  | choice {a a' b b'} : NEquiv nc a a' → NEquiv nc b b' → NEquiv nc (.choice a b) (.choice a' b')
  | check {c pos a a' b b'} : NEquiv nc a a' → NEquiv nc b b' →
      NEquiv nc (.check c pos a b) (.check c pos a' b')
  | flat {a a'} : NEquiv nc a a' → NEquiv nc (.flat a) (.flat a')
  | indent {s l a a'} : NEquiv nc a a' → NEquiv nc (.indent s l a) (.indent s l a')
  | style {l a a'} : NEquiv nc a a' → NEquiv nc (.style l a) (.style l a')
  | count {z z' o o' m m'} : NEquiv nc z z' → NEquiv nc o o' → NEquiv nc m m' →
      NEquiv nc (.count z o m) (.count z' o' m')
  | fold {f f' j j'} : NEquiv nc f f' → NEquiv nc j j' → NEquiv nc (.fold f j) (.fold f' j')

variable {P : PrettyDoc}

/-- `R` relates nodes that are alike, except that their notations may be different ways of writing the
    same (`NEquiv`). -/
structure Alike (R : P.Node → P.Node → Prop) : Prop where
  id : ∀ p q, R p q → P.id p = P.id q
  numChildren : ∀ p q, R p q → P.numChildren p = P.numChildren q
  condition : ∀ p q c, R p q → P.condition p c = P.condition q c
  lookupStyle : ∀ p q l, R p q → P.lookupStyle p l = P.lookupStyle q l
  nodeStyle : ∀ p q, R p q → P.nodeStyle p = P.nodeStyle q
  unwrapText : ∀ p q, R p q → P.unwrapText p = P.unwrapText q
  child : ∀ p q i c, R p q → P.childAt p i = .ok c → ∃ d, P.childAt q i = .ok d ∧ R c d
  child_error : ∀ p q i e, R p q → P.childAt p i = .error e → P.childAt q i = .error e
  notn : ∀ p q a nc, R p q → P.numChildren p = .ok nc → P.notn p = .ok a →
    ∃ b, P.notn q = .ok b ∧ NEquiv nc a b
  notn_error : ∀ p q e, R p q → P.notn p = .error e → P.notn q = .error e
  /-- All children can be accessed. -/
  access : ∀ p q n i, R p q → P.numChildren p = .ok (some n) → i < n → ∃ c, P.childAt p i = .ok c
  /-- The number of children can be asked for. -/
  count : ∀ p q, R p q → ∃ nc, P.numChildren p = .ok nc

end PPP
