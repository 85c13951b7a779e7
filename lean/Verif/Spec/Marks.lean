import Verif.Spec.Denote
/-
Specification: notations that differ in nothing but focus marks, `Empty`s and the grouping of
concatenations.
-/
namespace PPP
variable {L C : Type}

/-- The notations differ in nothing but their focus marks, their `Empty`s and the grouping of
    concatenations. -/
inductive SameInk : Notation L C → Notation L C → Prop where
  | refl (a) : SameInk a a
  | symm {a b} : SameInk a b → SameInk b a
  | trans {a b c} : SameInk a b → SameInk b c → SameInk a c
  /-- A focus mark takes no space. -/
  | mark : SameInk .focusMark .empty
  | empty_left (a) : SameInk (.empty + a) a
  | empty_right (a) : SameInk (a + .empty) a
  | assoc (a b c) : SameInk ((a + b) + c) (a + (b + c))
  /-- Parts can be replaced. -/
  | concat {a a' b b'} : SameInk a a' → SameInk b b' → SameInk (a + b) (a' + b')
  | choice {a a' b b'} : SameInk a a' → SameInk b b' → SameInk (.choice a b) (.choice a' b')
  | check {c pos a a' b b'} : SameInk a a' → SameInk b b' → SameInk (.check c pos a b) (.check c pos a' b')
  | flat {a a'} : SameInk a a' → SameInk (.flat a) (.flat a')
  | indent {s l a a'} : SameInk a a' → SameInk (.indent s l a) (.indent s l a')
  | style {l a a'} : SameInk a a' → SameInk (.style l a) (.style l a')
  | count {z z' o o' m m'} : SameInk z z' → SameInk o o' → SameInk m m' →
      SameInk (.count z o m) (.count z' o' m')
  | fold {f f' j j'} : SameInk f f' → SameInk j j' → SameInk (.fold f j) (.fold f' j')

variable {P : PrettyDoc}

/-- `R` relates nodes that are alike in everything, except for the focus marks, the `Empty`s and the
    grouping of concatenations in their notations. -/
structure InkAlike (R : P.Node → P.Node → Prop) : Prop where
  id : ∀ p q, R p q → P.id p = P.id q
  numChildren : ∀ p q, R p q → P.numChildren p = P.numChildren q
  condition : ∀ p q c, R p q → P.condition p c = P.condition q c
  lookupStyle : ∀ p q l, R p q → P.lookupStyle p l = P.lookupStyle q l
  nodeStyle : ∀ p q, R p q → P.nodeStyle p = P.nodeStyle q
  unwrapText : ∀ p q, R p q → P.unwrapText p = P.unwrapText q
  child : ∀ p q i c, R p q → P.childAt p i = .ok c → ∃ d, P.childAt q i = .ok d ∧ R c d
  child_error : ∀ p q i e, R p q → P.childAt p i = .error e → P.childAt q i = .error e
  notn : ∀ p q a, R p q → P.notn p = .ok a → ∃ b, P.notn q = .ok b ∧ SameInk a b
  notn_error : ∀ p q e, R p q → P.notn p = .error e → P.notn q = .error e

end PPP
