import Verif.Spec.Output
/-
Specification: which notations a printer gets to evaluate, and the sizes that decide how much stack it takes.
-/
namespace PPP
variable {L C : Type}

/-- The number of constructors on the longest path from the root to a leaf of a notation. -/
def Notation.height : Notation L C → Nat
  | .flat n => n.height + 1
  | .indent _ _ n => n.height + 1
  | .concat a b => max a.height b.height + 1
  | .choice a b => max a.height b.height + 1
  | .check _ _ a b => max a.height b.height + 1
  | .style _ n => n.height + 1
  | .count zero one many => max zero.height (max one.height many.height) + 1
  | .fold first join => max first.height join.height + 1
  | _ => 1

/-- There is a `Left` that is not part of a concatenation, nor the second option of a choice: once the notation
    is looked at, the `Left` may be looked at right away. -/
def Notation.exposesLeft : Notation L C → Bool
  | .left => true
  | .flat n => n.exposesLeft
  | .indent _ _ n => n.exposesLeft
  | .choice a _ => a.exposesLeft
  | .check _ _ a b => a.exposesLeft || b.exposesLeft
  | .style _ n => n.exposesLeft
  | .count zero one many => zero.exposesLeft || one.exposesLeft || many.exposesLeft
  | _ => false

/-- No `join` of a `Fold` exposes its `Left`.  (The usual joins are concatenations, such as
    `Left + "," + Right`.) -/
def Notation.JoinsGuarded : Notation L C → Prop
  | .flat n => n.JoinsGuarded
  | .indent _ _ n => n.JoinsGuarded
  | .concat a b => a.JoinsGuarded ∧ b.JoinsGuarded
  | .choice a b => a.JoinsGuarded ∧ b.JoinsGuarded
  | .check _ _ a b => a.JoinsGuarded ∧ b.JoinsGuarded
  | .style _ n => n.JoinsGuarded
  | .count zero one many => zero.JoinsGuarded ∧ one.JoinsGuarded ∧ many.JoinsGuarded
  | .fold _ join => join.exposesLeft = false
  | _ => True

variable {P : PrettyDoc}

/-- The delayed notations that a consolidated notation consists of: what a printer may evaluate next. -/
def CN.parts : CN P → List (DCN P)
  | .concat a b => [a, b]
  | .choice a b => [a, b]
  | .child _ c => [c]
  | _ => []

/-- The delayed notations that come up when a document is printed: that of the root, and the parts of those
    that have been evaluated. -/
inductive Reached (doc : P.Node) (rootStyle : Option P.Style) : DCN P → Prop where
  | root {d} : (DCN.withOptionalStyle doc rootStyle).run = some (.ok d) → Reached doc rootStyle d
  | part {d cn d'} : Reached doc rootStyle d → d.eval.run = some (.ok cn) → d' ∈ cn.parts →
      Reached doc rootStyle d'

/-- The notations of all nodes of the document have at most height `H`. -/
def PrettyDoc.HeightsWithin (P : PrettyDoc) (doc : P.Node) (H : Nat) : Prop :=
  ∀ p a, P.Within doc p → P.notn p = .ok a → a.height ≤ H

/-- All nodes of the document have at most `m` children. -/
def PrettyDoc.KidsWithin (P : PrettyDoc) (doc : P.Node) (m : Nat) : Prop :=
  ∀ p n, P.Within doc p → P.numChildren p = .ok (some n) → n ≤ m

/-- No `join` in the notation of any node of the document exposes its `Left`. -/
def PrettyDoc.Guarded (P : PrettyDoc) (doc : P.Node) : Prop :=
  ∀ p a, P.Within doc p → P.notn p = .ok a → a.JoinsGuarded

end PPP
