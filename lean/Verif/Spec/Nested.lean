import Verif.Spec.View
import Verif.Spec.Work
/-
Specification: documents in which every node displays its children on separate lines.
-/
namespace PPP
variable {P : PrettyDoc}

/-- A text, a newline, a mark or an end-of-line mark. -/
def NTree.IsPlain : NTree P → Prop
  | .text _ => True
  | .newline _ => True
  | .mark => True
  | .eol => True
  | _ => False

/-- No two children on the same line, and no child more than once. -/
def SeparateLines (ps : List (NTree P)) : Prop :=
  ∀ A i r t B j r' t' C, ps = A ++ .child i r t :: (B ++ .child j r' t' :: C) → i ≠ j ∧ ∃ ind, .newline ind ∈ B

/-- The node, and the nodes that are displayed inside of it, to a depth of at most `d`, display their children on
    separate lines (and texts, newlines and marks, but there are no choices that depend on the width). -/
def NestedRows : Nat → NTree P → Prop
  | 0, t => ∀ p ∈ t.parts, p.IsPlain
  | d + 1, t => SeparateLines t.parts ∧
      ∀ p ∈ t.parts, p.IsPlain ∨ ∃ i id tc, p = .child i (.ok id) tc ∧ NestedRows d tc

/-- The node with the given id and tree is displayed at the path below the root. -/
inductive NodeAt (root : P.Id × NTree P) : List Nat → P.Id → NTree P → Prop where
  | here : NodeAt root [] root.1 root.2
  | child {q id t i cid tc} : NodeAt root q id t → .child i (.ok cid) tc ∈ t.parts → NodeAt root (q ++ [i]) cid tc

/-- Different nodes have different ids. -/
def UniqueIds (root : P.Id × NTree P) : Prop :=
  ∀ q q' id t t', NodeAt root q id t → NodeAt root q' id t' → q = q'

/-- The number of constructs of a node's own notation, when it is written out: a child counts for two, whatever there
    is inside of it, and a line break counts once for every level of indentation, too. -/
def Shape.own : Shape → Nat
  | .leaf => 1
  | .newline levels => 1 + levels
  | .text _ => 1
  | .concat a b => 1 + a.own + b.own
  | .choice a b => 1 + a.own + b.own
  | .child _ => 2
  | .step t => 1 + t.own

/-- No node inside of this has a notation of more than `c` constructs. -/
def Shape.KidsAtMost (c : Nat) : Shape → Prop
  | .concat a b => a.KidsAtMost c ∧ b.KidsAtMost c
  | .choice a b => a.KidsAtMost c ∧ b.KidsAtMost c
  | .child t => t.own ≤ c ∧ t.KidsAtMost c
  | .step t => t.KidsAtMost c
  | _ => True

/-- The notation of every node of the document has at most `c` constructs of its own. -/
def OwnAtMost (law : P.Lawful) (doc : P.Node) (c : Nat) : Prop :=
  (docShape law doc false 0).own ≤ c ∧ (docShape law doc false 0).KidsAtMost c

/-- The number of constructs of a node's own notation that are displayed at every width: what is inside of a choice
    does not count, nor what is inside of a child. -/
def Shape.fixed : Shape → Nat
  | .leaf => 1
  | .newline levels => 1 + levels
  | .text _ => 1
  | .concat a b => 1 + a.fixed + b.fixed
  | .choice _ _ => 1
  | .child _ => 1
  | .step t => 1 + t.fixed

end PPP
