import Verif.Model.Consolidated
/-
Specification, part 1: notation trees.

The notation tree of a document is what one gets by gluing together the notations of all of its
nodes and resolving everything that does not depend on the width (Check, Count, Fold, Flat, Indent,
Style).  What is left are texts, newlines, end-of-line marks, focus marks, concatenations, choices
and the boundaries of child nodes.  A place where the code would fail (a mismatch between notation
and document, or an error of the document) is a `fail` leaf.
-/
namespace PPP
variable (P : PrettyDoc)

/-- A notation tree. -/
inductive NTree where
  /-- Looking at this part of the document fails. -/
  | fail (f : Fail P.Err)
  | empty
  | eol
  /-- A newline, with the indentation that follows it, outermost (leftmost) first. -/
  | newline (indent : List (Segment P))
  /-- A literal or a text. -/
  | text (t : Textual P)
  | concat (a b : NTree)
  | choice (a b : NTree)
  /-- The `i`'th child of the current node is displayed here. `id` is the child's id. -/
  | child (i : Nat) (id : Res P.Err P.Id) (t : NTree)
  | mark

variable {P}

/-- Fails if the tree's root is a `fail` leaf. -/
def NTree.check : NTree P → Res P.Err Unit
  | .fail f => .error f
  | _ => .ok ()

/-- The tree and everything in it can be looked at without failing. -/
def NTree.NoFail : NTree P → Prop
  | .fail _ => False
  | .concat a b => a.NoFail ∧ b.NoFail
  | .choice a b => a.NoFail ∧ b.NoFail
  | .child _ id t => (∃ i, id = .ok i) ∧ t.NoFail
  | _ => True

/-- Every indentation in the tree fits in the `u16` column counter. -/
def NTree.SmallIndent : NTree P → Prop
  | .newline ind => (ind.map (·.width)).sum ≤ maxWidth
  | .concat a b => a.SmallIndent ∧ b.SmallIndent
  | .choice a b => a.SmallIndent ∧ b.SmallIndent
  | .child _ _ t => t.SmallIndent
  | _ => True

/-- All choices have been removed (as inside a `Flat`). -/
def NTree.ChoiceFree : NTree P → Prop
  | .concat a b => a.ChoiceFree ∧ b.ChoiceFree
  | .choice _ _ => False
  | .child _ _ t => t.ChoiceFree
  | _ => True

/-- `id` is not the id of a node inside of this tree. -/
def NTree.IdAbsent (id : P.Id) : NTree P → Prop
  | .concat a b => a.IdAbsent id ∧ b.IdAbsent id
  | .choice a b => a.IdAbsent id ∧ b.IdAbsent id
  | .child _ cid t => cid ≠ .ok id ∧ t.IdAbsent id
  | _ => True

/-- No node has the same id as one of its descendants (for the tree of a node with id `id`):
    ids are distinct along every path from the root. -/
def NTree.IdsDistinct (id : P.Id) : NTree P → Prop
  | .concat a b => a.IdsDistinct id ∧ b.IdsDistinct id
  | .choice a b => a.IdsDistinct id ∧ b.IdsDistinct id
  | .child _ cid t => cid ≠ .ok id ∧ t.IdAbsent id ∧ ∀ c, cid = .ok c → t.IdsDistinct c
  | _ => True

end PPP
