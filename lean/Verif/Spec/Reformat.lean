import Verif.Spec.JsonRead
import Verif.Spec.Terminal
/-
Specification: documents that only differ in the ids of their nodes; JSON without comments.
-/
namespace PPP

mutual
/-- Other ids for the nodes of a tree. -/
def Tree.mapIds {S : Type} (f : Nat → Nat) : Tree S → Tree S
  | .text s id notn style overrides isComment needsSeparator =>
    .text s (f id) notn style overrides isComment needsSeparator
  | .branch children id notn style overrides isComment needsSeparator =>
    .branch (Tree.mapIdsList f children) (f id) notn style overrides isComment needsSeparator
@[inherit_doc Tree.mapIds]
def Tree.mapIdsList {S : Type} (f : Nat → Nat) : List (Tree S) → List (Tree S)
  | [] => []
  | t :: ts => t.mapIds f :: Tree.mapIdsList f ts
end

/-- The trees are the same, apart from the ids of their nodes. -/
def Tree.SameButIds {S : Type} (t u : Tree S) : Prop := t.mapIds (fun _ => 0) = u.mapIds (fun _ => 0)

mutual
/-- The same calls of `json_*` functions: with the same arguments, in the same order.  Only the ids of the
    nodes may be different. -/
inductive Json.SameCalls : Json → Json → Prop where
  | null (i j) : SameCalls (.null i) (.null j)
  | bool (i j b) : SameCalls (.bool i b) (.bool j b)
  | string (i j s) : SameCalls (.string i s) (.string j s)
  | number (i j s) : SameCalls (.number i s) (.number j s)
  | array (i j) {es es'} : AllSameCalls es es' → SameCalls (.array i es) (.array j es')
  | pair (i j ki kj key) {v v'} : SameCalls v v' → SameCalls (.pair i ki key v) (.pair j kj key v')
  | object (i j) {es es'} : AllSameCalls es es' → SameCalls (.object i es) (.object j es')
  | comment (i j f g s) : SameCalls (.comment i f s) (.comment j g s)
  | roots (i j) {es es'} : AllSameCalls es es' → SameCalls (.roots i es) (.roots j es')
@[inherit_doc Json.SameCalls]
inductive Json.AllSameCalls : List Json → List Json → Prop where
  | nil : AllSameCalls [] []
  | cons {e e' es es'} : SameCalls e e' → AllSameCalls es es' → AllSameCalls (e :: es) (e' :: es')
end

mutual
/-- There is no comment in the document. -/
def Json.CommentFree : Json → Prop
  | .comment _ _ _ => False
  | .array _ es => Json.AllCommentFree es
  | .pair _ _ _ v => v.CommentFree
  | .object _ es => Json.AllCommentFree es
  | .roots _ es => Json.AllCommentFree es
  | .null _ | .bool _ _ | .string _ _ | .number _ _ => True
@[inherit_doc Json.CommentFree]
def Json.AllCommentFree : List Json → Prop
  | [] => True
  | e :: es => e.CommentFree ∧ Json.AllCommentFree es
end

end PPP
