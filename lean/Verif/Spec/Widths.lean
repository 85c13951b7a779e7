import Verif.Spec.Greedy
/-
Specification: comparing the layouts of one document at two widths.
-/
namespace PPP
variable {P : PrettyDoc}

/-- The columns of all the texts and all the indentations in a tree, with both options of each choice. -/
def NTree.total : NTree P → Nat
  | .fail _ => 0
  | .empty => 0
  | .mark => 0
  | .eol => 0
  | .newline ind => segsWidth ind
  | .text t => t.width
  | .child _ _ t => t.total
  | .concat a b => a.total + b.total
  | .choice a b => a.total + b.total

/-- `T` and `T'` agree up to a choice, where `T` takes the second option and `T'` the first one. -/
def FirstInstead (T T' : List (GTok P)) : Prop :=
  ∃ A B B', T = A ++ .second :: B ∧ T' = A ++ .first :: B'

end PPP
