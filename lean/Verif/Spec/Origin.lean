import Verif.Spec.Output
/-
Specification: where the printed strings come from.
-/
namespace PPP

/-- The strings in a notation: its literals, and the strings of its indentations. -/
def Notation.strings {L C : Type} : Notation L C → List String
  | .literal s => [s]
  | .indent s _ a => s :: a.strings
  | .flat a => a.strings
  | .style _ a => a.strings
  | .concat a b => a.strings ++ b.strings
  | .choice a b => a.strings ++ b.strings
  | .check _ _ a b => a.strings ++ b.strings
  | .count z o m => z.strings ++ o.strings ++ m.strings
  | .fold f j => f.strings ++ j.strings
  | _ => []

/-- The string `s` is in the document: it is in the notation of one of its nodes, or it is the text of one of its
    nodes. -/
def InDoc (P : PrettyDoc) (doc : P.Node) (s : String) : Prop :=
  ∃ p, P.Within doc p ∧ ((∃ a, P.notn p = .ok a ∧ s ∈ a.strings) ∨ P.unwrapText p = .ok s)

end PPP
