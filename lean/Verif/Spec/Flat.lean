import Verif.Spec.Denote
/-
Specification, part 6: choices and `Flat`.
-/
namespace PPP
variable {P : PrettyDoc}

/-- The tree in which every choice has been replaced by its first option. -/
def NTree.firsts : NTree P → NTree P
  | .concat a b => .concat a.firsts b.firsts
  | .choice a _ => a.firsts
  | .child i id t => .child i id t.firsts
  | t => t

/-- The notation contains no `Choice`, except inside of `Flat`s. -/
def Notation.NoChoice {L C : Type} : Notation L C → Prop
  | .choice _ _ => False
  | .flat _ => True
  | .indent _ _ a => a.NoChoice
  | .style _ a => a.NoChoice
  | .concat a b => a.NoChoice ∧ b.NoChoice
  | .check _ _ a b => a.NoChoice ∧ b.NoChoice
  | .count a b c => a.NoChoice ∧ b.NoChoice ∧ c.NoChoice
  | .fold a b => a.NoChoice ∧ b.NoChoice
  | _ => True

end PPP
