import Verif.Model.Display
/-
What positions mean, for C80: nothing here refers to how they are added or compared.
-/
namespace PPP

/-- A position that the types `u32` and `u16` can hold. -/
def Pos.InRange (p : Pos) : Prop := p.row < 2 ^ 32 ∧ p.col < 2 ^ 16

/-- The number of characters before this position, on a page whose lines are all of width `W`, when it is read line by
    line. -/
def Pos.charsBefore (W : Nat) (p : Pos) : Nat := W * p.row + p.col

end PPP
