import Verif.Spec.Pane
/-
Specification, part 12: what a window shows after some calls.
-/
namespace PPP
variable {S : Type}

/-- What is put into which cell by a call.  The second cell of a full-width character gets a
    placeholder that is not printed, `'\0'`. -/
def WCall.writes : WCall S → List ((Nat × Nat) × Char)
  | .displayChar ch row col _ full => ((row, col), ch) :: if full then [((row, col + 1), '\x00')] else []
  | .setFocus _ _ => []

/-- What is put into which cell by some calls, in order. -/
def writesOf (calls : List (WCall S)) : List ((Nat × Nat) × Char) := calls.flatMap WCall.writes

/-- The last thing that was written to a cell. -/
def lastWrite (writes : List ((Nat × Nat) × Char)) (cell : Nat × Nat) : Option Char :=
  ((writes.filter fun w => w.1 = cell).getLast?).map (·.2)

/-- The positions given to `set_focus`, in order. -/
def focusesOf (calls : List (WCall S)) : List (Nat × Nat) :=
  calls.filterMap fun
    | .setFocus row col => some (row, col)
    | _ => none

end PPP
