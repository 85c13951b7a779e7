import Verif.Model.Stack
import Verif.Spec.View
/-
Specification: printing some lines with a limited stack.
-/
namespace PPP
variable {P : PrettyDoc}

/-- Printing the focused line, `k` lines above it and `j` lines below it (see `printAround`), when there is room
    on the stack for `K` invocations of `eval`. -/
def printAroundS (K : Nat) (doc : P.Node) (width : Nat) (path : List Nat) (target : FocusTarget)
    (rootStyle : Option P.Style) (k j : Nat) :
    Exec P.Err (List (Option (Line P)) × FocusedLine P × List (Option (Line P))) := do
  let r ← prettyPrintS K doc width path target rootStyle
  let (above, _) ← takeLines (Printer.nextUpS K) k r.up
  let (below, _) ← takeLines (Printer.nextDownS K) j r.down
  pure (above, r.focused, below)

end PPP
