import Verif.Model.Work
/-
Specification: what a user does with the printer.  A session is a call of `pretty_print`, followed by any
number of calls of `next` on the iterator for the lines above and on the iterator for the lines below, in
any order.  (Like every program that uses `?`, it ends at the first error.)
-/
namespace PPP
variable {P : PrettyDoc}

/-- Which of the two iterators to ask for another line. -/
inductive Ask where
  | above
  | below
  deriving DecidableEq, Repr

/-- Ask for lines, in this order. -/
def browse : List Ask → (up down : Printer P) → Exec P.Err (List (Option (Line P)))
  | [], _, _ => pure []
  | .above :: asks, up, down => do
    let (line, up) ← up.nextUp
    let lines ← browse asks up down
    pure (line :: lines)
  | .below :: asks, up, down => do
    let (line, down) ← down.nextDown
    let lines ← browse asks up down
    pure (line :: lines)

/-- A session: the focused line, and the lines asked for. -/
def session (doc : P.Node) (width : Nat) (path : List Nat) (target : FocusTarget)
    (rootStyle : Option P.Style) (asks : List Ask) : Exec P.Err (FocusedLine P × List (Option (Line P))) := do
  let r ← prettyPrint doc width path target rootStyle
  let lines ← browse asks r.up r.down
  pure (r.focused, lines)

/-! The same with the counted functions. -/

/-- Ask for lines, and count the steps. -/
def browseC : List Ask → (up down : Printer P) → Counted P.Err (List (Option (Line P)))
  | [], _, _ => pure []
  | .above :: asks, up, down => do
    let (line, up) ← up.printPrevLineC
    let lines ← browseC asks up down
    pure (line :: lines)
  | .below :: asks, up, down => do
    let (line, down) ← down.printNextLineC
    let lines ← browseC asks up down
    pure (line :: lines)

/-- A session, with its steps counted. -/
def sessionC (scan : Nat) (doc : P.Node) (width : Nat) (path : List Nat) (target : FocusTarget)
    (rootStyle : Option P.Style) (asks : List Ask) :
    Counted P.Err (FocusedLine P × List (Option (Line P))) := do
  let r ← prettyPrintC scan doc width path target rootStyle
  let lines ← browseC asks r.up r.down
  pure (r.focused, lines)

/-- The computation ends, after at most `n` steps. -/
def Counted.EndsWithin {E α : Type} (x : Counted E α) (n : Nat) : Prop :=
  ∃ k r, x = some (k, r) ∧ k ≤ n

end PPP
