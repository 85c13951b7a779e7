import Verif.Proofs.Width
import Verif.Proofs.PaneEnds
/-
C35: documents without choices print the same at every width, wherever the focus is, and fail in the same way.
-/
namespace PPP
variable {P : PrettyDoc}

theorem Wd.Sw.eq_of_returns {E α : Type} {G : α → Prop} {x y : Exec E α} (h : Wd.Sw id G x y) (hx : Returns x) :
    x = y := by
  obtain ⟨r, rfl, _⟩ := hx
  cases r with
  | ok a => exact (h.1 a rfl).1.symm
  | error f => exact (h.2 f rfl).symm

/-- **C35.**  If the notations of the document's nodes have no `Choice` outside of `Flat`, then
    `pretty_print_to_string` gives the same string, or the same error, at every width. -/
theorem C35_to_string (law : P.Lawful) {doc : P.Node}
    (h : ∀ p a, P.Within doc p → P.notn p = .ok a → a.NoChoice) (w w' : Nat) :
    prettyPrintToString doc w = prettyPrintToString doc w' :=
  (Wd.prettyPrintToString_sw Wd.plain_noChoices doc w (Wd.noChoices_root law h none)).eq_of_returns
    (C13_to_string_returns law doc w)

/-- **C35.**  The same for printing with a focus: the focused line with its two sides, and any number of lines above
    and below it, segment by segment, or the error, are the same at every width. -/
theorem C35_focused (law : P.Lawful) {doc : P.Node}
    (h : ∀ p a, P.Within doc p → P.notn p = .ok a → a.NoChoice) (w w' : Nat) (path : List Nat)
    (target : FocusTarget) (style : Option P.Style) (k j : Nat) :
    printAround doc w path target style k j = printAround doc w' path target style k j :=
  (Wd.printAround_sw Wd.plain_noChoices doc w path target style k j
    (Wd.noChoices_root law h style)).eq_of_returns (printAround_returns law doc w path target style k j)

/-- C35 with the focus in the second element of a list in a `Flat`. -/
example (w w' : Nat) : printAround (P := Ex.exP) Ex.flatDoc w [1] (.text 1) none 3 3 =
    printAround (P := Ex.exP) Ex.flatDoc w' [1] (.text 1) none 3 3 :=
  C35_focused Ex.exLaw Ex.flatDoc_noChoice w w' ..

end PPP
