import Verif.Spec.Denote
import Verif.Spec.Layout
/-
Specification, part 4: what a client of `pretty_print` sees, and the hypotheses used by theorems.
-/
namespace PPP
variable {P : PrettyDoc}

/-- Everything that is printed: the lines above the focused one (top to bottom), the focused line,
    and the lines below it (top to bottom). -/
structure Output (P : PrettyDoc) where
  above : List (Line P)
  focused : FocusedLine P
  below : List (Line P)

/-- All the lines, top to bottom, as lists of segments. -/
def Output.lines (o : Output P) : List (List (Segment P)) :=
  o.above.map (·.segments) ++ [o.focused.leftSegments ++ o.focused.rightSegments] ++
    o.below.map (·.segments)

/-- The lines above the focus, and the part of the focused line on the left of the focus. -/
def Output.beforeFocus (o : Output P) : List (List (Segment P)) :=
  o.above.map (·.segments) ++ [o.focused.leftSegments]

/-- The part of the focused line on the right of the focus, and the lines below. -/
def Output.afterFocus (o : Output P) : List (List (Segment P)) :=
  o.focused.rightSegments :: o.below.map (·.segments)

/-- Call `pretty_print` and run both iterators to the end.  The upward iterator gives the nearest
    line first. -/
def printAll (doc : P.Node) (width : Nat) (path : List Nat) (target : FocusTarget)
    (rootStyle : Option P.Style) : Exec P.Err (Output P) := do
  let r ← prettyPrint doc width path target rootStyle
  let ups ← drain Printer.nextUp r.up
  let downs ← drain Printer.nextDown r.down
  pure ⟨ups.reverse, r.focused, downs⟩

/-- The greedy layout of a document. -/
def docLayout (law : P.Lawful) (doc : P.Node) (width : Nat) (rootStyle : Option P.Style) :
    Res P.Err (P.Id × LTree P) := do
  let (id, t) ← rootTree law doc rootStyle
  let L ← t.layoutDoc width id
  .ok (id, L)

/-- `q` is a descendant of `p`. -/
def PrettyDoc.Below (P : PrettyDoc) : P.Node → P.Node → Prop := Relation.TransGen P.ChildOf

/-- `p` is a node of the document `doc`. -/
def PrettyDoc.Within (P : PrettyDoc) (doc p : P.Node) : Prop := p = doc ∨ P.Below p doc

/-- The width of every text of the document, and of every end of such a text, is the sum of the
    widths of its parts.  (True of width functions that add up characters.) -/
def PrettyDoc.TextsAdditive (P : PrettyDoc) (doc : P.Node) : Prop :=
  ∀ p s, P.Within doc p → P.unwrapText p = .ok s → ∀ a b c, s.toList = a ++ (b ++ c) →
    P.strWidth (String.ofList (b ++ c)) = P.strWidth (String.ofList b) + P.strWidth (String.ofList c)

/-- No node of the document has the same id as one of its descendants. -/
def PrettyDoc.IdsOnPaths (P : PrettyDoc) (doc : P.Node) : Prop :=
  ∀ p q i, P.Within doc p → P.Below q p → P.id p = .ok i → P.id q ≠ .ok i

/-- The hypothesis about widths needed when the focus is inside of a text. -/
abbrev FocusOk (P : PrettyDoc) (doc : P.Node) (target : FocusTarget) : Prop :=
  (∀ pos, target ≠ .text pos) ∨ P.TextsAdditive doc

end PPP
