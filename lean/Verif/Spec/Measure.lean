import Verif.Model.Geometry
import Verif.Spec.Tiles
/-
Specification: rows that show whole lines.
-/
namespace PPP
variable {L : Type} {P : PrettyDoc}

/-- The printer and the window both measure with `cw`. -/
structure Measures (cw : Char → Option Nat) (env : PaneEnv P L) : Prop where
  str : P.strWidth = strWidthOf cw
  full : env.isFull = isCharFullWidth cw

/-- Every character takes one or two columns, and there is no text so long that its width cannot be counted. -/
def Proper (cw : Char → Option Nat) (line : List (Segment P)) : Prop :=
  ∀ s ∈ line, (∀ c ∈ s.str.toList, cw c = some 1 ∨ cw c = some 2) ∧ strCols cw s.str ≤ maxWidth

/-- Line number `k`, or nothing if there is no such line. -/
def lineNo (lines : List (List (Segment P))) (k : Int) : List (Segment P) :=
  if 0 ≤ k then (lines[k.toNat]?).getD [] else []

/-- A row of `w` columns that shows a whole line, and then blanks, as many as the width of the line says. -/
def wholeRow (isFull : Char → Bool) (row col w : Nat) (line : List (Segment P)) (blank : P.Style) :
    List (WCall P.Style) :=
  placed isFull row col (styledChars line) ++ blanks row (col + segsWidth line) (w - segsWidth line) blank

/-- A row of text: a whole line, blanks up to the width, a newline. -/
def wholeText (w : Nat) (line : List (Segment P)) : List Char :=
  (segsString line).toList ++ List.replicate (w - segsWidth line) ' ' ++ ['\n']

end PPP
