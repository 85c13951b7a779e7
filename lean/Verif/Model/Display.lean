import Verif.Model.Basic
import Verif.Model.Validate
/-
What notations and errors look like when they are shown to a user — the `fmt::Display` instances of
/repo/src/notation.rs and /repo/src/valid_notation.rs, and the `#[error(..)]` messages.  (Those of the private
types of /repo/src/consolidated_notation.rs are not modelled.)

`{}` of an `isize` or a `usize` is `toString`.  `{:?}` of a style label, of a condition, and `{}` of the error
of a `PrettyDoc` are written by the user of the library (or by `derive(Debug)`): they are parameters
(`showL`, `showC`, `showE`).
-/
namespace PPP
variable {L C E : Type}

/-- `#[derive(Debug)] enum CheckPos` — /repo/src/notation.rs:135-147: `{:?}` of a position (not `{:#?}`). -/
def CheckPos.debug : CheckPos → String
  | .here => "Here"
  | .child i => "Child(" ++ toString i ++ ")"
  | .leftChild => "LeftChild"
  | .rightChild => "RightChild"

/-- `impl Display for Notation` — /repo/src/notation.rs:166-193.  (`impl Display for ValidNotation`,
    /repo/src/valid_notation.rs:267-271, is the same: a valid notation is modelled by the notation in it.) -/
def Notation.display (showL : L → String) (showC : C → String) : Notation L C → String
  | .empty => "ε"
  | .newline => "↵"
  | .endOfLine => "EOL"
  | .focusMark => "MARK"
  | .text => "TEXT"
  | .literal lit => "'" ++ lit ++ "'"
  | .flat note => "Flat(" ++ note.display showL showC ++ ")"
  | .indent lit _ note => "'" ++ lit ++ "'⇒(" ++ note.display showL showC ++ ")"
  | .concat a b => a.display showL showC ++ " + " ++ b.display showL showC
  | .choice opt1 opt2 => "(" ++ opt1.display showL showC ++ " | " ++ opt2.display showL showC ++ ")"
  | .check cond pos opt1 opt2 =>
      "(" ++ showC cond ++ "@" ++ pos.debug ++ " ? " ++ opt1.display showL showC ++ " | " ++
        opt2.display showL showC ++ ")"
  | .child i => "$" ++ toString i
  | .style label note => "Style(" ++ showL label ++ ", " ++ note.display showL showC ++ ")"
  | .count zero one many =>
      "Count(zero=" ++ zero.display showL showC ++ ", one=" ++ one.display showL showC ++ ", many=" ++
        many.display showL showC ++ ")"
  | .fold first join =>
      "Fold(first=" ++ first.display showL showC ++ ", join=" ++ join.display showL showC ++ ")"
  | .left => "$Left"
  | .right => "$Right"

/-- The messages of a `NotationError` — /repo/src/valid_notation.rs:10-54.  The two messages with an index
    are format strings with the literal argument `0`, and not with the field `.0`. -/
def NotationError.message : NotationError → String
  | .leftOutsideJoin =>
      "Notation contains a Left outside of Fold.join, but it's only meaningful inside of that."
  | .rightOutsideJoin =>
      "Notation contains a Right outside of Fold.join, but it's only meaningful inside of that."
  | .checkPosLeftOutsideJoin =>
      "Notation contains a CheckPos::LeftChild outside of Fold.join, but it's only meaningful inside of that."
  | .checkPosRightOutsideJoin =>
      "Notation contains a CheckPos::RightChild outside of Fold.join, but it's only meaningful inside of that."
  | .nestedFold => "Notation contains a Fold inside a Fold, but those aren't allowed to be nested."
  | .nestedCount => "Notation contains a Count inside a Count, but those aren't allowed to be nested."
  | .countZeroChild =>
      "Notation contains a Child inside Count.zero, but in this case there are guaranteed to be zero children."
  | .countOneChildIndex _ =>
      "Notation contains a Child with index " ++ toString (0 : Int) ++
        " inside of Count.one, but in this case there's guaranteed to be only one child."
  | .countZeroCheckPosChild =>
      "Notation contains a CheckPos::Child inside Count.zero, but in this case there are guaranteed to be zero children."
  | .countOneCheckPosChildIndex _ =>
      "Notation contains a CheckPos::Child with index " ++ toString (0 : Int) ++
        " inside of Count.one, but in this case there's guaranteed to be only one child."
  | .textInsideCount =>
      "Notation contains a Text inside a Count, but a node can't have both text and children."
  | .textInsideFold =>
      "Notation contains a Text inside a Fold, but a node can't have both text and children."
  | .textAfterEol =>
      "Notation contains Text or Literal after an EndOfLine, which would cause a printing error."
  | .multipleFocusMarks =>
      "Notation contains multiple FocusMarks, but only the first one would ever be used."

/-- The messages of a `PrintingError` — /repo/src/consolidated_notation.rs:190-221. -/
def PrintingError.message (showE : E → String) : PrintingError E → String
  | .invalidPath i => "Pretty printing path invalid at child index " ++ toString i ++ "."
  | .textNotationOnTextlessDoc =>
      "Notation/doc mismatch: Notation was Text but doc node did not contain text."
  | .childIndexOutOfBounds index len =>
      "Notation/doc mismatch: Notation was Child(" ++ toString index ++ ") but doc node only had " ++
        toString len ++ " children."
  | .childNotationOnChildlessDoc =>
      "Notation/doc mismatch: Notation was Child but doc node contained text instead."
  | .checkPosChildIndexOutOfBounds index len =>
      "Notation/doc mismatch: Notation contained CheckPos::Child(" ++ toString index ++
        ") but doc node only had " ++ toString len ++ " children."
  | .checkPosChildOnChildlessDoc =>
      "Notation/doc mismatch: Notation contained CheckPos::Child(_) but doc node contained text instead."
  | .countNotationOnChildlessDoc =>
      "Notation/doc mismatch: Notation was Count but doc node contained text instead of children."
  | .numChildrenChanged => "Doc node's num_children() changed between invocations!"
  | .textAfterEndOfLine => "Pretty printing encountered a Text or Literal after an EndOfLine."
  | .missingFocusMark => "FocusMark not found while focusing."
  | .missingText => "Text not found while focusing."
  | .prettyDoc e => "PrettyDoc error: " ++ showE e

/-- `PaneError`, as the caller of `display_pane` sees it — /repo/src/pane/display_pane.rs:12-23.  (What happens in the
    calls is modelled by `PaneFail` and `PrettyWindow.replay` in Model/Pane.lean.) -/
inductive PaneError (W E : Type) where
  | invalidUseOfDynamic
  | prettyWindowError (w : W)
  | printingError (e : PrintingError E)

/-- The messages of a `PaneError` — /repo/src/pane/display_pane.rs:13-22.  ("Dyanmic" is spelled so.) -/
def PaneError.message (showW : W → String) (showE : E → String) : PaneError W E → String
  | .invalidUseOfDynamic =>
      "Invalid pane notation: PaneSize::Dyanmic may only be used in a PaneNotation::Doc pane"
  | .prettyWindowError w => "PrettyWindow error: " ++ showW w
  | .printingError e => "PrettyDoc printing error: " ++ e.message showE

/-- `Pos` — /repo/src/geometry.rs:22-26. -/
structure Pos where
  row : Nat
  col : Nat
  deriving DecidableEq

/-- `Size` — /repo/src/geometry.rs:29-33. -/
structure Size where
  width : Nat
  height : Nat
  deriving DecidableEq

/-- `Pos::zero` — /repo/src/geometry.rs:46-48. -/
def Pos.zero : Pos := ⟨0, 0⟩

/-- `Pos + Size` — /repo/src/geometry.rs:77-86.  `none`: an overflow of `u32` or `u16`. -/
def Pos.add (p : Pos) (s : Size) : Option Pos :=
  if p.row + s.height ≤ 4294967295 ∧ p.col + s.width ≤ 65535 then some ⟨p.row + s.height, p.col + s.width⟩ else none

/-- `impl fmt::Display for Pos` — /repo/src/geometry.rs:99-103. -/
def Pos.display (p : Pos) : String := toString p.row ++ ":" ++ toString p.col

/-- `impl fmt::Display for Size` — /repo/src/geometry.rs:105-109. -/
def Size.display (s : Size) : String := toString s.height ++ ":" ++ toString s.width

end PPP
