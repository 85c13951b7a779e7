import Verif.Model.Pane
/-
The window `PlainText` — /repo/src/pane/plain_text.rs.
-/
namespace PPP

/-- `SENTINEL` — /repo/src/pane/plain_text.rs:24. -/
def sentinel : Char := '\x00'

/-- `PlainText<S>` — /repo/src/pane/plain_text.rs:10-21. -/
structure PlainText where
  lines : List (List Char)
  width : Nat
  height : Nat
  focusPoints : List (Nat × Nat)

/-- `PlainText::new` — /repo/src/pane/plain_text.rs:42-49. -/
def PlainText.new (width height : Nat) : PlainText := ⟨[], width, height, []⟩

/-- `PlainText::new_unbounded_height` — /repo/src/pane/plain_text.rs:52-54. -/
def PlainText.newUnboundedHeight (width : Nat) : PlainText := .new width maxHeight

/-- `if v.len() < n { v.resize(n, x) }` — /repo/src/pane/plain_text.rs:78-80 and 84-86. -/
def growTo {α : Type} (n : Nat) (x : α) (v : List α) : List α := v ++ List.replicate (n - v.length) x

/-- `PlainText::display_char` — /repo/src/pane/plain_text.rs:69-92. -/
def PlainText.displayChar (w : PlainText) (ch : Char) (row col : Nat) (fullWidth : Bool) : PlainText :=
  let lines := growTo (row + 1) [] w.lines
  { w with
    lines := lines.modify row fun line =>
      let line := growTo (col + if fullWidth then 2 else 1) ' ' line
      let line := line.set col ch
      if fullWidth then line.set (col + 1) sentinel else line }

/-- `PlainText::set_focus` — /repo/src/pane/plain_text.rs:94-97. -/
def PlainText.setFocus (w : PlainText) (row col : Nat) : PlainText :=
  { w with focusPoints := w.focusPoints ++ [(row, col)] }

/-- `impl PrettyWindow for PlainText` — /repo/src/pane/plain_text.rs:61-98.  There are no errors
    (`Infallible`), and styles are ignored. -/
@[reducible] def plainText (S : Type) : PrettyWindow S where
  State := PlainText
  Err := Empty
  size w := .ok (w.width, w.height)
  displayChar w ch row col _ fullWidth := .ok (w.displayChar ch row col fullWidth)
  setFocus w row col := .ok (w.setFocus row col)

/-- `impl Display for PlainText` — /repo/src/pane/plain_text.rs:26-38. -/
def PlainText.toString (w : PlainText) : String :=
  String.ofList (w.lines.flatMap fun line => line.filter (· != sentinel) ++ ['\n'])

end PPP
