import Verif.Model.Printer
import Verif.Model.Divvy
import Mathlib.Data.Int.Log
import Mathlib.Data.Rat.Floor
/-
Displaying panes — /repo/src/pane/display_pane.rs, /repo/src/pane/pane_notation.rs,
/repo/src/pane/printing_options.rs and /repo/src/pane/pretty_window.rs.

The code never looks at the window other than to ask for its size, at the start.  So it is modelled as
producing the list of calls that it makes to the window; `PrettyWindow.replay` says what a
window makes of them, including a window that fails on some call.
-/
namespace PPP

/-! ### Calls to the window -/

/-- A call to a `PrettyWindow` (other than `size`) — /repo/src/pane/pretty_window.rs. -/
inductive WCall (S : Type) where
  | displayChar (ch : Char) (row col : Nat) (style : S) (fullWidth : Bool)
  | setFocus (row col : Nat)

/-- How displaying a pane can fail: `PaneError` — /repo/src/pane/display_pane.rs:12-23 — or a panic, or
    an overflow of `u16` or `u32` arithmetic.  Errors of the window are in `PrettyWindow.replay`. -/
inductive PaneFail (E : Type) where
  | invalidUseOfDynamic
  | printing (e : PrintingError E)
  | panic
  | overflow

/-- The monad of the pane code: the calls made so far and a result or failure; `none` if it diverges
    (only printing can). -/
def PaneM (S E α : Type) : Type := Option (List (WCall S) × Except (PaneFail E) α)

/-- What has been run: the calls and the result. -/
def PaneM.run {S E α : Type} (m : PaneM S E α) : Option (List (WCall S) × Except (PaneFail E) α) := m

instance {S E : Type} : Monad (PaneM S E) where
  pure a := some ([], .ok a)
  bind m f :=
    match m with
    | none => none
    | some (calls, .error e) => some (calls, .error e)
    | some (calls, .ok a) =>
      match f a with
      | none => none
      | some (calls', r) => some (calls ++ calls', r)

variable {S E : Type}

/-- Fail. -/
def PaneM.fail {α : Type} (e : PaneFail E) : PaneM S E α := some ([], .error e)

/-- Make a call to the window; its errors (`map_err(PaneError::PrettyWindowError)?`) are dealt with in
    `PrettyWindow.replay`. -/
def PaneM.call (c : WCall S) : PaneM S E Unit := some ([c], .ok ())

/-- Run printing code: `?` with `From<PrintingError> for PaneError` —
    /repo/src/pane/display_pane.rs:21-22. -/
def PaneM.lift {α : Type} (x : Exec E α) : PaneM S E α :=
  match x.run with
  | none => none
  | some (.ok a) => some ([], .ok a)
  | some (.error (.err e)) => some ([], .error (.printing e))
  | some (.error .panic) => some ([], .error .panic)
  | some (.error .overflow) => some ([], .error .overflow)

/-- The largest value of `Height = u32` — /repo/src/geometry.rs:14. -/
def maxHeight : Nat := 4294967295

/-- An addition that must not exceed `max`. -/
def addUpTo (max a b : Nat) : PaneM S E Nat := if a + b ≤ max then pure (a + b) else PaneM.fail .overflow

/-- A subtraction of unsigned integers. -/
def subU (a b : Nat) : PaneM S E Nat := if b ≤ a then pure (a - b) else PaneM.fail .overflow

/-- `xs.for_each(f)` with `?` inside. -/
def eachM {α : Type} (f : α → PaneM S E Unit) : List α → PaneM S E Unit
  | [] => pure ()
  | x :: xs => do
    f x
    eachM f xs

/-! ### `PrettyWindow` -/

/-- An implementation of the `PrettyWindow` trait — /repo/src/pane/pretty_window.rs. -/
structure PrettyWindow (S : Type) where
  State : Type
  Err : Type
  size : State → Except Err (Nat × Nat)
  displayChar : State → Char → Nat → Nat → S → Bool → Except Err State
  setFocus : State → Nat → Nat → Except Err State

/-- One call. -/
def PrettyWindow.step (W : PrettyWindow S) (s : W.State) : WCall S → Except W.Err W.State
  | .displayChar ch row col style full => W.displayChar s ch row col style full
  | .setFocus row col => W.setFocus s row col

/-- What a window makes of the calls, up to the first one that fails. -/
def PrettyWindow.replay (W : PrettyWindow S) (s : W.State) : List (WCall S) → Except W.Err W.State
  | [] => .ok s
  | c :: cs => do
    let s ← W.step s c
    W.replay s cs

/-! ### Rectangles -/

/-- `Rectangle` — /repo/src/geometry.rs:37-43. -/
structure Rectangle where
  minRow : Nat
  maxRow : Nat
  minCol : Nat
  maxCol : Nat

/-- `Rectangle::width` — /repo/src/geometry.rs:61-63.  All rectangles have `min_col <= max_col`. -/
def Rectangle.width (r : Rectangle) : Nat := r.maxCol - r.minCol
/-- `Rectangle::height` — /repo/src/geometry.rs:65-67. -/
def Rectangle.height (r : Rectangle) : Nat := r.maxRow - r.minRow

/-- `for row in a..b`. -/
def rangeFrom (a b : Nat) : List Nat := List.range' a (b - a)

/-! ### Pane notations and printing options -/

mutual
/-- `PaneNotation<L, S>` — /repo/src/pane/pane_notation.rs:8-28. -/
inductive PaneNotation (L S : Type) where
  | horz (panes : Panes L S)
  | vert (panes : Panes L S)
  | doc (label : L)
  | fill (ch : Char)
  | style (s : S) (n : PaneNotation L S)
/-- `Vec<(PaneSize, PaneNotation<L, S>)>`. -/
inductive Panes (L S : Type) where
  | nil
  | cons (size : PaneSize) (n : PaneNotation L S) (rest : Panes L S)
end

/-- The sizes of the panes: `panes.iter().map(|(size, _)| size.to_owned())`. -/
def Panes.sizes {L S : Type} : Panes L S → List PaneSize
  | .nil => []
  | .cons size _ rest => size :: rest.sizes

/-- `WidthStrategy` — /repo/src/pane/printing_options.rs:24-33. -/
inductive WidthStrategy where
  | full
  | fixed (w : Nat)
  | noMoreThan (w : Nat)

/-- `PrintingOptions` — /repo/src/pane/printing_options.rs:7-21.  The `f32` `focus_height` is the exact
    rational number that it stands for, or `none` if it is NaN or infinite. -/
structure PrintingOptions where
  focusPath : List Nat
  focusTarget : FocusTarget
  focusHeight : Option ℚ
  widthStrategy : WidthStrategy
  setFocus : Bool

/-- Round to an integer, half to even (the rounding of IEEE arithmetic). -/
def roundHalfEven (x : ℚ) : ℤ :=
  if x - ⌊x⌋ < 1 / 2 then ⌊x⌋
  else if 1 / 2 < x - ⌊x⌋ then ⌊x⌋ + 1
  else if ⌊x⌋ % 2 = 0 then ⌊x⌋ else ⌊x⌋ + 1

/-- Round a non-negative number to an `f32`: 24 significant bits.  The range of the exponent is
    unbounded here (only values up to `2^32` are rounded; the code rounds the subnormal ones to `0`
    afterwards). -/
def roundF32 (x : ℚ) : ℚ :=
  if x ≤ 0 then 0
  else roundHalfEven (x / 2 ^ (Int.log 2 x - 23)) * 2 ^ (Int.log 2 x - 23)

/-- `f32::round` and a saturating `as u32`: the nearest integer, half away from zero, of a non-negative
    number. -/
def roundToRow (x : ℚ) : Nat := min maxHeight ⌊x + 1 / 2⌋₊

/-- `PrintingOptions::choose_focus_line_row` — /repo/src/pane/printing_options.rs:37-41.  The integer is
    converted to `f32`, then multiplied, and both operations round. -/
def PrintingOptions.chooseFocusLineRow (o : PrintingOptions) (paneHeight : Nat) : PaneM S E Nat :=
  match o.focusHeight with
  | none => .fail .panic
  | some q =>
    if ¬ 0 ≤ q then .fail .panic
    else if ¬ q ≤ 1 then .fail .panic
    else do
      let n ← subU paneHeight 1
      pure (roundToRow (roundF32 (roundF32 n * q)))

/-- `PrintingOptions::choose_width` — /repo/src/pane/printing_options.rs:44-50. -/
def PrintingOptions.chooseWidth (o : PrintingOptions) (availableWidth : Nat) : Nat :=
  match o.widthStrategy with
  | .full => availableWidth
  | .fixed width => width
  | .noMoreThan width => min width availableWidth

/-! ### Printed documents -/

variable {P : PrettyDoc}

/-- `PrintedDoc` — /repo/src/pane/display_pane.rs:228-238. -/
structure PrintedDoc (P : PrettyDoc) where
  lines : List (Line P)
  focusLineIndex : Nat
  focusLineRow : Nat
  focusPoint : Option (Nat × Nat)
  blankStyle : P.Style

/-- `PrintedDoc::new_empty` — /repo/src/pane/display_pane.rs:242-250. -/
def PrintedDoc.newEmpty (rootStyle : P.Style) : PrintedDoc P :=
  { lines := [], focusLineIndex := 0, focusLineRow := 0, focusPoint := none, blankStyle := rootStyle }

/-- `PrintedDoc::new` — /repo/src/pane/display_pane.rs:254-305.  The loops `for _ in 0..n { if let
    Some(line) = printer.next() { lines.push(line?) } }` are `takeLines`. -/
def PrintedDoc.new (doc : P.Node) (options : PrintingOptions) (width height : Nat) (rootStyle : P.Style) :
    PaneM P.Style P.Err (PrintedDoc P) :=
  if height = 0 ∨ width = 0 then pure (PrintedDoc.newEmpty rootStyle)
  else do
    let printingWidth := options.chooseWidth width
    let focusLineRow ← options.chooseFocusLineRow height
    let r ← .lift (prettyPrint doc printingWidth options.focusPath options.focusTarget (some rootStyle))
    let focusPoint := if options.setFocus then some (focusLineRow, r.focused.leftWidth) else none
    let (above, _) ← .lift (takeLines Printer.nextUp focusLineRow r.up)
    let above := (above.filterMap id).reverse
    let below ← addUpTo maxHeight focusLineRow 1
    let (below, _) ← .lift (takeLines Printer.nextDown (height - below) r.down)
    pure {
      lines := above ++ [r.focused.toLine] ++ below.filterMap id
      focusLineIndex := above.length
      focusLineRow
      focusPoint
      blankStyle := rootStyle }

/-- `PrintedDoc::height` — /repo/src/pane/display_pane.rs:308-310. -/
def PrintedDoc.height (d : PrintedDoc P) : Nat := d.lines.length

/-- `PrintedDoc::width` — /repo/src/pane/display_pane.rs:313-319. -/
def PrintedDoc.width (d : PrintedDoc P) : Nat := (d.lines.map Line.width).foldl max 0

/-- `display_blank_line` — /repo/src/pane/display_pane.rs:356-382. -/
def displayBlankLine (relativeRow : Nat) (rect : Rectangle) (blankStyle : P.Style) :
    PaneM P.Style P.Err Unit :=
  let absoluteRow := rect.minRow + relativeRow
  if absoluteRow ≥ rect.maxRow then pure ()
  else eachM (fun absoluteCol => .call (.displayChar ' ' absoluteRow absoluteCol blankStyle false))
    (rangeFrom rect.minCol rect.maxCol)

/-- The inner loop of `display_line` over the characters of a segment —
    /repo/src/pane/display_pane.rs:408-418.  `is_char_full_width` (from the crate `unicode-width`) is a
    parameter.  Returns the new column, or `none` after `break 'segments_loop`, with the column. -/
def displayChars (isFull : Char → Bool) (row maxCol : Nat) (style : S) : List Char → Nat →
    PaneM S E (Nat × Bool)
  | [], col => pure (col, true)
  | ch :: chs, col => do
    let w := if isFull ch then 2 else 1
    let col' ← addUpTo maxWidth col w
    if col' > maxCol then pure (col, false)
    else do
      PaneM.call (.displayChar ch row col style (isFull ch))
      displayChars isFull row maxCol style chs col'

/-- The loop over segments — /repo/src/pane/display_pane.rs:407-419. -/
def displaySegments (isFull : Char → Bool) (row maxCol : Nat) : List (Segment P) → Nat →
    PaneM P.Style P.Err Nat
  | [], col => pure col
  | seg :: segs, col => do
    let (col, continue_) ← displayChars isFull row maxCol seg.style seg.str.toList col
    if continue_ then displaySegments isFull row maxCol segs col else pure col

/-- `display_line` — /repo/src/pane/display_pane.rs:386-427.  The loop `while pos.col < rect.max_col`
    that displays blanks is a loop over these columns. -/
def displayLine (isFull : Char → Bool) (line : Line P) (relativeRow : Nat) (rect : Rectangle)
    (blankStyle : P.Style) : PaneM P.Style P.Err Unit :=
  let row := rect.minRow + relativeRow
  if row ≥ rect.maxRow then pure ()
  else do
    let col ← displaySegments isFull row rect.maxCol line.segments rect.minCol
    eachM (fun col => .call (.displayChar ' ' row col blankStyle false)) (rangeFrom col rect.maxCol)

/-- One iteration of the loop in `PrintedDoc::display` — /repo/src/pane/display_pane.rs:342-349.
    Indexing panics out of bounds. -/
def PrintedDoc.displayRow (isFull : Char → Bool) (d : PrintedDoc P) (rect : Rectangle)
    (firstRow lastRow row : Nat) : PaneM P.Style P.Err Unit :=
  if row ≥ firstRow ∧ row < lastRow then
    match d.lines[row - firstRow]? with
    | some line => displayLine isFull line row rect d.blankStyle
    | none => .fail .panic
  else displayBlankLine row rect d.blankStyle

/-- `PrintedDoc::display` — /repo/src/pane/display_pane.rs:322-352. -/
def PrintedDoc.display (isFull : Char → Bool) (d : PrintedDoc P) (rect : Rectangle) :
    PaneM P.Style P.Err Unit := do
  match d.focusPoint with
  | some (row, col) =>
    let row ← addUpTo maxHeight row rect.minRow
    let col ← addUpTo maxWidth col rect.minCol
    PaneM.call (.setFocus row col)
  | none => pure ()
  let firstRow ← subU d.focusLineRow d.focusLineIndex
  let lastRow ← addUpTo maxHeight firstRow d.lines.length
  eachM (d.displayRow isFull rect firstRow lastRow) (rangeFrom 0 rect.height)

/-! ### Panes -/

/-- The loop over the columns of one row of `Fill` — /repo/src/pane/display_pane.rs:65-79. -/
def fillRow (isFull : Char → Bool) (ch : Char) (style : S) (row maxCol col : Nat) : PaneM S E Unit :=
  let w := if isFull ch then 2 else 1
  if col + w > maxWidth then .fail .overflow
  else if col + w ≤ maxCol then do
    PaneM.call (.displayChar ch row col style (isFull ch))
    fillRow isFull ch style row maxCol (col + w)
  else if col < maxCol then PaneM.call (.displayChar ' ' row col style false)
  else pure ()
termination_by maxCol - col
decreasing_by
  rename_i h1 h2
  have : 1 ≤ w := by simp only [w]; split <;> omega
  omega

/-- `extract_doc` — /repo/src/pane/display_pane.rs:202-226. -/
def extractDoc {L : Type} : PaneNotation L P.Style → P.Style → PaneM P.Style P.Err (L × P.Style)
  | .style innerStyle inner, style => extractDoc inner (P.combine style innerStyle)
  | .doc label, style => pure (label, style)
  | _, _ => .fail .invalidUseOfDynamic

/-- The arguments of `display_pane` that do not change: the documents, and `is_char_full_width`. -/
structure PaneEnv (P : PrettyDoc) (L : Type) where
  getContent : L → Option (P.Node × PrintingOptions)
  isFull : Char → Bool

variable {L : Type}

/-- Print one `Dynamic` pane — /repo/src/pane/display_pane.rs:110-115 and 162-167. -/
def printDynamic (env : PaneEnv P L) (note : PaneNotation L P.Style) (style : P.Style) (width height : Nat) :
    PaneM P.Style P.Err (PrintedDoc P) := do
  let (label, docStyle) ← extractDoc note style
  match env.getContent label with
  | some (doc, options) => PrintedDoc.new doc options width height docStyle
  | none => pure (PrintedDoc.newEmpty docStyle)

/-- The first loop of `Horz` — /repo/src/pane/display_pane.rs:103-121: print the `Dynamic` panes, with
    `available` columns left.  Returns the documents with the widths given to them. -/
def horzDynamic (env : PaneEnv P L) (style : P.Style) (height : Nat) : Panes L P.Style → Nat →
    PaneM P.Style P.Err (List (PrintedDoc P × Nat))
  | .nil, _ => pure []
  | .cons size note rest, available =>
    if size ≠ .dynamic then horzDynamic env style height rest available
    else do
      let d ← printDynamic env note style available height
      let width := min d.width available
      let ds ← horzDynamic env style height rest (available - width)
      pure ((d, width) :: ds)

/-- The first loop of `Vert` — /repo/src/pane/display_pane.rs:155-173. -/
def vertDynamic (env : PaneEnv P L) (style : P.Style) (width : Nat) : Panes L P.Style → Nat →
    PaneM P.Style P.Err (List (PrintedDoc P × Nat))
  | .nil, _ => pure []
  | .cons size note rest, available =>
    if size ≠ .dynamic then vertDynamic env style width rest available
    else do
      let d ← printDynamic env note style width available
      let available ← subU available d.height
      let ds ← vertDynamic env style width rest available
      pure ((d, d.height) :: ds)

/-- `divvier.finish(..)`, which may panic. -/
def finishDivvy (d : Divvier) (sizes : List Nat) : PaneM S E (List Nat) :=
  match d.finish sizes with
  | some out => pure out
  | none => .fail .panic

mutual
/-- `display_pane_rec` — /repo/src/pane/display_pane.rs:46-199. -/
def displayPaneRec (env : PaneEnv P L) (note : PaneNotation L P.Style) (style : P.Style) (rect : Rectangle) :
    PaneM P.Style P.Err Unit :=
  match note with
  | .fill ch =>
    eachM (fun row => fillRow env.isFull ch style row rect.maxCol rect.minCol) (rangeFrom rect.minRow rect.maxRow)
  | .doc label =>
    match env.getContent label with
    | some (doc, options) => do
      let d ← PrintedDoc.new doc options rect.width rect.height style
      d.display env.isFull rect
    | none => pure ()
  | .style innerStyle inner => displayPaneRec env inner (P.combine style innerStyle) rect
  | .horz panes => do
    let divvier := Divvier.new rect.width panes.sizes
    let dynamics ← horzDynamic env style rect.height panes divvier.remaining
    let widths ← finishDivvy divvier (dynamics.map (·.2))
    displayHorz env panes style rect widths (dynamics.map (·.1)) rect.minCol
  | .vert panes => do
    let divvier := Divvier.new rect.height panes.sizes
    let dynamics ← vertDynamic env style rect.width panes divvier.remaining
    let heights ← finishDivvy divvier (dynamics.map (·.2))
    displayVert env panes style rect heights (dynamics.map (·.1)) rect.minRow

/-- The second loop of `Horz` — /repo/src/pane/display_pane.rs:124-143: from left to right, starting at
    column `col`.  `dynamic_docs.next().unwrap()` may panic. -/
def displayHorz (env : PaneEnv P L) (panes : Panes L P.Style) (style : P.Style) (rect : Rectangle)
    (widths : List Nat) (docs : List (PrintedDoc P)) (col : Nat) : PaneM P.Style P.Err Unit :=
  match panes, widths with
  | .cons size note rest, width :: widths => do
    let col' ← addUpTo maxWidth col width
    let childRect := { rect with minCol := col, maxCol := col' }
    if size = .dynamic then
      match docs with
      | [] => .fail .panic
      | d :: docs => do
        d.display env.isFull childRect
        displayHorz env rest style rect widths docs col'
    else do
      displayPaneRec env note style childRect
      displayHorz env rest style rect widths docs col'
  | _, _ => pure ()

/-- The second loop of `Vert` — /repo/src/pane/display_pane.rs:176-195. -/
def displayVert (env : PaneEnv P L) (panes : Panes L P.Style) (style : P.Style) (rect : Rectangle)
    (heights : List Nat) (docs : List (PrintedDoc P)) (row : Nat) : PaneM P.Style P.Err Unit :=
  match panes, heights with
  | .cons size note rest, height :: heights => do
    let row' ← addUpTo maxHeight row height
    let childRect := { rect with minRow := row, maxRow := row' }
    if size = .dynamic then
      match docs with
      | [] => .fail .panic
      | d :: docs => do
        d.display env.isFull childRect
        displayVert env rest style rect heights docs row'
    else do
      displayPaneRec env note style childRect
      displayVert env rest style rect heights docs row'
  | _, _ => pure ()
end

/-- `display_pane` for a window of the given size — /repo/src/pane/display_pane.rs:30-44. -/
def displayPane (env : PaneEnv P L) (note : PaneNotation L P.Style) (style : P.Style) (width height : Nat) :
    PaneM P.Style P.Err Unit :=
  displayPaneRec env note style { minRow := 0, maxRow := height, minCol := 0, maxCol := width }

end PPP
