import Verif.Spec.Pane
import Verif.Spec.View
/-
Specification: what `display_pane` shows, for the whole window.

A pane notation divides the window into tiles: rectangles that are filled with a character or show an
excerpt of a document.
-/
namespace PPP
variable {L : Type} {P : PrettyDoc}

/-- What is seen of a document through an opening of some rows: the focused line is on row `row`, with
    lines above and below it (from top to bottom). -/
structure Excerpt (P : PrettyDoc) where
  above : List (Line P)
  focused : FocusedLine P
  below : List (Line P)
  row : Nat

/-- The lines of an excerpt, from top to bottom. -/
def Excerpt.lines (e : Excerpt P) : List (Line P) := e.above ++ [e.focused.toLine] ++ e.below

/-- The width of the widest line. -/
def Excerpt.width (e : Excerpt P) : Nat := (e.lines.map Line.width).foldl max 0

/-- `e` is what is seen of the document through an opening of `w` columns and `h` rows: its options say how
    wide to print it, what to focus and on which row. Lines are printed above and below, as long as
    there are some and there is space. -/
structure IsExcerpt (doc : P.Node) (o : PrintingOptions) (style : P.Style) (w h : Nat) (e : Excerpt P) : Prop where
  row : (o.chooseFocusLineRow h : PaneM P.Style P.Err Nat) = some ([], .ok e.row)
  print : ∃ up down, printAround doc (o.widthUsed w) o.focusPath o.focusTarget (some style) e.row (h - (e.row + 1)) =
      Exec.ofRes (.ok (up, e.focused, down)) ∧
    e.above = (up.filterMap id).reverse ∧ e.below = down.filterMap id

/-- A part of the window. -/
inductive Tile (P : PrettyDoc) where
  /-- filled with a character -/
  | fill (rect : Rectangle) (ch : Char) (style : P.Style)
  /-- an excerpt of a document; `setFocus` says whether to tell the window where the focus is -/
  | doc (rect : Rectangle) (style : P.Style) (setFocus : Bool) (e : Excerpt P)

/-- The calls that display a tile, row by row. -/
def Tile.calls (isFull : Char → Bool) : Tile P → List (WCall P.Style)
  | .fill rect ch style => rectCalls isFull rect (fun _ => List.replicate rect.width (ch, style)) style
  | .doc rect style setFocus e =>
    (if setFocus then [.setFocus (rect.minRow + e.row) (rect.minCol + e.focused.leftWidth)] else []) ++
    rectCalls isFull rect (fun i => lineAt (e.lines.map fun l => styledChars l.segments)
      ((e.above.length : Int) + i - e.row)) style

/-- The label and the style of a `Doc`, possibly in `Style`s; inner styles are combined with outer ones. -/
inductive DocOf : PaneNotation L P.Style → P.Style → L → P.Style → Prop where
  | doc {label style} : DocOf (.doc label) style label style
  | style {s n style label style'} : DocOf n (P.combine style s) label style' → DocOf (.style s n) style label style'

/-- There is nothing to show: the label has no document, or there is no space. -/
def NothingToShow (env : PaneEnv P L) (label : L) (w h : Nat) : Prop :=
  env.getContent label = none ∨ w = 0 ∨ h = 0

mutual
/-- `Tiles env note style rect T`: the pane notation `note`, in the given style, divides the rectangle into the
    tiles `T`. -/
inductive Tiles (env : PaneEnv P L) : PaneNotation L P.Style → P.Style → Rectangle → List (Tile P) → Prop where
  | fill {ch style rect} : Tiles env (.fill ch) style rect [.fill rect ch style]
  | doc {label style rect doc o e} : env.getContent label = some (doc, o) → rect.width ≠ 0 → rect.height ≠ 0 →
      IsExcerpt doc o style rect.width rect.height e →
      Tiles env (.doc label) style rect [.doc rect style o.setFocus e]
  | nothing {label style rect} : NothingToShow env label rect.width rect.height → Tiles env (.doc label) style rect []
  | style {s n style rect T} : Tiles env n (P.combine style s) rect T → Tiles env (.style s n) style rect T
  | horz {panes style rect widths T} : Division rect.width panes.sizes widths →
      HTiles env style rect panes (rect.width - (requests panes.sizes).sum) rect.minCol widths T →
      Tiles env (.horz panes) style rect T
  | vert {panes style rect heights T} : Division rect.height panes.sizes heights →
      VTiles env style rect panes (rect.height - (requests panes.sizes).sum) rect.minRow heights T →
      Tiles env (.vert panes) style rect T

/-- Panes side by side, from column `col` on.  `avail` is the number of columns that are left for the `Dynamic` panes:
    each of them is as wide as the excerpt of its document that fits in there. -/
inductive HTiles (env : PaneEnv P L) : P.Style → Rectangle → Panes L P.Style → Nat → Nat → List Nat → List (Tile P) →
    Prop where
  | nil {style rect avail col} : HTiles env style rect .nil avail col [] []
  | pane {style rect size n rest avail col w ws T T'} : size ≠ .dynamic →
      Tiles env n style { rect with minCol := col, maxCol := col + w } T →
      HTiles env style rect rest avail (col + w) ws T' →
      HTiles env style rect (.cons size n rest) avail col (w :: ws) (T ++ T')
  | dynamic {style rect n rest avail col ws T' label style' doc o e} : DocOf n style label style' →
      env.getContent label = some (doc, o) → avail ≠ 0 → rect.height ≠ 0 →
      IsExcerpt doc o style' avail rect.height e →
      HTiles env style rect rest (avail - min e.width avail) (col + min e.width avail) ws T' →
      HTiles env style rect (.cons .dynamic n rest) avail col (min e.width avail :: ws)
        (.doc { rect with minCol := col, maxCol := col + min e.width avail } style' o.setFocus e :: T')
  | nothing {style rect n rest avail col ws T' label style'} : DocOf n style label style' →
      NothingToShow env label avail rect.height →
      HTiles env style rect rest avail col ws T' →
      HTiles env style rect (.cons .dynamic n rest) avail col (0 :: ws) T'

/-- Panes below each other, from row `row` on.  `avail` is the number of rows that are left for the `Dynamic` panes:
    each of them is as high as the excerpt of its document that fits in there. -/
inductive VTiles (env : PaneEnv P L) : P.Style → Rectangle → Panes L P.Style → Nat → Nat → List Nat → List (Tile P) →
    Prop where
  | nil {style rect avail row} : VTiles env style rect .nil avail row [] []
  | pane {style rect size n rest avail row h hs T T'} : size ≠ .dynamic →
      Tiles env n style { rect with minRow := row, maxRow := row + h } T →
      VTiles env style rect rest avail (row + h) hs T' →
      VTiles env style rect (.cons size n rest) avail row (h :: hs) (T ++ T')
  | dynamic {style rect n rest avail row hs T' label style' doc o e} : DocOf n style label style' →
      env.getContent label = some (doc, o) → rect.width ≠ 0 → avail ≠ 0 →
      IsExcerpt doc o style' rect.width avail e → e.lines.length ≤ avail →
      VTiles env style rect rest (avail - e.lines.length) (row + e.lines.length) hs T' →
      VTiles env style rect (.cons .dynamic n rest) avail row (e.lines.length :: hs)
        (.doc { rect with minRow := row, maxRow := row + e.lines.length } style' o.setFocus e :: T')
  | nothing {style rect n rest avail row hs T' label style'} : DocOf n style label style' →
      NothingToShow env label rect.width avail →
      VTiles env style rect rest avail row hs T' →
      VTiles env style rect (.cons .dynamic n rest) avail row (0 :: hs) T'
end

/-! ### Why displaying fails -/

mutual
/-- `Dynamic` is only used for documents. -/
def DynamicsAreDocs {L S : Type} : PaneNotation L S → Prop
  | .fill _ => True
  | .doc _ => True
  | .style _ n => DynamicsAreDocs n
  | .horz panes => DynamicsAreDocsIn panes
  | .vert panes => DynamicsAreDocsIn panes
@[inherit_doc DynamicsAreDocs]
def DynamicsAreDocsIn {L S : Type} : Panes L S → Prop
  | .nil => True
  | .cons size n rest => (size = .dynamic → n.IsDoc) ∧ (size ≠ .dynamic → DynamicsAreDocs n) ∧ DynamicsAreDocsIn rest
end

mutual
/-- In no `Horz` or `Vert` do the `Proportional` panes all have weight zero, or weights that sum to `2 ^ 32` or
    more. -/
def GoodWeights {L S : Type} : PaneNotation L S → Prop
  | .fill _ => True
  | .doc _ => True
  | .style _ n => GoodWeights n
  | .horz panes => ((weights panes.sizes = [] ∨ 0 < (weights panes.sizes).sum) ∧ (weights panes.sizes).sum < 2 ^ 32) ∧
    GoodWeightsIn panes
  | .vert panes => ((weights panes.sizes = [] ∨ 0 < (weights panes.sizes).sum) ∧ (weights panes.sizes).sum < 2 ^ 32) ∧
    GoodWeightsIn panes
@[inherit_doc GoodWeights]
def GoodWeightsIn {L S : Type} : Panes L S → Prop
  | .nil => True
  | .cons size n rest => (size ≠ .dynamic → GoodWeights n) ∧ GoodWeightsIn rest
end

/-- Printing one of the documents with its options, in some style and for some opening, fails with `f`. -/
def DocFails (env : PaneEnv P L) (f : Fail P.Err) : Prop :=
  ∃ label doc o style w k j, env.getContent label = some (doc, o) ∧
    printAround doc (o.widthUsed w) o.focusPath o.focusTarget (some style) k j = Exec.ofRes (.error f)

/-- The `focus_height` of one of the documents is not between 0 and 1. -/
def BadFocusHeight (env : PaneEnv P L) : Prop :=
  ∃ label doc o, env.getContent label = some (doc, o) ∧ ¬ ∃ q, o.focusHeight = some q ∧ 0 ≤ q ∧ q ≤ 1

/-- The focus of one of the documents is so far to the right that its column may exceed `u16` in a window of the given
    width. -/
def FocusTooFar (env : PaneEnv P L) (width : Nat) : Prop :=
  ∃ label doc o style w r, env.getContent label = some (doc, o) ∧ o.setFocus = true ∧
    prettyPrint doc (o.widthUsed w) o.focusPath o.focusTarget (some style) = Exec.ofRes (.ok r) ∧
    maxWidth < r.focused.leftWidth + width

/-- Why displaying the panes in a window of the given width fails in this way. -/
def FailsBecause (env : PaneEnv P L) (width : Nat) (note : PaneNotation L P.Style) : PaneFail P.Err → Prop
  | .invalidUseOfDynamic => ¬ DynamicsAreDocs note
  | .printing e => DocFails env (.err e)
  | .panic => ¬ GoodWeights note ∨ BadFocusHeight env ∨ DocFails env .panic
  | .overflow => FocusTooFar env width ∨ DocFails env .overflow

end PPP
