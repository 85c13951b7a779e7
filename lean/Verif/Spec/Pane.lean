import Verif.Model.Pane
import Verif.Spec.Output
import Verif.Spec.Divvy
/-
Specification, part 11: what is displayed in a window.
-/
namespace PPP
variable {S L : Type}

/-- The cells (row, column) covered by a call: a full-width character covers two. -/
def WCall.cells : WCall S → List (Nat × Nat)
  | .displayChar _ row col _ full => if full then [(row, col), (row, col + 1)] else [(row, col)]
  | .setFocus _ _ => []

/-- The cells covered by some calls, in order. -/
def cellsOf (calls : List (WCall S)) : List (Nat × Nat) := calls.flatMap WCall.cells

/-- The cells of a rectangle. -/
def Rectangle.Has (r : Rectangle) (cell : Nat × Nat) : Prop :=
  r.minRow ≤ cell.1 ∧ cell.1 < r.maxRow ∧ r.minCol ≤ cell.2 ∧ cell.2 < r.maxCol

/-! ### Rows of text -/

/-- The number of columns of a character. -/
def charCols (isFull : Char → Bool) (ch : Char) : Nat := if isFull ch then 2 else 1

/-- The number of columns of a row of characters. -/
def charsCols (isFull : Char → Bool) (chars : List (Char × S)) : Nat :=
  (chars.map fun c => charCols isFull c.1).sum

/-- As many characters as fit into `w` columns. -/
def clip (isFull : Char → Bool) : Nat → List (Char × S) → List (Char × S)
  | _, [] => []
  | w, c :: cs => if charCols isFull c.1 ≤ w then c :: clip isFull (w - charCols isFull c.1) cs else []

/-- Display characters one after the other, from column `col`. -/
def placed (isFull : Char → Bool) (row : Nat) : Nat → List (Char × S) → List (WCall S)
  | _, [] => []
  | col, (ch, style) :: cs =>
    .displayChar ch row col style (isFull ch) :: placed isFull row (col + charCols isFull ch) cs

/-- Display `n` spaces, from column `col`. -/
def blanks (row col n : Nat) (style : S) : List (WCall S) :=
  (List.range' col n).map fun c => .displayChar ' ' row c style false

/-- A row of `w` columns that shows the characters, as far as they fit, and then blanks. -/
def rowCalls (isFull : Char → Bool) (row col w : Nat) (chars : List (Char × S)) (blank : S) : List (WCall S) :=
  let shown := clip isFull w chars
  placed isFull row col shown ++ blanks row (col + charsCols isFull shown) (w - charsCols isFull shown) blank

/-- Fill a rectangle, row by row: `rows i` is shown on the `i`'th row of the rectangle. -/
def rectCalls (isFull : Char → Bool) (rect : Rectangle) (rows : Nat → List (Char × S)) (blank : S) :
    List (WCall S) :=
  (rangeFrom rect.minRow rect.maxRow).flatMap fun row =>
    rowCalls isFull row rect.minCol rect.width (rows (row - rect.minRow)) blank

/-- Line number `k`, or nothing if there is no such line. -/
def lineAt (lines : List (List (Char × S))) (k : Int) : List (Char × S) :=
  if 0 ≤ k then (lines[k.toNat]?).getD [] else []

/-! ### Pane notations that cover everything -/

mutual
/-- `Covering env n w h`: when `n` is displayed with width `w` and height `h`, nothing is left over.
    All documents exist, and in every `Horz` and `Vert` the sizes of the panes use up the space (for
    example because one of them is `Proportional`). -/
def Covering {P : PrettyDoc} (env : PaneEnv P L) : PaneNotation L P.Style → Nat → Nat → Prop
  | .fill _, _, _ => True
  | .doc label, _, _ => env.getContent label ≠ none
  | .style _ n, w, h => Covering env n w h
  | .horz panes, w, h => ∀ dyn out, (Divvier.new w panes.sizes).finish dyn = some out →
      out.sum = w ∧ CoveringH env panes out h
  | .vert panes, w, h => ∀ dyn out, (Divvier.new h panes.sizes).finish dyn = some out →
      out.sum = h ∧ CoveringV env panes out w
/-- The same for the panes of a `Horz`, given their widths. -/
def CoveringH {P : PrettyDoc} (env : PaneEnv P L) : Panes L P.Style → List Nat → Nat → Prop
  | .cons size n rest, w :: ws, h => (size ≠ .dynamic → Covering env n w h) ∧ CoveringH env rest ws h
  | _, _, _ => True
/-- The same for the panes of a `Vert`, given their heights. -/
def CoveringV {P : PrettyDoc} (env : PaneEnv P L) : Panes L P.Style → List Nat → Nat → Prop
  | .cons size n rest, h :: hs, w => (size ≠ .dynamic → Covering env n w h) ∧ CoveringV env rest hs w
  | _, _, _ => True
end

mutual
/-- A condition on the notation alone that makes it cover everything: all documents exist, and every
    `Horz` and `Vert` has a `Proportional` pane. -/
def Tiled {P : PrettyDoc} (env : PaneEnv P L) : PaneNotation L P.Style → Prop
  | .fill _ => True
  | .doc label => env.getContent label ≠ none
  | .style _ n => Tiled env n
  | .horz panes => weights panes.sizes ≠ [] ∧ TiledPanes env panes
  | .vert panes => weights panes.sizes ≠ [] ∧ TiledPanes env panes
/-- All the panes that are not `Dynamic`. -/
def TiledPanes {P : PrettyDoc} (env : PaneEnv P L) : Panes L P.Style → Prop
  | .nil => True
  | .cons size n rest => (size ≠ .dynamic → Tiled env n) ∧ TiledPanes env rest
end

/-! ### Panes that can be displayed -/

/-- The width at which a document is printed in a pane of `available` columns: all of them (`Full`), a
    fixed number whatever the pane (`Fixed`), or at most a given number (`NoMoreThan`). -/
def PrintingOptions.widthUsed (o : PrintingOptions) (available : Nat) : Nat :=
  match o.widthStrategy with
  | .full => available
  | .fixed n => n
  | .noMoreThan n => if n < available then n else available

/-- A `Doc`, possibly in `Style`s. -/
def PaneNotation.IsDoc {L S : Type} : PaneNotation L S → Prop
  | .doc _ => True
  | .style _ n => n.IsDoc
  | _ => False

mutual
/-- `Dynamic` is only used for documents, and in no `Horz` or `Vert` do the `Proportional` panes all have
    weight zero, or weights that sum to `2 ^ 32` or more. -/
def WellSized {L S : Type} : PaneNotation L S → Prop
  | .fill _ => True
  | .doc _ => True
  | .style _ n => WellSized n
  | .horz panes => ((weights panes.sizes = [] ∨ 0 < (weights panes.sizes).sum) ∧ (weights panes.sizes).sum < 2 ^ 32) ∧
    WellSizedPanes panes
  | .vert panes => ((weights panes.sizes = [] ∨ 0 < (weights panes.sizes).sum) ∧ (weights panes.sizes).sum < 2 ^ 32) ∧
    WellSizedPanes panes
@[inherit_doc WellSized]
def WellSizedPanes {L S : Type} : Panes L S → Prop
  | .nil => True
  | .cons size n rest => (size = .dynamic → n.IsDoc) ∧ (size ≠ .dynamic → WellSized n) ∧ WellSizedPanes rest
end

/-- All documents can be printed at the widths that they may be given in a window of the given width:
    the options have a proper focus height, printing the document with the options succeeds, and the text
    on the left of the focus is not so long that its width and that of the window together exceed
    `u16`. -/
def AllPrint {P : PrettyDoc} (env : PaneEnv P L) (width : Nat) : Prop :=
  ∀ label doc o, env.getContent label = some (doc, o) →
    (∃ q, o.focusHeight = some q ∧ 0 ≤ q ∧ q ≤ 1) ∧
    ∀ style w, 0 < w → w ≤ width → ∃ out,
      printAll doc (o.widthUsed w) o.focusPath o.focusTarget (some style) = Exec.ofRes (.ok out) ∧
      (o.setFocus = true → out.focused.leftWidth + width ≤ maxWidth)

end PPP
