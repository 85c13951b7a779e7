import Verif.Proofs.PaneDoc
import Verif.Props.Safety
import Verif.Props.Pane
import Verif.Proofs.PaneOk
import Verif.Proofs.PaneFails
import Mathlib.Tactic.IntervalCases
/-
C29, C30: what is shown in a `Doc` pane.
-/
namespace PPP
variable {L : Type} {P : PrettyDoc}

/-- **C29**, **C30.**  If a document can be printed with its options (at the width chosen by the options,
    and with the focus of the options), giving the lines `out`, and displaying it in a `Doc` pane
    succeeds, then

    - there is a focus row, the one chosen by `focus_height`;
    - the only call of `set_focus` (if the options ask for it) is at the focus row of the pane, in the
      column after the part of the focused line on the left of the focus;
    - the `j`'th row of the pane shows the line of the document that is as far below the focused line as
      row `j` is below the focus row (the rows above and below the document being blank), cut off at the
      right border of the pane and padded with blanks in the style of the pane. -/
theorem C29_doc_pane (env : PaneEnv P L) {label : L} {doc : P.Node} {o : PrintingOptions}
    (hcontent : env.getContent label = some (doc, o))
    {style : P.Style} {rect : Rectangle} (hw : rect.minCol < rect.maxCol) (hh : rect.minRow < rect.maxRow) {out}
    (hprint : printAll doc (o.widthUsed rect.width) o.focusPath o.focusTarget (some style) = Exec.ofRes (.ok out))
    {calls} (h : (displayPaneRec env (.doc label) style rect).run = some (calls, .ok ())) :
    ∃ row, (o.chooseFocusLineRow rect.height : PaneM P.Style P.Err Nat) = some ([], .ok row) ∧
      calls =
        (if o.setFocus then [.setFocus (rect.minRow + row) (rect.minCol + out.focused.leftWidth)] else []) ++
        rectCalls env.isFull rect
          (fun j => lineAt (out.lines.map styledChars) ((out.above.length : Int) + j - row)) style := by
  have hw' : rect.width ≠ 0 := by unfold Rectangle.width; omega
  have hh' : rect.height ≠ 0 := by unfold Rectangle.height; omega
  unfold PaneM.run at h
  rw [displayPaneRec, hcontent] at h
  simp only at h
  rcases PaneM.bind_eq_some h with ⟨e, _, h'⟩ | ⟨c1, d, c2, h1, h2, rfl⟩
  · cases h'
  obtain ⟨row, r, k1, k2, k3⟩ := printedDoc_val h1 hw' hh'
  obtain ⟨d', m1, m3⟩ := printedDoc_new hprint hw' hh' k1 k2
  rw [m1] at h1
  cases h1
  refine ⟨row, k1, ?_⟩
  rw [List.nil_append, (display_emits env.isFull d rect (by omega)).ok h2, m3.blank,
    rectCalls_congr env.isFull rect style fun j hj => m3.row hj]
  congr 1
  unfold PrintedDoc.focusCalls
  rw [m3.focusPoint]
  split
  · rename_i heq
    split at heq
    · rename_i hs
      simp only [Option.some.injEq, Prod.mk.injEq] at heq
      rw [if_pos hs, ← heq.1, ← heq.2, Nat.add_comm row, Nat.add_comm out.focused.leftWidth]
    · cases heq
  · rename_i heq
    split at heq
    · cases heq
    · rename_i hs; rw [if_neg hs]

/-- **C29**, in terms of the layout of the document: the lines that a `Doc` pane shows are those of the
    greedy layout, and the column of `set_focus` is the width of the text on the left of the focus. -/
theorem C29_layout (law : P.Lawful) {doc : P.Node} {w path target style out} (hfocus : FocusOk P doc target)
    (hprint : printAll doc w path target (some style) = Exec.ofRes (.ok out)) :
    ∃ i T, docLayout law doc w (some style) = .ok (i, T) ∧
      out.lines.map styledChars = (linesOf T.toks).map styledChars ∧
      out.focused.leftWidth = (out.focused.leftSegments.map fun s => P.strWidth s.str).sum := by
  obtain ⟨i, T, hL, h1, _⟩ := C02_focus_independent law hfocus hprint
  exact ⟨i, T, hL, h1, (C37_segment_widths law hfocus hprint).2.2.1⟩

/-- **C30.**  The row on which the focused line is shown: it is in the pane (the first row for a focus
    height of `0`, the last for `1`), and it is the row nearest to the fraction `focus_height` of the
    height, up to the precision of `f32`.  This is for panes of at most `2^24` rows; see
    `focusRow_outside`. -/
theorem C30_focus_row {S E : Type} {o : PrintingOptions} {height row : Nat} (hb : height ≤ 2 ^ 24)
    (h : (o.chooseFocusLineRow height : PaneM S E Nat) = some ([], .ok row)) :
    ∃ q, o.focusHeight = some q ∧ 0 ≤ q ∧ q ≤ 1 ∧ row < height ∧ (q = 0 → row = 0) ∧ (q = 1 → row + 1 = height) ∧
      |(row : ℚ) - ((height - 1 : Nat) : ℚ) * q| ≤ 1 / 2 + ((height - 1 : Nat) : ℚ) / 2 ^ 24 := by
  obtain ⟨_, q, hq, h0, h1, hh, rfl⟩ := chooseFocusLineRow_val h
  refine ⟨q, hq, h0, h1, focusRow_lt h0 h1 hh hb, ?_, ?_, focusRow_near h0 h1 hb⟩
  · rintro rfl
    rw [mul_zero]
    have : roundF32 0 = ((0 : Nat) : ℚ) := by simp [roundF32]
    rw [this, roundToRow_nat (Nat.zero_le _)]
  · rintro rfl
    rw [mul_one, roundF32_nat (by omega), roundF32_nat (by omega), roundToRow_nat (by unfold maxHeight; omega)]
    omega

/-- **C30.**  What is printed for a pane of `height` rows: the focused line, at most as many lines above it as
    there are rows above the focus row, and at most as many below it as there are rows below; so never
    more lines than the pane has rows.  The focus point (if the options ask for it) is on the focus row,
    in the column after the part of the focused line on the left of the focus. -/
theorem C30_lines {doc : P.Node} {o : PrintingOptions} {width height : Nat} {style : P.Style} {c d}
    (h : PrintedDoc.new doc o width height style = some (c, .ok d)) (hw : width ≠ 0) (hh : height ≠ 0)
    (hb : height ≤ 2 ^ 24) :
    ∃ (row : Nat) (r : Printed P) (above below : List (Line P)),
      (o.chooseFocusLineRow height : PaneM P.Style P.Err Nat) = some ([], .ok row) ∧
      prettyPrint doc (o.widthUsed width) o.focusPath o.focusTarget (some style) = Exec.ofRes (.ok r) ∧
      d.lines = above ++ [r.focused.toLine] ++ below ∧
      above.length ≤ row ∧ below.length ≤ height - row - 1 ∧ d.height ≤ height ∧
      d.focusPoint = if o.setFocus then some (row, r.focused.leftWidth) else none := by
  unfold PrintedDoc.new at h
  rw [if_neg (by simp [hw, hh])] at h
  simp only [chooseWidth_eq] at h
  rcases PaneM.bind_eq_some h with ⟨e, _, h'⟩ | ⟨c1, row, c2, h1, k1, rfl⟩
  · cases h'
  obtain rfl := Quiet.chooseFocusLineRow _ _ _ _ h1
  rcases PaneM.bind_eq_some k1 with ⟨e, _, h'⟩ | ⟨c1, r, c2, h2, k2, rfl⟩
  · cases h'
  obtain ⟨rfl, h2'⟩ := lift_val h2
  rcases PaneM.bind_eq_some k2 with ⟨e, _, h'⟩ | ⟨c1, up, c2, h3, k3, rfl⟩
  · cases h'
  obtain ⟨rfl, h3'⟩ := lift_val h3
  rcases PaneM.bind_eq_some k3 with ⟨e, _, h'⟩ | ⟨c1, x, c2, h4, k4, rfl⟩
  · cases h'
  obtain rfl := Quiet.addUpTo _ _ _ _ _ h4
  obtain ⟨rfl, hx⟩ := addUpTo_val h4
  rcases PaneM.bind_eq_some k4 with ⟨e, _, h'⟩ | ⟨c1, down, c2, h5, k5, rfl⟩
  · cases h'
  obtain ⟨rfl, h5'⟩ := lift_val h5
  obtain ⟨q, _, _, _, hrow, _⟩ := C30_focus_row hb h1
  have l1 := takeLines_length _ h3'
  have l2 := takeLines_length _ h5'
  obtain rfl : _ = d := by
    have := k5
    simp only [pure] at this
    cases this
    rfl
  have a1 : ((up.1.filterMap id).reverse).length ≤ row := by
    rw [List.length_reverse, ← l1]; exact List.length_filterMap_le _ _
  have a2 : (down.1.filterMap id).length ≤ height - (row + 1) := by
    rw [← l2]; exact List.length_filterMap_le _ _
  refine ⟨row, r, (up.1.filterMap id).reverse, down.1.filterMap id, h1, h2', rfl, a1, by omega, ?_, rfl⟩
  simp only [PrintedDoc.height, List.length_append, List.length_singleton]
  omega

/-- **C28**, **C30**: displaying panes succeeds: nothing panics or overflows, and there are no errors,
    provided that the window has at most `65533` columns and `2^24` rows, that the pane notation is
    well-formed, and that all documents can be printed. -/
theorem C28_succeeds (env : PaneEnv P L) (note : PaneNotation L P.Style) (style : P.Style)
    (width height : Nat) (hwidth : width + 2 ≤ maxWidth) (hheight : height ≤ 2 ^ 24) (hnote : WellSized note)
    (hdocs : AllPrint env width) :
    ∃ calls, (displayPane env note style width height).run = some (calls, .ok ()) := by
  obtain ⟨c, _, h, _⟩ := displayPaneRec_ok hdocs hwidth note style
    { minRow := 0, maxRow := height, minCol := 0, maxCol := width } hnote (Nat.zero_le _) (Nat.zero_le _)
    (Nat.le_refl _) hheight
  exact ⟨c, h⟩

namespace Ex

theorem exTree_some : rootTree exLaw exDoc (some ()) = .ok (nid 3, exTree) := by
  have h : rootTree exLaw exDoc (some ()) = rootTree exLaw exDoc none := by
    unfold rootTree
    rw [docTree_of exLaw (a := listN.1) (s := ()) rfl rfl, docTree_of exLaw (a := listN.1) (s := ()) rfl rfl]
  rw [h, exTree_eq]

theorem exLayout_any {w : Nat} (h0 : 0 < w) (h1 : w ≤ 10) :
    docLayout exLaw exDoc w (some ()) = .ok (nid 3, if 9 ≤ w then exWide else exNarrow) := by
  unfold docLayout
  rw [exTree_some]
  interval_cases w <;> rfl

/-- Show the document, focused on the text of its second child, in the middle of the pane. -/
def exOptions : PrintingOptions := ⟨[1], .text 1, some (1 / 2), .full, true⟩

/-- One document; all characters are narrow, but for `W`. -/
def exEnv : PaneEnv exP Unit := ⟨fun _ => some (exDoc, exOptions), fun ch => ch == 'W'⟩

/-- Two copies of the document, with a line between them; the one on the left is in the middle. -/
def exPanes : PaneNotation Unit Unit :=
  .horz (.cons (.proportional 1) (.vert (.cons (.proportional 1) (.fill 'W') (.cons .dynamic (.doc ())
      (.cons (.proportional 2) (.fill ' ') .nil))))
    (.cons (.fixed 1) (.fill '|') (.cons .dynamic (.style () (.doc ())) .nil)))

/-- The document prints at all widths up to 10; at widths up to 8 the second line is focused, after its
    first character. -/
theorem exPrints {w : Nat} (h0 : 0 < w) (h1 : w ≤ 10) :
    ∃ out, printAll exDoc w [1] (.text 1) (some ()) = Exec.ofRes (.ok (out : Output exP)) ∧
      out.focused.leftWidth = (if 9 ≤ w then 6 else 1) ∧
      out.above.length = (if 9 ≤ w then 0 else 1) ∧
      out.lines.map styledChars = (linesOf (if 9 ≤ w then exWide else exNarrow).toks).map styledChars := by
  have hL := exLayout_any h0 h1
  obtain ⟨t, hr, hl⟩ := docLayout_ok exLaw hL
  rcases print_ok (I := True) exLaw hr hl [1] (target := .text 1) (.inr exAdditive) (fun _ => exIds) with
      ⟨r, ups, downs, _, _, _, _, _, _, g1, g2, g3, g4, g5, g6, g7, g8⟩ | ⟨j, g, _, h⟩ | ⟨e, g, _, h⟩
  · have hp := printAll_of g1 g2 g3
    refine ⟨_, hp, ?_⟩
    obtain ⟨i, T, hT, k1, k2⟩ := C29_layout exLaw (.inr exAdditive) hp
    rw [hL] at hT
    cases hT
    rw [k2]
    refine and_assoc.1 ⟨?_, k1⟩
    obtain ⟨l, h1, rfl, rfl, rfl, rfl⟩ := g8 trivial
    split at h1
    · cases h1
      cases g5
      have e1 : _ = 1 := (congrArg List.length g6).trans rfl
      have e2 : _ = some 6 := (congrArg (fun l => l.getLast?.map
        fun segs => (segs.map fun s => exP.strWidth s.str).sum) g6).trans rfl
      simp only [List.getLast?_append, List.getLast?_singleton, Option.some_or, Option.map_some,
        Option.some.injEq] at e2
      simp only [List.length_append, List.length_map, List.length_singleton] at e1
      exact ⟨by rw [if_pos (by assumption)]; exact e2, by rw [if_pos (by assumption)]; simp only; omega⟩
    · cases h1
      cases g5
      have e1 : _ = 2 := (congrArg List.length g6).trans rfl
      have e2 : _ = some 1 := (congrArg (fun l => l.getLast?.map
        fun segs => (segs.map fun s => exP.strWidth s.str).sum) g6).trans rfl
      simp only [List.getLast?_append, List.getLast?_singleton, Option.some_or, Option.map_some,
        Option.some.injEq] at e2
      simp only [List.length_append, List.length_map, List.length_singleton] at e1
      exact ⟨by rw [if_neg (by assumption)]; exact e2, by rw [if_neg (by assumption)]; simp only; omega⟩
  · split at h <;> cases h trivial
  · obtain ⟨l, h1, h2⟩ := h trivial
    split at h1 <;> cases h1 <;> cases h2

theorem exAllPrint : AllPrint exEnv 10 := by
  intro label doc o hl
  cases hl
  refine ⟨⟨1 / 2, rfl, by norm_num, by norm_num⟩, ?_⟩
  intro style w h0 h1
  obtain ⟨out, k1, k2, _⟩ := exPrints h0 h1
  refine ⟨out, k1, fun _ => ?_⟩
  rw [k2]
  split <;> decide

/-- The panes tile the window, and can be displayed. -/
theorem exTiled : Tiled exEnv exPanes := by
  simp [Tiled, TiledPanes, exPanes, exEnv, weights, Panes.sizes]
theorem exWellSized : WellSized exPanes := by
  simp [WellSized, WellSizedPanes, PaneNotation.IsDoc, exPanes, weights, Panes.sizes]

/-- So they cover a window of 10 columns and 6 rows exactly, by C28. -/
example : ∃ calls, (displayPane exEnv exPanes () 10 6).run = some (calls, .ok ()) ∧
    ∀ row col, (cellsOf calls).count (row, col) = if row < 6 ∧ col < 10 then 1 else 0 := by
  obtain ⟨calls, h⟩ := C28_succeeds exEnv exPanes () 10 6 (by decide) (by norm_num) exWellSized exAllPrint
  exact ⟨calls, h, C28_tiled exEnv exPanes () 10 6 exTiled h⟩

/-- And a single document is shown as C29 says, with the focused line on row 2 of the pane (1.5, rounded
    up): the rows are blank, `[aa,`, `bbb]`, blank. -/
example : (displayPaneRec exEnv (.doc ()) () ⟨2, 6, 1, 9⟩).run =
    some (.setFocus 4 2 :: rectCalls exEnv.isFull ⟨2, 6, 1, 9⟩
      (fun j => lineAt ((linesOf exNarrow.toks).map styledChars) ((j : Int) - 1)) (), .ok ()) := by
  obtain ⟨c, _, h, _⟩ := displayPaneRec_ok exAllPrint (by decide) (.doc ()) () ⟨2, 6, 1, 9⟩ trivial
    (by decide) (by decide) (by decide) (by decide)
  obtain ⟨out, k1, k2, k3, k4⟩ := exPrints (w := 8) (by decide) (by decide)
  obtain ⟨row, h1, h2⟩ := C29_doc_pane exEnv (label := ()) rfl (rect := ⟨2, 6, 1, 9⟩) (by decide) (by decide) k1 h
  rw [PaneM.run, h, h2]
  obtain ⟨_, q, hq, _, _, _, rfl⟩ := chooseFocusLineRow_val h1
  cases hq
  have hrow : roundToRow (roundF32 (roundF32 ((Rectangle.height ⟨2, 6, 1, 9⟩ - 1 : Nat) : ℚ) * (1 / 2))) = 2 := by
    decide +kernel
  rw [hrow, k2, k3, k4]
  simp only [show ¬ (9 ≤ 8) by decide, if_false]
  have : ∀ j : Nat, ((1 : Nat) : Int) + j - (2 : Nat) = (j : Int) - 1 := by intro j; omega
  simp only [this]
  rfl

/-- And in a pane of 8 columns and 1 row only the focused line is printed, by C30. -/
example : ∃ d, PrintedDoc.new (P := exP) exDoc exOptions 8 1 () = some ([], .ok d) ∧ d.height ≤ 1 ∧
    d.focusPoint = some (0, 1) := by
  have hrow : (exOptions.chooseFocusLineRow 1 : PaneM exP.Style exP.Err Nat) = some ([], .ok 0) := by
    rw [chooseFocusLineRow_ok (q := 1 / 2) rfl (by norm_num) (by norm_num) (by decide)]
    have : roundToRow (roundF32 (roundF32 ((1 - 1 : Nat) : ℚ) * (1 / 2))) = 0 := by decide +kernel
    rw [this]
  obtain ⟨out, k1, k2, _⟩ := exPrints (w := 8) (by decide) (by decide)
  obtain ⟨d, h, hd⟩ := printedDoc_new (o := exOptions) (height := 1) (width := 8) (row := 0) k1 (by decide) (by decide)
    hrow (by decide)
  obtain ⟨row, r, above, below, h1, h2, h3, h4, h5, h6, h7⟩ := C30_lines h (by decide) (by decide) (by norm_num)
  refine ⟨d, h, h6, ?_⟩
  rw [hd.focusPoint, k2]
  rfl
end Ex

end PPP
