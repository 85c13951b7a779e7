import Verif.Spec.Measure
import Verif.Proofs.Measure
import Verif.Props.Oracle
import Verif.Props.Tiles
/-
C60: the printer and the window measure alike.
-/
namespace PPP
variable {L : Type} {P : PrettyDoc} {cw : Char → Option Nat}

/-- C60.  Widths add up, as long as they can be counted in a `u16`: this is what the comparison with the oracle (C09)
    needs. -/
theorem C60_widths_add (cw : Char → Option Nat) : WidthsAdd (strWidthOf cw) := by
  refine ⟨rfl, fun a b h => ?_⟩
  unfold strWidthOf maxWidth at *
  rw [strCols_append]
  omega

/-- C60.  If no text of the document is wider than a `u16` can count, then it can be split at every character (as
    `FocusTarget::Text` does) without a change of its width: this is what focus independence (C02) needs. -/
theorem C60_texts_additive (hP : P.strWidth = strWidthOf cw) {doc : P.Node}
    (h : ∀ p s, P.Within doc p → P.unwrapText p = .ok s → strCols cw s ≤ maxWidth) : P.TextsAdditive doc := by
  intro p s hp hs a b c e
  have h := h p s hp hs
  rw [show s = String.ofList (a ++ (b ++ c)) by rw [← e, String.ofList_toList]] at h
  rw [String.ofList_append, strCols_append, String.ofList_append, strCols_append] at h
  rw [hP, String.ofList_append, strWidthOf, strWidthOf, strWidthOf, strCols_append]
  rw [Nat.mod_eq_of_lt (by omega), Nat.mod_eq_of_lt (by omega), Nat.mod_eq_of_lt (by omega)]

/-- C60.  A printed line takes as many columns in a window as the printer says. -/
theorem C60_columns (law : P.Lawful) (hP : P.strWidth = strWidthOf cw) {doc : P.Node} {w path target style out}
    (hfocus : FocusOk P doc target) (hprint : printAll doc w path target style = Exec.ofRes (.ok out))
    {line : List (Segment P)} (hl : line ∈ out.lines) (hproper : Proper cw line) :
    charsCols (isCharFullWidth cw) (styledChars line) = segsWidth line := by
  obtain ⟨hw, -⟩ := C37_segment_widths law hfocus hprint
  refine charsCols_line ?_ ?_
  · intro c hc
    simp only [styledChars, List.mem_flatMap, List.mem_map] at hc
    obtain ⟨s, hs, c', hc', rfl⟩ := hc
    exact (hproper s hs).1 c' hc'
  · intro s hs
    rw [hw line hl s hs, hP, strWidthOf, Nat.mod_eq_of_lt]
    have := (hproper s hs).2
    omega

theorem lineAt_lineNo (lines : List (List (Segment P))) (k : Int) :
    lineAt (lines.map styledChars) k = styledChars (lineNo lines k) := by
  unfold lineAt lineNo
  split
  · rw [List.getElem?_map]
    cases lines[k.toNat]? <;> rfl
  · rfl

theorem lineNo_cases (lines : List (List (Segment P))) (k : Int) : lineNo lines k = [] ∨ lineNo lines k ∈ lines := by
  unfold lineNo
  split
  · cases h : lines[k.toNat]? with
    | none => exact .inl rfl
    | some l => exact .inr (List.mem_of_getElem? h)
  · exact .inl rfl

/-- C60.  A `Doc` pane that is at least as wide as the lines of the document, as measured by the printer, cuts nothing
    off: every row shows a whole line, followed by blanks. -/
theorem C60_nothing_cut_off (law : P.Lawful) (env : PaneEnv P L) (hm : Measures cw env) {label : L} {doc : P.Node}
    {o : PrintingOptions} (hcontent : env.getContent label = some (doc, o)) (hfocus : FocusOk P doc o.focusTarget)
    {style : P.Style} {rect : Rectangle} (hw : rect.minCol < rect.maxCol) (hh : rect.minRow < rect.maxRow) {out}
    (hprint : printAll doc (o.widthUsed rect.width) o.focusPath o.focusTarget (some style) = Exec.ofRes (.ok out))
    (hproper : ∀ line ∈ out.lines, Proper cw line) (hfit : ∀ line ∈ out.lines, segsWidth line ≤ rect.width)
    {calls} (h : (displayPaneRec env (.doc label) style rect).run = some (calls, .ok ())) :
    ∃ row, (o.chooseFocusLineRow rect.height : PaneM P.Style P.Err Nat) = some ([], .ok row) ∧
      calls =
        (if o.setFocus then [.setFocus (rect.minRow + row) (rect.minCol + out.focused.leftWidth)] else []) ++
        (rangeFrom rect.minRow rect.maxRow).flatMap fun r => wholeRow env.isFull r rect.minCol rect.width
          (lineNo out.lines ((out.above.length : Int) + (r - rect.minRow : Nat) - row)) style := by
  obtain ⟨row, h1, rfl⟩ := C29_doc_pane env hcontent hw hh hprint h
  refine ⟨row, h1, congrArg _ ?_⟩
  unfold rectCalls
  refine List.flatMap_congr fun r _ => ?_
  dsimp only
  rw [lineAt_lineNo]
  have hc : ∀ k, charsCols env.isFull (styledChars (lineNo out.lines k)) = segsWidth (lineNo out.lines k) ∧
      segsWidth (lineNo out.lines k) ≤ rect.width := by
    intro k
    rcases lineNo_cases out.lines k with h | h
    · rw [h]; exact ⟨rfl, Nat.zero_le _⟩
    · rw [hm.full]
      exact ⟨C60_columns law hm.str hfocus hprint h (hproper _ h), hfit _ h⟩
  obtain ⟨h2, h3⟩ := hc ((out.above.length : Int) + (r - rect.minRow : Nat) - row)
  unfold rowCalls wholeRow
  simp only [clip_self env.isFull _ (Nat.le_trans (Nat.le_of_eq h2) h3), h2]

/-- The character after the focus, or a blank at the end of the line. -/
def FocusedLine.charAtFocus (l : FocusedLine P) (blank : P.Style) : Char × P.Style :=
  (styledChars l.rightSegments).head?.getD (' ', blank)

/-- C60.  The window is told the focus position at which it is also asked to display the character after the focus (or
    a blank, if the focus is at the end of its line), unless this is outside of the pane. -/
theorem C60_cursor (law : P.Lawful) (env : PaneEnv P L) (hm : Measures cw env) {label : L} {doc : P.Node}
    {o : PrintingOptions} (hcontent : env.getContent label = some (doc, o)) (hfocus : FocusOk P doc o.focusTarget)
    {style : P.Style} {rect : Rectangle} (hw : rect.minCol < rect.maxCol) (hh : rect.minRow < rect.maxRow)
    (hh' : rect.height ≤ 2 ^ 24) {out}
    (hprint : printAll doc (o.widthUsed rect.width) o.focusPath o.focusTarget (some style) = Exec.ofRes (.ok out))
    (hproper : Proper cw out.focused.leftSegments) (hset : o.setFocus = true)
    (hfit : out.focused.leftWidth + charCols env.isFull (out.focused.charAtFocus style).1 ≤ rect.width)
    (hblank : env.isFull ' ' = false)
    {calls} (h : (displayPaneRec env (.doc label) style rect).run = some (calls, .ok ())) :
    ∃ r c, .setFocus r c ∈ calls ∧ .displayChar (out.focused.charAtFocus style).1 r c (out.focused.charAtFocus style).2
      (env.isFull (out.focused.charAtFocus style).1) ∈ calls := by
  obtain ⟨row, h1, rfl⟩ := C29_doc_pane env hcontent hw hh hprint h
  obtain ⟨q, _, _, _, hrow, _⟩ := C30_focus_row hh' h1
  refine ⟨rect.minRow + row, rect.minCol + out.focused.leftWidth, ?_, ?_⟩
  · rw [if_pos hset]; exact List.mem_append_left _ List.mem_cons_self
  refine List.mem_append_right _ ?_
  unfold rectCalls
  refine List.mem_flatMap.2 ⟨rect.minRow + row, ?_, ?_⟩
  · unfold Rectangle.height at hrow
    unfold rangeFrom
    simp only [List.mem_range']
    exact ⟨row, by omega, by omega⟩
  -- the focused line
  have hl : out.focused.leftSegments ++ out.focused.rightSegments ∈ out.lines := by
    unfold Output.lines
    exact List.mem_append_left _ (List.mem_append_right _ List.mem_cons_self)
  have hk : lineAt (out.lines.map styledChars) ((out.above.length : Int) + (rect.minRow + row - rect.minRow : Nat) - row) =
      styledChars out.focused.leftSegments ++ styledChars out.focused.rightSegments := by
    have e : ((out.above.length : Int) + (rect.minRow + row - rect.minRow : Nat) - row) = (out.above.length : Nat) := by
      omega
    have hlen : out.above.length < (out.lines.map styledChars).length := by
      unfold Output.lines; simp
    rw [e, lineAt_nat hlen, List.getElem_map, ← styledChars_append]
    congr 1
    unfold Output.lines
    rw [List.getElem_append_left (by simp), List.getElem_append_right (by simp)]
    simp
  dsimp only
  rw [hk]
  have hcols : charsCols env.isFull (styledChars out.focused.leftSegments) = out.focused.leftWidth := by
    rw [hm.full]
    obtain ⟨hw, -⟩ := C37_segment_widths law hfocus hprint
    refine charsCols_line ?_ ?_
    · intro c hc
      simp only [styledChars, List.mem_flatMap, List.mem_map] at hc
      obtain ⟨s, hs, c', hc', rfl⟩ := hc
      exact (hproper s hs).1 c' hc'
    · intro s hs
      rw [hw _ hl s (List.mem_append_left _ hs), hm.str, strWidthOf, Nat.mod_eq_of_lt]
      have := (hproper s hs).2
      omega
  unfold rowCalls
  simp only
  rw [clip_append, hcols, if_pos (by omega)]
  unfold FocusedLine.charAtFocus at hfit ⊢
  cases hr : styledChars out.focused.rightSegments with
  | nil =>
    rw [hr] at hfit
    simp only [List.head?_nil, Option.getD_none, clip, List.append_nil, hcols, hblank] at hfit ⊢
    refine List.mem_append_right _ ?_
    unfold blanks
    refine List.mem_map.2 ⟨_, ?_, rfl⟩
    simp only [List.mem_range']
    refine ⟨0, ?_, by omega⟩
    have := charCols_pos env.isFull ' '
    omega
  | cons x xs =>
    rw [hr] at hfit
    obtain ⟨ch, st⟩ := x
    simp only [List.head?_cons, Option.getD_some] at hfit ⊢
    refine List.mem_append_left _ ?_
    simp only [clip]
    rw [if_pos (by omega), placed_append, hcols]
    refine List.mem_append_right _ ?_
    simp only [placed]
    exact List.mem_cons_self

/-- C60.  A document displayed in a `PlainText` window that is large enough for all of its lines reads as what
    `pretty_print_to_string` returns, line by line, with blanks up to the width of the window, and blank rows above
    and below. -/
theorem C60_window_text (law : P.Lawful) (env : PaneEnv P L) (hm : Measures cw env) (hnul : cw '\x00' = some 0)
    {label : L} {doc : P.Node} {o : PrintingOptions} (hcontent : env.getContent label = some (doc, o))
    (hfocus : FocusOk P doc o.focusTarget) {style : P.Style} {width height : Nat} (hw : 0 < width) (hh : 0 < height)
    {out} (hprint : printAll doc (o.widthUsed width) o.focusPath o.focusTarget (some style) = Exec.ofRes (.ok out))
    (hproper : ∀ line ∈ out.lines, Proper cw line) (hfit : ∀ line ∈ out.lines, segsWidth line ≤ width)
    {calls} (h : (displayPane env (.doc label) style width height).run = some (calls, .ok ())) :
    prettyPrintToString doc (o.widthUsed width) = Exec.ofRes (.ok ("\n".intercalate (out.lines.map segsString))) ∧
    ∃ row w, (o.chooseFocusLineRow height : PaneM P.Style P.Err Nat) = some ([], .ok row) ∧
      (plainText P.Style).replay (PlainText.new width height) calls = .ok w ∧
      (out.above.length ≤ row → row + 1 + out.below.length ≤ height →
        w.toString = String.ofList (
          (List.replicate (row - out.above.length) (wholeText (P := P) width [])).flatten ++
          out.lines.flatMap (wholeText width) ++
          (List.replicate (height - (row + 1 + out.below.length)) (wholeText (P := P) width [])).flatten)) := by
  refine ⟨toString_of_printAll law hfocus hprint, ?_⟩
  obtain ⟨row, w, h1, h2, -, h4⟩ := C31_doc_text env hcontent hw hh hprint (by
    intro l hl c hc e
    simp only [styledChars, List.mem_flatMap, List.mem_map] at hc
    obtain ⟨s, hs, c', hc', rfl⟩ := hc
    have := (hproper l hl s hs).1 c' hc'
    rw [show c' = '\x00' from e, hnul] at this
    rcases this with h | h <;> cases h) h
  refine ⟨row, w, h1, h2, fun ha hb => ?_⟩
  have hlen : out.lines.length = out.above.length + 1 + out.below.length := by
    unfold Output.lines; simp; omega
  rw [h4, rows_all (rowText env.isFull width) (out.lines.map styledChars) _ _ _ ha (by rw [List.length_map]; omega),
    List.flatMap_map, List.length_map]
  have e0 : rowText env.isFull width ([] : List (Char × P.Style)) = wholeText (P := P) width [] := by
    simp [rowText, wholeText, clip, charsCols, segsWidth, segsString]
  have e1 : ∀ line ∈ out.lines, rowText env.isFull width (styledChars line) = wholeText width line := by
    intro line hl
    have hc := C60_columns law hm.str hfocus hprint hl (hproper line hl)
    rw [← hm.full] at hc
    unfold rowText wholeText
    simp only [clip_self env.isFull _ (Nat.le_trans (Nat.le_of_eq hc) (hfit line hl)), hc]
    rw [segsString_eq]
    simp
  rw [e0, List.flatMap_congr e1, show row - out.above.length + out.lines.length = row + 1 + out.below.length by omega]

/-- C60.  A `Dynamic` pane in a `Horz` is given (if there is space) as many columns as the widest line that is seen of
    its document; with this width, nothing is cut off. -/
theorem C60_dynamic_width (law : P.Lawful) (hP : P.strWidth = strWidthOf cw) {doc : P.Node} {o : PrintingOptions}
    (hfocus : FocusOk P doc o.focusTarget) {style : P.Style} {w h : Nat} {e : Excerpt P}
    (he : IsExcerpt doc o style w h e) {out}
    (hprint : printAll doc (o.widthUsed w) o.focusPath o.focusTarget (some style) = Exec.ofRes (.ok out))
    (hproper : ∀ line ∈ out.lines, Proper cw line) :
    ∀ l ∈ e.lines, charsCols (isCharFullWidth cw) (styledChars l.segments) = l.width ∧ l.width ≤ e.width ∧
      clip (isCharFullWidth cw) e.width (styledChars l.segments) = styledChars l.segments := by
  obtain ⟨h1, h2, h3⟩ := C44_excerpt he hprint
  intro l hl
  have hin : l.segments ∈ out.lines := by
    unfold Excerpt.lines at hl
    unfold Output.lines
    simp only [List.mem_append, List.mem_singleton, List.mem_map] at hl ⊢
    rcases hl with (hl | rfl) | hl
    · rw [h2] at hl
      exact .inl (.inl ⟨l, List.mem_of_mem_drop hl, rfl⟩)
    · rw [h1]; exact .inl (.inr rfl)
    · rw [h3] at hl
      exact .inr ⟨l, List.mem_of_mem_take hl, rfl⟩
  have hc := C60_columns law hP hfocus hprint hin (hproper _ hin)
  have hle : l.width ≤ e.width := by
    unfold Excerpt.width
    have key : ∀ (xs : List Nat) (m : Nat), m ≤ xs.foldl max m ∧ ∀ x ∈ xs, x ≤ xs.foldl max m := by
      intro xs
      induction xs with
      | nil => intro m; exact ⟨Nat.le_refl _, fun _ h => by cases h⟩
      | cons y ys ih =>
        intro m
        obtain ⟨g1, g2⟩ := ih (max m y)
        simp only [List.foldl_cons]
        refine ⟨by omega, fun x hx => ?_⟩
        rcases List.mem_cons.1 hx with rfl | hx
        · omega
        · exact g2 x hx
    exact (key _ 0).2 _ (List.mem_map_of_mem hl)
  exact ⟨hc, hle, clip_self _ _ (by rw [hc]; exact hle)⟩

namespace Ex

/-- Some characters are two columns wide, accents are not wide at all. -/
def someWidths (ch : Char) : Option Nat :=
  if ch = '日' ∨ ch = '本' then some 2 else if ch = '\x00' ∨ ch = '\u0301' then some 0 else some 1

/-- A document of a single node, which displays a literal on each of two lines. -/
@[reducible] def twoP (cw : Char → Option Nat) (a b : String) : PrettyDoc where
  Node := Unit
  Id := Unit
  Style := Unit
  Label := Unit
  Cond := Unit
  Err := Unit
  decId := inferInstance
  combine _ _ := ()
  strWidth := strWidthOf cw
  id _ := .ok ()
  notn _ := .ok (.concat (.concat (.literal a) .newline) (.literal b))
  condition _ _ := .ok true
  lookupStyle _ _ := .ok ()
  nodeStyle _ := .ok ()
  numChildren _ := .ok none
  unwrapText _ := .ok ""
  unwrapChild _ _ := .ok ()
  unwrapLastChild _ := .ok ()
  unwrapPrevSibling _ _ _ := .ok ()

theorem two_law (cw : Char → Option Nat) (a b : String) : (twoP cw a b).Lawful where
  wf := ⟨fun n => ⟨_, fun m ⟨i, h⟩ => by simp [PrettyDoc.childAt, bind, Except.bind] at h⟩⟩
  valid p a h := by injection h with h; subst h; rfl
  last p m h := by cases h
  prev p n' i c h1 h2 h3 := rfl
  id_no_panic p := by simp
  notn_no_panic p := by simp
  condition_no_panic p _ _ := by simp
  lookupStyle_no_panic p _ _ := by simp
  nodeStyle_no_panic p := by simp
  numChildren_no_panic p := by simp
  unwrapText_no_panic p h := by simp
  unwrapChild_no_panic p := by simp

def twoOptions : PrintingOptions :=
  { focusPath := [], focusTarget := .start, focusHeight := some 0, widthStrategy := .full, setFocus := true }

def twoEnv (cw : Char → Option Nat) (a b : String) : PaneEnv (twoP cw a b) Unit :=
  ⟨fun _ => some ((), twoOptions), isCharFullWidth cw⟩

theorem two_print {cw : Char → Option Nat} {a b : String} (w : Nat) (style : Unit) :
    ∃ out, printAll (P := twoP cw a b) () w [] .start (some style) = Exec.ofRes (.ok out) ∧
      out.above = [] ∧ out.focused.leftSegments = [] ∧ out.lines = [[⟨a, strWidthOf cw a, ()⟩], [⟨b, strWidthOf cw b, ()⟩]] := by
  have hL : docLayout (two_law cw a b) () w (some style) = .ok ((), .concat (.concat (.text ⟨a, strWidthOf cw a, (), false⟩)
      (.newline [])) (.text ⟨b, strWidthOf cw b, (), false⟩)) := by
    unfold docLayout rootTree
    rw [docTree_of (two_law cw a b) (a := .concat (.concat (.literal a) .newline) (.literal b)) (s := ()) rfl rfl]
    have ha : strWidthOf cw a ≤ 65535 := by unfold strWidthOf maxWidth; omega
    have hb : strWidthOf cw b ≤ 65535 := by unfold strWidthOf maxWidth; omega
    have ht : (Call.toRes (Except.ok () : Call Unit Unit)) = .ok () := rfl
    simp [Notation.tree, NTree.layoutDoc, NTree.layout, bind, Except.bind, maxWidth, ha, hb, ht, enterStyle,
      segsWidth]
  obtain ⟨t, hr, hl⟩ := docLayout_ok (two_law cw a b) hL
  have hp : ∃ out, printAll (P := twoP cw a b) () w [] .start (some style) = Exec.ofRes (.ok out) := by
    rcases print_ok (I := False) (two_law cw a b) hr hl [] (focusOk_start _) (fun h => h.elim) with
      ⟨r, ups, downs, T0, id', nodeT, afterT, B, A, h1, hu, hd, h4, h5, h6, h7, _⟩ |
      ⟨j, _, hj, _⟩ | ⟨e, _, ⟨⟨⟩, _⟩ | ⟨⟨_, ⟨⟩⟩, _⟩, _⟩
    · exact ⟨_, printAll_of h1 hu hd⟩
    · simp at hj
  obtain ⟨out, hp⟩ := hp
  obtain ⟨id, L, h1, _, _, h3⟩ := C02_focus_independent (two_law cw a b) (focusOk_start _) hp
  obtain ⟨o0, h0, ha, hl, -⟩ := C02_same_as_from_start (two_law cw a b) (focusOk_start _) hp
  rw [hp] at h0
  have := Exec.ofRes_inj h0
  injection this with this
  subst this
  refine ⟨out, hp, ha, hl, ?_⟩
  rw [h3 (by simp)]
  rw [hL] at h1
  cases h1
  rfl

theorem two_show {cw : Char → Option Nat} {a b : String} {width : Nat} (hw : width + 2 ≤ maxWidth) {height : Nat}
    (hh : height ≤ 2 ^ 24) :
    ∃ calls, (displayPane (twoEnv cw a b) (.doc ()) () width height).run = some (calls, .ok ()) := by
  obtain ⟨calls, h⟩ := C28_succeeds (twoEnv cw a b) (.doc ()) () width height (by omega) hh trivial (by
    intro label doc o h
    cases h
    refine ⟨⟨0, rfl, by norm_num, by norm_num⟩, fun style w h0 h1 => ?_⟩
    obtain ⟨out, h2, _, h3, _⟩ := two_print (cw := cw) (a := a) (b := b) w style
    refine ⟨out, h2, fun _ => ?_⟩
    unfold FocusedLine.leftWidth
    rw [h3]
    show segsWidth _ + _ ≤ _
    simp [segsWidth]
    omega)
  exact ⟨calls, h⟩

/-- Two full-width characters on the first line, in a window of 5 columns and 3 rows. -/
example : ∃ calls w, (displayPane (twoEnv someWidths "日本" "ab") (.doc ()) () 5 3).run = some (calls, .ok ()) ∧
    (plainText Unit).replay (PlainText.new 5 3) calls = .ok w ∧ w.toString = "日本 \nab   \n     \n" := by
  obtain ⟨calls, h⟩ := two_show (cw := someWidths) (a := "日本") (b := "ab") (width := 5) (by decide) (height := 3) (by decide)
  obtain ⟨out, h1, h2, h3, h4⟩ := two_print (cw := someWidths) (a := "日本") (b := "ab") 5 ()
  have hb : out.below.length = 1 := by
    have := congrArg List.length h4
    unfold Output.lines at this
    simp [h2] at this
    exact this
  obtain ⟨-, row, w, h5, h6, h7⟩ := C60_window_text (two_law someWidths "日本" "ab") (twoEnv someWidths "日本" "ab")
    ⟨rfl, rfl⟩ rfl (label := ()) rfl (focusOk_start _) (by decide) (by decide) h1
    (by rw [h4]; intro l hl; simp only [List.mem_cons, List.not_mem_nil, or_false] at hl
        rcases hl with rfl | rfl <;>
          (intro s hs; simp only [List.mem_cons, List.not_mem_nil, or_false] at hs; subst hs; decide))
    (by rw [h4]; decide) h
  obtain ⟨q, hq, _, _, _, h0, _⟩ := C30_focus_row (by decide) h5
  cases hq
  have hrow := h0 rfl
  subst hrow
  refine ⟨calls, w, h, h6, ?_⟩
  rw [h7 (by rw [h2]; exact Nat.le_refl _) (by rw [hb]; decide), h2, h4, hb]
  decide +kernel

/-- The cursor is where the first character is displayed. -/
example : ∃ calls r c, (displayPane (twoEnv someWidths "日本" "ab") (.doc ()) () 5 3).run = some (calls, .ok ()) ∧
    .setFocus r c ∈ calls ∧ .displayChar '日' r c () true ∈ calls := by
  obtain ⟨calls, h⟩ := two_show (cw := someWidths) (a := "日本") (b := "ab") (width := 5) (by decide) (height := 3) (by decide)
  obtain ⟨out, h1, h2, h3, h4⟩ := two_print (cw := someWidths) (a := "日本") (b := "ab") 5 ()
  have hr : out.focused.rightSegments = [⟨"日本", 4, ()⟩] := by
    unfold Output.lines at h4
    rw [h2, h3] at h4
    simp only [List.map_nil, List.nil_append, List.cons_append, List.cons.injEq] at h4
    exact h4.1
  have hc : out.focused.charAtFocus () = ('日', ()) := by unfold FocusedLine.charAtFocus; rw [hr]; rfl
  obtain ⟨r, c, h5, h6⟩ := C60_cursor (two_law someWidths "日本" "ab") (twoEnv someWidths "日本" "ab")
    ⟨rfl, rfl⟩ (label := ()) rfl (focusOk_start _) (rect := ⟨0, 3, 0, 5⟩) (by decide) (by decide) (by decide) h1
    (by rw [h3]; intro s hs; cases hs) rfl
    (by rw [hc]; unfold FocusedLine.leftWidth; rw [h3]; decide) rfl h
  rw [hc] at h6
  exact ⟨calls, r, c, h, h5, h6⟩

/-- An accent does not take a column for the printer, but it does in the window: with a window that is as wide as the
    printer says, the last letter is cut off. -/
example : ∃ calls w, (displayPane (twoEnv someWidths "e\u0301t" "") (.doc ()) () 2 1).run = some (calls, .ok ()) ∧
    strWidthOf someWidths "e\u0301t" = 2 ∧
    (plainText Unit).replay (PlainText.new 2 1) calls = .ok w ∧ w.toString = "e\u0301\n" := by
  obtain ⟨calls, h⟩ := two_show (cw := someWidths) (a := "e\u0301t") (b := "") (width := 2) (by decide) (height := 1) (by decide)
  obtain ⟨out, h1, h2, h3, h4⟩ := two_print (cw := someWidths) (a := "e\u0301t") (b := "") 2 ()
  obtain ⟨row, w, h5, h6, -, h7⟩ := C31_doc_text (twoEnv someWidths "e\u0301t" "") (label := ()) rfl (by decide) (by decide) h1
    (by rw [h4]; intro l hl; simp only [List.mem_cons, List.not_mem_nil, or_false] at hl
        rcases hl with rfl | rfl <;> decide) h
  obtain ⟨q, hq, _, _, _, h0, _⟩ := C30_focus_row (by decide) h5
  cases hq
  have hrow := h0 rfl
  subst hrow
  refine ⟨calls, w, h, by decide, h6, ?_⟩
  rw [h7, h2, h4]
  decide +kernel

end Ex
end PPP
