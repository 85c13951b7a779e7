import Verif.Props.JsonFocus
import Verif.Props.PaneDoc
/-
C79: JSON in a pane.
-/
namespace PPP
variable {sw : String → Nat} {L : Type}

theorem lineAt_chars {P : PrettyDoc} (ls : List (List (Segment P))) (k : Int) :
    (lineAt (ls.map styledChars) k).map Prod.fst = (wordAt (ls.map lineW) k).toList := by
  have key : ∀ l : List (Segment P), (styledChars l).map Prod.fst = (segsString l).toList := by
    intro l
    rw [segsString_toList]
    simp [styledChars, List.map_flatMap, Function.comp_def]
  unfold lineAt wordAt
  split
  · rw [List.getElem?_map, List.getElem?_map]
    cases ls[k.toNat]? with
    | none => simp
    | some l => simpa [lineW] using key l
  · simp

theorem json_upTo {e : Json} {w : Nat} (h : e.Document anyText anyText) (ho : e.Ordered) (hw : ∀ l ∈ e.docLines sw w, l.width ≤ maxWidth)
    (style : Option BasicStyle) {path : List Nat} {p : Spot} (hb : e.docPlace sw w path = some p) {target : FocusTarget}
    {above : List Word} {left : Word} (hu : p.upTo target = some (above ++ [left])) :
    ∃ o, printAll (P := basicDoc sw) e.build w path target style = Exec.ofRes (.ok o) ∧
      o.above.length = above.length ∧ o.focused.leftWidth = left.width ∧ o.lines.map lineW = e.docLines sw w := by
  have key : ∃ o, printAll (P := basicDoc sw) e.build w path target style = Exec.ofRes (.ok o) ∧
      o.beforeFocus.map lineW = above ++ [left] ∧ o.lines.map lineW = e.docLines sw w := by
    cases target with
    | start =>
      simp only [Spot.upTo, Option.some.injEq] at hu
      rw [← hu]
      exact C78_start h ho hw style hb
    | «end» =>
      simp only [Spot.upTo, Option.some.injEq] at hu
      rw [← hu]
      exact C78_end h ho hw style hb
    | mark => cases hu
    | text => cases hu
  obtain ⟨o, h1, h2, h3⟩ := key
  unfold Output.beforeFocus at h2
  rw [List.map_append, List.map_singleton] at h2
  obtain ⟨h4, h5⟩ := List.append_inj' h2 rfl
  refine ⟨o, h1, by simpa using congrArg List.length h4, ?_, h3⟩
  have := congrArg Word.width (List.cons.inj h5).1
  exact this

/-- **C79.**  A `Doc` pane that shows a JSON document, with the focus at the start or the end of a node: its rows are consecutive
    lines of the document, as given by the formatter in Spec/JsonFormat.lean for the width that the options choose.  (They are cut
    off at the right border, and padded.)  The line with the start or the end of the node is on the row that `focus_height`
    chooses.  If it is asked for, the cursor is put there: on this row, and in the column to the right of what the formatter has
    on the left of the node. -/
theorem C79_pane (env : PaneEnv (basicDoc sw) L) {label : L} {e : Json} {o : PrintingOptions}
    (hcontent : env.getContent label = some (e.build, o)) (h : e.Document anyText anyText) (ho : e.Ordered)
    {rect : Rectangle} (hw : ∀ l ∈ e.docLines sw (o.widthUsed rect.width), l.width ≤ maxWidth)
    {p : Spot} (hb : e.docPlace sw (o.widthUsed rect.width) o.focusPath = some p) {above : List Word} {left : Word}
    (hu : p.upTo o.focusTarget = some (above ++ [left])) {style : BasicStyle}
    (hc : rect.minCol < rect.maxCol) (hr : rect.minRow < rect.maxRow) {calls}
    (hrun : (displayPaneRec env (.doc label) style rect).run = some (calls, .ok ())) :
    ∃ row rows, (o.chooseFocusLineRow rect.height : PaneM BasicStyle Empty Nat) = some ([], .ok row) ∧
      calls = (if o.setFocus then [.setFocus (rect.minRow + row) (rect.minCol + left.width)] else []) ++
        rectCalls env.isFull rect rows style ∧
      ∀ j, (rows j).map Prod.fst =
        (wordAt (e.docLines sw (o.widthUsed rect.width)) ((above.length : Int) + j - row)).toList := by
  obtain ⟨out, h1, h2, h3, h4⟩ := json_upTo h ho hw (some style) hb hu
  obtain ⟨row, k1, k2⟩ := C29_doc_pane env hcontent hc hr h1 hrun
  refine ⟨row, _, k1, by rw [k2, h3], fun j => ?_⟩
  exact (lineAt_chars (P := basicDoc sw) out.lines _).trans (by rw [h4, h2])

/-- **C79**, displaying succeeds: in a window with at most `65533` columns and `2^24` rows, if all contents are JSON documents
    that can be counted, with a focus at the start or the end of a node, and with a proper `focus_height`. -/
theorem C79_succeeds (env : PaneEnv (basicDoc sw) L) (note : PaneNotation L BasicStyle) (style : BasicStyle) (width height : Nat)
    (hwidth : width + 2 ≤ maxWidth) (hheight : height ≤ 2 ^ 24) (hnote : WellSized note)
    (hdocs : ∀ label doc o, env.getContent label = some (doc, o) → (∃ q, o.focusHeight = some q ∧ 0 ≤ q ∧ q ≤ 1) ∧
      ∃ e : Json, doc = e.build ∧ e.Document anyText anyText ∧ e.Ordered ∧ (o.focusTarget = .start ∨ o.focusTarget = .end) ∧
        ((e.at o.focusPath).isSome = true ∨ (e.commentWordAt o.focusPath).isSome = true) ∧
        ∀ w, 0 < w → w ≤ width → ∀ l ∈ e.docLines sw (o.widthUsed w), l.width + width ≤ maxWidth) :
    ∃ calls, (displayPane env note style width height).run = some (calls, .ok ()) := by
  refine C28_succeeds env note style width height hwidth hheight hnote fun label doc o hl => ?_
  obtain ⟨hq, e, rfl, h, ho, ht, hp, hw⟩ := hdocs label doc o hl
  refine ⟨hq, fun style w h0 h1 => ?_⟩
  obtain ⟨p, hb⟩ : ∃ p, e.docPlace sw (o.widthUsed w) o.focusPath = some p := by
    rcases hp with hp | hp
    · obtain ⟨n, hn⟩ := Option.isSome_iff_exists.1 hp
      exact C78_all h hn
    · obtain ⟨x, hx⟩ := Option.isSome_iff_exists.1 hp
      exact (C78_words h hx).1
  have hw := hw w h0 h1
  have hw' : ∀ l ∈ e.docLines sw (o.widthUsed w), l.width ≤ maxWidth := fun l hl => by
    have := hw l hl
    omega
  obtain ⟨out, k1, k2⟩ : ∃ out, printAll (P := basicDoc sw) e.build (o.widthUsed w) o.focusPath o.focusTarget (some style) =
      Exec.ofRes (.ok out) ∧ out.lines.map lineW = e.docLines sw (o.widthUsed w) := by
    rcases ht with ht | ht
    · obtain ⟨out, k1, _, k3⟩ := C78_start h ho hw' (some style) hb
      exact ⟨out, by rw [ht]; exact k1, k3⟩
    · obtain ⟨out, k1, _, k3⟩ := C78_end h ho hw' (some style) hb
      exact ⟨out, by rw [ht]; exact k1, k3⟩
  refine ⟨out, k1, fun _ => ?_⟩
  have hm : lineW (out.focused.leftSegments ++ out.focused.rightSegments) ∈ e.docLines sw (o.widthUsed w) := by
    rw [← k2]
    refine List.mem_map_of_mem ?_
    simp [Output.lines]
  have := hw _ hm
  simp only [lineW, segsWidth_append] at this
  have e1 : out.focused.leftWidth = segsWidth out.focused.leftSegments := rfl
  omega

namespace Ex

/-- The focus is at the start of the `2`, in the middle of the pane. -/
def focOptions : PrintingOptions := ⟨[1, 0, 1, 1], .start, some (1 / 2), .noMoreThan 30, true⟩

def focEnv : PaneEnv (basicDoc String.length) Unit := ⟨fun _ => some (focJson.build, focOptions), fun _ => false⟩

theorem foc_lines : (focJson.docLines String.length 30).map Word.str =
    ["// hi you", "{", "    \"a\": [1, 2],", "    \"b\": [", "        // x y", "        3", "    ]", "}"] := by
  decide +kernel

/-- C79 is about a pane of 12 columns and 6 rows: the `2` is on row 3, so the first row is blank. -/
example (style : BasicStyle) {calls} (hrun : (displayPaneRec focEnv (.doc ()) style ⟨10, 16, 40, 70⟩).run = some (calls, .ok ())) :
    ∃ rows, calls = .setFocus 13 53 :: rectCalls focEnv.isFull ⟨10, 16, 40, 70⟩ rows style ∧
      (List.range 6).map (fun j => String.ofList ((rows j).map Prod.fst)) =
        ["", "// hi you", "{", "    \"a\": [1, 2],", "    \"b\": [", "        // x y"] := by
  obtain ⟨row, rows, h1, h2, h3⟩ := C79_pane focEnv (label := ()) rfl focJson_ok focJson_ordered (rect := ⟨10, 16, 40, 70⟩)
    focJson_narrow focJson_places.1 (above := [⟨"// hi you", 9⟩, ⟨"{", 1⟩]) (left := ⟨"    \"a\": [1, ", 13⟩) rfl
    (by decide) (by decide) hrun
  obtain ⟨_, q, hq, _, _, _, rfl⟩ := chooseFocusLineRow_val h1
  cases hq
  have hrow : roundToRow (roundF32 (roundF32 ((Rectangle.height ⟨10, 16, 40, 70⟩ - 1 : Nat) : ℚ) * (1 / 2))) = 3 := by
    decide +kernel
  rw [hrow] at h2 h3
  refine ⟨rows, h2, ?_⟩
  have hw : ∀ k : Int, wordAt (focJson.docLines String.length 30) k =
      if 0 ≤ k then (["// hi you", "{", "    \"a\": [1, 2],", "    \"b\": [", "        // x y", "        3", "    ]", "}"][k.toNat]?).getD ""
      else "" := by
    intro k
    unfold wordAt
    rw [← List.getElem?_map, foc_lines]
  have h3 : ∀ j, String.ofList ((rows j).map Prod.fst) = wordAt (focJson.docLines String.length 30) (2 + (j : Int) - 3) := by
    intro j
    rw [h3]
    exact String.ofList_toList
  simp only [h3, hw]
  decide

/-- And displaying it succeeds. -/
example (style : BasicStyle) : ∃ calls, (displayPane focEnv (.doc ()) style 30 10).run = some (calls, .ok ()) := by
  refine C79_succeeds focEnv _ style 30 10 (by decide) (by norm_num) trivial fun label doc o hl => ?_
  cases hl
  refine ⟨⟨1 / 2, rfl, by norm_num, by norm_num⟩, focJson, rfl, focJson_ok, focJson_ordered, .inl rfl, .inl rfl, ?_⟩
  intro w h0 h1 l hl
  have key : (List.range 31).all (fun w => (focJson.docLines String.length (focOptions.widthUsed w)).all
      (fun l => decide (l.width + 30 ≤ maxWidth))) = true := by decide +kernel
  rw [List.all_eq_true] at key
  have := key w (List.mem_range.2 (by omega))
  rw [List.all_eq_true] at this
  simpa using this l hl

end Ex

end PPP
