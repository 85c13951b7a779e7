import Verif.Proofs.PaneDraws
import Verif.Proofs.Round
import Verif.Props.Printing
/-
Displaying panes: what is shown in a `Doc` pane.
-/
namespace PPP
variable {S E L α : Type} {P : PrettyDoc}

theorem lift_ok (x : Exec E α) {a : α} (h : x = Exec.ofRes (.ok a)) :
    (PaneM.lift x : PaneM S E α) = some ([], .ok a) := by
  subst h; rfl

theorem lift_val {x : Exec E α} {a : α} {c} (h : (PaneM.lift x : PaneM S E α) = some (c, .ok a)) :
    c = [] ∧ x = Exec.ofRes (.ok a) := by
  unfold PaneM.lift at h
  split at h <;> cases h
  rename_i h
  exact ⟨rfl, h⟩

theorem filterMap_take_none {α β : Type} (xs : List (Option α)) (f : α → β) (ys : List β) (n k : Nat)
    (h : xs.map (Option.map f) = (ys.map some).take n ++ List.replicate k none) :
    (xs.filterMap id).map f = ys.take n := by
  have h1 : (xs.filterMap id).map f = (xs.map (Option.map f)).filterMap id := by
    rw [List.filterMap_map, List.map_filterMap]
    rfl
  rw [h1, h, List.filterMap_append, ← List.map_take]
  simp [List.filterMap_map, List.filterMap_replicate]

/-- What `PrintedDoc::new` makes of a print. -/
structure ShowsPrint (d : PrintedDoc P) (o : Output P) (row : Nat) (style : P.Style) (height : Nat) (setFocus : Bool) :
    Prop where
  focusLineRow : d.focusLineRow = row
  blank : d.blankStyle = style
  focusPoint : d.focusPoint = if setFocus then some (row, o.focused.leftWidth) else none
  index : d.focusLineIndex = min row o.above.length
  lines : d.lines = o.above.drop (o.above.length - row) ++ [o.focused.toLine] ++ o.below.take (height - (row + 1))

theorem filterMap_take (xs : List α) (n k : Nat) :
    ((xs.map some).take n ++ List.replicate k none).filterMap id = xs.take n := by
  rw [List.filterMap_append, ← List.map_take]
  simp [List.filterMap_map, List.filterMap_replicate]

theorem chooseWidth_eq (o : PrintingOptions) (w : Nat) : o.chooseWidth w = o.widthUsed w := by
  unfold PrintingOptions.chooseWidth PrintingOptions.widthUsed
  cases o.widthStrategy with
  | full => rfl
  | fixed n => rfl
  | noMoreThan n =>
    simp only [Nat.min_def]
    split <;> split <;> omega

theorem printedDoc_new {doc : P.Node} {o : PrintingOptions} {width height row : Nat} {style out}
    (hp : printAll doc (o.widthUsed width) o.focusPath o.focusTarget (some style) = Exec.ofRes (.ok out))
    (hw : width ≠ 0) (hh : height ≠ 0)
    (hrow : (o.chooseFocusLineRow height : PaneM P.Style P.Err Nat) = some ([], .ok row)) (hmax : row + 1 ≤ maxHeight) :
    ∃ d, PrintedDoc.new doc o width height style = some ([], .ok d) ∧ ShowsPrint d out row style height o.setFocus := by
  obtain ⟨r, ups, downs, h1, h2, h3, rfl⟩ := printAll_inv hp
  obtain ⟨p1, e1, _⟩ := takeLines_of_drain nextUp_none row h2
  obtain ⟨p2, e2, _⟩ := takeLines_of_drain nextDown_none (height - (row + 1)) h3
  refine ⟨⟨(ups.take row).reverse ++ [r.focused.toLine] ++ downs.take (height - (row + 1)),
    (ups.take row).reverse.length, row, if o.setFocus then some (row, r.focused.leftWidth) else none, style⟩, ?_, ?_⟩
  · unfold PrintedDoc.new
    rw [if_neg (by simp [hw, hh])]
    simp only [chooseWidth_eq]
    rw [PaneM.bind_ok_nil hrow, PaneM.bind_ok_nil (lift_ok _ h1), PaneM.bind_ok_nil (lift_ok _ e1),
      PaneM.bind_ok_nil (addUpTo_ok hmax), PaneM.bind_ok_nil (lift_ok _ e2)]
    simp only [filterMap_take]
    rfl
  · refine ⟨rfl, rfl, rfl, ?_, ?_⟩
    · simp
    · simp only [List.reverse_take, List.length_reverse]

/-- Printing must have succeeded. -/
theorem printedDoc_val {doc : P.Node} {o : PrintingOptions} {width height : Nat} {style : P.Style} {c d}
    (h : PrintedDoc.new doc o width height style = some (c, .ok d)) (hw : width ≠ 0) (hh : height ≠ 0) :
    ∃ row r, (o.chooseFocusLineRow height : PaneM P.Style P.Err Nat) = some ([], .ok row) ∧ row + 1 ≤ maxHeight ∧
      prettyPrint doc (o.widthUsed width) o.focusPath o.focusTarget (some style) = Exec.ofRes (.ok r) := by
  unfold PrintedDoc.new at h
  rw [if_neg (by simp [hw, hh])] at h
  simp only [chooseWidth_eq] at h
  rcases PaneM.bind_eq_some h with ⟨e, _, h'⟩ | ⟨c1, row, c2, h1, k1, rfl⟩
  · cases h'
  obtain rfl := Quiet.chooseFocusLineRow _ _ _ _ h1
  rcases PaneM.bind_eq_some k1 with ⟨e, _, h'⟩ | ⟨c1, r, c2, h2, k2, rfl⟩
  · cases h'
  obtain ⟨rfl, h2'⟩ := lift_val h2
  rcases PaneM.bind_eq_some k2 with ⟨e, _, h'⟩ | ⟨c1, _, c2, h3, k3, rfl⟩
  · cases h'
  rcases PaneM.bind_eq_some k3 with ⟨e, _, h'⟩ | ⟨c1, x, c2, h4, k4, rfl⟩
  · cases h'
  obtain rfl := Quiet.addUpTo _ _ _ _ _ h4
  exact ⟨row, r, h1, (addUpTo_val h4).2, h2'⟩

/-- The rows of a printed document are the lines of the document, around the focused one. -/
theorem ShowsPrint.row {d : PrintedDoc P} {o : Output P} {row style height setFocus}
    (h : ShowsPrint d o row style height setFocus) {i : Nat} (hi : i < height) :
    d.row i = lineAt (o.lines.map styledChars) ((o.above.length : Int) + i - row) := by
  have hlines : o.lines.map styledChars = (o.above ++ [o.focused.toLine] ++ o.below).map fun l => styledChars l.segments := by
    simp [Output.lines, FocusedLine.toLine, Function.comp_def]
  rw [hlines]
  unfold PrintedDoc.row lineAt
  rw [h.focusLineRow, h.index]
  have hls := h.lines
  generalize o.above = above, o.focused.toLine = focused, o.below = below at *
  by_cases hf : row - min row above.length ≤ i
  · rw [if_pos hf, if_pos (by omega)]
    have e1 : (match d.lines[i - (row - min row above.length)]? with
        | some l => styledChars l.segments
        | none => []) = ((d.lines.map (fun l => styledChars l.segments))[i - (row - min row above.length)]?).getD [] := by
      rw [List.getElem?_map]
      cases d.lines[i - (row - min row above.length)]? <;> rfl
    refine e1.trans ?_
    rw [hls, List.getElem?_map, List.getElem?_map]
    congr 2
    have e2 : above.drop (above.length - row) ++ [focused] ++ below.take (height - (row + 1)) =
        ((above ++ [focused] ++ below).drop (above.length - row)).take (min row above.length + 1 + (height - (row + 1))) := by
      have hl : (above.drop (above.length - row)).length = min row above.length := by
        rw [List.length_drop]; omega
      rw [List.append_assoc, List.append_assoc, List.drop_append_of_le_length (by omega), List.take_append, hl]
      congr 1
      · rw [List.take_of_length_le (by omega)]
      have : min row above.length + 1 + (height - (row + 1)) - min row above.length = (height - (row + 1)) + 1 := by omega
      rw [this]
      simp
    rw [e2, List.getElem?_take_of_lt (by omega), List.getElem?_drop]
    congr 1
    omega
  · rw [if_neg hf, if_neg (by omega)]

theorem rectCalls_congr (isFull : Char → Bool) (rect : Rectangle) {f g : Nat → List (Char × S)} (blank : S)
    (h : ∀ i, i < rect.height → f i = g i) : rectCalls isFull rect f blank = rectCalls isFull rect g blank := by
  unfold rectCalls
  have : ∀ xs : List Nat, (∀ x ∈ xs, rect.minRow ≤ x ∧ x < rect.maxRow) →
      (xs.flatMap fun row => rowCalls isFull row rect.minCol rect.width (f (row - rect.minRow)) blank) =
      xs.flatMap fun row => rowCalls isFull row rect.minCol rect.width (g (row - rect.minRow)) blank := by
    intro xs hx
    refine List.flatMap_congr fun x hxm => ?_
    have := hx x hxm
    rw [h (x - rect.minRow) (by unfold Rectangle.height; omega)]
  exact this _ fun x hx => mem_rangeFrom.1 hx

theorem Emits.ok {m : PaneM S E Unit} {full c} (h : Emits m full) (hm : m = some (c, .ok ())) : c = full := by
  rcases h with h | ⟨_, _, h, _⟩
  · rw [hm] at h; cases h; rfl
  · rw [hm] at h; cases h

end PPP
