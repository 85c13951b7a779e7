import Verif.Props.PaneDoc
import Verif.Props.PlainText
/-
C29 – C31, put together: displaying a document in a `PlainText` window.
-/
namespace PPP
variable {L : Type} {P : PrettyDoc}

/-- A row of text: the characters that fit into `width` columns, blanks up to the width, a newline. -/
def rowText {S : Type} (isFull : Char → Bool) (width : Nat) (chars : List (Char × S)) : List Char :=
  let shown := clip isFull width chars
  shown.map (·.1) ++ List.replicate (width - charsCols isFull shown) ' ' ++ ['\n']

/-- **C31**, for documents.  A document that can be printed with its options, displayed in a `PlainText`
    window, reads as the document's lines, each cut off or padded to the width of the window, placed such
    that the focused line is on the focus row. -/
theorem C31_doc_text (env : PaneEnv P L) {label : L} {doc : P.Node} {o : PrintingOptions}
    (hcontent : env.getContent label = some (doc, o)) {style : P.Style} {width height : Nat} (hw : 0 < width)
    (hh : 0 < height) {out}
    (hprint : printAll doc (o.widthUsed width) o.focusPath o.focusTarget (some style) = Exec.ofRes (.ok out))
    (hchars : ∀ l ∈ out.lines, ∀ c ∈ styledChars l, c.1 ≠ '\x00')
    {calls} (h : (displayPane env (.doc label) style width height).run = some (calls, .ok ())) :
    ∃ row w, (o.chooseFocusLineRow height : PaneM P.Style P.Err Nat) = some ([], .ok row) ∧
      (plainText P.Style).replay (PlainText.new width height) calls = .ok w ∧
      w.focusPoints = (if o.setFocus then [(row, out.focused.leftWidth)] else []) ∧
      w.toString = String.ofList ((List.range height).flatMap fun (i : Nat) =>
        rowText env.isFull width (lineAt (out.lines.map styledChars) ((out.above.length : Int) + i - row))) := by
  obtain ⟨row, h1, rfl⟩ := C29_doc_pane env hcontent (rect := ⟨0, height, 0, width⟩) hw hh hprint h
  obtain ⟨w, k1, k2, k3⟩ := C31_rows env.isFull width height hw
    (if o.setFocus then [(row, out.focused.leftWidth)] else [])
    (fun (i : Nat) => lineAt (out.lines.map styledChars) ((out.above.length : Int) + i - row)) style (by
      intro i c hc
      simp only [lineAt] at hc
      split at hc
      · rename_i hk
        rw [List.getElem?_map] at hc
        cases hl : out.lines[((out.above.length : Int) + i - row).toNat]? with
        | none => rw [hl] at hc; simp at hc
        | some l =>
          rw [hl] at hc
          simp only [Option.map_some, Option.getD_some] at hc
          exact hchars l (List.mem_of_getElem? hl) c hc
      · cases hc)
  refine ⟨row, w, h1, ?_, k2, k3⟩
  rw [← k1]
  congr 2
  split <;> simp

/-- **C31**, for windows of unbounded height.  There is no such thing: they say that they have `2 ^ 32 - 1` rows, so
    that `display_pane` fills all of these (`C31_doc_text`); and they show what a window with that many rows shows. -/
theorem C31_unbounded_height {S : Type} (width : Nat) :
    (plainText S).size (PlainText.newUnboundedHeight width) = .ok (width, 2 ^ 32 - 1) ∧
    ∀ calls, (plainText S).replay (PlainText.newUnboundedHeight width) calls =
      (plainText S).replay (PlainText.new width (2 ^ 32 - 1)) calls := ⟨rfl, fun _ => rfl⟩

namespace Ex

/-- `[aa, bbb]` in a window of 8 columns and 4 rows, focused on the second `b`. -/
example : ∃ calls w, (displayPane exEnv (.doc ()) () 8 4).run = some (calls, .ok ()) ∧
    (plainText Unit).replay (PlainText.new 8 4) calls = .ok w ∧
    w.focusPoints = [(2, 1)] ∧
    w.toString = "        \n[aa,    \nbbb]    \n        \n" := by
  obtain ⟨c, _, h, _⟩ := displayPaneRec_ok exAllPrint (by decide) (.doc ()) () ⟨0, 4, 0, 8⟩ trivial
    (by decide) (by decide) (by decide) (by decide)
  obtain ⟨out, k1, k2, k3, k4⟩ := exPrints (w := 8) (by decide) (by decide)
  have hchars : ∀ l ∈ out.lines, ∀ c ∈ styledChars l, c.1 ≠ '\x00' := by
    intro l hl
    have : styledChars l ∈ out.lines.map styledChars := List.mem_map_of_mem hl
    rw [k4] at this
    revert this
    generalize styledChars l = x
    revert x
    decide
  obtain ⟨row, w, h1, h2, h3, h4⟩ := C31_doc_text exEnv (label := ()) rfl (by decide) (by decide) k1 hchars h
  refine ⟨c, w, h, h2, ?_, ?_⟩
  all_goals
    obtain ⟨_, q, hq, _, _, _, rfl⟩ := chooseFocusLineRow_val h1
    cases hq
    have hrow : roundToRow (roundF32 (roundF32 ((4 - 1 : Nat) : ℚ) * (1 / 2))) = 2 := by decide +kernel
    rw [hrow] at h3 h4
  · rw [h3, k2]; rfl
  · rw [h4, k3, k4]
    decide +kernel

/-- A wide character overwritten by narrow ones, and a gap. -/
example : ∃ w, (plainText Unit).replay (PlainText.new 5 5)
      [.displayChar 'W' 1 1 () true, .displayChar 'x' 1 1 () false, .setFocus 7 7, .displayChar 'y' 1 4 () false] = .ok w ∧
    w.lines = [[], [' ', 'x', '\x00', ' ', 'y']] ∧ w.toString = "\n x y\n" ∧ w.focusPoints = [(7, 7)] :=
  ⟨_, rfl, rfl, rfl, rfl⟩

end Ex
end PPP
