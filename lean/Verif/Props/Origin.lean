import Verif.Proofs.Origin
import Verif.Props.Printing
/-
C53: nothing is printed that is not in the document.
-/
namespace PPP
variable {P : PrettyDoc}

/-- **C53.**  Every segment of every printed line is a literal or an indentation string of the notation of a node
    of the document, or the text of a node, and it is as wide as this string.  (If the focus is inside of a text,
    that text is split into two segments; see `C53_chars`.) -/
theorem C53_segments (law : P.Lawful) {doc : P.Node} {w path target style o} (hfocus : FocusOk P doc target)
    (ht : ∀ pos, target ≠ .text pos) (h : printAll doc w path target style = Exec.ofRes (.ok o)) :
    ∀ line ∈ o.lines, ∀ seg ∈ line, InDoc P doc seg.str ∧ seg.width = P.strWidth seg.str := by
  obtain ⟨id, L, hL, _, _, h3⟩ := C02_focus_independent law hfocus h
  rw [h3 ht]
  exact layout_segsOk law (inDoc_ok doc) (.inl rfl) hL

/-- **C53.**  With any focus target, every printed character is in a string of the document. -/
theorem C53_chars (law : P.Lawful) {doc : P.Node} {w path target style o} (hfocus : FocusOk P doc target)
    (h : printAll doc w path target style = Exec.ofRes (.ok o)) :
    ∀ line ∈ o.lines, ∀ seg ∈ line, ∀ c ∈ seg.str.toList, ∃ s, InDoc P doc s ∧ c ∈ s.toList := by
  obtain ⟨id, L, hL, h1, _, _⟩ := C02_focus_independent law hfocus h
  intro line hline seg hseg c hc
  have hm : styledChars line ∈ (linesOf L.toks).map styledChars := by
    rw [← h1]; exact List.mem_map_of_mem hline
  obtain ⟨line', hl', he⟩ := List.mem_map.1 hm
  have hcc : (c, seg.style) ∈ styledChars line := by
    unfold styledChars
    exact List.mem_flatMap.2 ⟨seg, hseg, List.mem_map.2 ⟨c, hc, rfl⟩⟩
  rw [← he] at hcc
  unfold styledChars at hcc
  obtain ⟨seg', hs', hc'⟩ := List.mem_flatMap.1 hcc
  obtain ⟨c', hc'', e⟩ := List.mem_map.1 hc'
  simp only [Prod.mk.injEq] at e
  obtain ⟨rfl, _⟩ := e
  exact ⟨_, (layout_segsOk law (inDoc_ok doc) (.inl rfl) hL line' hl' seg' hs').1, hc''⟩

/-- **C53.**  Every character of the result of `pretty_print_to_string` is in a string of the document, or is the
    newline between two lines. -/
theorem C53_to_string (law : P.Lawful) {doc : P.Node} {w s}
    (h : prettyPrintToString doc w = Exec.ofRes (.ok s)) :
    ∀ c ∈ s.toList, c = '\n' ∨ ∃ u, InDoc P doc u ∧ c ∈ u.toList := by
  obtain ⟨id, L, hL, rfl⟩ := (C01_to_string_iff law _ _ _).1 h
  have hl := layout_segsOk law (inDoc_ok doc) (.inl rfl) hL
  have key : ∀ (ls : List (List (Segment P))), (∀ l ∈ ls, ∀ s ∈ l, SegOk (InDoc P doc) s) →
      ∀ c ∈ (linesString ls).toList, c = '\n' ∨ ∃ u, InDoc P doc u ∧ c ∈ u.toList := by
    intro ls
    induction ls with
    | nil => intro _ c hc; simp [linesString] at hc
    | cons l ls ih =>
      intro h c hc
      have hline : ∀ c ∈ (segsString l).toList, ∃ u, InDoc P doc u ∧ c ∈ u.toList := by
        intro c hc
        rw [segsString_eq] at hc
        simp only [String.toList_ofList, styledChars, List.map_flatMap, List.mem_flatMap, List.map_map,
          List.mem_map, Function.comp_apply] at hc
        obtain ⟨s, hs, c', hc', rfl⟩ := hc
        exact ⟨_, (h l (by simp) s hs).1, hc'⟩
      cases ls with
      | nil => simp only [linesString, List.map_cons, List.map_nil, String.intercalate_singleton] at hc; exact .inr (hline c hc)
      | cons l' ls =>
        unfold linesString at hc
        rw [List.map_cons, String.intercalate_cons_of_ne_nil (by simp)] at hc
        simp only [String.toList_append, List.mem_append] at hc
        rcases hc with (hc | hc) | hc
        · exact .inr (hline c hc)
        · left; simpa using hc
        · exact ih (fun l hl => h l (by simp [hl])) c hc
  exact key _ hl

/-! ### An example -/

namespace Ex

/-- C53 on the example: a slash is never printed. -/
example (w : Nat) {s : String} (h : prettyPrintToString (P := exP) exDoc w = Exec.ofRes (.ok s)) :
    '/' ∉ s.toList := by
  intro hc
  rcases C53_to_string exLaw h _ hc with h | ⟨u, ⟨p, hp, hu⟩, hc⟩
  · cases h
  · rcases exWithin hp with rfl | rfl | rfl
    · rcases hu with ⟨a, ha, hu⟩ | hu
      · cases ha
        change u ∈ ["[", ",", " ", "]"] at hu
        simp only [List.mem_cons, List.not_mem_nil, or_false] at hu
        rcases hu with rfl | rfl | rfl | rfl <;> revert hc <;> decide
      · cases hu
    · rcases hu with ⟨a, ha, hu⟩ | hu
      · cases ha; cases hu
      · cases hu; revert hc; decide
    · rcases hu with ⟨a, ha, hu⟩ | hu
      · cases ha; cases hu
      · cases hu; revert hc; decide

end Ex

end PPP
