import Verif.Proofs.DemoInk
/-
C54: the demo program.
-/
namespace PPP
variable {sw : String → Nat}

/-! ### It prints the document -/

theorem demoMain_eq (v : Serde) (w next : Nat) : demoMain sw v w next =
    (prettyPrintJson (P := basicDoc sw) (jsonToDoc v next).1 w >>= fun lines => pure (linesToString lines ++ "\n")) :=
  rfl

theorem demo_cases {v : Serde} {w next : Nat} {out : String}
    (h : demoMain sw v w next = Exec.ofRes (.ok out)) :
    ∃ id L lines, docLayout (basicLaw sw) (jsonToDoc v next).1 w none = .ok (id, L) ∧
      lines.map (·.segments) = linesOf L.toks ∧ out = linesToString lines ++ "\n" ∧
      ∃ o, printAll (P := basicDoc sw) (jsonToDoc v next).1 w [] .start none = Exec.ofRes (.ok o) ∧
        o.lines = linesOf L.toks := by
  have hp := prettyPrintJson_layout (basicLaw sw) (jsonToDoc v next).1 w
  rw [demoMain_eq] at h
  cases hl : docLayout (basicLaw sw) (jsonToDoc v next).1 w none with
  | error e =>
    rw [hl] at hp
    obtain ⟨f, h1, _⟩ := hp
    rw [h1] at h
    exact absurd (Exec.ofRes_inj h) (by simp)
  | ok r =>
    obtain ⟨id, L⟩ := r
    rw [hl] at hp
    obtain ⟨lines, h1, h2, h3⟩ := hp
    rw [h1] at h
    have := Exec.ofRes_inj (h : Exec.ofRes (.ok (linesToString lines ++ "\n")) = _)
    simp only [Except.ok.injEq] at this
    exact ⟨id, L, lines, rfl, h2, this.symm, h3⟩

/-- **C54.**  The demo program prints its document at every width: it stops with an error or a panic only if
    printing the same document to a string does, which happens only if a line is too long for the counter of
    columns. -/
theorem C54_outcome (v : Serde) (w next : Nat) :
    (∃ out s, demoMain sw v w next = Exec.ofRes (.ok out) ∧
      prettyPrintToString (P := basicDoc sw) (jsonToDoc v next).1 w = Exec.ofRes (.ok s)) ∨
    (demoMain sw v w next = Exec.ofRes (.error .overflow) ∧
      prettyPrintToString (P := basicDoc sw) (jsonToDoc v next).1 w = Exec.ofRes (.error .overflow)) := by
  have hp := prettyPrintJson_layout (basicLaw sw) (jsonToDoc v next).1 w
  rw [demoMain_eq]
  cases hl : docLayout (basicLaw sw) (jsonToDoc v next).1 w none with
  | error e =>
    rw [hl] at hp
    obtain ⟨f, h1, h2⟩ := hp
    right
    have hval := expr_value (A := anyText) (B := anyText) v next (Serde.texts_any v)
    rcases C33_to_string (sw := sw) (.value hval) w with ⟨s, hs⟩ | ⟨hs, _⟩
    · rw [jsonToDoc_expr] at h2
      rw [h2] at hs
      exact absurd (Exec.ofRes_inj hs) (by simp)
    · rw [jsonToDoc_expr] at h2 ⊢
      refine ⟨?_, hs⟩
      rw [h2] at hs
      have := Exec.ofRes_inj hs
      simp only [Except.error.injEq] at this
      subst this
      rw [jsonToDoc_expr] at h1
      rw [h1]
      rfl
  | ok r =>
    obtain ⟨id, L⟩ := r
    rw [hl] at hp
    obtain ⟨lines, h1, h2, _⟩ := hp
    left
    refine ⟨linesToString lines ++ "\n", _, ?_, (C01_to_string_iff (basicLaw sw) _ _ _).2 ⟨id, L, hl, rfl⟩⟩
    · rw [h1]; rfl

/-- **C54.**  If no string has an `ESC` in it, then a terminal shows exactly the lines that `pretty_print` gives
    for the document, each character in the colour of its style, followed by an empty line, and it is left with
    its default colour. -/
theorem C54_screen {v : Serde} (hv : v.Texts NoEsc NoEsc) {w next : Nat} {out : String}
    (h : demoMain sw v w next = Exec.ofRes (.ok out)) :
    ∃ o, printAll (P := basicDoc sw) (jsonToDoc v next).1 w [] .start none = Exec.ofRes (.ok o) ∧
      screen out = onScreen o.lines ++ [⟨'\n', none⟩] ∧ (terminal .text none out.toList).2 = none := by
  obtain ⟨id, L, lines, hl, hs, rfl, o, ho, hol⟩ := demo_cases h
  refine ⟨o, ho, ?_⟩
  have hok : ∀ l ∈ lines, ∀ s ∈ l.segments, NoEsc s.str := by
    intro l hl' s hs'
    refine (layout_segsOk (basicLaw sw) treeNoEsc_ok (jsonToDoc_noEsc v next hv) hl l.segments ?_ s hs').1
    rw [← hs]
    exact List.mem_map_of_mem hl'
  obtain ⟨c, hc⟩ := terminal_lines (termionReset.toList ++ "\n".toList) lines none hok
  unfold screen linesToString
  simp only [String.toList_append, List.append_assoc]
  rw [hc, terminal_reset, hs, hol]
  exact ⟨rfl, rfl⟩

theorem shown_text (ls : List (List (Segment (basicDoc sw)))) (hne : ls ≠ []) :
    (onScreen ls).map (·.char) = (linesString ls).toList ++ ['\n'] := by
  have hof : ∀ col c, (TermCell.of col c).char = c := by intro col c; unfold TermCell.of; split <;> rfl
  induction ls with
  | nil => exact absurd rfl hne
  | cons l ls ih =>
    have hl : ((styledChars l).map fun (c, style) => TermCell.of (some (BasicStyle.color style)) c).map (·.char) =
        (segsString l).toList := by
      rw [segsString_eq]
      simp [hof, Function.comp_def]
    have hs : onScreen (l :: ls) = ((styledChars l).map fun (c, style) => TermCell.of (some (BasicStyle.color style)) c) ++
        [.of none '\n'] ++ onScreen ls := by simp [onScreen]
    rw [hs, List.map_append, List.map_append, hl]
    unfold linesString at ih ⊢
    cases ls with
    | nil => simp [onScreen, hof]
    | cons l' ls =>
      rw [ih (by simp), List.map_cons (f := segsString) (a := l), String.intercalate_cons_of_ne_nil (by simp)]
      simp [hof]

/-- **C54.**  The text on the screen is the string that the document prints to, and two newlines. -/
theorem C54_text {v : Serde} (hv : v.Texts NoEsc NoEsc) {w next : Nat} {out : String}
    (h : demoMain sw v w next = Exec.ofRes (.ok out)) :
    ∃ s, prettyPrintToString (P := basicDoc sw) (jsonToDoc v next).1 w = Exec.ofRes (.ok s) ∧
      screenText out = s ++ "\n\n" := by
  obtain ⟨o, ho, hs, _⟩ := C54_screen hv h
  obtain ⟨id, L, lines, hl, _, _, o', ho', hol⟩ := demo_cases h
  rw [ho'] at ho
  have := Exec.ofRes_inj ho
  simp only [Except.ok.injEq] at this
  subst this
  refine ⟨_, (C01_to_string_iff (basicLaw sw) _ _ _).2 ⟨id, L, hl, rfl⟩, ?_⟩
  have hne : linesOf L.toks ≠ [] := by rw [← hol]; simp [Output.lines]
  unfold screenText
  rw [hs, List.map_append, hol, shown_text _ hne]
  apply String.toList_inj.1
  simp

/-- **C54.**  Apart from white space, the terminal shows the value: strings and keys in magenta, numbers in blue, and
    everything else in white, with a comma between the elements of an array or object, and no other comma. -/
theorem C54_cells {v : Serde} (hv : v.Texts NoEsc NoEsc) {w next : Nat} {out : String}
    (h : demoMain sw v w next = Exec.ofRes (.ok out)) : ink (screen out) = ink v.cells := by
  obtain ⟨o, ho, hs, _⟩ := C54_screen hv h
  obtain ⟨id, L, lines, hl, _, _, o', ho', hol⟩ := demo_cases h
  rw [ho'] at ho
  have := Exec.ofRes_inj ho
  simp only [Except.ok.injEq] at this
  subst this
  have hnl : ink [⟨'\n', none⟩] = [] := rfl
  rw [hs, hol, ink_append, demo_layout_ink hl, hnl, List.append_nil]

/-- **C54.**  If the strings of the value are written as between the quotes of a JSON text (quotes and backslashes
    are escaped), the text on the screen is JSON text for the same value. -/
theorem C54_round_trip {v : Serde} (hv : v.Texts (fun s => NoEsc s ∧ Escaped s) NumberText) {w next : Nat}
    {out : String} (h : demoMain sw v w next = Exec.ofRes (.ok out)) :
    readJson (screenText out) = some v.val := by
  have hnum : ∀ s, NumberText s → NoEsc s := by
    intro s hs hc
    exact absurd (hs.2 _ hc) (by decide)
  obtain ⟨s, hs, ht⟩ := C54_text (hv.mono (fun _ h => h.1) hnum) h
  have hval := expr_value v next (hv.mono (A' := Escaped) (B' := NumberText) (fun _ h => h.2) (fun _ h => h))
  rw [jsonToDoc_expr] at hs
  have h1 := C51_round_trip hval hs
  rw [expr_val] at h1
  rw [← h1, ht]
  have h2 := C34_closed (.value (hval.mono (fun _ h => h.quotable) (fun _ h => h.plain))) hs "\n"
  have h3 : minify "\n" = "" := rfl
  have h4 : s ++ "\n\n" = s ++ "\n" ++ "\n" := by rw [String.append_assoc]; rfl
  unfold readJson
  rw [h4, h2, h3, String.append_empty]

/-! ### Examples -/

namespace Ex

/-- `{"a": [1, -2.5e3], "b\\"": null}` -/
def demoJson : Serde := .object [("a", .array [.number "1", .number "-2.5e3"]), ("b\\\"", .null)]

/-- It meets the hypothesis of `C54_round_trip`. -/
theorem demoJson_ok : demoJson.Texts (fun s => NoEsc s ∧ Escaped s) NumberText := by
  refine .object ?_ ?_
  · intro e he
    simp only [List.mem_cons, List.not_mem_nil, or_false] at he
    rcases he with rfl | rfl <;> exact ⟨by decide, by simp [Escaped, EscapedFrom]⟩
  · intro e he
    simp only [List.mem_cons, List.not_mem_nil, or_false] at he
    rcases he with rfl | rfl
    · refine .array ?_
      intro e he
      simp only [List.mem_cons, List.not_mem_nil, or_false] at he
      rcases he with rfl | rfl <;> exact .number ⟨by decide, by decide⟩
    · exact .null

/-- So whatever the width is, what is on the screen is read as this value. -/
example (w : Nat) {out : String} (h : demoMain String.length demoJson w 0 = Exec.ofRes (.ok out)) :
    readJson (screenText out) = some demoJson.val := C54_round_trip demoJson_ok h

/-- And the screen shows these cells. -/
example (w : Nat) {out : String} (h : demoMain String.length (.array [.number "1", .string "a b"]) w 0 = Exec.ofRes (.ok out)) :
    ink (screen out) = [⟨'[', some .white⟩, ⟨'1', some .blue⟩, ⟨',', some .white⟩, ⟨'"', some .magenta⟩,
      ⟨'a', some .magenta⟩, ⟨' ', some .magenta⟩, ⟨'b', some .magenta⟩, ⟨'"', some .magenta⟩, ⟨']', some .white⟩] := by
  refine (C54_cells ?_ h).trans ?_
  · refine .array ?_
    intro e he
    simp only [List.mem_cons, List.not_mem_nil, or_false] at he
    rcases he with rfl | rfl
    · exact .number (by decide)
    · exact .string (by decide)
  · simp only [Serde.cells, Serde.cellsList]
    rfl

/-- The layout of a number, and of a string with a quote in it. -/
theorem demoNumber_layout : ∃ L, docLayout (basicLaw String.length) (jsonToDoc (.number "12") 0).1 80 none = .ok (0, L) ∧
    linesOf L.toks = [[⟨"12", 2, ⟨.blue, false⟩⟩]] := by
  refine ⟨?_, ?_, ?_⟩
  rotate_left
  · unfold docLayout rootTree
    rw [docTree_of (basicLaw String.length) (a := jsonNumberN.1) (s := default) rfl rfl]
    rfl
  · rfl

theorem demoQuote_layout : ∃ L, docLayout (basicLaw String.length) (jsonToDoc (.string "\"") 0).1 80 none = .ok (0, L) ∧
    linesString (linesOf L.toks) = "\"\"\"" := by
  refine ⟨?_, ?_, ?_⟩
  rotate_left
  · unfold docLayout rootTree
    rw [docTree_of (basicLaw String.length) (a := jsonStringN.1) (s := default) rfl rfl]
    rfl
  · rfl

/-- The screen of a number: it is blue. -/
example {out : String} (h : demoMain String.length (.number "12") 80 0 = Exec.ofRes (.ok out)) :
    screen out = [⟨'1', some .blue⟩, ⟨'2', some .blue⟩, ⟨'\n', none⟩, ⟨'\n', none⟩] := by
  obtain ⟨L, hL, hl⟩ := demoNumber_layout
  obtain ⟨o, ho, hs, _⟩ := C54_screen (v := .number "12") (.number (by decide)) h
  obtain ⟨id, L', lines, hL', _, _, o', ho', hol⟩ := demo_cases h
  rw [ho'] at ho
  have := Exec.ofRes_inj ho
  simp only [Except.ok.injEq] at this
  subst this
  rw [hL] at hL'
  cases hL'
  rw [hs, hol, hl]
  rfl

/-- `json_string` does not escape its argument, and serde removes the escapes when it reads a file: a string with a
    quote in it is displayed as something that is not JSON. -/
theorem demo_quote {out : String} (h : demoMain String.length (.string "\"") 80 0 = Exec.ofRes (.ok out)) :
    readJson (screenText out) = none := by
  obtain ⟨L, hL, hl⟩ := demoQuote_layout
  obtain ⟨s, hs, ht⟩ := C54_text (v := .string "\"") (.string (by decide)) h
  obtain ⟨id, L', hL', rfl⟩ := (C01_to_string_iff (basicLaw String.length) _ _ _).1 hs
  rw [hL] at hL'
  cases hL'
  rw [ht, hl]
  rfl

end Ex

end PPP
