
Every property of the list can be expressed in the model.  The README's claim of peephole *efficiency*
is modelled as what the printer looks at (C42, C43: only what is near the focus; C41: what is not looked at
cannot matter) and as the number of steps it takes (C55).  The time taken inside of the trait's methods, the
copying of text, and memory are not modelled.

## 6. Findings about the code

Places where the code differs from its documentation or from what one may expect.  Those marked with a
name have a witness in Lean.

* The two printers (oracle and real) disagree on zero-width text after an `EndOfLine`
  (`Ex.C09_zero_width_disagree`), and the oracle panics at widths from 10000 (`C09_width_limit`).
* `FocusTarget::Text` on a node without text focuses the text of a *later* node instead of returning
  `MissingText`; `FocusTarget::Mark` finds a later mark of a node with the same id (hence the hypothesis
  of `C05_missing`).
* `FocusTarget::Text` splits the segment of the text; if `str_width` is not additive at the split, the
  layout of the rest of the line may change (hence the hypothesis in C02).
* `Fold` on a text node is reported as `NumChildrenChanged`.
* A mismatch between notation and document may be reported or not depending on a focus mark next to it
  (`C65_match_needed`): a `Concat` is looked into later than a `Child`.
* Validation does not rule out text after an end of line across `Child` or `Fold`: `eol + child(0)` is
  valid (`Ex.eolDoc`).  C22 is about notations without these.
* `Proportional` panes which all have weight 0 make `display_pane` panic (division by zero), and so do
  weights for which `cookies * weight` overflows (examples in Props/Divvy.lean).
* "Every cell is written exactly once" (documentation of `PrettyWindow`) holds only if the panes tile the
  window: a label without content or left-over space is not written.  "At most once" always holds.
* A `Dynamic` pane in a `Vert` whose document is shorter than the space, with `focus_height > 0`: blank
  rows are shown instead of the document's first lines, and `set_focus` may be outside of the pane.
* `Fill` and `display_line` overflow `u16` in windows of 65534 or more columns.
* `PlainText::new_unbounded_height` with focus height 1.0 overflows; for heights above `2^24`, `f32`
  rounding may put the focus row outside of the pane (`focusRow_outside`).
* Zero-width characters take one column in a pane but none for the printer, so that a pane as wide as its document
  cuts off the end of a line with accents (example in Props/Measure.lean); `PlainText` drops `'\0'`.
* `BasicStyle` has no right unit: a child with the default style resets the colour (example in
  Props/TreeStyle.lean).  The label `"green_bold"` used for JSON constants is not a label of `BasicStyle`
  (`"bold_green"` is), so constants are printed in the default style.
* `json_string` does not escape quotes and backslashes (hypothesis of C34).  The demo program calls it with
  strings in which serde has removed the escapes, so what it prints for the file `"\""` is not JSON
  (`Ex.demo_quote`).
* `Tree::new_branch` never resets `needs_separator`: a tree that was a child before keeps its flag
  (C32_fresh is about new ones).
* If a document has several errors, the one that is reported depends on the order of evaluation; C01 says
  that there is some error, C15_outcomes and C19_print_errors_explained which.
* `a | b | c` (in Rust `(a | b) | c`) is not the same as `a | (b | c)` if `b` may not fit although `a` does:
  then the former takes `c` (C52_choice_not_assoc).  They agree if the documented requirement on choices is
  obeyed (C52_choice_assoc).
* `seek_child` calls `contains_relevant_chunk` again after every child that it expands, which scans the rest of
  the line: seeking the last of `n` children that stand on one line takes time quadratic in `n` (C55_session_scan
  has a quadratic bound, C55_session is linear if the scan is not counted).
* The documentation of `node_style` says that it is called once per document node.  It is called each time a
  `Child` (or `Right`) is evaluated: again for each option of a choice that displays the child, and again when
  the look-ahead of a choice before it comes across it.
* The documentation of `lookup_style` says that it is called with labels used in `Style`; it is also called with
  the labels of `Indent` (C14 says: with the labels of either, in the node's own notation).
* Printing a single line inside of a node evaluates the whole notation of that node: a `Fold` over all of its
  children is expanded at once, and `notation()` and `node_style()` are called for children that are far away
  from the line (their own notations are not evaluated).  So the cost of a peephole is proportional to the number of
  siblings along the path, not only to the number of lines shown (C59 has the size of a single notation as a factor, and
  C59_at_least shows that it is necessary: one line of a file whose n lines are children of one node takes at least 5n
  steps, where the README speaks of "50 units of work" for 50 lines).
* `generate_all_up_to_size` ("all values of up to the given size") leaves out the values of the given size itself, so
  `oracle_tests` tries all notations of size at most 5, not 6 (C62_up_to_size).
* `print_region` computes `rows / 2 - 1`, so `assert_pp_region` panics when it is asked for 0 or 1 rows
  (C66_region_rows).  For an odd number of rows it shows one row less than asked for (C66_region).
* In `seek_child`, the branch for a block whose chunks run out is unreachable.
* The messages of `NotationError::CountOneChildIndex(i)` and `CountOneCheckPosChildIndex(i)` always say "index 0":
  their format strings are given the literal `0` instead of the field `.0` (C70_notation_error_messages,
  Ex.C70_index_example).
* `Display` of a notation does not escape quotes in literals (C70_quotes_ambiguous), and leaves out the style of an
  `Indent`.
* `eval` calls itself for a `Left`, and Rust does not promise to turn such a call into a jump.  In the usual joins the
  `Left` is part of a concatenation, so that its evaluation is delayed; but a join that skips a child, such as
  `Check(IsComment, RightChild, Left, Left + Right)`, takes a nested call (two, in fact) for each child that is
  skipped, so skipping very many children overflows the stack (C74_depth_grows, C74_runs_out).

## 7. Wrong programs

`seeded/LOG.jsonl` has one line for each edit of the model that imitates a bug: the definition, the edit,
the claim that it breaks, the lemmas that stop compiling first, the theorems of the claim that are lost
with them, and what was tightened.  Edits marked `equivalent` do not change the behaviour.

## 8. Layout and build

`lake build` in `lean/` builds everything (`Verif.lean` imports all modules).  `tools/gen_properties.py`,
`tools/gen_manifest.py` and `tools/gen_design.py` write `properties.jsonl`, `MANIFEST.json` and this file.
