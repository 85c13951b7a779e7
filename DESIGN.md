# Formal model of partial-pretty-printer in Lean 4

The code in `/repo` is modelled function by function in `lean/Verif/Model`, specified independently of
its algorithms in `lean/Verif/Spec`, and the properties of `properties.jsonl` are theorems in
`lean/Verif/Props` (lemmas are in `lean/Verif/Proofs`).  `MANIFEST.json` maps properties to theorems.

## 1. Trusted base

* **Lean 4.33.0's kernel.**  No `native_decide`, no `bv_decide`, no axioms of our own.  Every theorem in
  `MANIFEST.json` depends on (at most) the three standard axioms `propext`, `Classical.choice` and
  `Quot.sound`; `decide +kernel` is used for a few concrete examples and is checked by the kernel.
* **The model is a faithful reading of the Rust source.**  The code was not run.  Every definition in
  `Model` cites the file and lines it models and says where it simplifies; section 3 collects that.  As a
  check of the reading, the repository's own tests (`/repo/tests`, and the one in `divvy.rs`) are transcribed in
  `lean/Verif/Tests` and run on the model by `lake build`: the model prints what the authors of the code expect,
  in all of them.  These runs are tests of the model, and no theorem depends on them.
* **The specifications say what the English says.**  They are small and separate (section 4), and each
  property file ends with concrete, non-trivial instances which meet the hypotheses of its theorems.

## 2. How the code is modelled

* `Exec E α = ExceptT (Fail E) Option α` is a run of the code: `none` is divergence, `Fail.err e` a
  returned `PrintingError`, `Fail.panic` a Rust panic, and `Fail.overflow` an overflow of the `u16`
  column arithmetic (a panic with overflow checks, a wrap-around without).  Nothing that can go wrong is
  totalised away: `unwrap`, `expect`, indexing, `assert!`, `panic!` and subtraction all have a failing
  branch.
* Loops and recursive functions are transcribed with `partial_fixpoint`: no fuel and no termination
  measure is built in.  That they terminate is a theorem (C13), by a measure on notation trees.
* `&mut self` methods return the new value.  A `Vec` used as a stack is a `List` whose head is the top of
  the stack.  Iterators are their `next` functions on explicit states; `takeLines k` calls `next` k times.
* The trait `PrettyDoc` is a structure of arbitrary partial functions over an arbitrary type of nodes, so
  theorems range over **every implementation**: each method may return an error or panic.  What an
  implementor has to promise is the separate predicate `PrettyDoc.Lawful` (Spec/Denote.lean): no infinite
  chains of children; notations are valid; `unwrap_last_child` and `unwrap_prev_sibling` agree with
  `unwrap_child`; and methods do not panic when called within their contract.  Methods may panic outside
  of their contract (C14) and may return errors at any time.  C41 needs none of these.
* `str_width`, `is_char_full_width`, `Style::combine`, `From<&str>` for styles and user conditions are
  arbitrary functions.  Where a theorem needs more of one of them, this is a named hypothesis.
* A window (`PrettyWindow`) is whatever happens to the list of calls that `display_pane` makes to it:
  `PrettyWindow.replay` plays the calls on any window, including one that fails on some call.

## 3. What is modelled, and what is not

| Source | Model | Not modelled |
|--------|-------|--------------|
| src/notation.rs | Model/Notation.lean: `Notation`, `CheckPos`, the operators `+ \| ^ >>`, `normalize_child_index`; Model/Display.lean: `Display` of notations, `Debug` of `CheckPos`, the messages of `NotationError` and `PrintingError` | derived `Debug` impls but that of `CheckPos` |
| src/notation_constructors.rs | Model/Notation.lean (see the comments there) | nothing: each function is a wrapper around one constructor (`Box::new`, `to_owned`), so the model uses the constructors |
| src/valid_notation.rs | Model/Validate.lean: `validate`, `validate_rec`, every `NotationError`; their messages in Model/Display.lean | `Clone` |
| src/consolidated_notation.rs | Model/Consolidated.lean: `DelayedConsolidatedNotation::eval` with all cases, `Textual`, `Segment`, `IndentNode`, `JoinPos`; `PrintingError` in Model/Basic.lean, its messages in Model/Display.lean | `Debug`, `Display` of the private types |
| src/pretty_doc.rs | Model/Doc.lean: traits `PrettyDoc`, `Style`; default methods in Model/Tree.lean | |
| src/pretty_print.rs | Model/Printer.lean: all of it; Model/Resume.lean: the iterators once more, with the state after an `Err`; Model/Stack.lean: all of it once more, with a limited stack for `eval` (`pretty_print`, `pretty_print_to_string`, `FocusTarget`, all `seek_*`, `print_next_line`, `print_prev_line`, `expand_*`, `choose`, `fits`, `Line`, `FocusedLine`) | `DEBUG_PRINT` output |
| src/oracle.rs | Model/Oracle.lean: all of it | debug output |
| src/geometry.rs | `Width`/`Height` limits, `Rectangle` in Model/Pane.lean; `str_width`, `is_char_full_width` are arbitrary parameters everywhere but in C60, which uses those of Model/Geometry.lean; `Pos`, `Size` and how they are displayed in Model/Display.lean, how they compare in Model/PosOrder.lean | the tables of unicode-width |
| src/infra.rs | | `span!`: profiling, no effect |
| src/pane/divvy.rs | Model/Divvy.lean: all of it, with `usize` overflow on 64 bits | |
| src/pane/pane_notation.rs, printing_options.rs, pretty_window.rs | Model/Pane.lean; `focus_height` is the exact rational value of the `f32`, and both roundings of `(height - 1) as f32 * focus_height` are modelled (`roundF32`) | subnormal results (they become row 0 anyway) |
| src/pane/display_pane.rs | Model/Pane.lean: all of it; the messages of `PaneError` in Model/Display.lean | errors of the window are in `replay`, not in the model of `display_pane` itself |
| src/pane/plain_text.rs | Model/PlainText.lean: all of it | |
| src/doc_examples/tree.rs, style.rs, json.rs | Model/Tree.lean, Style.lean, Json.lean | the thread-local id counter is a parameter of every constructor (C33_ids is about numbering by the counter); `f64::to_string` (numbers are given by their text) |
| examples/json.rs | Model/Demo.lean: `json_to_doc`, `pretty_print_json`, `lines_to_string` and the output of `main` | the command line, serde (the input is the parsed value), termion's formatting (constants), the timings on stderr |
| tests/standard/test_cases/flow_wrap.rs | Model/FlowWrap.lean | the test functions; `DocId` and `Style` as types |
| tests/standard/test_cases/iter_chain.rs, ruby_loop.rs | Model/Programs.lean | `impl Clone`/`Debug`; `DocId` and `Style` as types |
| tests/standard/generative_testing.rs, oracle_tests.rs, and pretty_testing.rs | Model/Generate.lean, Model/OracleTest.lean, Model/FocusTest.lean | Display for Tree; the messages of failed assertions |
| tests/ | Tests/: the test suite, run on the model when it is built (tests, not proofs) | let_list.rs (not part of the suite) |
| outdated-proofs/ | refn_impl_cont.hs, refn_impl_tree.hs (Model/Reference.lean) | the prose proofs (their laws are C52 and C67) |

Overflow: `u16` columns and `u32` rows are checked in the model (`addUpTo`, `Fail.overflow`, `subU`).
The stack that `eval` takes is modelled in Model/Stack.lean (C74).  Memory exhaustion, and stack overflow of the
other recursive functions (validation, `Drop`), are not.

## 4. Specifications

| File | Says |
|------|------|
| Spec/NTree.lean, Denote.lean | the notation tree of a document: notations of all nodes glued together, by structural recursion; no delayed evaluation |
| Spec/Layout.lean | the greedy layout of a notation tree, its tokens, lines, and positions of nodes in it |
| Spec/Greedy.lean | the greedy layout once more, as an inductive relation with a declarative "fits" |
| Spec/Shows.lean | what a notation shows, by inductive rules over places in the document (style, indentation) |
| Spec/Output.lean | what a caller of `pretty_print` sees |
| Spec/Flat.lean, Equiv.lean | first options; substitution in folds; notations that mean the same |
| Spec/Flaws.lean | flaws of a notation, by occurrences, what encloses them and what is displayed before them |
| Spec/Divvy.lean | fair division, first come first served |
| Spec/Pane.lean, PlainText.lean | cells, rows, what a window shows |
| Spec/Json.lean | JSON values, their compact text, stripping layout and comments from a text |
| Spec/Oracle.lean | conditions under which the two printers are compared |
| Spec/Extend.lean | documents of which only a part is available |
| Spec/View.lean | what is near the focus |
| Spec/Tiles.lean | tiles: what a window shows, for a pane notation |
| Spec/Modular.lean | rows of documents below each other, each printed on its own |
| Spec/Morph.lean | renamed documents; other styles |
| Spec/Widths.lean | comparing layouts at two widths |
| Spec/JsonRead.lean | a JSON reader, and the value of an expression |
| Spec/Rewrite.lean | documents that differ by rewrites of their notations |
| Spec/Origin.lean | the strings of a notation and of a document |
| Spec/Terminal.lean | what a terminal shows for some output; the colours of a JSON value |
| Spec/Work.lean, Spec/Session.lean | the written-out notation of a document, and how much work it is; sessions (C55) |
| Spec/Closed.lean | a document some of whose nodes cannot be looked into |
| Spec/JsonWork.lean | size and depth of a JSON expression |
| Spec/Contract.lean | implementations that agree within the contract of the PrettyDoc trait |
| Spec/Dim.lean | a document some of whose nodes cannot be evaluated |
| Spec/Nested.lean | documents whose nodes display their children on separate lines; the size of a single notation |
| Spec/Measure.lean | rows that show whole lines |
| Spec/JsonWindow.lean | C61: JSON expressions without comments, number of entries, nesting, ids |
| Spec/Generate.lean | C62: the values of a generator, notations made of given parts and their sizes, sizes of trees |
| Spec/Ideal.lean, Spec/Reference.lean | C64: the layout that decides choices by the finished layout; documents of the reference implementation as notations |
| Spec/Marks.lean | C65: notations and documents that differ only in focus marks, Empties and grouping |
| Spec/FocusTest.lean | C66: the text of a sequence of tokens |
| Spec/RefLaws.lean | C67: contexts, sameness and normal forms of documents of the reference implementation |
| Spec/Wrap.lean | C68: filling lines with words, full lines, and words between gaps |
| Spec/JsonOracle.lean | C69: widths of the texts and the punctuation of a JSON document |
| Spec/Display.lean | C70: notations that are the same up to grouping, strings without quotes, names that can be told apart |
| Spec/Ink.lean | C71: the characters that matter of a string, of what a notation shows and of what a document shows; notations whose options agree on them |
| Spec/Programs.lean | C73: the source text of a program, its width and the depth of its indentation |
| Spec/Depth.lean | C74: the height of a notation, `Left`s on their own, the notations that come up in printing |
| Spec/Stack.lean | C74: printing some lines with a limited stack |
| Spec/Reformat.lean | C75: trees that differ in ids only, the same calls of json_*, documents without comments |
| Spec/JsonFormat.lean | C76: a formatter for JSON, line by line |
| Spec/DemoFormat.lean | what the demo program shows, exactly: the value as an expression for the formatter |
| Spec/JsonFocus.lean | where the nodes of a JSON document are: the lines above a node, what is to its left, and its own lines |
| Spec/Geometry.lean | positions that fit their types, and what a position means on a page (C80) |
| Spec/ProgramFormat.lean | formatters for the programs of the tests: what is written on which line (C81) |
| Spec/OnePass.lean | the printer as a function of one pass over the tree (C82) |
| Spec/Reworded.lean | documents that differ in texts of the same width (C83) |
| Spec/Resume.lean | what a caller sees who goes on after an error |

The chain of trust for printing is: code model = `NTree.layout` (C01, C02, by simulation);
`NTree.layout` = the relation `Greedy` (C10_greedy_exists_unique, C10_iff); the tree of a document is what
the inductive rules `Shows` say (C17, C20, `printed_shows`).  So a reader can check either description.

## 5. Properties

Status and exact theorem names are in `MANIFEST.json`.

| Id | Property | Modelled code | How it is proved | Theorems (namespace `PPP`) |
|---|---|---|---|---|
| C01 | Whole-document printing is the greedy left-to-right layout | pretty_print_to_string, Printer, Block, eval | simulation: the blocks of the printer denote a sequence of notation trees (`Rep`), and every step preserves what the greedy layout of the rest displays | `C01_to_string_is_layout`, `C01_to_string_iff` |
| C02 | Focus independence | pretty_print with all seek functions, both iterators | the state after seeking denotes a split of the layout; lines above and below are the lines of the two parts | `C02_focus_independent`, `C02_same_as_from_start` |
| C03 | FocusTarget::Start splits the output just before the node | seek_start, seek_child | node boundaries are tokens of the layout; the split is at the node's opening token | `C03_start` |
| C04 | FocusTarget::End splits the output just after the node | seek_end | same, closing token; blocks before it stay unresolved and are resolved when printing upwards, with the same result | `C04_end` |
| C05 | FocusTarget::Mark finds the node's own first FocusMark | seek_mark | the split is at the first mark token with the node's id | `C05_mark_general`, `C05_own_mark`, `C05_missing` |
| C06 | FocusTarget::Text(n) focuses before the n'th character | seek_text, Textual::split_at | the split is inside of the first document text; splitting does not change later choices if widths add up | `C06_text`, `C06_segments` |
| C07 | A path is accepted iff its nodes are displayed | seek_child | search over the layout's tokens; converse by the exact error spec of seeking | `C07_invalid_path_iff`, `C07_displayed_path_accepted` |
| C08 | Iterators are lazy, exact and fused | UpwardPrinter/DownwardPrinter::next | each `next` removes one line from what the state denotes; `None` is stable | `C08_up_iterator`, `C08_down_iterator`, `C08_fused` |
| C09 | Agreement with the oracle printer | oracle.rs | the oracle computes the greedy layout, by induction on notation trees; `first_line_len` against the declarative line lengths | `C09_agree`, `C09_agree_iff`, `C09_oracle_right`, `C09_texts_wide`, `C09_no_eol`, `C09_oracle_total`, `C09_width_limit`, `Ex.C09_zero_width_disagree` |
| C10 | A choice shows its first option exactly when that fits | choose, fits | `fits` decides the declarative condition on the tokens of the rest of the line; layouts are exactly the derivations of an inductive relation | `C10_printed_is_greedy`, `C10_focused_print_is_greedy`, `C10_greedy_exists_unique`, `C10_iff` |
| C11 | Picking a first option never breaks the line | choose, fits | the line after a first option is the one `fits` looked at | `C11_first_option_keeps_line`, `C11_printed` |
| C12 | Lines overflow only when unavoidable | choose, fits | induction over the choices of the line, comparing with any other resolution | `C12_overflow_only_if_unavoidable`, `C12_first_line`, `C12_printed` |
| C13 | Printing never panics and always terminates | every panic site of the printer | `Fail.panic` and divergence are unreachable: total-correctness triples `Sat` with a measure on trees | `C13_pretty_print_returns`, `C13_iterators_return`, `C13_to_string_returns`, `C13_session_returns` |
| C14 | The printer honours the PrettyDoc calling contract | all calls of document methods | documents that panic whenever the contract is broken: still no panic | `C14_contract` |
| C15 | TextAfterEndOfLine is reported exactly when it happens | Block::push_text | the layout fails at such a token, in both directions | `C15_printed_has_no_text_after_eol`, `C15_text_after_eol_iff`, `C15_outcomes` |
| C16 | Flat picks every first option | eval with flat | the tree of a notation in `Flat` is the tree of first options | `C16_flat_node`, `C16_flat`, `C16_flat_root` |
| C17 | Indentation | IndentNode, Block::new | inductive `Shows` rules carry the enclosing indentations; trees agree with them | `C17_indentation`, `C17_lines`, `printed_shows` |
| C18 | Fold is a left fold over the children | eval of Fold/Left/Right, JoinPos | `fold` means the same as its unfolding by substitution; notations that mean the same print the same | `C18_fold_is_unfold`, `C18_unfold_spec`, `C18_valid_first_closed`, `C38_alike_print_same`, `C18_law` |
| C19 | Child, Count and Check select what they document | eval of Child/Count/Check, normalize_child_index | case analysis; errors are traced to a mismatching place in the document | `C19_child`, `C19_count`, `C19_check`, `C19_childIndex`, `C19_childIndex_none`, `C19_mismatch_fails`, `C19_child_errors`, `C19_errors_explained`, `C19_print_errors_explained`, `C19_iterator_errors_explained` |
| C20 | Style composition order | with_optional_style, eval of Style/Child | the style is a left fold over the styles met, for any `combine` | `C20_styles`, `printed_shows`, `around_extends` |
| C21 | Validation accepts exactly the well-scoped notations | validate_rec | both directions against declarative flaws, by structural induction with context and history generalised | `C21_accepts_iff`, `C21_error_is_flaw` |
| C22 | Validation rules out TextAfterEndOfLine for self-contained notations | validate_rec, push_text | history over-approximates the displayed tokens for notations without Child and Fold | `C22_valid_no_text_after_eol`, `C22_no_layout_has_text_after_eol` |
| C23 | Panes: space is never over-allocated and is used up when it can be | Divvier | arithmetic of the three phases | `C23_succeeds_iff`, `C23_remaining`, `C23_sum` |
| C24 | Panes: proportional shares are fair | allocate_proportional | stable sorting of remainders; uniqueness of fair divisions | `C24_fair`, `C24_unique` |
| C25 | Panes: Fixed is first come, first served and has priority | allocate_fixed, allocate_dynamic | list induction | `C25_fixed_and_dynamic` |
| C26 | display_pane only writes inside the window | display_pane | every call of every pane lies in its rectangle; rectangles nest | `C26_in_window` |
| C27 | display_pane writes each cell at most once | display_pane | rectangles of subpanes are disjoint | `C27_at_most_once` |
| C28 | display_pane writes every cell exactly once when the panes cover the window | display_pane | counting cells; success by total-correctness lemmas | `C28_exactly_once`, `C28_tiled`, `C28_succeeds` |
| C29 | A document pane shows the printed lines | PrintedDoc, display_line | the list of calls is given in closed form from the printed lines | `C29_doc_pane`, `C29_layout` |
| C30 | Focus row and set_focus position | choose_focus_line_row | exact model of two `f32` roundings | `C30_focus_row`, `C30_lines`, `C29_doc_pane` |
| C31 | PlainText shows what was written | PlainText | a cell shows the last write; rows of a displayed document as text | `C31_contents`, `C31_rows`, `C31_doc_text`, `C31_unbounded_height` |
| C32 | Tree: separators and comments | Tree::new_branch | list induction | `C32_separators`, `C32_fresh`, `C32_comment`, `C32_isEmptyText` |
| C33 | JSON documents always print | the JSON notations | layouts of JSON trees exist at every width, by induction over expressions, with the line state generalised | `C33_to_string`, `C33_no_error`, `C33_focus`, `C33_other_targets`, `C33_ids` |
| C34 | JSON output content does not depend on the width | the JSON notations | the text of every layout strips to the compact text | `C34_content`, `C34_closed`, `C34_width_independent` |
| C35 | Choice-free documents are width independent | choose | layouts of trees without choices do not mention the width; for errors and focused printing, a simulation between the printer at one width and at another (Proofs/Width) | `C35_width_independent`, `C35_no_choices`, `C35_to_string`, `C35_focused` |
| C36 | Column arithmetic does not overflow below 65536 columns | u16 additions and subtractions | every intermediate column is at most the width of a final line | `C36_no_overflow`, `C36_overflow_if_too_wide`, `C36_focused_no_overflow` |
| C37 | Line widths are what segments say | Line, FocusedLine, Segment | invariant on segments | `C37_segment_widths`, `C37_focused_to_line` |
| C38 | Notation operators mean what they say | the operators | trees of operators; equivalence of notations is a congruence and implies equal prints | `C38_add`, `C38_caret`, `C38_shift`, `C38_or`, `C38_operator_trees`, `C38_laws`, `C38_alike_print_same` |
| C39 | BasicStyle combination | BasicStyle | direct, and for printed segments through C20 | `C39_combine`, `C39_setters`, `C39_assoc`, `C39_unit`, `C39_nested`, `C39_printed`, `C39_labels` |
| C40 | Errors in parts that are not printed do not matter | partial printing | corollary of the exact specs: partial prints of documents with a layout never fail | `C40_partial_print_no_errors`, `C40_partial_print_lines` |
| C41 | Printing depends only on what it looks at | all of printing and displaying | a simulation between two documents, through fixpoint induction on every loop; no hypotheses on the document | `C41_unavailable_nodes`, `C41_to_string`, `C41_display`, `C41_same_failure`, `C41_to_string_same_failure`, `C41_display_same_failure` |
| C42 | Peephole printing: only what is near the focus is looked at | prettyPrint and both iterators | views (Spec/View.lean) say what has been looked into; every loop of the printer keeps the blocks in step with a view and fails only where the specification allows it; with C41 the result does not depend on the rest | `C42_only_nearby`, `C42_rest_is_irrelevant` |
| C43 | Only the rows of the window matter | prettyPrint and both iterators | corollary of C42: nothing near a row is outside of the rows of the window, by an invariant on views | `C43_window`, `C43_other_rows_irrelevant` |
| C44 | What the whole window shows | display_pane_rec with all kinds of panes and sizes, PrintedDoc, the Divvier | Spec/Tiles.lean relates a pane notation to the tiles it stands for; induction on the pane notation shows that a successful run displays such tiles, and that the tiles are unique | `C44_tiles`, `C44_tiles_unique`, `C44_displays`, `C44_excerpt` |
| C45 | Displaying panes fails only for good reasons | display_pane_rec and everything it calls | a partial-correctness predicate on runs (result satisfies a postcondition or the failure has a reason), proved for every function by induction on the pane notation; termination likewise, from C13 | `C45_returns`, `C45_failures_explained`, `C45_no_panic`, `C45_dynamic_docs` |
| C46 | Trees are what they were built from | Tree, its builders and its PrettyDoc methods | case analysis, and induction on the list of children and of overrides | `C46_text_or_children`, `C46_builders`, `C46_overrides` |
| C47 | The line iterators after an error | UpwardPrinter, DownwardPrinter and the expand functions once more, with the state kept after a failure (Model/Resume.lean) | a measure on the stacks of blocks decreases with every call, also with those that fail; the state-keeping loops agree with the plain ones (fixpoint induction); blocks further down a stack play no role before their turn (frame lemmas) | `C47_returns`, `C47_exhausts`, `C47_unique`, `C47_until_error`, `C47_parts_down`, `C47_parts_up` |
| C48 | Printing is modular | prettyPrint and the line iterators | an indentation commutes with the notation tree, with what fits and with the layout (induction on the tree); a newline ends the question of what fits, so what follows it does not matter; induction on the rows | `C48_rows`, `C48_to_string`, `C48_two_children`, `C48_rows_unique` |
| C49 | Styles and ids are only passed through | prettyPrint, the line iterators and pretty_print_to_string | a simulation: every function of the model commutes with renaming (fixpoint induction for each loop); with termination (C13) the results are equal; for styles, both documents are renamed to one with a single style | `C49_renaming`, `C49_to_string`, `C49_styles`, `C49_styles_to_string`, `C49_ids_to_string`, `C49_ids`, `C49_renaming_root` |
| C50 | How the output depends on the width | prettyPrint and the line iterators | both layouts start in the same state; induction on the greedy layout: what fits at a width fits at a larger one, and until the first different decision the states are equal; in a wide enough window what fits does not depend on the width (induction on the tree, with a bound on the column) | `C50_strings`, `C50_wider`, `C50_between`, `C50_all_first`, `C50_all_second`, `C50_wide`, `C50_wide_focused`, `C50_eventually` |
| C51 | JSON can be read back | the json_* constructors and their notations; pretty_print_to_string | C34 reduces the printed text to the compact text; then by mutual induction on the value: the reader (Spec/JsonRead.lean, with a bound on its depth that is the length of the text) reads the compact text back, whatever follows; json_roots: C48, and a node whose notation does not check the node itself prints the same with and without its needs_separator flag | `C51_round_trip`, `C51_injective`, `C51_roots`, `C51_roots_read`, `C51_roots_empty` |
| C52 | Laws for rewriting notations | notations, and documents that differ in their notations | the laws are the rules of NEquiv (Spec/Equiv.lean); by induction on its derivations the trees of equivalent notations have the same greedy layouts in every context; the two non-laws are concrete documents | `C52_choice_laws`, `C52_flat_laws`, `C52_style_laws`, `C52_indent_laws`, `C52_condition_laws`, `C52_rewritten_prints_same`, `C52_choice_assoc`, `Ex.C52_choice_not_assoc`, `Ex.C52_break_before_choice` |
| C53 | Nothing is printed that is not in the document | the whole printer (as for C01, C02) | An invariant over the tree of the document (every string in a leaf of the tree is a string of the document) is kept by the layout; C02 relates every printed line to the layout. | `C53_segments`, `C53_chars`, `C53_to_string` |
| C54 | The demo program shows the JSON file | Model/Demo.lean: json_to_doc (with the id counter), pretty_print_json, lines_to_string, and what main writes to stdout | json_to_doc makes the calls of a JSON expression (so C33, C34, C51 apply); the lines are those of the layout (as in C01); induction over the lines for the terminal; and an invariant of the notation tree (both sides of every choice show the same ink) for the colours. | `C54_outcome`, `C54_screen`, `C54_text`, `C54_cells`, `C54_succeeds`, `C54_formatted`, `C54_round_trip`, `Ex.demo_quote` |
| C55 | Printing does a bounded amount of work | Model/Work.lean: the whole printer once more, with a counter of steps | Amortised analysis: every delayed notation, chunk and block carries a potential (12 times the work of its shape, minus a small constant that depends on where it is); every function of the printer takes at most as many steps as the potential decreases, by strong induction on the potential (which also proves termination). | `C55_same_prettyPrint`, `C55_same_nextUp`, `C55_same_nextDown`, `C55_same_to_string`, `C55_same_session`, `C55_to_string`, `C55_session_root`, `C55_session`, `C55_session_scan`, `C55_lookahead`, `C55_quadratic`, `C55_at_least` |
| C56 | The work of printing part of a document does not depend on the rest | The counted printer of C55 and the extensions of documents of C41. | A simulation between the counted runs on the two documents (Proofs/ExtendC.lean, the counted version of Proofs/Extend.lean), then C55 for the smaller document and C42/C43 for what is close. | `C56_same_steps`, `C56_session`, `C56_only_nearby`, `C56_rows`, `C56_closed` |
| C57 | Printing a JSON document is linear in its size times its depth | Model/Json.lean (the sample notations), Model/Work.lean (the counted printer).  Specification: Spec/JsonWork.lean (size and depth of an expression). | The shapes of the notations of arrays, objects, comments, pairs and files are computed (folds by induction over the children); inside of a `Flat` there are no choices, so a look ahead is linear in the size; outside, what follows an item on its line is a separator or nothing, so the look ahead beyond it is bounded by a constant.  The work is then bounded by induction over the expression, with the saving of one level of depth paying for the look ahead. | `C57_work`, `C57_to_string`, `C57_session`, `C57_session_root` |
| C58 | What a document does outside of its contract does not matter | The printer, its counted copy and display_pane, on two documents. | Both implementations extend the one that panics outside of the contract (the simulation of C41, with errors kept); that one never panics (C13, C14). | `C58_session`, `C58_to_string`, `C58_display` |
| C59 | Printing a few lines costs what these lines cost, not what the document costs | the counted printer of C55, run on the document with the nodes outside of the window made dark | a counted simulation (Proofs/Dim.lean): a session on the dimmed document that does not touch a dark node takes the same steps on the document; the tree and shape of the dimmed document (Proofs/DimTree.lean); which lines each node is on, and that C42's NearFails does not happen for nodes outside the window (Proofs/PlanView.lean, Proofs/PlanTree.lean); the work of the dimmed document, by induction on its tree, counting each line of the window at most once per level; the lower bound by the potential argument of C55 (Proofs/OwnLeast.lean) | `C59_window`, `C59_window_scan`, `C59_at_least`, `C59_dark_nodes_are_free`, `C59_near` |
| C60 | What the printer says fits is shown in full, and the cursor is at the focus | str_width (with its truncation to u16) and is_char_full_width, in Model/Geometry.lean, over the widths of characters | the columns of a line in the window are the sum of its segment widths (C37), so clipping does nothing; then C29, C30, C31, C44; that the style does not matter for the text is C49 | `C60_widths_add`, `C60_texts_additive`, `C60_columns`, `C60_nothing_cut_off`, `C60_cursor`, `C60_window_text`, `C60_dynamic_width` |
| C61 | Peeping into a large JSON document does not cost what the document costs | the JSON examples (Model/Json.lean), the counted session (Model/Work.lean) | plans: which lines every node takes up (a node is on one line iff it is at most as wide as the page) and in which column of its parent it begins; the nodes that are outside of the lines printed and begin too far to the right are made unavailable; nothing near the focus fails (GPlan.noNearFails, by induction over the views of C42), so C59_near applies; the number of available nodes is bounded by counting columns and lines. | `C61_json_window`, `C61_json_window_scan`, `C61_counter`, `C61_ids` |
| C62 | The generators of the test suite generate everything, once | tests/standard/generative_testing.rs and NotationGen (Model/Generate.lean) | the stack of the iterator is a path through the decision tree; what is left to be returned is defined along the path, a call of next returns the first of it, advance goes to the path of the rest; induction over sizes for the two generators | `C62_iterator`, `C62_collect`, `C62_up_to_size`, `C62_random`, `C62_notations`, `C62_trees` |
| C63 | The comparison of the printer with the oracle succeeds for notations of all sizes | the test helpers and the test (Model/OracleTest.lean), the oracle, the printer | C09_agree with bounds on the widths of lines (by induction over the notation), C22 to exclude text after an end of line, C02-C04 for the focused prints, all_paths by induction over the document | `C63_agree`, `C63_passes`, `C63_loop`, `C63_oracle_tests`, `C63_assert_pp`, `C63_detects`, `C63_loop_detects`, `C63_oracle_tests_detect` |
| C64 | Looking to the end of the line is as good as looking at the whole layout | outdated-proofs/refn_impl_cont.hs and refn_impl_tree.hs (Model/Reference.lean), the printer | if the rest of the line fits with second options then it fits in the finished layout (no requirement needed), and conversely by the requirement, both by induction over the finished layout; so both rules take the same options. The Haskell code by induction over the document, with the continuation related to what is displayed before and after | `C64_ideal`, `C64_printed`, `C64_exists_unique`, `Ref.C64_same_reference`, `Ref.C64_reference`, `Ref.C64_requirement_needed` |
| C65 | Focus marks take no space | the printer | trees and layouts are brought into a normal form without marks and empties; documents that are alike have the same normal form, fitting and layout commute with it, and positions in a layout are those of its normal form | `C65_marks_invisible`, `C65_focus`, `C65_refused`, `C65_marks`, `C65_match_needed` |
| C66 | The test suite checks the focus exactly | print_above_and_below, the three assertions and print_region, with String::insert at a byte offset | the lines before and after the focus are those of the tokens before and after it (C03 to C06); inserting a character at the end of a block of lines and joining lines are homomorphisms | `C66_seek`, `C66_focus`, `C66_region`, `C66_region_rows` |
| C67 | The laws of pretty printing, for the reference implementations | the two reference implementations (as for C64) | a document is given by its results under all continuations that keep errors and lose no lines; this is preserved by contexts, and each law is an equation about such results; the normal form by induction with the laws | `Ref.C67_equivalence`, `Ref.C67_printed`, `Ref.C67_concat`, `Ref.C67_text`, `Ref.C67_indent`, `Ref.C67_flat`, `Ref.C67_error`, `Ref.C67_choice`, `Ref.C67_not_distributive`, `Ref.C67_distinguishes`, `Ref.C67_normal_form`, `Ref.C67_fails_iff`, `Ref.C67_printer` |
| C68 | Word wrapping fills lines first come, first served, with as few lines as possible | flow_wrap.rs in tests/standard/test_cases and json_comment | the greedy layout of the tree of a folded paragraph, by induction on the words; fewest lines by the usual exchange argument, by induction on the other division | `C68_paragraph`, `C68_comment`, `C68_empty_comment`, `C68_empty_paragraph`, `C68_fill_iff`, `C68_fewest_lines`, `C68_fits`, `C68_words`, `C68_words_exist` |
| C69 | Every JSON document passes the repository's comparison with the oracle | json.rs, oracle.rs and pretty_testing.rs | C09 and C63, applied to JSON: by induction on the document, however its choices are taken, the first text after an EndOfLine on the same line is a separator or a closing bracket | `C69_agree`, `C69_assert_pp`, `C69_counter`, `Ex.C69_example` |
| C70 | Displayed notations and error messages tell things apart | Display and error messages of notation.rs, valid_notation.rs, consolidated_notation.rs | a canonical form of notations (concatenations grouped to the right) can be read back from the characters, by induction on the notation; digits and quoted strings end where they have to | `C70_display_iff`, `C70_display_same_meaning`, `C70_quotes_ambiguous`, `C70_notation_error_messages`, `C70_printing_error_messages`, `C70_pane_error_messages`, `C70_positions`, `Ex.numbers_readable`, `Ex.C70_example`, `Ex.C70_index_example` |
| C71 | What matters of the printed text does not depend on the width | pretty_print_to_string, for documents that implement PrettyDoc lawfully | the denotation of every notation shows the same characters whichever options are taken, by induction on notations and on the document; the printed text is made of what the denotation shows | `C71_ink`, `C71_width_independent`, `C71_options_must_agree`, `Ex.exDoc_steady` |
| C72 | When all choices show their first options | choices of pretty_print.rs | induction on the way in which choices are taken; replacing what follows by its second options keeps the line fitting | `C72_first_options`, `C72_printed`, `C72_narrower`, `C72_requirement_needed` |
| C73 | The program documents of the test suite | the document types of iter_chain.rs and ruby_loop.rs, and their builders | the tree of a program, by induction on the program, has only choices that obey the documented requirement, so C10, C72, C71, C09 and C63 apply | `C73_chain_text`, `C73_chain_one_line`, `C73_chain_prints`, `C73_chain_assert_pp`, `C73_ruby_text`, `C73_ruby_one_line`, `C73_ruby_prints`, `C73_ruby_assert_pp`, `Ex.C73_iter_chain_iter_map_collect`, `Ex.C73_iter_chain_long_method_body`, `Ex.C73_iter_chain_long_methods`, `Ex.C73_ruby_loop` |
| C74 | Printing takes little stack | a single invocation of `eval` (C74_eval_step: iterated, it is `eval`); the printer with room for K nested invocations of `eval` (Model/Stack.lean) | an invariant of reached notations (a place in the valid notation of a node of the document), and a measure that each call decreases; a simulation of the printer by the one with a limited stack | `C74_eval_step`, `C74_depth`, `C74_depth_guarded`, `C74_depth_unique`, `C74_depth_grows`, `Ex.C74_list_depth`, `C74_printing`, `C74_printing_guarded`, `C74_to_string`, `C74_to_string_guarded`, `C74_json`, `C74_runs_out` |
| C75 | Formatting JSON is canonical | as for C51 and C54 | giving all nodes the same id is a renaming that the methods respect (C49_to_string); without comments, the value determines the calls; with C51 | `C75_tree_ids`, `C75_same_calls`, `C75_same_value`, `C75_reformat`, `C75_settles`, `C75_demo`, `C75_demo_again` |
| C76 | How JSON is laid out, exactly | as for C51; the formatter is a separate function on JSON values | by induction on the document, for every text before it on its line and every rest of the line after it: the layout of C10 that the printer makes is the one of the formatter; `fits` is decided for the flat form; C68 for the comments | `C76_layout`, `C76_one_line` |
| C77 | Wider JSON is shorter, and only what must is too wide | as for C76 | by induction on the document, for the formatter of C76: the lines for two widths are compared; C68 (fewest lines) for comments | `C77_fewer_lines`, `C77_too_wide`, `C77_same`, `C77_fits` |
| C78 | Where the nodes of a JSON document are in its text | as for C76 | by induction on the document: the greedy layout puts the child after a prefix whose lines are known (Proofs/FocusAt.lean); then C03, C04 | `C78_start`, `C78_end`, `C78_all`, `C78_words`, `C78_node` |
| C79 | JSON in a pane | as for C78 and C29 | from C29_doc_pane, C28_succeeds and C78: the output of printing a JSON document is known | `C79_pane`, `C79_succeeds` |
| C80 | Positions and sizes | the addition of a size to a position and the derived orders (Model/PosOrder.lean, Model/Display.lean) | case analysis and arithmetic | `C80_add`, `C80_overflow`, `C80_add_add`, `C80_reading_order`, `C80_shift`, `C80_size_order` |
| C81 | How programs are laid out, exactly | Model/Programs.lean (see C73) | for each kind of notation tree: the columns that have to be on the current line, and what it writes; then the trees of programs by induction, and C10 | `C81_chain`, `C81_ruby` |
| C82 | Printing in one pass; what an edit can change | Model/Printer.lean (see C10) | the greedy layout of C10 by induction: what is written, and that the three facts decide what fits; the effect of edits by induction on the tree | `C82_one_pass`, `C82_error`, `C82_focused`, `C82_before`, `C82_edit_first`, `C82_edit_second` |
| C83 | Texts of the same width | Model/Printer.lean, Model/Tree.lean (see C10, C44) | the trees of the two documents have the same shape; the layout of C10 makes the same decisions on both by induction; the focus through C03 and C07 | `C83_lines`, `C83_focus`, `C83_to_string`, `C83_tree`, `C83_json` |

Notes on hypotheses:

* **C02**: For FocusTarget::Text the document's texts must have additive widths (splitting a string does not change its width).
* **C09**: str_width must add up over concatenation (as far as u16 counts), no text wider than m, no line of the layout wider than b, m + b <= 55535, width < 10000. The condition on zero-width texts is necessary: C09_zero_width_disagree is a document on which the two printers differ.
* **C12**: 'Fits' for a line includes having no text after an end-of-line mark, as in the code.
* **C13**: Column overflow of the u16 counter is a separate outcome in the model (Fail.overflow), not a panic.
* **C15**: For documents that match their notations (no other error is possible) and have no line wider than 65535 columns.
* **C17**: Shows (Spec/Shows.lean) is the specification of what each notation displays.
* **C21**: Flaw is a separate declarative specification (Spec/Flaws.lean): occurrences, what encloses them, and what may be displayed before them.
* **C22**: No hypothesis that the notation matches the node.
* **C23**: Includes exactly when dividing fails (assertion failures, division by zero, usize overflow).
* **C28**: Exactly-once needs the pane tree to be tiled (Spec/Pane.lean: no leftover space, no missing or dynamic document); in general only C27 (at most once) holds.
* **C30**: For pane heights up to 2^24 rows; focusRow_outside shows a larger height for which f32 rounding leaves the pane.
* **C32**: Which children get NeedsSeparator, for every list of children; into_comment, IsEmptyText.
* **C33**: For every expression of json_* calls (arrays hold values and comments, objects pairs and comments) and every width. The only failure is a line wider than 65535 columns. Focused prints: every path to a node, under the hypothesis that a node's id is greater than its children's, which C33_ids proves for ids given by the counter.
* **C34**: Removing comments and white space outside of strings from the printed text gives the compact JSON text of the value, at every width. Strings must come with quotes and backslashes escaped, since json_string does not escape.
* **C38**: Associativity and units are proved for documents that match their notations; otherwise the error that is reported first may differ.
* **C39**: BasicStyle combination and label lookup, and what that means for printed segments.
* **C41**: No hypothesis on the document. Nodes whose methods return errors may be replaced by anything.
* **C42**: What is near is specified in Spec/View.lean (NearFails). It is an upper bound on what the printer looks at; the time it takes is not modelled.
* **C43**: Targets Start and End. Ids must tell the rows apart. Ex.fileP is a file with any number of lines, to which the theorems apply.
* **C44**: Spec/Tiles.lean is the specification of the window.
* **C45**: Window sizes up to 65533 x 2^24 for the explanations. Overflow is explained too: a focus too far to the right, or a document that overflows when printed.
* **C47**: Model/Resume.lean models the iterators with the state they are left in by an error. The parts theorems are for notation child(a) ^ child(b), focus Start and End.
* **C51**: f64::to_string is not modelled: a number is given by its text.
* **C52**: The documents have to match their notations (no error is reported); if they do not, the error that is reported first may differ. C38_alike_print_same is the version for arbitrary document types.
* **C53**: The specification is 25 lines (Spec/Origin.lean). Example: no slash is ever printed for the example document, at any width.
* **C54**: The terminal (what it does with the escape sequences), the colours of a value and the JSON reader are specifications of their own (Spec/Terminal.lean, Spec/JsonRead.lean). serde, clap, termion's escape sequences (given as constants) and the timings are not modelled. Ex.demo_quote is a defect: the demo does not escape strings, so a file with an escaped quote is not shown as JSON.
* **C55**: The counted program (Model/Work.lean) is a copy of the printer with a counter; C55_same_* prove that it computes the same. Time inside of the trait methods and the length of texts are not counted.
* **C56**: Steps are those of C55 (`scan = 0` in the bounds: chunks scanned by seek_child are counted by C55_session_scan only; C56_same_steps holds for every `scan`).
* **C57**: The size counts the nodes of the tree (with the words of comments and the keys of pairs); the depth factor is needed: the output itself can be quadratic, since lines are indented by their depth. The steps are those of the counted program of C55.
* **C59**: Steps as counted by Model/Work.lean (C55). Focus targets Mark and Text are not covered by C59_window (where the mark is depends on the notation), nor are choices that depend on the width; C59_dark_nodes_are_free and C59_near cover both. With the scans of seek_child counted, the bound is quadratic (C59_window_scan). The depth bounds how often nodes are nested; the size of a notation includes one line break per child, so the bound is best for nodes with few children.
* **C60**: The widths of characters (tables of the crate unicode-width) are a parameter; that the width of a string is the sum of the widths of its characters is true for unicode-width up to 0.1.12. An example shows that the condition on characters is necessary: an accent (0 columns) takes a column in the window, so the end of the text is cut off.
* **C61**: Steps as counted by Model/Work.lean (C55); C61_json_window does not count the chunks scanned by seek_child, C61_json_window_scan does. Comments and json_roots are excluded. The widths of "[", "{" and ": " must not be 0.
* **C62**: A generator is modelled as a decision tree over the numbers picked (the trait requires it to be a pure function of them).
* **C63**: str_width is a parameter: it has to add up, and to give the widths of the four strings used.
* **C64**: In the reference implementation the width of a string is its length, so the comparison with it is for str_width = length. Its Flat (a newline is an error) is different from the printer's (every choice takes its first option), and is left out of the comparison, as is Err.
* **C65**: The document must match its notations: otherwise a mark can hide a mistake in an option that is not taken (C65_match_needed).
* **C66**: C66_region is about documents that have a layout; print_region itself looks at the lines near the focus only.
* **C67**: The laws are about the two Haskell reference implementations in outdated-proofs; C38 and C52 are about the laws of the Rust printer.
* **C68**: For a comment that is a document of its own; inside a document, its lines start further to the right.
* **C69**: str_width must add up over concatenation and give some width to separators and closing brackets; no text wider than m, no printed line wider than b, m + b <= 55535.
* **C70**: Readable: labels can be told apart in front of a comma; conditions have different names without spaces, quotes, parentheses and @. The Display instances of crate-private types are not modelled.
* **C71**: Steady is checked for one notation at a time. Characters of width zero, and texts with newlines in them, are treated like any other characters.
* **C72**: Stated for the declarative greedy layout (C10) and for pretty_print_to_string.
* **C73**: The tests of both files are concrete cases. `depth` counts indentations of four spaces, and `cols` the columns of the source.
* **C74**: `Reached` are the delayed notations that a printer can evaluate: that of the root, and the parts of the evaluated ones (every call of eval in pretty_print.rs is on the root, on a part of a concatenation or a choice, or on a child). Model/Stack.lean is the printer with a limited stack; recursion in Drop is not modelled.
* **C75**: The reader is `readJson` (C51), which keeps strings as written between their quotes.
* **C76**: Documents as they are built by the `json_*` functions, with any strings and numbers. The formatter of Spec/JsonFormat.lean is executable; `Ex.fmtJson_lines` runs it.
* **C77**: `docLines` is the formatter of Spec/JsonFormat.lean; C76 says that its lines are what is printed.
* **C78**: Spec/JsonFocus.lean extends the formatter of Spec/JsonFormat.lean (C76).
* **C79**: Spec/JsonFocus.lean (C78) and the pane model (C27-C29).
* **C80**: Spec/Geometry.lean: a position in range; the number of characters before a position on a page.
* **C81**: Spec/ProgramFormat.lean: formatters that write on a page; no notations, no choices.
* **C82**: Spec/OnePass.lean: `NTree.ahead` and `NTree.write` are structurally recursive functions on the trees of Spec/NTree.lean.
* **C83**: Spec/Reworded.lean: `Rewording` relates two nodes method by method (through the trait only); failures of the documents have to be the same too.

Every property of the list can be expressed in the model.  The README's claim of peephole *efficiency*
is modelled as what the printer looks at (C42, C43: only what is near the focus; C41: what is not looked at
cannot matter) and as the number of steps it takes (C55).  The time taken inside of the trait's methods, the
copying of text, and memory are not modelled.

## 6. Findings about the code

Places where the code differs from its documentation or from what one may expect.  Those marked with a
name have a witness in Lean.

* The two printers (oracle and real) disagree on zero-width text after an `EndOfLine`
  (`Ex.C09_zero_width_disagree`), and the oracle panics at widths from 10000 (`C09_width_limit`).
* `FocusTarget::Text` on a node without text focuses the text of a *later* node instead of returning
  `MissingText`; `FocusTarget::Mark` finds a later mark of a node with the same id (hence the hypothesis
  of `C05_missing`).
* `FocusTarget::Text` splits the segment of the text; if `str_width` is not additive at the split, the
  layout of the rest of the line may change (hence the hypothesis in C02).
* `Fold` on a text node is reported as `NumChildrenChanged`.
* A mismatch between notation and document may be reported or not depending on a focus mark next to it
  (`C65_match_needed`): a `Concat` is looked into later than a `Child`.
* Validation does not rule out text after an end of line across `Child` or `Fold`: `eol + child(0)` is
  valid (`Ex.eolDoc`).  C22 is about notations without these.
* `Proportional` panes which all have weight 0 make `display_pane` panic (division by zero), and so do
  weights for which `cookies * weight` overflows (examples in Props/Divvy.lean).
* "Every cell is written exactly once" (documentation of `PrettyWindow`) holds only if the panes tile the
  window: a label without content or left-over space is not written.  "At most once" always holds.
* A `Dynamic` pane in a `Vert` whose document is shorter than the space, with `focus_height > 0`: blank
  rows are shown instead of the document's first lines, and `set_focus` may be outside of the pane.
* `Fill` and `display_line` overflow `u16` in windows of 65534 or more columns.
* `PlainText::new_unbounded_height` with focus height 1.0 overflows; for heights above `2^24`, `f32`
  rounding may put the focus row outside of the pane (`focusRow_outside`).
* Zero-width characters take one column in a pane but none for the printer, so that a pane as wide as its document
  cuts off the end of a line with accents (example in Props/Measure.lean); `PlainText` drops `'\0'`.
* `BasicStyle` has no right unit: a child with the default style resets the colour (example in
  Props/TreeStyle.lean).  The label `"green_bold"` used for JSON constants is not a label of `BasicStyle`
  (`"bold_green"` is), so constants are printed in the default style.
* `json_string` does not escape quotes and backslashes (hypothesis of C34).  The demo program calls it with
  strings in which serde has removed the escapes, so what it prints for the file `"\""` is not JSON
  (`Ex.demo_quote`).
* `Tree::new_branch` never resets `needs_separator`: a tree that was a child before keeps its flag
  (C32_fresh is about new ones).
* If a document has several errors, the one that is reported depends on the order of evaluation; C01 says
  that there is some error, C15_outcomes and C19_print_errors_explained which.
* `a | b | c` (in Rust `(a | b) | c`) is not the same as `a | (b | c)` if `b` may not fit although `a` does:
  then the former takes `c` (C52_choice_not_assoc).  They agree if the documented requirement on choices is
  obeyed (C52_choice_assoc).
* `seek_child` calls `contains_relevant_chunk` again after every child that it expands, which scans the rest of
  the line: seeking the last of `n` children that stand on one line takes time quadratic in `n` (C55_session_scan
  has a quadratic bound, C55_session is linear if the scan is not counted).
* The documentation of `node_style` says that it is called once per document node.  It is called each time a
  `Child` (or `Right`) is evaluated: again for each option of a choice that displays the child, and again when
  the look-ahead of a choice before it comes across it.
* The documentation of `lookup_style` says that it is called with labels used in `Style`; it is also called with
  the labels of `Indent` (C14 says: with the labels of either, in the node's own notation).
* Printing a single line inside of a node evaluates the whole notation of that node: a `Fold` over all of its
  children is expanded at once, and `notation()` and `node_style()` are called for children that are far away
  from the line (their own notations are not evaluated).  So the cost of a peephole is proportional to the number of
  siblings along the path, not only to the number of lines shown (C59 has the size of a single notation as a factor, and
  C59_at_least shows that it is necessary: one line of a file whose n lines are children of one node takes at least 5n
  steps, where the README speaks of "50 units of work" for 50 lines).
* `generate_all_up_to_size` ("all values of up to the given size") leaves out the values of the given size itself, so
  `oracle_tests` tries all notations of size at most 5, not 6 (C62_up_to_size).
* `print_region` computes `rows / 2 - 1`, so `assert_pp_region` panics when it is asked for 0 or 1 rows
  (C66_region_rows).  For an odd number of rows it shows one row less than asked for (C66_region).
* In `seek_child`, the branch for a block whose chunks run out is unreachable.
* The messages of `NotationError::CountOneChildIndex(i)` and `CountOneCheckPosChildIndex(i)` always say "index 0":
  their format strings are given the literal `0` instead of the field `.0` (C70_notation_error_messages,
  Ex.C70_index_example).
* `Display` of a notation does not escape quotes in literals (C70_quotes_ambiguous), and leaves out the style of an
  `Indent`.
* `eval` calls itself for a `Left`, and Rust does not promise to turn such a call into a jump.  In the usual joins the
  `Left` is part of a concatenation, so that its evaluation is delayed; but a join that skips a child, such as
  `Check(IsComment, RightChild, Left, Left + Right)`, takes a nested call (two, in fact) for each child that is
  skipped, so skipping very many children overflows the stack (C74_depth_grows, C74_runs_out).

## 7. Wrong programs

`seeded/LOG.jsonl` has one line for each edit of the model that imitates a bug: the definition, the edit,
the claim that it breaks, the lemmas that stop compiling first, the theorems of the claim that are lost
with them, and what was tightened.  Edits marked `equivalent` do not change the behaviour.

## 8. Layout and build

`lake build` in `lean/` builds everything (`Verif.lean` imports all modules).  `tools/gen_properties.py`,
`tools/gen_manifest.py` and `tools/gen_design.py` write `properties.jsonl`, `MANIFEST.json` and this file.
