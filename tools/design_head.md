# Formal model of partial-pretty-printer in Lean 4

The code in `/repo` is modelled function by function in `lean/Verif/Model`, specified independently of
its algorithms in `lean/Verif/Spec`, and the properties of `properties.jsonl` are theorems in
`lean/Verif/Props` (lemmas are in `lean/Verif/Proofs`).  `MANIFEST.json` maps properties to theorems.

## 1. Trusted base

* **Lean 4.33.0's kernel.**  No `native_decide`, no `bv_decide`, no axioms of our own.  Every theorem in
  `MANIFEST.json` depends on (at most) the three standard axioms `propext`, `Classical.choice` and
  `Quot.sound`; `decide +kernel` is used for a few concrete examples and is checked by the kernel.
* **The model is a faithful reading of the Rust source.**  The code was not run.  Every definition in
  `Model` cites the file and lines it models and says where it simplifies; section 3 collects that.  As a
  check of the reading, the repository's own tests (`/repo/tests`, and the one in `divvy.rs`) are transcribed in
  `lean/Verif/Tests` and run on the model by `lake build`: the model prints what the authors of the code expect,
  in all of them.  These runs are tests of the model, and no theorem depends on them.
* **The specifications say what the English says.**  They are small and separate (section 4), and each
  property file ends with concrete, non-trivial instances which meet the hypotheses of its theorems.

## 2. How the code is modelled

* `Exec E α = ExceptT (Fail E) Option α` is a run of the code: `none` is divergence, `Fail.err e` a
  returned `PrintingError`, `Fail.panic` a Rust panic, and `Fail.overflow` an overflow of the `u16`
  column arithmetic (a panic with overflow checks, a wrap-around without).  Nothing that can go wrong is
  totalised away: `unwrap`, `expect`, indexing, `assert!`, `panic!` and subtraction all have a failing
  branch.
* Loops and recursive functions are transcribed with `partial_fixpoint`: no fuel and no termination
  measure is built in.  That they terminate is a theorem (C13), by a measure on notation trees.
* `&mut self` methods return the new value.  A `Vec` used as a stack is a `List` whose head is the top of
  the stack.  Iterators are their `next` functions on explicit states; `takeLines k` calls `next` k times.
* The trait `PrettyDoc` is a structure of arbitrary partial functions over an arbitrary type of nodes, so
  theorems range over **every implementation**: each method may return an error or panic.  What an
  implementor has to promise is the separate predicate `PrettyDoc.Lawful` (Spec/Denote.lean): no infinite
  chains of children; notations are valid; `unwrap_last_child` and `unwrap_prev_sibling` agree with
  `unwrap_child`; and methods do not panic when called within their contract.  Methods may panic outside
  of their contract (C14) and may return errors at any time.  C41 needs none of these.
* `str_width`, `is_char_full_width`, `Style::combine`, `From<&str>` for styles and user conditions are
  arbitrary functions.  Where a theorem needs more of one of them, this is a named hypothesis.
* A window (`PrettyWindow`) is whatever happens to the list of calls that `display_pane` makes to it:
  `PrettyWindow.replay` plays the calls on any window, including one that fails on some call.

## 3. What is modelled, and what is not

| Source | Model | Not modelled |
|--------|-------|--------------|
| src/notation.rs | Model/Notation.lean: `Notation`, `CheckPos`, the operators `+ \| ^ >>`, `normalize_child_index`; Model/Display.lean: `Display` of notations, `Debug` of `CheckPos`, the messages of `NotationError` and `PrintingError` | derived `Debug` impls but that of `CheckPos` |
| src/notation_constructors.rs | Model/Notation.lean (see the comments there) | nothing: each function is a wrapper around one constructor (`Box::new`, `to_owned`), so the model uses the constructors |
| src/valid_notation.rs | Model/Validate.lean: `validate`, `validate_rec`, every `NotationError`; their messages in Model/Display.lean | `Clone` |
| src/consolidated_notation.rs | Model/Consolidated.lean: `DelayedConsolidatedNotation::eval` with all cases, `Textual`, `Segment`, `IndentNode`, `JoinPos`; `PrintingError` in Model/Basic.lean, its messages in Model/Display.lean | `Debug`, `Display` of the private types |
| src/pretty_doc.rs | Model/Doc.lean: traits `PrettyDoc`, `Style`; default methods in Model/Tree.lean | |
| src/pretty_print.rs | Model/Printer.lean: all of it; Model/Resume.lean: the iterators once more, with the state after an `Err`; Model/Stack.lean: all of it once more, with a limited stack for `eval` (`pretty_print`, `pretty_print_to_string`, `FocusTarget`, all `seek_*`, `print_next_line`, `print_prev_line`, `expand_*`, `choose`, `fits`, `Line`, `FocusedLine`) | `DEBUG_PRINT` output |
| src/oracle.rs | Model/Oracle.lean: all of it | debug output |
| src/geometry.rs | `Width`/`Height` limits, `Rectangle` in Model/Pane.lean; `str_width`, `is_char_full_width` are arbitrary parameters everywhere but in C60, which uses those of Model/Geometry.lean; `Pos`, `Size` and how they are displayed in Model/Display.lean, how they compare in Model/PosOrder.lean | the tables of unicode-width |
| src/infra.rs | | `span!`: profiling, no effect |
| src/pane/divvy.rs | Model/Divvy.lean: all of it, with `usize` overflow on 64 bits | |
| src/pane/pane_notation.rs, printing_options.rs, pretty_window.rs | Model/Pane.lean; `focus_height` is the exact rational value of the `f32`, and both roundings of `(height - 1) as f32 * focus_height` are modelled (`roundF32`) | subnormal results (they become row 0 anyway) |
| src/pane/display_pane.rs | Model/Pane.lean: all of it; the messages of `PaneError` in Model/Display.lean | errors of the window are in `replay`, not in the model of `display_pane` itself |
| src/pane/plain_text.rs | Model/PlainText.lean: all of it | |
| src/doc_examples/tree.rs, style.rs, json.rs | Model/Tree.lean, Style.lean, Json.lean | the thread-local id counter is a parameter of every constructor (C33_ids is about numbering by the counter); `f64::to_string` (numbers are given by their text) |
| examples/json.rs | Model/Demo.lean: `json_to_doc`, `pretty_print_json`, `lines_to_string` and the output of `main` | the command line, serde (the input is the parsed value), termion's formatting (constants), the timings on stderr |
| tests/standard/test_cases/flow_wrap.rs | Model/FlowWrap.lean | the test functions; `DocId` and `Style` as types |
| tests/standard/test_cases/iter_chain.rs, ruby_loop.rs | Model/Programs.lean | `impl Clone`/`Debug`; `DocId` and `Style` as types |
| tests/standard/generative_testing.rs, oracle_tests.rs, and pretty_testing.rs | Model/Generate.lean, Model/OracleTest.lean, Model/FocusTest.lean | Display for Tree; the messages of failed assertions |
| tests/ | Tests/: the test suite, run on the model when it is built (tests, not proofs) | let_list.rs (not part of the suite) |
| outdated-proofs/ | refn_impl_cont.hs, refn_impl_tree.hs (Model/Reference.lean) | the prose proofs (their laws are C52 and C67) |

Overflow: `u16` columns and `u32` rows are checked in the model (`addUpTo`, `Fail.overflow`, `subU`).
The stack that `eval` takes is modelled in Model/Stack.lean (C74).  Memory exhaustion, and stack overflow of the
other recursive functions (validation, `Drop`), are not.

## 4. Specifications

| File | Says |
|------|------|
| Spec/NTree.lean, Denote.lean | the notation tree of a document: notations of all nodes glued together, by structural recursion; no delayed evaluation |
| Spec/Layout.lean | the greedy layout of a notation tree, its tokens, lines, and positions of nodes in it |
| Spec/Greedy.lean | the greedy layout once more, as an inductive relation with a declarative "fits" |
| Spec/Shows.lean | what a notation shows, by inductive rules over places in the document (style, indentation) |
| Spec/Output.lean | what a caller of `pretty_print` sees |
| Spec/Flat.lean, Equiv.lean | first options; substitution in folds; notations that mean the same |
| Spec/Flaws.lean | flaws of a notation, by occurrences, what encloses them and what is displayed before them |
| Spec/Divvy.lean | fair division, first come first served |
| Spec/Pane.lean, PlainText.lean | cells, rows, what a window shows |
| Spec/Json.lean | JSON values, their compact text, stripping layout and comments from a text |
| Spec/Oracle.lean | conditions under which the two printers are compared |
| Spec/Extend.lean | documents of which only a part is available |
| Spec/View.lean | what is near the focus |
| Spec/Tiles.lean | tiles: what a window shows, for a pane notation |
| Spec/Modular.lean | rows of documents below each other, each printed on its own |
| Spec/Morph.lean | renamed documents; other styles |
| Spec/Widths.lean | comparing layouts at two widths |
| Spec/JsonRead.lean | a JSON reader, and the value of an expression |
| Spec/Rewrite.lean | documents that differ by rewrites of their notations |
| Spec/Origin.lean | the strings of a notation and of a document |
| Spec/Terminal.lean | what a terminal shows for some output; the colours of a JSON value |
| Spec/Work.lean, Spec/Session.lean | the written-out notation of a document, and how much work it is; sessions (C55) |
| Spec/Closed.lean | a document some of whose nodes cannot be looked into |
| Spec/JsonWork.lean | size and depth of a JSON expression |
| Spec/Contract.lean | implementations that agree within the contract of the PrettyDoc trait |
| Spec/Dim.lean | a document some of whose nodes cannot be evaluated |
| Spec/Nested.lean | documents whose nodes display their children on separate lines; the size of a single notation |
| Spec/Measure.lean | rows that show whole lines |
| Spec/JsonWindow.lean | C61: JSON expressions without comments, number of entries, nesting, ids |
| Spec/Generate.lean | C62: the values of a generator, notations made of given parts and their sizes, sizes of trees |
| Spec/Ideal.lean, Spec/Reference.lean | C64: the layout that decides choices by the finished layout; documents of the reference implementation as notations |
| Spec/Marks.lean | C65: notations and documents that differ only in focus marks, Empties and grouping |
| Spec/FocusTest.lean | C66: the text of a sequence of tokens |
| Spec/RefLaws.lean | C67: contexts, sameness and normal forms of documents of the reference implementation |
| Spec/Wrap.lean | C68: filling lines with words, full lines, and words between gaps |
| Spec/JsonOracle.lean | C69: widths of the texts and the punctuation of a JSON document |
| Spec/Display.lean | C70: notations that are the same up to grouping, strings without quotes, names that can be told apart |
| Spec/Ink.lean | C71: the characters that matter of a string, of what a notation shows and of what a document shows; notations whose options agree on them |
| Spec/Programs.lean | C73: the source text of a program, its width and the depth of its indentation |
| Spec/Depth.lean | C74: the height of a notation, `Left`s on their own, the notations that come up in printing |
| Spec/Stack.lean | C74: printing some lines with a limited stack |
| Spec/Reformat.lean | C75: trees that differ in ids only, the same calls of json_*, documents without comments |
| Spec/JsonFormat.lean | C76: a formatter for JSON, line by line |
| Spec/DemoFormat.lean | what the demo program shows, exactly: the value as an expression for the formatter |
| Spec/JsonFocus.lean | where the nodes of a JSON document are: the lines above a node, what is to its left, and its own lines |
| Spec/Geometry.lean | positions that fit their types, and what a position means on a page (C80) |
| Spec/ProgramFormat.lean | formatters for the programs of the tests: what is written on which line (C81) |
| Spec/OnePass.lean | the printer as a function of one pass over the tree (C82) |
| Spec/Reworded.lean | documents that differ in texts of the same width (C83) |
| Spec/Resume.lean | what a caller sees who goes on after an error |

The chain of trust for printing is: code model = `NTree.layout` (C01, C02, by simulation);
`NTree.layout` = the relation `Greedy` (C10_greedy_exists_unique, C10_iff); the tree of a document is what
the inductive rules `Shows` say (C17, C20, `printed_shows`).  So a reader can check either description.

## 5. Properties

Status and exact theorem names are in `MANIFEST.json`.

