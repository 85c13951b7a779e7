{
 "claims": [
  {
   "property": "C01",
   "status": "proved",
   "theorems": [
    "PPP.C01_to_string_is_layout",
    "PPP.C01_to_string_iff"
   ],
   "note": ""
  },
  {
   "property": "C02",
   "status": "proved",
   "theorems": [
    "PPP.C02_focus_independent",
    "PPP.C02_same_as_from_start"
   ],
   "note": "For FocusTarget::Text the document's texts must have additive widths (splitting a string does not change its width)."
  },
  {
   "property": "C03",
   "status": "proved",
   "theorems": [
    "PPP.C03_start"
   ],
   "note": ""
  },
  {
   "property": "C04",
   "status": "proved",
   "theorems": [
    "PPP.C04_end"
   ],
   "note": ""
  },
  {
   "property": "C05",
   "status": "proved",
   "theorems": [
    "PPP.C05_mark_general",
    "PPP.C05_own_mark",
    "PPP.C05_missing"
   ],
   "note": ""
  },
  {
   "property": "C06",
   "status": "proved",
   "theorems": [
    "PPP.C06_text",
    "PPP.C06_segments"
   ],
   "note": ""
  },
  {
   "property": "C07",
   "status": "proved",
   "theorems": [
    "PPP.C07_invalid_path_iff",
    "PPP.C07_displayed_path_accepted"
   ],
   "note": ""
  },
  {
   "property": "C08",
   "status": "proved",
   "theorems": [
    "PPP.C08_up_iterator",
    "PPP.C08_down_iterator",
    "PPP.C08_fused"
   ],
   "note": ""
  },
  {
   "property": "C09",
   "status": "proved",
   "theorems": [
    "PPP.C09_agree",
    "PPP.C09_agree_iff",
    "PPP.C09_oracle_right",
    "PPP.C09_texts_wide",
    "PPP.C09_no_eol",
    "PPP.C09_oracle_total",
    "PPP.C09_width_limit",
    "PPP.Ex.C09_zero_width_disagree"
   ],
   "note": "str_width must add up over concatenation (as far as u16 counts), no text wider than m, no line of the layout wider than b, m + b <= 55535, width < 10000. The condition on zero-width texts is necessary: C09_zero_width_disagree is a document on which the two printers differ."
  },
  {
   "property": "C10",
   "status": "proved",
   "theorems": [
    "PPP.C10_printed_is_greedy",
    "PPP.C10_focused_print_is_greedy",
    "PPP.C10_greedy_exists_unique",
    "PPP.C10_iff"
   ],
   "note": ""
  },
  {
   "property": "C11",
   "status": "proved",
   "theorems": [
    "PPP.C11_first_option_keeps_line",
    "PPP.C11_printed"
   ],
   "note": ""
  },
  {
   "property": "C12",
   "status": "proved",
   "theorems": [
    "PPP.C12_overflow_only_if_unavoidable",
    "PPP.C12_first_line",
    "PPP.C12_printed"
   ],
   "note": "'Fits' for a line includes having no text after an end-of-line mark, as in the code."
  },
  {
   "property": "C13",
   "status": "proved",
   "theorems": [
    "PPP.C13_pretty_print_returns",
    "PPP.C13_iterators_return",
    "PPP.C13_to_string_returns",
    "PPP.C13_session_returns"
   ],
   "note": "Column overflow of the u16 counter is a separate outcome in the model (Fail.overflow), not a panic."
  },
  {
   "property": "C14",
   "status": "proved",
   "theorems": [
    "PPP.C14_contract"
   ],
   "note": ""
  },
  {
   "property": "C15",
   "status": "proved",
   "theorems": [
    "PPP.C15_printed_has_no_text_after_eol",
    "PPP.C15_text_after_eol_iff",
    "PPP.C15_outcomes"
   ],
   "note": "For documents that match their notations (no other error is possible) and have no line wider than 65535 columns."
  },
  {
   "property": "C16",
   "status": "proved",
   "theorems": [
    "PPP.C16_flat_node",
    "PPP.C16_flat",
    "PPP.C16_flat_root"
   ],
   "note": ""
  },
  {
   "property": "C17",
   "status": "proved",
   "theorems": [
    "PPP.C17_indentation",
    "PPP.C17_lines",
    "PPP.printed_shows"
   ],
   "note": "Shows (Spec/Shows.lean) is the specification of what each notation displays."
  },
  {
   "property": "C18",
   "status": "proved",
   "theorems": [
    "PPP.C18_fold_is_unfold",
    "PPP.C18_unfold_spec",
    "PPP.C18_valid_first_closed",
    "PPP.C38_alike_print_same",
    "PPP.C18_law"
   ],
   "note": ""
  },
  {
   "property": "C19",
   "status": "proved",
   "theorems": [
    "PPP.C19_child",
    "PPP.C19_count",
    "PPP.C19_check",
    "PPP.C19_childIndex",
    "PPP.C19_childIndex_none",
    "PPP.C19_mismatch_fails",
    "PPP.C19_child_errors",
    "PPP.C19_errors_explained",
    "PPP.C19_print_errors_explained",
    "PPP.C19_iterator_errors_explained"
   ],
   "note": ""
  },
  {
   "property": "C20",
   "status": "proved",
   "theorems": [
    "PPP.C20_styles",
    "PPP.printed_shows",
    "PPP.around_extends"
   ],
   "note": ""
  },
  {
   "property": "C21",
   "status": "proved",
   "theorems": [
    "PPP.C21_accepts_iff",
    "PPP.C21_error_is_flaw"
   ],
   "note": "Flaw is a separate declarative specification (Spec/Flaws.lean): occurrences, what encloses them, and what may be displayed before them."
  },
  {
   "property": "C22",
   "status": "proved",
   "theorems": [
    "PPP.C22_valid_no_text_after_eol",
    "PPP.C22_no_layout_has_text_after_eol"
   ],
   "note": "No hypothesis that the notation matches the node."
  },
  {
   "property": "C23",
   "status": "proved",
   "theorems": [
    "PPP.C23_succeeds_iff",
    "PPP.C23_remaining",
    "PPP.C23_sum"
   ],
   "note": "Includes exactly when dividing fails (assertion failures, division by zero, usize overflow)."
  },
  {
   "property": "C24",
   "status": "proved",
   "theorems": [
    "PPP.C24_fair",
    "PPP.C24_unique"
   ],
   "note": ""
  },
  {
   "property": "C25",
   "status": "proved",
   "theorems": [
    "PPP.C25_fixed_and_dynamic"
   ],
   "note": ""
  },
  {
   "property": "C26",
   "status": "proved",
   "theorems": [
    "PPP.C26_in_window"
   ],
   "note": ""
  },
  {
   "property": "C27",
   "status": "proved",
   "theorems": [
    "PPP.C27_at_most_once"
   ],
   "note": ""
  },
  {
   "property": "C28",
   "status": "proved",
   "theorems": [
    "PPP.C28_exactly_once",
    "PPP.C28_tiled",
    "PPP.C28_succeeds"
   ],
   "note": "Exactly-once needs the pane tree to be tiled (Spec/Pane.lean: no leftover space, no missing or dynamic document); in general only C27 (at most once) holds."
  },
  {
   "property": "C29",
   "status": "proved",
   "theorems": [
    "PPP.C29_doc_pane",
    "PPP.C29_layout"
   ],
   "note": ""
  },
  {
   "property": "C30",
   "status": "proved",
   "theorems": [
    "PPP.C30_focus_row",
    "PPP.C30_lines",
    "PPP.C29_doc_pane"
   ],
   "note": "For pane heights up to 2^24 rows; focusRow_outside shows a larger height for which f32 rounding leaves the pane."
  },
  {
   "property": "C31",
   "status": "proved",
   "theorems": [
    "PPP.C31_contents",
    "PPP.C31_rows",
    "PPP.C31_doc_text",
    "PPP.C31_unbounded_height"
   ],
   "note": ""
  },
  {
   "property": "C32",
   "status": "proved",
   "theorems": [
    "PPP.C32_separators",
    "PPP.C32_fresh",
    "PPP.C32_comment",
    "PPP.C32_isEmptyText"
   ],
   "note": "Which children get NeedsSeparator, for every list of children; into_comment, IsEmptyText."
  },
  {
   "property": "C33",
   "status": "proved",
   "theorems": [
    "PPP.C33_to_string",
    "PPP.C33_no_error",
    "PPP.C33_focus",
    "PPP.C33_other_targets",
    "PPP.C33_ids"
   ],
   "note": "For every expression of json_* calls (arrays hold values and comments, objects pairs and comments) and every width. The only failure is a line wider than 65535 columns. Focused prints: every path to a node, under the hypothesis that a node's id is greater than its children's, which C33_ids proves for ids given by the counter."
  },
  {
   "property": "C34",
   "status": "proved",
   "theorems": [
    "PPP.C34_content",
    "PPP.C34_closed",
    "PPP.C34_width_independent"
   ],
   "note": "Removing comments and white space outside of strings from the printed text gives the compact JSON text of the value, at every width. Strings must come with quotes and backslashes escaped, since json_string does not escape."
  },
  {
   "property": "C35",
   "status": "proved",
   "theorems": [
    "PPP.C35_width_independent",
    "PPP.C35_no_choices",
    "PPP.C35_to_string",
    "PPP.C35_focused"
   ],
   "note": ""
  },
  {
   "property": "C36",
   "status": "proved",
   "theorems": [
    "PPP.C36_no_overflow",
    "PPP.C36_overflow_if_too_wide",
    "PPP.C36_focused_no_overflow"
   ],
   "note": ""
  },
  {
   "property": "C37",
   "status": "proved",
   "theorems": [
    "PPP.C37_segment_widths",
    "PPP.C37_focused_to_line"
   ],
   "note": ""
  },
  {
   "property": "C38",
   "status": "proved",
   "theorems": [
    "PPP.C38_add",
    "PPP.C38_caret",
    "PPP.C38_shift",
    "PPP.C38_or",
    "PPP.C38_operator_trees",
    "PPP.C38_laws",
    "PPP.C38_alike_print_same"
   ],
   "note": "Associativity and units are proved for documents that match their notations; otherwise the error that is reported first may differ."
  },
  {
   "property": "C39",
   "status": "proved",
   "theorems": [
    "PPP.C39_combine",
    "PPP.C39_setters",
    "PPP.C39_assoc",
    "PPP.C39_unit",
    "PPP.C39_nested",
    "PPP.C39_printed",
    "PPP.C39_labels"
   ],
   "note": "BasicStyle combination and label lookup, and what that means for printed segments."
  },
  {
   "property": "C40",
   "status": "proved",
   "theorems": [
    "PPP.C40_partial_print_no_errors",
    "PPP.C40_partial_print_lines"
   ],
   "note": ""
  },
  {
   "property": "C41",
   "status": "proved",
   "theorems": [
    "PPP.C41_unavailable_nodes",
    "PPP.C41_to_string",
    "PPP.C41_display",
    "PPP.C41_same_failure",
    "PPP.C41_to_string_same_failure",
    "PPP.C41_display_same_failure"
   ],
   "note": "No hypothesis on the document. Nodes whose methods return errors may be replaced by anything."
  },
  {
   "property": "C42",
   "status": "proved",
   "theorems": [
    "PPP.C42_only_nearby",
    "PPP.C42_rest_is_irrelevant"
   ],
   "note": "What is near is specified in Spec/View.lean (NearFails). It is an upper bound on what the printer looks at; the time it takes is not modelled."
  },
  {
   "property": "C43",
   "status": "proved",
   "theorems": [
    "PPP.C43_window",
    "PPP.C43_other_rows_irrelevant"
   ],
   "note": "Targets Start and End. Ids must tell the rows apart. Ex.fileP is a file with any number of lines, to which the theorems apply."
  },
  {
   "property": "C44",
   "status": "proved",
   "theorems": [
    "PPP.C44_tiles",
    "PPP.C44_tiles_unique",
    "PPP.C44_displays",
    "PPP.C44_excerpt"
   ],
   "note": "Spec/Tiles.lean is the specification of the window."
  },
  {
   "property": "C45",
   "status": "proved",
   "theorems": [
    "PPP.C45_returns",
    "PPP.C45_failures_explained",
    "PPP.C45_no_panic",
    "PPP.C45_dynamic_docs"
   ],
   "note": "Window sizes up to 65533 x 2^24 for the explanations. Overflow is explained too: a focus too far to the right, or a document that overflows when printed."
  },
  {
   "property": "C46",
   "status": "proved",
   "theorems": [
    "PPP.C46_text_or_children",
    "PPP.C46_builders",
    "PPP.C46_overrides"
   ],
   "note": ""
  },
  {
   "property": "C47",
   "status": "proved",
   "theorems": [
    "PPP.C47_returns",
    "PPP.C47_exhausts",
    "PPP.C47_unique",
    "PPP.C47_until_error",
    "PPP.C47_parts_down",
    "PPP.C47_parts_up"
   ],
   "note": "Model/Resume.lean models the iterators with the state they are left in by an error. The parts theorems are for notation child(a) ^ child(b), focus Start and End."
  },
  {
   "property": "C48",
   "status": "proved",
   "theorems": [
    "PPP.C48_rows",
    "PPP.C48_to_string",
    "PPP.C48_two_children",
    "PPP.C48_rows_unique"
   ],
   "note": ""
  },
  {
   "property": "C49",
   "status": "proved",
   "theorems": [
    "PPP.C49_renaming",
    "PPP.C49_to_string",
    "PPP.C49_styles",
    "PPP.C49_styles_to_string",
    "PPP.C49_ids_to_string",
    "PPP.C49_ids",
    "PPP.C49_renaming_root"
   ],
   "note": ""
  },
  {
   "property": "C50",
   "status": "proved",
   "theorems": [
    "PPP.C50_strings",
    "PPP.C50_wider",
    "PPP.C50_between",
    "PPP.C50_all_first",
    "PPP.C50_all_second",
    "PPP.C50_wide",
    "PPP.C50_wide_focused",
    "PPP.C50_eventually"
   ],
   "note": ""
  },
  {
   "property": "C51",
   "status": "proved",
   "theorems": [
    "PPP.C51_round_trip",
    "PPP.C51_injective",
    "PPP.C51_roots",
    "PPP.C51_roots_read",
    "PPP.C51_roots_empty"
   ],
   "note": "f64::to_string is not modelled: a number is given by its text."
  },
  {
   "property": "C52",
   "status": "proved",
   "theorems": [
    "PPP.C52_choice_laws",
    "PPP.C52_flat_laws",
    "PPP.C52_style_laws",
    "PPP.C52_indent_laws",
    "PPP.C52_condition_laws",
    "PPP.C52_rewritten_prints_same",
    "PPP.C52_choice_assoc",
    "PPP.Ex.C52_choice_not_assoc",
    "PPP.Ex.C52_break_before_choice"
   ],
   "note": "The documents have to match their notations (no error is reported); if they do not, the error that is reported first may differ. C38_alike_print_same is the version for arbitrary document types."
  },
  {
   "property": "C53",
   "status": "proved",
   "theorems": [
    "PPP.C53_segments",
    "PPP.C53_chars",
    "PPP.C53_to_string"
   ],
   "note": "The specification is 25 lines (Spec/Origin.lean). Example: no slash is ever printed for the example document, at any width."
  },
  {
   "property": "C54",
   "status": "proved",
   "theorems": [
    "PPP.C54_outcome",
    "PPP.C54_screen",
    "PPP.C54_text",
    "PPP.C54_cells",
    "PPP.C54_succeeds",
    "PPP.C54_formatted",
    "PPP.C54_round_trip",
    "PPP.Ex.demo_quote"
   ],
   "note": "The terminal (what it does with the escape sequences), the colours of a value and the JSON reader are specifications of their own (Spec/Terminal.lean, Spec/JsonRead.lean). serde, clap, termion's escape sequences (given as constants) and the timings are not modelled. Ex.demo_quote is a defect: the demo does not escape strings, so a file with an escaped quote is not shown as JSON."
  },
  {
   "property": "C55",
   "status": "proved",
   "theorems": [
    "PPP.C55_same_prettyPrint",
    "PPP.C55_same_nextUp",
    "PPP.C55_same_nextDown",
    "PPP.C55_same_to_string",
    "PPP.C55_same_session",
    "PPP.C55_to_string",
    "PPP.C55_session_root",
    "PPP.C55_session",
    "PPP.C55_session_scan",
    "PPP.C55_lookahead",
    "PPP.C55_quadratic",
    "PPP.C55_at_least"
   ],
   "note": "The counted program (Model/Work.lean) is a copy of the printer with a counter; C55_same_* prove that it computes the same. Time inside of the trait methods and the length of texts are not counted."
  },
  {
   "property": "C56",
   "status": "proved",
   "theorems": [
    "PPP.C56_same_steps",
    "PPP.C56_session",
    "PPP.C56_only_nearby",
    "PPP.C56_rows",
    "PPP.C56_closed"
   ],
   "note": "Steps are those of C55 (`scan = 0` in the bounds: chunks scanned by seek_child are counted by C55_session_scan only; C56_same_steps holds for every `scan`)."
  },
  {
   "property": "C57",
   "status": "proved",
   "theorems": [
    "PPP.C57_work",
    "PPP.C57_to_string",
    "PPP.C57_session",
    "PPP.C57_session_root"
   ],
   "note": "The size counts the nodes of the tree (with the words of comments and the keys of pairs); the depth factor is needed: the output itself can be quadratic, since lines are indented by their depth. The steps are those of the counted program of C55."
  },
  {
   "property": "C58",
   "status": "proved",
   "theorems": [
    "PPP.C58_session",
    "PPP.C58_to_string",
    "PPP.C58_display"
   ],
   "note": ""
  },
  {
   "property": "C59",
   "status": "proved",
   "theorems": [
    "PPP.C59_window",
    "PPP.C59_window_scan",
    "PPP.C59_at_least",
    "PPP.C59_dark_nodes_are_free",
    "PPP.C59_near"
   ],
   "note": "Steps as counted by Model/Work.lean (C55). Focus targets Mark and Text are not covered by C59_window (where the mark is depends on the notation), nor are choices that depend on the width; C59_dark_nodes_are_free and C59_near cover both. With the scans of seek_child counted, the bound is quadratic (C59_window_scan). The depth bounds how often nodes are nested; the size of a notation includes one line break per child, so the bound is best for nodes with few children."
  },
  {
   "property": "C60",
   "status": "proved",
   "theorems": [
    "PPP.C60_widths_add",
    "PPP.C60_texts_additive",
    "PPP.C60_columns",
    "PPP.C60_nothing_cut_off",
    "PPP.C60_cursor",
    "PPP.C60_window_text",
    "PPP.C60_dynamic_width"
   ],
   "note": "The widths of characters (tables of the crate unicode-width) are a parameter; that the width of a string is the sum of the widths of its characters is true for unicode-width up to 0.1.12. An example shows that the condition on characters is necessary: an accent (0 columns) takes a column in the window, so the end of the text is cut off."
  },
  {
   "property": "C61",
   "status": "proved",
   "theorems": [
    "PPP.C61_json_window",
    "PPP.C61_json_window_scan",
    "PPP.C61_counter",
    "PPP.C61_ids"
   ],
   "note": "Steps as counted by Model/Work.lean (C55); C61_json_window does not count the chunks scanned by seek_child, C61_json_window_scan does. Comments and json_roots are excluded. The widths of \"[\", \"{\" and \": \" must not be 0."
  },
  {
   "property": "C62",
   "status": "proved",
   "theorems": [
    "PPP.C62_iterator",
    "PPP.C62_collect",
    "PPP.C62_up_to_size",
    "PPP.C62_random",
    "PPP.C62_notations",
    "PPP.C62_trees"
   ],
   "note": "A generator is modelled as a decision tree over the numbers picked (the trait requires it to be a pure function of them)."
  },
  {
   "property": "C63",
   "status": "proved",
   "theorems": [
    "PPP.C63_agree",
    "PPP.C63_passes",
    "PPP.C63_loop",
    "PPP.C63_oracle_tests",
    "PPP.C63_assert_pp",
    "PPP.C63_detects",
    "PPP.C63_loop_detects",
    "PPP.C63_oracle_tests_detect"
   ],
   "note": "str_width is a parameter: it has to add up, and to give the widths of the four strings used."
  },
  {
   "property": "C64",
   "status": "proved",
   "theorems": [
    "PPP.C64_ideal",
    "PPP.C64_printed",
    "PPP.C64_exists_unique",
    "PPP.Ref.C64_same_reference",
    "PPP.Ref.C64_reference",
    "PPP.Ref.C64_requirement_needed"
   ],
   "note": "In the reference implementation the width of a string is its length, so the comparison with it is for str_width = length. Its Flat (a newline is an error) is different from the printer's (every choice takes its first option), and is left out of the comparison, as is Err."
  },
  {
   "property": "C65",
   "status": "proved",
   "theorems": [
    "PPP.C65_marks_invisible",
    "PPP.C65_focus",
    "PPP.C65_refused",
    "PPP.C65_marks",
    "PPP.C65_match_needed"
   ],
   "note": "The document must match its notations: otherwise a mark can hide a mistake in an option that is not taken (C65_match_needed)."
  },
  {
   "property": "C66",
   "status": "proved",
   "theorems": [
    "PPP.C66_seek",
    "PPP.C66_focus",
    "PPP.C66_region",
    "PPP.C66_region_rows"
   ],
   "note": "C66_region is about documents that have a layout; print_region itself looks at the lines near the focus only."
  },
  {
   "property": "C67",
   "status": "proved",
   "theorems": [
    "PPP.Ref.C67_equivalence",
    "PPP.Ref.C67_printed",
    "PPP.Ref.C67_concat",
    "PPP.Ref.C67_text",
    "PPP.Ref.C67_indent",
    "PPP.Ref.C67_flat",
    "PPP.Ref.C67_error",
    "PPP.Ref.C67_choice",
    "PPP.Ref.C67_not_distributive",
    "PPP.Ref.C67_distinguishes",
    "PPP.Ref.C67_normal_form",
    "PPP.Ref.C67_fails_iff",
    "PPP.Ref.C67_printer"
   ],
   "note": "The laws are about the two Haskell reference implementations in outdated-proofs; C38 and C52 are about the laws of the Rust printer."
  },
  {
   "property": "C68",
   "status": "proved",
   "theorems": [
    "PPP.C68_paragraph",
    "PPP.C68_comment",
    "PPP.C68_empty_comment",
    "PPP.C68_empty_paragraph",
    "PPP.C68_fill_iff",
    "PPP.C68_fewest_lines",
    "PPP.C68_fits",
    "PPP.C68_words",
    "PPP.C68_words_exist"
   ],
   "note": "For a comment that is a document of its own; inside a document, its lines start further to the right."
  },
  {
   "property": "C69",
   "status": "proved",
   "theorems": [
    "PPP.C69_agree",
    "PPP.C69_assert_pp",
    "PPP.C69_counter",
    "PPP.Ex.C69_example"
   ],
   "note": "str_width must add up over concatenation and give some width to separators and closing brackets; no text wider than m, no printed line wider than b, m + b <= 55535."
  },
  {
   "property": "C70",
   "status": "proved",
   "theorems": [
    "PPP.C70_display_iff",
    "PPP.C70_display_same_meaning",
    "PPP.C70_quotes_ambiguous",
    "PPP.C70_notation_error_messages",
    "PPP.C70_printing_error_messages",
    "PPP.C70_pane_error_messages",
    "PPP.C70_positions",
    "PPP.Ex.numbers_readable",
    "PPP.Ex.C70_example",
    "PPP.Ex.C70_index_example"
   ],
   "note": "Readable: labels can be told apart in front of a comma; conditions have different names without spaces, quotes, parentheses and @. The Display instances of crate-private types are not modelled."
  },
  {
   "property": "C71",
   "status": "proved",
   "theorems": [
    "PPP.C71_ink",
    "PPP.C71_width_independent",
    "PPP.C71_options_must_agree",
    "PPP.Ex.exDoc_steady"
   ],
   "note": "Steady is checked for one notation at a time. Characters of width zero, and texts with newlines in them, are treated like any other characters."
  },
  {
   "property": "C72",
   "status": "proved",
   "theorems": [
    "PPP.C72_first_options",
    "PPP.C72_printed",
    "PPP.C72_narrower",
    "PPP.C72_requirement_needed"
   ],
   "note": "Stated for the declarative greedy layout (C10) and for pretty_print_to_string."
  },
  {
   "property": "C73",
   "status": "proved",
   "theorems": [
    "PPP.C73_chain_text",
    "PPP.C73_chain_one_line",
    "PPP.C73_chain_prints",
    "PPP.C73_chain_assert_pp",
    "PPP.C73_ruby_text",
    "PPP.C73_ruby_one_line",
    "PPP.C73_ruby_prints",
    "PPP.C73_ruby_assert_pp",
    "PPP.Ex.C73_iter_chain_iter_map_collect",
    "PPP.Ex.C73_iter_chain_long_method_body",
    "PPP.Ex.C73_iter_chain_long_methods",
    "PPP.Ex.C73_ruby_loop"
   ],
   "note": "The tests of both files are concrete cases. `depth` counts indentations of four spaces, and `cols` the columns of the source."
  },
  {
   "property": "C74",
   "status": "proved",
   "theorems": [
    "PPP.C74_eval_step",
    "PPP.C74_depth",
    "PPP.C74_depth_guarded",
    "PPP.C74_depth_unique",
    "PPP.C74_depth_grows",
    "PPP.Ex.C74_list_depth",
    "PPP.C74_printing",
    "PPP.C74_printing_guarded",
    "PPP.C74_to_string",
    "PPP.C74_to_string_guarded",
    "PPP.C74_json",
    "PPP.C74_runs_out"
   ],
   "note": "`Reached` are the delayed notations that a printer can evaluate: that of the root, and the parts of the evaluated ones (every call of eval in pretty_print.rs is on the root, on a part of a concatenation or a choice, or on a child). Model/Stack.lean is the printer with a limited stack; recursion in Drop is not modelled."
  },
  {
   "property": "C75",
   "status": "proved",
   "theorems": [
    "PPP.C75_tree_ids",
    "PPP.C75_same_calls",
    "PPP.C75_same_value",
    "PPP.C75_reformat",
    "PPP.C75_settles",
    "PPP.C75_demo",
    "PPP.C75_demo_again"
   ],
   "note": "The reader is `readJson` (C51), which keeps strings as written between their quotes."
  },
  {
   "property": "C76",
   "status": "proved",
   "theorems": [
    "PPP.C76_layout",
    "PPP.C76_one_line"
   ],
   "note": "Documents as they are built by the `json_*` functions, with any strings and numbers. The formatter of Spec/JsonFormat.lean is executable; `Ex.fmtJson_lines` runs it."
  },
  {
   "property": "C77",
   "status": "proved",
   "theorems": [
    "PPP.C77_fewer_lines",
    "PPP.C77_too_wide",
    "PPP.C77_same",
    "PPP.C77_fits"
   ],
   "note": "`docLines` is the formatter of Spec/JsonFormat.lean; C76 says that its lines are what is printed."
  },
  {
   "property": "C78",
   "status": "proved",
   "theorems": [
    "PPP.C78_start",
    "PPP.C78_end",
    "PPP.C78_all",
    "PPP.C78_words",
    "PPP.C78_node"
   ],
   "note": "Spec/JsonFocus.lean extends the formatter of Spec/JsonFormat.lean (C76)."
  },
  {
   "property": "C79",
   "status": "proved",
   "theorems": [
    "PPP.C79_pane",
    "PPP.C79_succeeds"
   ],
   "note": "Spec/JsonFocus.lean (C78) and the pane model (C27-C29)."
  },
  {
   "property": "C80",
   "status": "proved",
   "theorems": [
    "PPP.C80_add",
    "PPP.C80_overflow",
    "PPP.C80_add_add",
    "PPP.C80_reading_order",
    "PPP.C80_shift",
    "PPP.C80_size_order"
   ],
   "note": "Spec/Geometry.lean: a position in range; the number of characters before a position on a page."
  },
  {
   "property": "C81",
   "status": "proved",
   "theorems": [
    "PPP.C81_chain",
    "PPP.C81_ruby"
   ],
   "note": "Spec/ProgramFormat.lean: formatters that write on a page; no notations, no choices."
  },
  {
   "property": "C82",
   "status": "proved",
   "theorems": [
    "PPP.C82_one_pass",
    "PPP.C82_error",
    "PPP.C82_focused",
    "PPP.C82_before",
    "PPP.C82_edit_first",
    "PPP.C82_edit_second"
   ],
   "note": "Spec/OnePass.lean: `NTree.ahead` and `NTree.write` are structurally recursive functions on the trees of Spec/NTree.lean."
  },
  {
   "property": "C83",
   "status": "proved",
   "theorems": [
    "PPP.C83_lines",
    "PPP.C83_focus",
    "PPP.C83_to_string",
    "PPP.C83_tree",
    "PPP.C83_json"
   ],
   "note": "Spec/Reworded.lean: `Rewording` relates two nodes method by method (through the trait only); failures of the documents have to be the same too."
  }
 ]
}