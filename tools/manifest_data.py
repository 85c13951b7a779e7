m("C01","proved",["C01_to_string_is_layout","C01_to_string_iff"])
m("C02","proved",["C02_focus_independent","C02_same_as_from_start"],"For FocusTarget::Text the document's texts must have additive widths (splitting a string does not change its width).")
m("C03","proved",["C03_start"])
m("C04","proved",["C04_end"])
m("C05","proved",["C05_mark_general","C05_own_mark","C05_missing"])
m("C06","proved",["C06_text","C06_segments"])
m("C07","proved",["C07_invalid_path_iff","C07_displayed_path_accepted"])
m("C08","proved",["C08_up_iterator","C08_down_iterator","C08_fused"])
m("C40","proved",["C40_partial_print_no_errors","C40_partial_print_lines"])
m("C13","proved",["C13_pretty_print_returns","C13_iterators_return","C13_to_string_returns","C13_session_returns"],"Column overflow of the u16 counter is a separate outcome in the model (Fail.overflow), not a panic.")
m("C14","proved",["C14_contract"])
m("C37","proved",["C37_segment_widths","C37_focused_to_line"])
m("C10","proved",["C10_printed_is_greedy","C10_focused_print_is_greedy","C10_greedy_exists_unique","C10_iff"])
m("C11","proved",["C11_first_option_keeps_line","C11_printed"])
m("C12","proved",["C12_overflow_only_if_unavoidable","C12_first_line","C12_printed"],"'Fits' for a line includes having no text after an end-of-line mark, as in the code.")
m("C15","proved",["C15_printed_has_no_text_after_eol","C15_text_after_eol_iff","C15_outcomes"],"For documents that match their notations (no other error is possible) and have no line wider than 65535 columns.")
m("C16","proved",["C16_flat_node","C16_flat","C16_flat_root"])
m("C35","proved",["C35_width_independent","C35_no_choices","C35_to_string","C35_focused"])
m("C36","proved",["C36_no_overflow","C36_overflow_if_too_wide","C36_focused_no_overflow"])
m("C17","proved",["C17_indentation","C17_lines","printed_shows"],"Shows (Spec/Shows.lean) is the specification of what each notation displays.")
m("C18","proved",["C18_fold_is_unfold","C18_unfold_spec","C18_valid_first_closed","C38_alike_print_same","C18_law"])
m("C19","proved",["C19_child","C19_count","C19_check","C19_childIndex","C19_childIndex_none","C19_mismatch_fails","C19_child_errors","C19_errors_explained","C19_print_errors_explained","C19_iterator_errors_explained"])
m("C20","proved",["C20_styles","printed_shows","around_extends"])
m("C38","proved",["C38_add","C38_caret","C38_shift","C38_or","C38_operator_trees","C38_laws","C38_alike_print_same"],"Associativity and units are proved for documents that match their notations; otherwise the error that is reported first may differ.")
m("C21","proved",["C21_accepts_iff","C21_error_is_flaw"],"Flaw is a separate declarative specification (Spec/Flaws.lean): occurrences, what encloses them, and what may be displayed before them.")
m("C22","proved",["C22_valid_no_text_after_eol","C22_no_layout_has_text_after_eol"],"No hypothesis that the notation matches the node.")
m("C23","proved",["C23_succeeds_iff","C23_remaining","C23_sum"],"Includes exactly when dividing fails (assertion failures, division by zero, usize overflow).")
m("C24","proved",["C24_fair","C24_unique"])
m("C25","proved",["C25_fixed_and_dynamic"])
m("C26","proved",["C26_in_window"])
m("C27","proved",["C27_at_most_once"])
m("C28","proved",["C28_exactly_once","C28_tiled","C28_succeeds"],"Exactly-once needs the pane tree to be tiled (Spec/Pane.lean: no leftover space, no missing or dynamic document); in general only C27 (at most once) holds.")
m("C29","proved",["C29_doc_pane","C29_layout"])
m("C30","proved",["C30_focus_row","C30_lines","C29_doc_pane"],"For pane heights up to 2^24 rows; focusRow_outside shows a larger height for which f32 rounding leaves the pane.")
m("C31","proved",["C31_contents","C31_rows","C31_doc_text","C31_unbounded_height"])
m("C32","proved",["C32_separators","C32_fresh","C32_comment","C32_isEmptyText"],
  "Which children get NeedsSeparator, for every list of children; into_comment, IsEmptyText.")
m("C33","proved",["C33_to_string","C33_no_error","C33_focus","C33_other_targets","C33_ids"],
  "For every expression of json_* calls (arrays hold values and comments, objects pairs and comments) and every width. The only failure is a line wider than 65535 columns. Focused prints: every path to a node, under the hypothesis that a node's id is greater than its children's, which C33_ids proves for ids given by the counter.")
m("C34","proved",["C34_content","C34_closed","C34_width_independent"],
  "Removing comments and white space outside of strings from the printed text gives the compact JSON text of the value, at every width. Strings must come with quotes and backslashes escaped, since json_string does not escape.")
m("C39","proved",["C39_combine","C39_setters","C39_assoc","C39_unit","C39_nested","C39_printed","C39_labels"],
  "BasicStyle combination and label lookup, and what that means for printed segments.")
m("C09","proved",["C09_agree","C09_agree_iff","C09_oracle_right","C09_texts_wide","C09_no_eol","C09_oracle_total","C09_width_limit","Ex.C09_zero_width_disagree"],
  "str_width must add up over concatenation (as far as u16 counts), no text wider than m, no line of the layout wider than b, m + b <= 55535, width < 10000. The condition on zero-width texts is necessary: C09_zero_width_disagree is a document on which the two printers differ.")
m("C41","proved",["C41_unavailable_nodes","C41_to_string","C41_display","C41_same_failure","C41_to_string_same_failure","C41_display_same_failure"],
  "No hypothesis on the document. Nodes whose methods return errors may be replaced by anything.")
m("C42","proved",["C42_only_nearby","C42_rest_is_irrelevant"],
  "What is near is specified in Spec/View.lean (NearFails). It is an upper bound on what the printer looks at; the time it takes is not modelled.")
m("C43","proved",["C43_window","C43_other_rows_irrelevant"],
  "Targets Start and End. Ids must tell the rows apart. Ex.fileP is a file with any number of lines, to which the theorems apply.")
m("C44","proved",["C44_tiles","C44_tiles_unique","C44_displays","C44_excerpt"],
  "Spec/Tiles.lean is the specification of the window.")
m("C45","proved",["C45_returns","C45_failures_explained","C45_no_panic","C45_dynamic_docs"],
  "Window sizes up to 65533 x 2^24 for the explanations. Overflow is explained too: a focus too far to the right, or a document that overflows when printed.")
m("C46","proved",["C46_text_or_children","C46_builders","C46_overrides"])
m("C47","proved",["C47_returns","C47_exhausts","C47_unique","C47_until_error","C47_parts_down","C47_parts_up"],
  "Model/Resume.lean models the iterators with the state they are left in by an error. The parts theorems are for notation child(a) ^ child(b), focus Start and End.")
m("C48","proved",["C48_rows","C48_to_string","C48_two_children","C48_rows_unique"])
m("C49","proved",["C49_renaming","C49_to_string","C49_styles","C49_styles_to_string","C49_ids_to_string","C49_ids","C49_renaming_root"])
m('C50','proved',['C50_strings', 'C50_wider', 'C50_between', 'C50_all_first', 'C50_all_second', 'C50_wide', 'C50_wide_focused', 'C50_eventually'],
  '')
m('C51','proved',['C51_round_trip', 'C51_injective', 'C51_roots', 'C51_roots_read', 'C51_roots_empty'],
  'f64::to_string is not modelled: a number is given by its text.')
m('C52','proved',['C52_choice_laws', 'C52_flat_laws', 'C52_style_laws', 'C52_indent_laws', 'C52_condition_laws', 'C52_rewritten_prints_same', 'C52_choice_assoc', 'Ex.C52_choice_not_assoc', 'Ex.C52_break_before_choice'],
  'The documents have to match their notations (no error is reported); if they do not, the error that is reported first may differ. C38_alike_print_same is the version for arbitrary document types.')
m('C53','proved',['C53_segments', 'C53_chars', 'C53_to_string'],
  'The specification is 25 lines (Spec/Origin.lean). Example: no slash is ever printed for the example document, at any width.')
m('C54','proved',['C54_outcome', 'C54_screen', 'C54_text', 'C54_cells', 'C54_succeeds', 'C54_formatted', 'C54_round_trip', 'Ex.demo_quote'],
  "The terminal (what it does with the escape sequences), the colours of a value and the JSON reader are specifications of their own (Spec/Terminal.lean, Spec/JsonRead.lean). serde, clap, termion's escape sequences (given as constants) and the timings are not modelled. Ex.demo_quote is a defect: the demo does not escape strings, so a file with an escaped quote is not shown as JSON.")
m('C55','proved',['C55_same_prettyPrint', 'C55_same_nextUp', 'C55_same_nextDown', 'C55_same_to_string', 'C55_same_session', 'C55_to_string', 'C55_session_root', 'C55_session', 'C55_session_scan', 'C55_lookahead', 'C55_quadratic', 'C55_at_least'],
  'The counted program (Model/Work.lean) is a copy of the printer with a counter; C55_same_* prove that it computes the same. Time inside of the trait methods and the length of texts are not counted.')
m('C56','proved',['C56_same_steps', 'C56_session', 'C56_only_nearby', 'C56_rows', 'C56_closed'],
  'Steps are those of C55 (`scan = 0` in the bounds: chunks scanned by seek_child are counted by C55_session_scan only; C56_same_steps holds for every `scan`).')
m('C57','proved',['C57_work', 'C57_to_string', 'C57_session', 'C57_session_root'],
  'The size counts the nodes of the tree (with the words of comments and the keys of pairs); the depth factor is needed: the output itself can be quadratic, since lines are indented by their depth. The steps are those of the counted program of C55.')
m('C58','proved',['C58_session', 'C58_to_string', 'C58_display'],
  '')
m('C59','proved',['C59_window', 'C59_window_scan', 'C59_at_least', 'C59_dark_nodes_are_free', 'C59_near'],
  'Steps as counted by Model/Work.lean (C55). Focus targets Mark and Text are not covered by C59_window (where the mark is depends on the notation), nor are choices that depend on the width; C59_dark_nodes_are_free and C59_near cover both. With the scans of seek_child counted, the bound is quadratic (C59_window_scan). The depth bounds how often nodes are nested; the size of a notation includes one line break per child, so the bound is best for nodes with few children.')
m('C60','proved',['C60_widths_add', 'C60_texts_additive', 'C60_columns', 'C60_nothing_cut_off', 'C60_cursor', 'C60_window_text', 'C60_dynamic_width'],
  'The widths of characters (tables of the crate unicode-width) are a parameter; that the width of a string is the sum of the widths of its characters is true for unicode-width up to 0.1.12. An example shows that the condition on characters is necessary: an accent (0 columns) takes a column in the window, so the end of the text is cut off.')
m('C61','proved',['C61_json_window', 'C61_json_window_scan', 'C61_counter', 'C61_ids'],
  'Steps as counted by Model/Work.lean (C55); C61_json_window does not count the chunks scanned by seek_child, C61_json_window_scan does. Comments and json_roots are excluded. The widths of "[", "{" and ": " must not be 0.')
m('C62','proved',['C62_iterator', 'C62_collect', 'C62_up_to_size', 'C62_random', 'C62_notations', 'C62_trees'],
  'A generator is modelled as a decision tree over the numbers picked (the trait requires it to be a pure function of them).')
m('C63','proved',['C63_agree', 'C63_passes', 'C63_loop', 'C63_oracle_tests', 'C63_assert_pp', 'C63_detects', 'C63_loop_detects', 'C63_oracle_tests_detect'],
  'str_width is a parameter: it has to add up, and to give the widths of the four strings used.')
m('C64','proved',['C64_ideal', 'C64_printed', 'C64_exists_unique', 'Ref.C64_same_reference', 'Ref.C64_reference', 'Ref.C64_requirement_needed'],
  "In the reference implementation the width of a string is its length, so the comparison with it is for str_width = length. Its Flat (a newline is an error) is different from the printer's (every choice takes its first option), and is left out of the comparison, as is Err.")
m('C65','proved',['C65_marks_invisible', 'C65_focus', 'C65_refused', 'C65_marks', 'C65_match_needed'],
  'The document must match its notations: otherwise a mark can hide a mistake in an option that is not taken (C65_match_needed).')
m('C66','proved',['C66_seek', 'C66_focus', 'C66_region', 'C66_region_rows'],
  'C66_region is about documents that have a layout; print_region itself looks at the lines near the focus only.')
m('C67','proved',['Ref.C67_equivalence', 'Ref.C67_printed', 'Ref.C67_concat', 'Ref.C67_text', 'Ref.C67_indent', 'Ref.C67_flat', 'Ref.C67_error', 'Ref.C67_choice', 'Ref.C67_not_distributive', 'Ref.C67_distinguishes', 'Ref.C67_normal_form', 'Ref.C67_fails_iff', 'Ref.C67_printer'],
  'The laws are about the two Haskell reference implementations in outdated-proofs; C38 and C52 are about the laws of the Rust printer.')
m('C68','proved',['C68_paragraph', 'C68_comment', 'C68_empty_comment', 'C68_empty_paragraph', 'C68_fill_iff', 'C68_fewest_lines', 'C68_fits', 'C68_words', 'C68_words_exist'],
  'For a comment that is a document of its own; inside a document, its lines start further to the right.')
m('C69','proved',['C69_agree', 'C69_assert_pp', 'C69_counter', 'Ex.C69_example'],
  'str_width must add up over concatenation and give some width to separators and closing brackets; no text wider than m, no printed line wider than b, m + b <= 55535.')
m('C70','proved',['C70_display_iff', 'C70_display_same_meaning', 'C70_quotes_ambiguous', 'C70_notation_error_messages', 'C70_printing_error_messages', 'C70_pane_error_messages', 'C70_positions', 'Ex.numbers_readable', 'Ex.C70_example', 'Ex.C70_index_example'],
  'Readable: labels can be told apart in front of a comma; conditions have different names without spaces, quotes, parentheses and @. The Display instances of crate-private types are not modelled.')
m('C71','proved',['C71_ink', 'C71_width_independent', 'C71_options_must_agree', 'Ex.exDoc_steady'],
  'Steady is checked for one notation at a time. Characters of width zero, and texts with newlines in them, are treated like any other characters.')
m('C72','proved',['C72_first_options', 'C72_printed', 'C72_narrower', 'C72_requirement_needed'],
  'Stated for the declarative greedy layout (C10) and for pretty_print_to_string.')
m('C73','proved',['C73_chain_text', 'C73_chain_one_line', 'C73_chain_prints', 'C73_chain_assert_pp', 'C73_ruby_text', 'C73_ruby_one_line', 'C73_ruby_prints', 'C73_ruby_assert_pp', 'Ex.C73_iter_chain_iter_map_collect', 'Ex.C73_iter_chain_long_method_body', 'Ex.C73_iter_chain_long_methods', 'Ex.C73_ruby_loop'],
  'The tests of both files are concrete cases. `depth` counts indentations of four spaces, and `cols` the columns of the source.')
m('C74','proved',['C74_eval_step', 'C74_depth', 'C74_depth_guarded', 'C74_depth_unique', 'C74_depth_grows', 'Ex.C74_list_depth', 'C74_printing', 'C74_printing_guarded', 'C74_to_string', 'C74_to_string_guarded', 'C74_json', 'C74_runs_out'],
  '`Reached` are the delayed notations that a printer can evaluate: that of the root, and the parts of the evaluated ones (every call of eval in pretty_print.rs is on the root, on a part of a concatenation or a choice, or on a child). Model/Stack.lean is the printer with a limited stack; recursion in Drop is not modelled.')
m('C75','proved',['C75_tree_ids', 'C75_same_calls', 'C75_same_value', 'C75_reformat', 'C75_settles', 'C75_demo', 'C75_demo_again'],
  'The reader is `readJson` (C51), which keeps strings as written between their quotes.')
m('C76','proved',['C76_layout', 'C76_one_line'],
  'Documents as they are built by the `json_*` functions, with any strings and numbers. The formatter of Spec/JsonFormat.lean is executable; `Ex.fmtJson_lines` runs it.')
m('C77','proved',['C77_fewer_lines', 'C77_too_wide', 'C77_same', 'C77_fits'],
  '`docLines` is the formatter of Spec/JsonFormat.lean; C76 says that its lines are what is printed.')
m('C78','proved',['C78_start', 'C78_end', 'C78_all', 'C78_words', 'C78_node'],
  'Spec/JsonFocus.lean extends the formatter of Spec/JsonFormat.lean (C76).')
m('C79','proved',['C79_pane', 'C79_succeeds'],
  'Spec/JsonFocus.lean (C78) and the pane model (C27-C29).')
m('C80','proved',['C80_add', 'C80_overflow', 'C80_add_add', 'C80_reading_order', 'C80_shift', 'C80_size_order'],
  'Spec/Geometry.lean: a position in range; the number of characters before a position on a page.')
m('C81','proved',['C81_chain', 'C81_ruby'],
  'Spec/ProgramFormat.lean: formatters that write on a page; no notations, no choices.')
m('C82','proved',['C82_one_pass', 'C82_error', 'C82_focused', 'C82_before', 'C82_edit_first', 'C82_edit_second'],
  'Spec/OnePass.lean: `NTree.ahead` and `NTree.write` are structurally recursive functions on the trees of Spec/NTree.lean.')
m('C83','proved',['C83_lines', 'C83_focus', 'C83_to_string', 'C83_tree', 'C83_json'],
  'Spec/Reworded.lean: `Rewording` relates two nodes method by method (through the trait only); failures of the documents have to be the same too.')
