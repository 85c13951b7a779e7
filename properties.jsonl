{"id": "C01", "title": "Whole-document printing is the greedy left-to-right layout", "statement": "pretty_print_to_string(doc, width) returns Ok(s) exactly when the simple left-to-right greedy layout of the document's notation tree exists without error, and then s is the lines of that layout joined by newlines.", "quantifier": "every document (every PrettyDoc implementation with finite depth that honours the trait contract), every valid notation, every width", "why_tests_cant": "The set of documents, notations and widths is infinite; the implementation uses work stacks and block splitting whose correctness depends on nesting depth and on where newlines fall.", "anchors": ["src/pretty_print.rs: pretty_print_to_string, Printer::print_next_line, expand_focusing_first_block, choose, fits"]}
{"id": "C02", "title": "Focus independence", "statement": "If pretty_print(doc, width, path, target, style) succeeds and both line iterators are drained, then (lines above, reversed) ++ [focused line] ++ (lines below) is the same sequence of lines as printing the document from its start; the focus never changes the layout.", "quantifier": "every document, width, path, focus target (Start, End, Mark, Text(n)) and root style", "why_tests_cant": "Seeking resolves choices in a different order from top-to-bottom printing (it skips blocks, expands last-block-first, prints upward); equality must hold for every tree shape and every path.", "anchors": ["src/pretty_print.rs: pretty_print, Printer::seek, seek_child, seek_start, seek_end, seek_mark, seek_text, print_prev_line, print_next_line"]}
{"id": "C03", "title": "FocusTarget::Start splits the output just before the node", "statement": "With FocusTarget::Start, everything printed above the focus and on its left is exactly what the layout prints before the first displayed occurrence of the node at `path`, and what is on the right and below is exactly the rest, beginning with the node's own first character.", "quantifier": "every document, width and path displayed in the layout", "why_tests_cant": "Depends on all choices before the node; must hold for all nestings of blocks and newlines.", "anchors": ["src/pretty_print.rs: FocusTarget::Start, Printer::seek_start, seek_child"]}
{"id": "C04", "title": "FocusTarget::End splits the output just after the node", "statement": "With FocusTarget::End, everything above and on the left of the focus is exactly what the layout prints up to and including the last character of the node at `path`, and the rest is on the right and below.", "quantifier": "every document, width and path displayed in the layout", "why_tests_cant": "seek_end resolves the last block of the node first and leaves earlier blocks unresolved; correctness quantifies over all trees.", "anchors": ["src/pretty_print.rs: FocusTarget::End, Printer::seek_end, expand_focusing_last_block"]}
{"id": "C05", "title": "FocusTarget::Mark finds the node's own first FocusMark", "statement": "With FocusTarget::Mark the output is split exactly at the first FocusMark that the layout displays from the node's own notation (not from a child's); if the layout displays none, the call returns MissingFocusMark.", "quantifier": "every document with distinct ids, width and path", "why_tests_cant": "The mark may be behind any number of choices, children and newlines.", "anchors": ["src/pretty_print.rs: FocusTarget::Mark, Printer::seek_mark"]}
{"id": "C06", "title": "FocusTarget::Text(n) focuses before the n'th character", "statement": "With FocusTarget::Text(n), the output is split inside the first document text printed at or after the node: the left part ends with its first min(n, len) characters and the right part begins with the remaining ones, and no character is lost or duplicated; if there is none the call returns MissingText.", "quantifier": "every document, width, path and character offset n (including n beyond the end)", "why_tests_cant": "Splitting the text changes the segment structure seen by later width decisions; all texts and offsets matter.", "anchors": ["src/pretty_print.rs: FocusTarget::Text, Printer::seek_text", "src/consolidated_notation.rs: Textual::split_at"]}
{"id": "C07", "title": "A path is accepted iff its nodes are displayed", "statement": "Seeking to `path` fails with InvalidPath(i) if and only if, at some step, the layout of the node reached so far displays no child with index i, where i is that path element; otherwise the seek finds the first displayed occurrence.", "quantifier": "every document with ids distinct along each root-to-node path, every width, every path", "why_tests_cant": "The search resolves choices block by block and could miss, or wrongly find, a child for some tree shape.", "anchors": ["src/pretty_print.rs: Printer::seek_child, PrintingError::InvalidPath"]}
{"id": "C08", "title": "Iterators are lazy, exact and fused", "statement": "Taking k lines from the upward or downward iterator yields the k lines nearest the focus, the same lines as a full drain would give, and once an iterator has returned None it keeps returning None.", "quantifier": "every document, focus, width and k", "why_tests_cant": "All prefixes of all iterations.", "anchors": ["src/pretty_print.rs: UpwardPrinter::next, DownwardPrinter::next"]}
{"id": "C09", "title": "Agreement with the oracle printer", "statement": "oracular_pretty_print(doc, width) and pretty_print_to_string(doc, width) agree for every document that matches its notations, displays no zero-width text as the first text after an EndOfLine on the same line, and stays below the oracle's numeric limits: either both give the same string, or the layout has text after an EndOfLine, the oracle panics and the printer returns that error. And whatever string the oracle returns, also for a document that does not match its notations, the printer returns too, unless a line of the layout is too wide for u16 (with the same condition on zero-width texts).", "quantifier": "every document, every width below MAX_WIDTH", "why_tests_cant": "The repo's own tests sample notations up to a small size at widths 1..8; the claim is for all.", "anchors": ["src/oracle.rs: oracular_pretty_print, pp, first_line_len", "src/pretty_print.rs: pretty_print_to_string"]}
{"id": "C10", "title": "A choice shows its first option exactly when that fits", "statement": "Outside Flat, a Choice(x, y) is displayed as x if and only if the rest of the current line with x (taking the second option of every later choice, up to the next newline) stays within the width and contains no EndOfLine followed by text; otherwise it is displayed as y.", "quantifier": "every document, width and every choice reached in the layout", "why_tests_cant": "Infinite contexts: what follows the choice in the enclosing notations decides.", "anchors": ["src/pretty_print.rs: Printer::choose, fits", "src/notation.rs: Notation::Choice"]}
{"id": "C11", "title": "Picking a first option never breaks the line", "statement": "If any choice on a printed line was resolved to its first option, then the whole line is within the printing width and no text follows an EndOfLine after that choice.", "quantifier": "every document, width, line", "why_tests_cant": "Later choices on the line are resolved after the check was made; the guarantee must survive all of them.", "anchors": ["src/pretty_print.rs: Printer::choose, fits"]}
{"id": "C12", "title": "Lines overflow only when unavoidable", "statement": "If the documented requirement on choices holds (whenever x fits then y fits), a printed line exceeds the width only if every way of resolving the choices on it from the start of the line also fails to fit.", "quantifier": "every document whose choices satisfy the documented rule, every width", "why_tests_cant": "Universal over all alternative resolutions.", "anchors": ["src/pretty_print.rs: fits", "src/notation.rs: Notation::Choice"]}
{"id": "C13", "title": "Printing never panics and always terminates", "statement": "For validated notations and documents that honour the PrettyDoc contract and have finite depth, pretty_print, both iterators and pretty_print_to_string always return a value: they never panic (as long as no line is wider than u16::MAX columns) and never loop forever.", "quantifier": "every document, width, path, target, number of lines taken", "why_tests_cant": "Requires a termination argument and the unexpanded-chunk invariant over unbounded executions.", "anchors": ["src/pretty_print.rs: Printer::print_next_line, Printer::print_prev_line, Printer::seek_start, Printer::seek_end, Printer::seek_mark, Printer::seek_text, Printer::seek_child, Block::print", "src/consolidated_notation.rs: eval, JoinPos"]}
{"id": "C14", "title": "The printer honours the PrettyDoc calling contract", "statement": "The printer calls unwrap_text only on nodes whose num_children() is None, unwrap_child(i) only when num_children() is Some(n) with i < n, unwrap_last_child only when n > 0, and unwrap_prev_sibling(parent, i) only on the child i+1 of parent. It calls lookup_style on a node only with labels used in that node's notation, and condition only with conditions used in a Check of that node's notation or of its parent's.", "quantifier": "every document implementation, including ones whose methods panic whenever the contract is broken", "why_tests_cant": "All call sequences for all notations and trees.", "anchors": ["src/pretty_doc.rs: PrettyDoc::condition, lookup_style, unwrap_text, unwrap_child, unwrap_last_child, unwrap_prev_sibling", "src/consolidated_notation.rs: DelayedConsolidatedNotation::eval"]}
{"id": "C15", "title": "TextAfterEndOfLine is reported exactly when it happens", "statement": "Printing the whole document fails with TextAfterEndOfLine if and only if the layout chosen puts a Text or Literal after an EndOfLine on the same line; no successfully printed line does.", "quantifier": "every document without notation/doc mismatches, every width", "why_tests_cant": "Depends on the interaction of EndOfLine with every choice on the line.", "anchors": ["src/pretty_print.rs: Block::push_text, Block.at_eol", "src/notation.rs: Notation::EndOfLine"]}
{"id": "C16", "title": "Flat picks every first option", "statement": "A notation inside Flat (including the notations of all children displayed in it) is printed with the first option of every Choice, at every width.", "quantifier": "every notation, document, width", "why_tests_cant": "Flat propagates through arbitrarily deep children and folds.", "anchors": ["src/consolidated_notation.rs: eval, Flat and Choice cases", "src/notation.rs: Notation::Flat"]}
{"id": "C17", "title": "Indentation", "statement": "Each displayed newline is followed by exactly the strings of all the Indent notations enclosing it, outermost first, each with the style in force at that Indent combined with its label's style; first lines are not indented.", "quantifier": "every nesting of Indent, Child and Fold", "why_tests_cant": "Unbounded nesting; the code stores indentation as a reversed linked list shared between nodes.", "anchors": ["src/consolidated_notation.rs: IndentNode, eval Indent case", "src/pretty_print.rs: Block::new"]}
{"id": "C18", "title": "Fold is a left fold over the children", "statement": "Fold{first, join} displays nothing for zero children, `first` for one child, and for n children join(...join(join(first, child 1), child 2)..., child n-1), where Left and Right stand for the accumulated notation and the next child, in the style, indentation and flatness of the place where Left or Right occurs.", "quantifier": "every number of children, every first/join notation, every context", "why_tests_cant": "Unbounded number of children; the code walks the fold from the last child backwards.", "anchors": ["src/consolidated_notation.rs: eval Fold, Left, Right cases; JoinPos", "src/notation.rs: Notation::Fold"]}
{"id": "C19", "title": "Child, Count and Check select what they document", "statement": "Child(i) displays child i (from the end if negative) and fails with ChildIndexOutOfBounds / ChildNotationOnChildlessDoc exactly when there is none; Count selects by number of children; Check selects by the condition on Here, Child(i), the previous or the next fold child.", "quantifier": "every index, number of children and condition", "why_tests_cant": "All integers and sizes.", "anchors": ["src/consolidated_notation.rs: eval Child/Count/Check cases", "src/notation.rs: normalize_child_index, CheckPos"]}
{"id": "C20", "title": "Style composition order", "statement": "The style of each printed segment is the left-to-right combination of the root style, then the styles met on the way from the root to that text: each node's node_style as the node is entered and each Style label's style as looked up in the node containing it, outermost first.", "quantifier": "every document, every style type and combine function (not assumed associative)", "why_tests_cant": "Unbounded nesting and an arbitrary combine operation.", "anchors": ["src/consolidated_notation.rs: with_optional_style, eval Style/Child/Right cases", "src/pretty_doc.rs: Style::combine"]}
{"id": "C21", "title": "Validation accepts exactly the well-scoped notations", "statement": "validate() accepts a notation only if Left, Right, CheckPos::LeftChild and CheckPos::RightChild occur only inside a Fold's join, Folds and Counts are not nested, Text is not inside Count or Fold, and Child indices inside Count.zero / Count.one are possible; and it rejects only for a documented flaw.", "quantifier": "every notation tree", "why_tests_cant": "Infinitely many notation trees.", "anchors": ["src/valid_notation.rs: validate, validate_rec, NotationError"]}
{"id": "C22", "title": "Validation rules out TextAfterEndOfLine for self-contained notations", "statement": "A document whose root notation passed validation and contains no Child and no Fold never fails with TextAfterEndOfLine, at any width.", "quantifier": "every valid notation without Child/Fold, every width and condition outcome", "why_tests_cant": "All combinations of choices and checks.", "anchors": ["src/valid_notation.rs: History.eol, NotationError::TextAfterEol", "src/pretty_print.rs: Block::push_text"]}
{"id": "C23", "title": "Panes: space is never over-allocated and is used up when it can be", "statement": "The sizes given to the subpanes of a Horz/Vert always sum to at most the available size, and to exactly the available size when some Proportional subpane has a positive weight.", "quantifier": "every list of pane sizes, every available size, every list of dynamic sizes that fits", "why_tests_cant": "All lists and numbers; the rounding of shares is number-theoretic.", "anchors": ["src/pane/divvy.rs: Divvier::new, finish, allocate_fixed, allocate_dynamic, allocate_proportional"]}
{"id": "C24", "title": "Panes: proportional shares are fair", "statement": "Each Proportional subpane gets its exact real share rounded down or up to a neighbouring integer, the extra columns go to the largest remainders, and exact ties go to the leftmost pane.", "quantifier": "every list of weights with positive total, every amount of space", "why_tests_cant": "All weights and sizes.", "anchors": ["src/pane/divvy.rs: Divvier::allocate_proportional"]}
{"id": "C25", "title": "Panes: Fixed is first come, first served and has priority", "statement": "The i'th Fixed subpane gets min(its request, available minus what earlier Fixed subpanes got), regardless of Dynamic and Proportional subpanes; Dynamic subpanes get exactly their document's size.", "quantifier": "every list of pane sizes and available size", "why_tests_cant": "All lists.", "anchors": ["src/pane/divvy.rs: Divvier::allocate_fixed, allocate_dynamic"]}
{"id": "C26", "title": "display_pane only writes inside the window", "statement": "Every display_char call made by display_pane addresses a cell inside the window, and a full-width character also has its second cell inside the window.", "quantifier": "every pane notation, window size, documents and printing options", "why_tests_cant": "Unbounded nesting of panes and arbitrary documents.", "anchors": ["src/pane/display_pane.rs: display_pane_rec, display_line, display_blank_line", "src/pane/pretty_window.rs: PrettyWindow::display_char"]}
{"id": "C27", "title": "display_pane writes each cell at most once", "statement": "During one display_pane call no cell is covered by two display_char calls (a full-width character covers two cells).", "quantifier": "every pane notation, window size, documents and printing options", "why_tests_cant": "Unbounded nesting of panes.", "anchors": ["src/pane/pretty_window.rs: PrettyWindow", "src/pane/display_pane.rs: display_pane_rec"]}
{"id": "C28", "title": "display_pane writes every cell exactly once when the panes cover the window", "statement": "If every Doc label resolves to a document and in every Horz/Vert the sizes use up the available space, then every cell of the window is written exactly once, as the PrettyWindow documentation promises. Displaying succeeds (no panic, no overflow, no error) when Dynamic is used only for documents, weights are sensible, every document prints at the widths it may be given, and the window has at most 65533 columns and 2^24 rows.", "quantifier": "every such pane notation, window size and documents", "why_tests_cant": "Unbounded nesting of panes.", "anchors": ["src/pane/pretty_window.rs: PrettyWindow", "src/pane/display_pane.rs: display_pane_rec, PrintedDoc::display"]}
{"id": "C29", "title": "A document pane shows the printed lines", "statement": "In a Doc pane the document is printed at the width that its width strategy says (Full: the pane's; Fixed(n): n; NoMoreThan(n): the smaller of n and the pane's), and the row r of the pane shows the line of the document's layout whose distance from the focused line equals the distance of r from the focus row, truncated to the pane's width and padded with blanks in the pane's style; rows outside the document are blank.", "quantifier": "every document, pane rectangle and printing options", "why_tests_cant": "All documents and sizes.", "anchors": ["src/pane/display_pane.rs: PrintedDoc::new, PrintedDoc::display, display_line"]}
{"id": "C30", "title": "Focus row and set_focus position", "statement": "PrintedDoc reports (through set_focus, when enabled) the position (pane top + focus row, pane left + width of text left of the focus), where the focus row is the row nearest to focus_height * (height - 1), up to f32 precision, first for 0 and last for 1; and at most focus_row lines are taken from above and height - focus_row - 1 from below, so a document never produces more lines than the pane's height.", "quantifier": "every document, pane of at most 2^24 rows, focus height in [0,1]", "why_tests_cant": "All sizes.", "anchors": ["src/pane/display_pane.rs: PrintedDoc::new, PrintedDoc::display", "src/pane/printing_options.rs: choose_focus_line_row"]}
{"id": "C31", "title": "PlainText shows what was written", "statement": "After any sequence of display_char calls, the text of a PlainText window shows at each cell the last character written there, and blanks at cells never written that lie to the left of a written one.", "quantifier": "every sequence of in-window writes", "why_tests_cant": "All histories of writes.", "anchors": ["src/pane/plain_text.rs: PlainText::display_char, fmt::Display"]}
{"id": "C32", "title": "Tree: separators and comments", "statement": "After Tree::new_branch, a freshly made child satisfies NeedsSeparator if and only if it is not a comment and some later sibling is not a comment.", "quantifier": "every list of children", "why_tests_cant": "All lists.", "anchors": ["src/doc_examples/tree.rs: Tree::new_branch, TreeCondition"]}
{"id": "C33", "title": "JSON documents always print", "statement": "Every JSON document built from the json_bool, json_number, json_string, json_array, json_object_pair, json_object constructors (comments used only as elements of arrays, objects or the top level) prints without error at every width, unless a line would be wider than 65535 columns; and from the start and the end of every node the same text is printed. Focusing on a Mark or Text fails only if there is none.", "quantifier": "every JSON document, width and path", "why_tests_cant": "All JSON documents; comments force line breaks through EndOfLine.", "anchors": ["src/doc_examples/json.rs: JSON_*_NOTATION, json_array, json_object, json_comment"]}
{"id": "C34", "title": "JSON output content does not depend on the width", "statement": "For a JSON document whose strings have quotes and backslashes escaped, removing comments, newlines, indentation and spaces outside of strings from the printed text gives the same compact JSON text, that of its value, at every width.", "quantifier": "every JSON document (with or without comments) and width", "why_tests_cant": "All JSON documents and widths.", "anchors": ["src/doc_examples/json.rs: JSON_ARRAY_NOTATION, JSON_OBJECT_NOTATION"]}
{"id": "C35", "title": "Choice-free documents are width independent", "statement": "If no Choice is reachable outside Flat, printing has the same result at every width: pretty_print_to_string returns the same string or the same error, and pretty_print with any focus returns the same focused line, the same lines above and below it, or the same error.", "quantifier": "every such document, every pair of widths, every focus path and target", "why_tests_cant": "All documents.", "anchors": ["src/pretty_print.rs: Printer::choose"]}
{"id": "C36", "title": "Column arithmetic does not overflow below 65536 columns", "statement": "If no line of the layout is wider than 65535 columns, none of the u16 additions and subtractions made while printing can overflow or underflow.", "quantifier": "every document whose lines stay below the limit", "why_tests_cant": "All intermediate states of all executions.", "anchors": ["src/pretty_print.rs: Block::push_text, Block::new, choose, fits", "src/geometry.rs: Width"]}
{"id": "C37", "title": "Line widths are what segments say", "statement": "Line::width, FocusedLine::left_width/right_width/width are the sums of the segment widths, each segment's width is the column width of its string, and converting a FocusedLine into a Line preserves the text and width.", "quantifier": "every printed line", "why_tests_cant": "All lines of all documents.", "anchors": ["src/pretty_print.rs: Line::width, FocusedLine, From<FocusedLine>", "src/consolidated_notation.rs: Segment"]}
{"id": "C38", "title": "Notation operators mean what they say", "statement": "x ^ y lays out as x, a newline, then y; i >> x lays out as a newline with i more spaces of indentation then x; x + y and x | y are Concat and Choice; concatenation is associative and Empty is its unit for the printed text.", "quantifier": "all notations x, y, z and contexts", "why_tests_cant": "All notations; associativity must hold under every width because fits looks past the notation.", "anchors": ["src/notation.rs: Add, BitOr, BitXor, Shr impls"]}
{"id": "C39", "title": "BasicStyle combination", "statement": "BasicStyle::combine is associative, takes the inner colour, and is bold iff either is bold.", "quantifier": "all styles", "why_tests_cant": "Finite, but the composition over arbitrarily deep nesting is not.", "anchors": ["src/doc_examples/style.rs: BasicStyle::combine"]}
{"id": "C40", "title": "Errors in parts that are not printed do not matter", "statement": "Taking only some lines never reports an error that belongs to parts of the document that are not needed for those lines: if the whole document prints without error then so does every focused, partial print.", "quantifier": "every document, path, target, number of lines", "why_tests_cant": "All partial executions.", "anchors": ["src/pretty_print.rs: pretty_print, UpwardPrinter, DownwardPrinter"]}
{"id": "C41", "title": "Printing depends only on what it looks at", "statement": "If printing part of a document (or filling a window) succeeds although the methods of some of its nodes return errors, because those nodes are not available, then it also succeeds, with the same focused line, the same lines above and below and the same calls on the window, when those nodes are available, whatever they turn out to contain.", "quantifier": "every document (even infinite or invalid), every set of unavailable nodes, every later content of them, every width, path, target, pane notation", "why_tests_cant": "All pairs of documents that agree where the first one answers.", "anchors": ["src/pretty_print.rs: pretty_print, UpwardPrinter, DownwardPrinter", "src/pretty_doc.rs: PrettyDoc", "src/pane/display_pane.rs: display_pane"]}
{"id": "C42", "title": "Peephole printing: only what is near the focus is looked at", "statement": "Printing the focused line with k lines above and j lines below it fails only with an error of the printer itself (invalid path, missing focus mark or text, text after an end of line, overflow), or with the failure of something one comes across when following the path and reading those lines: on every one of these lines, the parts that may come to be in its first `width` columns, or the first part of it that has to be looked into. The first option of a choice is looked into only if its first line may fit in the width; and when finding out whether it does, only second options of other choices are looked into. If nothing of that fails, then the result (lines or error) does not depend on the rest of the document, whatever that is.", "quantifier": "every document, every width, path, target, every k and j, every content of the parts further away", "why_tests_cant": "All partial executions, and all pairs of documents that agree near the focus.", "anchors": ["src/pretty_print.rs: pretty_print, Printer::seek, expand_focusing_first_block, expand_focusing_last_block, fits, UpwardPrinter, DownwardPrinter"]}
{"id": "C43", "title": "Only the rows of the window matter", "statement": "If a document displays its children on separate lines, then printing the start or the end of a node in child i, with k lines above and j lines below it, does not fail because of, or depend on, any child outside of i-k .. i+j: those may all be missing or broken.", "quantifier": "every document with rows (any number of rows, any rows), every path into a row, every k and j", "why_tests_cant": "All numbers of rows and all contents of the rows outside of the window.", "anchors": ["src/pretty_print.rs: pretty_print, UpwardPrinter, DownwardPrinter"]}
{"id": "C44", "title": "What the whole window shows", "statement": "If display_pane succeeds then the window is divided into tiles as the pane notation says, and the calls made are exactly those that display the tiles one after the other, row by row: a Fill pane fills its rectangle; a Doc pane shows the focused line of its document on the row given by focus_height with the nearest lines above and below it that fit; a Style pane combines its style inside the styles around it; Horz and Vert give each Fixed pane its size, first come first served, each Dynamic pane the size of the excerpt of its document that fits into what is then left, and share the rest fairly among the Proportional panes, from left to right and from top to bottom. The pane notation, the documents and the window size determine the tiles.", "quantifier": "every pane notation (any nesting), every set of documents and options, every window size", "why_tests_cant": "All pane trees and documents.", "anchors": ["src/pane/display_pane.rs: display_pane, display_pane_rec, PrintedDoc", "src/pane/divvy.rs: Divvier", "src/pane/pane_notation.rs: PaneNotation, PaneSize"]}
{"id": "C45", "title": "Displaying panes fails only for good reasons", "statement": "display_pane always returns. In a window of at most 65533 columns and 2^24 rows it fails with InvalidUseOfDynamic only if a Dynamic pane is not a document (and then it never succeeds), with a printing error only if printing one of the documents fails with that error, and it panics only if all Proportional weights of some Horz or Vert are zero (or sum to 2^32 or more) or a focus_height is outside of 0..1.", "quantifier": "every pane notation, every set of documents and options, every window size", "why_tests_cant": "All pane trees and documents, including invalid ones.", "anchors": ["src/pane/display_pane.rs: display_pane, PaneError, extract_doc", "src/pane/divvy.rs: Divvier", "src/pane/printing_options.rs: PrintingOptions"]}
{"id": "C46", "title": "Trees are what they were built from", "statement": "A Tree has either a text or children: unwrap_text and unwrap_child succeed exactly when num_children says so. Tree::new_text and Tree::new_branch give nodes with the given contents and notation and the default style; into_comment, with_style and with_style_override change nothing else. The first override for a label counts; other labels are converted.", "quantifier": "every tree, label and style, every sequence of overrides", "why_tests_cant": "All trees.", "anchors": ["src/doc_examples/tree.rs: Tree, impl PrettyDoc for &Tree"]}
{"id": "C47", "title": "The line iterators after an error", "statement": "A caller may go on calling next() after it has given an Err: every call returns, and after finitely many lines and errors, which are always the same, the iterator gives None for ever (unless a width overflows). What comes before the first error are the lines one gets when stopping there. If a document consists of two documents one above the other, an error in the first one does not hide the second one: going down one gets all that the first one gives, errors included, and then all the lines of the second one; and going up likewise.", "quantifier": "every document (errors in any methods of any nodes), every width, path and target, any number of calls after any number of errors", "why_tests_cant": "All documents with errors anywhere, and all sequences of calls.", "anchors": ["src/pretty_print.rs: UpwardPrinter::next, DownwardPrinter::next, print_next_line, print_prev_line, expand_focusing_first_block, expand_focusing_last_block"]}
{"id": "C48", "title": "Printing is modular", "statement": "If a document's notation only puts rows below each other -- literals, child(i), all children with fold(child(0), left ^ right), x ^ y, x + indent(pre, nl + y) (so also x + (n >> y)), style(label, x), the empty notation, focus marks, the node's text, check(cond, x, y) and count over such rows -- and its indentations leave room on the line, then its lines are exactly the lines of its rows: a child is printed exactly as if it were printed on its own, in the surrounding style, at the width that the indentation leaves, and the indentation is put in front of each of its lines. The document prints if and only if all of its displayed children print on their own and no line is wider than 65535 columns.", "quantifier": "every document with such a notation, every nesting of rows, every child document whatever its notation, every width and style", "why_tests_cant": "All documents, children and widths: whether a line in a child fits must not depend on the rows above and below it.", "anchors": ["src/pretty_print.rs: pretty_print, print_next_line, Block", "src/notation.rs: Notation::Indent, Notation::Fold, BitXor, Shr", "src/consolidated_notation.rs: DelayedConsolidatedNotation::eval"]}
{"id": "C49", "title": "Styles and ids are only passed through", "statement": "The printer treats nodes, ids, styles, style labels, conditions and the document's errors as opaque: printing a renamed document gives the renamed result (ids must stay different if they were different, unless the focus is the start, the end or a place in the text of the whole document, as it is for pretty_print_to_string; everything else may be renamed in any way that the methods respect). In particular styles do not affect the text: with any other styles (looked up with success and failure for the same nodes and labels) pretty_print gives the same segments with the same widths on the same lines on the same sides of the focus, or the same error. And it does not matter what the ids are, only which are equal; for the text of the whole document, not even that.", "quantifier": "every document, every renaming, every assignment of styles and ids, every width, path, target, surrounding style and number of lines taken from both iterators", "why_tests_cant": "All documents and all style and id types.", "anchors": ["src/pretty_print.rs: pretty_print, pretty_print_to_string, UpwardPrinter, DownwardPrinter", "src/consolidated_notation.rs: DelayedConsolidatedNotation::eval", "src/pretty_doc.rs: PrettyDoc, Style"]}
{"id": "C50", "title": "How the output depends on the width", "statement": "When one document is printed at two widths, either all choices are decided in the same way, or the first choice that is decided differently takes its first option at the larger width and its second option at the smaller one. So between two widths with the same decisions the decisions are the same; if all choices take their first option, every larger width prints the same; if all take their second option, every smaller width does. Once the width is at least the sum of the widths of all texts and indentations of the document (both options of every choice counted), every larger width prints exactly the same, with any focus; so for every document there is a width from which on nothing changes.", "quantifier": "All documents, all pairs of widths.", "why_tests_cant": "The effect of one more column can be arbitrarily far away; tests compare a few widths on a few documents.", "anchors": ["src/pretty_print.rs: pretty_print, pretty_print_to_string, choose, fits"]}
{"id": "C51", "title": "JSON can be read back", "statement": "Print a JSON value made with the json_bool, json_number, json_string, json_array, json_object_pair, json_object functions (strings and keys given with quotes and backslashes escaped, finite numbers) at any width, with any comments in it, and read the printed text with a JSON reader that skips white space and // comments: the result is the value that was printed. So two different values are never printed as the same text. Several values and comments at the top level (json_roots) are printed one after the other, each exactly as on its own, with one newline between them, so each part can be read back.", "quantifier": "All JSON values of any depth and size, all widths.", "why_tests_cant": "Whether a separator, a bracket or a line break gets lost depends on the combination of nesting, comments and width; tests print a few values.", "anchors": ["src/doc_examples/json.rs: json_null, json_bool, json_string, json_number, json_array, json_object, json_object_pair, json_comment", "src/pretty_print.rs: pretty_print_to_string"]}
{"id": "C52", "title": "Laws for rewriting notations", "statement": "A notation can be rewritten with the laws below at any place and at any node of a document, and the document prints the same text at every width. Choice: `a | a` is `a`; `a | (a | b)` is `a | b`; what follows a choice, and what precedes it on the same line, can be moved into both of its options; `(a | b) | c` is `a | (b | c)` if `b` starts on a new line. Flat: no effect on leaves and on itself, picks the first option of a choice, and distributes over everything else. Style and Indent distribute over concatenation, choice, Check and Count. Check and Count can be moved out of concatenations and choices. Two laws one might expect do not hold: choices can not be regrouped in general, and a line break before a choice can not be moved into its options.", "quantifier": "every notation, label, condition, indentation string and child count; every pair of documents of the sample type that differ by such rewrites, at any set of nodes and places; every width and output text", "why_tests_cant": "A law of this kind is about all notations in all contexts: whether `x + (a | b)` and `(x + a) | (x + b)` behave alike depends on everything that is printed before and after them and on the width.", "anchors": ["src/notation.rs: Notation, Add, BitOr, BitXor, Shr", "src/consolidated_notation.rs: DelayedConsolidatedNotation::eval", "src/pretty_print.rs: Printer::choose, fits"]}
{"id": "C53", "title": "Nothing is printed that is not in the document", "statement": "Every segment of every printed line is a string of the document: a literal or an indentation string of the notation of a node that can be reached from the root, or the text of such a node; and the width of the segment is the width of this string. With a focus inside of a text the text may be cut in two, and still every printed character is a character of a string of the document. Every character of the result of pretty_print_to_string is in a string of the document or is the newline between two lines.", "quantifier": "every document of every lawful implementation of PrettyDoc, every width, every focus path and target, every focus style, and every string that is in the output", "why_tests_cant": "Tests compare particular outputs; that no code path of the printer ever makes up text, repeats a part of a string, or takes text from outside of the document is a statement about all documents.", "anchors": ["src/pretty_print.rs: Printer::print_next_line, Printer::print_prev_line, FocusedLine", "src/consolidated_notation.rs: DelayedConsolidatedNotation::eval", "src/pretty_doc.rs: PrettyDoc"]}
{"id": "C54", "title": "The demo program shows the JSON file", "statement": "Run the demo program (examples/json.rs) on any JSON value, at any width. It prints the document unless a line is too long for the column counter, in which case pretty_print_to_string fails in the same way. If no string has an ESC character in it, a terminal shows exactly the lines that pretty_print gives for the document, every character in the colour of its style, and is left with its default colour; the text on the screen is that of pretty_print_to_string followed by two newlines. This text consists of the lines that a plain formatter makes of the value, and the program succeeds exactly if none of these lines is too wide to be counted. Apart from white space, the screen shows the value with strings and keys in magenta, numbers in blue, everything else in white, and one comma between two elements. If the strings in the value are written as in a JSON text (with escapes), the text on the screen is JSON text of the same value.", "quantifier": "every JSON value (of any depth and size), every width, every state of the id counter, every width function, and every output", "why_tests_cant": "The demo has no tests; a missing reset, a wrong colour code, a lost first line or a wrong nesting of ids would show up only for some files and terminals.", "anchors": ["examples/json.rs: json_to_doc, pretty_print_json, lines_to_string, main", "src/doc_examples/json.rs: json_bool, json_number, json_string, json_array, json_object_pair, json_object", "src/pretty_print.rs: pretty_print"]}
{"id": "C55", "title": "Printing does a bounded amount of work", "statement": "Printing a document to a string, or printing it at any focus and then asking for lines above and below in any order, takes a number of steps (calls of the document's methods, evaluation steps, loop iterations, chunks moved, levels of indentation copied) that is at most linear in docWork: the constructs of the document's notation, written out, of every choice only the larger option, plus for every choice what there is to look at on the rest of its line, up to the width. This is at most the size of the largest layout times the furthest look ahead, and at most quadratic in the size of the largest layout, however deeply choices are nested. The only exception is the scan for the relevant chunk when seeking a path, for which the bound is quadratic in docWork.", "quantifier": "all documents that obey the trait, widths, paths, focus targets, styles, and orders in which lines are asked for", "why_tests_cant": "exponential or quadratic behaviour shows up only on deeply nested documents; no test can bound the steps for every document", "anchors": ["src/pretty_print.rs: pretty_print, pretty_print_to_string, Printer", "src/consolidated_notation.rs: eval", "README.md: Peephole-efficient"]}
{"id": "C56", "title": "The work of printing part of a document does not depend on the rest", "statement": "Suppose that a session (pretty_print with any focus, then any calls of next on the two iterators) is possible on a document of which some nodes are unavailable, i.e. it succeeds or fails with an error of the printer itself. Then the same session on a document in which more nodes are available shows the same lines (or error) and takes exactly the same number of steps, whatever has become available. So its number of steps is at most 12 times the work of printing only what is available, in which an unavailable node counts as one construct. In particular: lines around a focus never cost more than what is close to it (C42), and in a document with rows (C43) the rows outside of the window cost at most one construct each, however large they are.", "quantifier": "all lawful documents, all extensions of them (even unlawful ones), all focuses, targets, styles, widths and orders of asking for lines", "why_tests_cant": "That printing a window is cheap is a statement about all documents around the window; a benchmark measures a few of them.", "anchors": ["src/pretty_print.rs: pretty_print, Printer::seek, Printer::print_next_line, Printer::print_prev_line", "src/consolidated_notation.rs: DelayedConsolidatedNotation::eval"]}
{"id": "C57", "title": "Printing a JSON document is linear in its size times its depth", "statement": "Printing any JSON document that was built with the json_bool, json_number, json_string, json_array, json_object_pair, json_object functions (with comments, whatever the strings and numbers are) takes a number of steps that is bounded by a constant times the number of its nodes, times the nesting depth of its arrays and objects, whatever the width is and although the number of its possible layouts is exponential. The same holds for a session that starts at any node and asks for any lines, in any order (plus a step per line).", "quantifier": "all JSON expressions, all widths, all width functions of strings, all paths, targets and sequences of requests", "why_tests_cant": "A benchmark measures a few documents; a notation that looked ahead too far, or twice, would be slow only on some nestings.", "anchors": ["src/doc_examples/json.rs: JSON_ARRAY_NOTATION, JSON_OBJECT_NOTATION, JSON_COMMENT_NOTATION, JSON_ROOTS_NOTATION", "src/pretty_print.rs: pretty_print_to_string, Printer", "src/consolidated_notation.rs: DelayedConsolidatedNotation::eval, DelayedConsolidatedNotation"]}
{"id": "C58", "title": "What a document does outside of its contract does not matter", "statement": "Two implementations of the PrettyDoc trait for the same nodes that agree wherever the trait's documentation says that a method may be called (labels and conditions in use, children within bounds, texts of nodes without children) cannot be told apart: pretty_print followed by any sequence of calls of the two iterators, pretty_print_to_string and display_pane give the same result or fail in the same way, after the same number of steps and the same calls on the window.", "quantifier": "every lawful document, every other implementation that agrees with it within the contract, every width, path, target, style, sequence of calls, pane layout and window size", "why_tests_cant": "It relates two arbitrary implementations on all inputs; a test can only observe the calls of one run.", "anchors": ["src/pretty_doc.rs: PrettyDoc", "src/consolidated_notation.rs: DelayedConsolidatedNotation::eval", "src/pane/display_pane.rs: display_pane"]}
{"id": "C59", "title": "Printing a few lines costs what these lines cost, not what the document costs", "statement": "In a document in which every node displays its children on separate lines, printing k lines above and j lines below the start or end of any node takes a number of steps proportional to (k + j + 1), times the nesting depth of the nodes, times the size of the largest notation of a single node. The number of nodes and of lines of the document does not matter. The size of a notation does: however few lines are asked for, there are at least as many steps as constructs in the root's own notation (those that are displayed at every width). More generally, nodes that a session never looks into do not take any steps, however large they are.", "quantifier": "every lawful document whose nodes have distinct ids and display their children on separate lines, every width, path, k and j, and focus on the start or the end of the node", "why_tests_cant": "A benchmark measures some documents of some sizes; the claim bounds the work for all documents by a formula in which the document's size does not occur.", "anchors": ["src/pretty_print.rs: pretty_print, Printer::print_next_line, Printer::print_prev_line, Printer::seek_child, Printer::seek_start, Printer::seek_end", "src/consolidated_notation.rs: DelayedConsolidatedNotation::eval"]}
{"id": "C60", "title": "What the printer says fits is shown in full, and the cursor is at the focus", "statement": "The printer measures strings with str_width, a window is given characters one or two columns wide (is_char_full_width). If every character takes one or two columns, and no single text is wider than 65535 columns, then the two agree: a pane that is at least as wide as the lines of a document (as measured by the printer) cuts nothing off; a Dynamic pane is given enough columns; set_focus is called with the very position at which the character after the focus is displayed (or a blank at the end of a line); and a PlainText window that is large enough reads as what pretty_print_to_string returns, line by line, padded with blanks. Also, widths measured by str_width add up as long as they can be counted in 16 bits, which is what focus independence (C02) and the agreement with the oracle (C09) rely on.", "quantifier": "every width of characters given by unicode-width, every document, pane rectangle, printing options and window size", "why_tests_cant": "It is about all strings and all documents; tests use ASCII text and few window sizes.", "anchors": ["src/geometry.rs: str_width, is_char_full_width", "src/pane/display_pane.rs: display_pane, PrintedDoc", "src/pane/plain_text.rs: PlainText"]}
{"id": "C61", "title": "Peeping into a large JSON document does not cost what the document costs", "statement": "Printing k lines above and j lines below the start or the end of any node of a JSON document takes a number of steps bounded by a polynomial in the number of lines (k + j + 1), the width, the nesting depth and the largest number of entries of a single array or object. The number of nodes and lines of the document does not matter, although whether an array is printed on one line depends on all of its entries: the printer gives up on an array as soon as the line is full.", "quantifier": "every JSON document without comments (of any size), made by the example JSON functions with the ids of a counter (or any distinct ids); every width, path (valid or not), k and j; focus on the start or on the end of a node", "why_tests_cant": "The claim is about the growth of the cost for documents of unbounded size; a test measures one document.", "anchors": ["src/doc_examples/json.rs: json_array, json_object, json_object_pair", "src/pretty_print.rs: pretty_print, Printer, choose, fits, seek", "src/consolidated_notation.rs: DelayedConsolidatedNotation::eval"]}
{"id": "C62", "title": "The generators of the test suite generate everything, once", "statement": "The exhaustive generator (generate_all_of_size) returns every value that a generator can return, each sequence of picks once and in order, and then None forever, without panicking. For the notation generator these are exactly the notations of the given size made of the listed parts, without repetitions; for the tree generator exactly the trees with the given number of nodes, and their number is a Catalan number. generate_all_up_to_size covers the sizes from 1 on up to, but not including, the size it is given. Random generation returns one of the same values, whatever is picked.", "quantifier": "every generator that asks only for numbers out of non-empty ranges (proved of the two generators of the test suite, for every size), every number of calls of next, every random source", "why_tests_cant": "A test counts the values of one size (the repository has one: 14 trees of size 5); the claim is about all sizes and all generators.", "anchors": ["tests/standard/generative_testing.rs: GenAll, PickNext, advance, generate_all_up_to_size, generate_all_of_size, generate_random, TreeGenerator", "tests/standard/oracle_tests.rs: NotationGen"]}
{"id": "C63", "title": "The comparison of the printer with the oracle succeeds for notations of all sizes", "statement": "oracle_tests passes, whatever the random number generator returns; and so it would for notations of every size up to 13000 and every width below 10000: every notation made of the parts used by the test that passes validation is printed by the oracle, and the same text is printed by pretty_print_to_string and by printing upwards and downwards from the start and the end of the node. The helper assert_pp, on any document that the two printers agree on and whose nodes are all displayed, passes exactly if the expected lines are what is printed. Conversely, if the test passes then the two printers do agree on every notation that it tries, which are all those of a size below 6 and 3200 random ones.", "quantifier": "every notation made of empty, newline, end of line, the three literals, flat, nest, concatenation and choice of size at most 13000 (larger ones may overflow the column counter); every width below 10000; every random source; for assert_pp every lawful document", "why_tests_cant": "The test samples some thousands of notations; the claim covers all of the sizes and widths.", "anchors": ["tests/standard/oracle_tests.rs: oracle_tests", "tests/standard/pretty_testing.rs: SimpleDoc, assert_pp, assert_pp_without_expectation, assert_pp_impl, all_paths, print_above_and_below", "src/oracle.rs: oracular_pretty_print", "src/pretty_print.rs: pretty_print, pretty_print_to_string"]}
{"id": "C64", "title": "Looking to the end of the line is as good as looking at the whole layout", "statement": "If the choices of a document obey the documented requirement (whenever the first option fits on the line, so does the second), then what is printed is what the author's reference implementation prints: that one takes the first option of a choice exactly if, in the finished layout with that option (all later choices being taken by the same rule), the line of the choice fits. The two reference implementations in the repository are the same function, and succeed on every document without Err and Flat. Without the requirement the printer and the reference can differ.", "quantifier": "every document whose notations display without failure and whose choices obey the requirement, every width; every document of the reference implementation (built from texts, newlines, indentation, concatenation and choice for the comparison with the printer)", "why_tests_cant": "The requirement is about all contexts of a choice, and the reference looks arbitrarily far ahead: agreement has to hold for all documents and widths.", "anchors": ["outdated-proofs/refn_impl_cont.hs: pp, pick, pretty", "outdated-proofs/refn_impl_tree.hs: pp, resolve, pretty", "src/notation.rs: Notation::Choice", "src/pretty_print.rs: pretty_print_to_string, Printer::choose"]}
{"id": "C65", "title": "Focus marks take no space", "statement": "Adding, removing or moving focus marks (or Empty, or regrouping concatenations) in the notations of a document changes nothing that is printed: pretty_print_to_string gives the same string at every width, and pretty_print with FocusTarget::Start, End or Text gives the same lines, split at the same place, or is refused with the same error.", "quantifier": "every pair of documents that are alike except for the focus marks, Empties and grouping in the notations of any of their nodes, of which one matches its notations; every width, path and focus target other than Mark", "why_tests_cant": "A mark can be anywhere: inside a choice, a fold, an indentation or a child, at the place where the rest of the line is measured. That it never changes a choice has to hold for all notations, contexts and widths.", "anchors": ["src/notation.rs: Notation::FocusMark, Notation::Empty", "src/pretty_print.rs: pretty_print, pretty_print_to_string, Printer::seek, Printer::choose, fits", "src/consolidated_notation.rs: ConsolidatedNotation::FocusMark, eval"]}
{"id": "C66", "title": "The test suite checks the focus exactly", "statement": "The assertions with which the test suite checks the focus pass exactly when they should. assert_pp_seek passes iff the document has a layout that displays the node at the path, and the expected lines are the text of that layout with '(' just before and ')' just after what the node displays. assert_pp_focus passes iff the node and the focus target are displayed, and the expected lines are the text with '|' at the focus. assert_pp_region passes iff the expected lines are the lines of the layout from row - rows/2 to row + rows/2 - 1, where row is the focused line; with fewer than 2 rows it never passes.", "quantifier": "every lawful document without repeated ids on a path, width, path, focus target, list of expected lines and number of rows", "why_tests_cant": "A unit test can only run the assertions on examples; whether an assertion accepts a wrong focus position or a wrong layout for some document is about all documents and all expected lines. The assertions compute byte offsets in lines and insert characters twice in the same line.", "anchors": ["tests/standard/pretty_testing.rs: assert_pp_seek, assert_pp_focus, assert_pp_region, print_region, print_above_and_below, concat_lines, compare_lines", "src/pretty_print.rs: pretty_print, FocusedLine::to_left_string, FocusedLine::to_right_string"]}
{"id": "C67", "title": "The laws of pretty printing, for the reference implementations", "statement": "Call two documents of the reference implementation the same if they print alike in every context and for every width. All the laws that the author lists hold: concat-unit, concat-assoc, text-empty, text-concat, the laws that lower indentation and flattening to texts and newlines, indent-identity, indent-compose, flat-compose, the laws of errors, choice-assoc, choice-distr-text-left and choice-distr-right; concatenation with a newline does not distribute over choice. Every document is the same as Err or as one made of texts, newlines, concatenations and choices only, and not both; printing fails for some width iff it fails for all, iff the document is the same as Err. Such a normal form can be given to the printer, which prints what the reference implementation prints for the original document if the choices of the normal form obey the documented requirement.", "quantifier": "all documents of the reference implementation, contexts with one hole and widths", "why_tests_cant": "Contextual equivalence ranges over all contexts, and the normal form over all documents. The author proves the laws by hand, most of them as equalities of trees of layouts; some (error-concat, flat-distr-concat, concat-assoc with errors) hold only up to contexts.", "anchors": ["outdated-proofs/ppp.tex: Laws of Pretty Printing", "outdated-proofs/proofs_tree.md", "outdated-proofs/proofs_cont.md", "outdated-proofs/refn_impl_tree.hs: pp, resolve, append', flatten', indent'", "outdated-proofs/refn_impl_cont.hs: pp, pretty"]}
{"id": "C68", "title": "Word wrapping fills lines first come, first served, with as few lines as possible", "statement": "A word-wrapping notation built from fold and (\" \" | newline) fills lines greedily. A paragraph of the flow-wrap test suite and a JSON comment print exactly the lines that one gets by putting one word after the other on the current line if the word, with the punctuation that follows it, still fits in the width, and on a new line (with the prefix of new lines) otherwise; printing succeeds unless a line is wider than the column counter can count. These lines are the only division of the words into nonempty lines such that each line fits or is one word, and the next word would not have fit on it. No division into lines that fit, or have just one word, has fewer lines; and if any division into lines fits in the width, then these lines do. The words of a comment are those between the blanks.", "quantifier": "all lists of words, comments, widths and functions for the width of strings", "why_tests_cant": "The tests wrap five paragraphs at a few widths. That greedy filling needs the fewest lines is a claim about all other divisions of all lists of words.", "anchors": ["tests/standard/test_cases/flow_wrap.rs: WORDS_NOTATION, PARAGRAPH_NOTATION, paragraph, FlowWrap", "src/doc_examples/json.rs: JSON_COMMENT_NOTATION, json_comment", "src/pretty_print.rs: pretty_print_to_string"]}
{"id": "C69", "title": "Every JSON document passes the repository's comparison with the oracle", "statement": "assert_pp, the check that the repository's JSON tests are made of, passes for every document made with the json_* functions, and not only for those in the tests: at every width below the oracle's limit, the oracle and the printer print the same text, the printer prints it from the start and from the end of every node, and the check succeeds exactly if the expected lines are that text. This includes documents with comments, whose EndOfLine marks rule out layouts.", "quantifier": "all JSON documents (values, objects, comments, several roots), all widths below 10000, all lists of expected lines, all functions for the width of strings that add up", "why_tests_cant": "The tests check five documents at a few widths each.", "anchors": ["tests/standard/test_cases/json.rs: json_constants, json_flow, json_seek", "tests/standard/pretty_testing.rs: assert_pp, assert_pp_impl, all_paths", "src/doc_examples/json.rs: json_array, json_object, json_comment, json_roots", "src/oracle.rs: oracular_pretty_print"]}
{"id": "C70", "title": "Displayed notations and error messages tell things apart", "statement": "Two notations are displayed the same by format!(\"{}\", n) exactly if they are the same up to the grouping of concatenations and up to the styles of indentation, which are not displayed; if no indentation has a style, then notations that are displayed the same print the same. (Literals with quotes in them are not escaped, and can be confused with something else.) The messages of printing errors tell the errors apart, with the indices in them; those of notation errors tell the kinds of errors apart, but the two which should mention an index always say 0. The messages of PaneError tell the errors apart if those of the window and of the document do, and positions and sizes are displayed unambiguously.", "quantifier": "all pairs of notations whose literals and indentation have no quotes in them, all ways to show labels and conditions that can be told apart; all pairs of errors", "why_tests_cant": "Pairs of notations can not be enumerated; the repository has no test for the text of a notation or of an error.", "anchors": ["src/notation.rs: Display for Notation, CheckPos", "src/valid_notation.rs: NotationError, Display for ValidNotation", "src/consolidated_notation.rs: PrintingError"]}
{"id": "C71", "title": "What matters of the printed text does not depend on the width", "statement": "Choose which characters matter (newlines do not): for example, everything but white space. If in the notation of every node both options of every choice show the same characters that matter, whatever the children and conditions are, and indentation strings contain none of them, then the characters that matter of the printed text are those of the notations of the nodes put together, so they are the same at every width. If the options of a choice disagree, this fails.", "quantifier": "all documents whose notations have this property, which is a property of each notation by itself, all sets of characters that matter, all pairs of widths at which the document prints", "why_tests_cant": "Layouts differ from width to width in ways that depend on the whole document; a test compares a few widths of a few documents.", "anchors": ["src/pretty_print.rs: pretty_print_to_string", "src/notation.rs: Notation"]}
{"id": "C72", "title": "When all choices show their first options", "statement": "Let every choice obey the documented requirement that the second option fits whenever the first does. Then the layout that takes the first option of every choice is the one that is printed exactly if at every choice the rest of its line fits; in particular, if all lines of that layout are within the width. Without the requirement on choices this fails.", "quantifier": "all documents that match their notations, all widths", "why_tests_cant": "The printer decides each choice by looking only at the rest of the line, with second options in what follows; that these decisions add up for documents with any number of nested choices is not covered by examples.", "anchors": ["src/pretty_print.rs: pretty_print_to_string", "src/notation.rs: Notation::Choice"]}
{"id": "C73", "title": "The program documents of the test suite", "statement": "For every program that the builders of the iter_chain and ruby_loop tests can build (method calls, closures or loops, products, variables, nested in any way): what is printed at any width is the program's source text, up to white space; if the source fits in the width, it is printed on one line and exactly; unless it is enormous, it is printed at every width, whatever that is; and the test harness assert_pp, which compares the oracle with the printer started at both ends of every node, passes for it at every width below 10000, exactly if the expected lines are what is printed.", "quantifier": "all programs, all starting values of the id counter, all widths, all string widths that add up and for which leaving out a space makes punctuation narrower", "why_tests_cant": "The tests have four programs and ten widths; the notations nest choices in choices, with Flat around some children, so that other programs take other paths.", "anchors": ["tests/standard/test_cases/iter_chain.rs: METHOD_CALL_NOTATION, CLOSURE_NOTATION, TIMES_NOTATION, new_node", "tests/standard/test_cases/ruby_loop.rs: METHOD_CALL_NOTATION, DO_LOOP_NOTATION, new_node", "tests/standard/pretty_testing.rs: assert_pp"]}
{"id": "C74", "title": "Printing takes little stack", "statement": "Printing any number of lines around a focus, or a whole document to a string, does not run out of stack, and has the same result as with an unlimited stack, if there is room for as many invocations of eval (the only function of the printer that calls itself) as the height of the notation of a single node times the number of children of a single node; or for twice that height if every Left in a join is part of a concatenation. For JSON documents of any size and depth that is 26 invocations. In detail: whatever notation comes up while a document is printed, evaluating it terminates, and nests at most as many calls as the height of the notation of a single node times the number of children of a single node; and at most twice the height of the notation of a single node if every Left in a join is part of a concatenation. The number of nodes of the document and their nesting depth do not matter. Without that requirement the number of children does matter: a notation of height 5 that skips comments with a Left on its own takes 2 * n nested calls for n comments, and printing them with less room panics.", "quantifier": "all lawful documents of any size, with failing methods or without, all notations that arise in printing them, all widths, paths, focus targets, root styles and numbers of lines; all JSON documents; all numbers of comments", "why_tests_cant": "A stack overflow aborts the program; a test shows that it does not happen for documents of some sizes.", "anchors": ["src/consolidated_notation.rs: DelayedConsolidatedNotation::eval, JoinPos", "src/pretty_print.rs: pretty_print, pretty_print_to_string"]}
{"id": "C75", "title": "Formatting JSON is canonical", "statement": "The text that a JSON document is printed as depends on nothing but the value, the comments and the width: the ids that the thread-local counter gave to the nodes do not matter, and documents without comments that stand for the same value have the same text at every width. So reformatting does not depend on how the text was formatted before: print a document without comments at one width, read the text, make a document of the value and print it at another width, and the result is the text of the first document at that width; printing at the same width again changes nothing. A text with comments loses them when it is read as a value, but changes at most once. The demo program shows the same, colours included, when it is given the text that it shows.", "quantifier": "all trees, all JSON documents, all ids, all pairs of widths, all values given to the demo program", "why_tests_cant": "All documents and all pairs of widths; two documents that are the same value are built in different ways, and the layout is decided by comparing ids and flags in the nodes.", "anchors": ["src/doc_examples/json.rs: json_array, json_object, json_comment", "src/doc_examples/tree.rs: Tree::new_branch, next_id", "src/pretty_print.rs: pretty_print_to_string", "examples/json.rs: json_to_doc, main"]}
{"id": "C76", "title": "How JSON is laid out, exactly", "statement": "Every JSON document is printed at every width as a plain formatter says that knows nothing of notations: an array or an object without comments that fits on the rest of its line (with the comma after it) is on one line, with `, ` between the entries; otherwise its brackets are at the ends of the lines before and after the entries, and each entry starts on a line of its own, four spaces further in than the closing bracket; an entry that is not a comment is followed by a comma exactly if such an entry comes after it; a key stays on the line on which its value starts; the words of a comment fill the lines greedily, each of which starts with the indentation and `// `. Several values at the top level come one after the other. Printing succeeds with exactly this text, unless one of its lines is wider than the printer can count.", "quantifier": "all JSON documents, of any size and depth, comments and several roots included, all widths, all functions for the width of a string", "why_tests_cant": "All documents at all widths: the tests show a few literals, and each choice depends on what comes before and after it on the line.", "anchors": ["src/doc_examples/json.rs: json_null, json_array, json_object, json_object_pair, json_comment, json_roots", "src/pretty_print.rs: pretty_print_to_string", "src/consolidated_notation.rs"]}
{"id": "C77", "title": "Wider JSON is shorter, and only what must is too wide", "statement": "A JSON document (comments included) that is printed for a larger width never takes more lines. A line that is wider than the width is a line of the output for every smaller width, too, down to 0, where everything is broken that can be broken; so only lines that cannot be broken are too wide. If all lines of the output for some width fit in a smaller width, the output for that smaller width is the same. Hence if the document fits when it is printed for any width whatsoever, it fits when it is printed for the width that there is.", "quantifier": "all JSON documents, all pairs of widths, all functions for the width of a string", "why_tests_cant": "All documents and all pairs of widths; both outputs are made of different choices.", "anchors": ["src/doc_examples/json.rs", "src/pretty_print.rs: pretty_print_to_string"]}
{"id": "C78", "title": "Where the nodes of a JSON document are in its text", "statement": "When a JSON document (comments included) is printed with the focus at the start of one of its nodes, given by its path, what is printed before the focus are the lines that a plain formatter puts above the node, and what it puts to the left of the node on its first line: the indentation and a key or the opening bracket and the entries before it, when they are on the same line. With the focus at the end of the node, what is printed before the focus are the lines above it and the node's own lines. Texts and columns are those of the formatter, and together with what is printed after the focus they are the text of the document. The formatter finds every node that a path through arrays, objects and pairs leads to, and every word of a comment, and walking down the children of the document along the path leads to the node that was made for that expression.", "quantifier": "all JSON documents, all paths, all widths, all functions for the width of a string", "why_tests_cant": "All documents, paths and widths.", "anchors": ["src/doc_examples/json.rs", "src/pretty_print.rs: pretty_print"]}
{"id": "C79", "title": "JSON in a pane", "statement": "When a pane shows a JSON document (comments included) with the focus at the start or the end of one of its nodes, its rows are consecutive lines of the text that a plain formatter makes of the document at the width that the options choose, cut off at the right border. The line with the start or the end of the node is on the row that the focus height chooses; if the cursor is asked for, it is put on this row, in the column of the node's start or end in the formatter's text. Displaying a window whose contents are such documents succeeds.", "quantifier": "all JSON documents, all paths to nodes, all rectangles and printing options, all functions for the width of a string; for success: all pane notations within the size limits", "why_tests_cant": "All documents, paths, widths and rectangles.", "anchors": ["src/pane/display_pane.rs", "src/doc_examples/json.rs", "src/pretty_print.rs: pretty_print"]}
{"id": "C80", "title": "Positions and sizes", "statement": "Adding a size to a position gives the position that many rows down and columns to the right, and overflows exactly if the row or the column of that position does not fit its type; adding two sizes is adding their sum, in either order. Positions compare as a page is read: one is less than another exactly if fewer characters are before it; adding the same size to both does not change how they compare. A size that fits inside another does not compare greater, and sizes compare equal only if they are equal.", "quantifier": "all positions, all sizes, all page widths", "why_tests_cant": "All numbers, up to the largest.", "anchors": ["src/geometry.rs: Pos, Size, impl Add<Size> for Pos"]}
{"id": "C81", "title": "How programs are laid out, exactly", "statement": "Every program that the builders of the iter_chain and ruby_loop tests can build is printed at every width as a plain formatter says that knows nothing of notations. Method chains: a call `.method(arg)` stays on the line of its object if it fits there with its argument on one line and with what has to follow it; otherwise it starts a line of its own, one level further in; if it does not fit there either, its argument is on lines of its own. The body of a closure stays on its line if what has to be there of it fits. Loops: the argument of a call follows on the same line if what has to be there of it fits; otherwise the call starts a new line, and if that does not help, so does its argument; a loop is on one line if it fits, and otherwise its body is on lines of its own. Printing succeeds with this text unless a line is wider than the printer can count; the ids of the nodes do not matter.", "quantifier": "all programs, all widths, all functions for the width of a string, all states of the id counter", "why_tests_cant": "The tests have four programs at a few widths; calls, closures and loops nest in any way.", "anchors": ["tests/standard/test_cases/iter_chain.rs", "tests/standard/test_cases/ruby_loop.rs", "src/pretty_print.rs: pretty_print_to_string"]}
{"id": "C82", "title": "Printing in one pass; what an edit can change", "statement": "Every document that matches its notations is printed as one pass over it from left to right would print it, with no backtracking, if for each place three facts about what comes next are known: how many columns of it have to be on the current line, whether there is a text among them, and whether there is a text after an end-of-line mark among them; these are found in one pass from right to left. Printing succeeds with this text exactly if no text is written after an end-of-line mark on its line and no line is too wide to be counted; if lines are narrow enough it fails with TextAfterEndOfLine exactly in the other case. With any focus and any style of the root the lines are the same. So edits have local effects: if the first part of a document is edited and still ends in the same column, what is printed after it stays the same; if the second part is edited and as much of it as before has to be on the current line, what is printed before it stays the same.", "quantifier": "all documents that match their notations, all widths, all functions for the width of a string, all notations", "why_tests_cant": "That decisions depend on nothing else is a statement about all continuations and all histories; tests compare a few outputs.", "anchors": ["src/pretty_print.rs: pretty_print_to_string, Printer::print_next_line, fits", "src/consolidated_notation.rs: ConsolidatedNotation::eval"]}
{"id": "C83", "title": "Texts of the same width", "statement": "What a document's texts say does not matter, only how wide they are. If two documents differ only in their texts, and each text is as wide as the one in the other document, then both are printed or none of them is, and what is printed is the same but for these texts: as many lines, each made of as many segments of the same widths and styles, where the string of a segment is the same or that of the text which replaces it. The same holds before and after a focus; if it is inside of a text, then also the parts of the texts have to be as wide as each other. So renaming to a name of the same width moves nothing. For the trees of the crate's example it is enough to replace texts by others that are as wide, and empty only if the other is. For JSON documents: strings, keys, numbers and words of comments may be replaced by others that are as wide.", "quantifier": "all pairs of documents that differ in texts of the same width, all widths, paths, focus targets and styles, all functions for the width of a string", "why_tests_cant": "That the printer never looks at the letters is a statement about all pairs of documents; tests compare literals.", "anchors": ["src/pretty_print.rs: pretty_print, pretty_print_to_string", "src/consolidated_notation.rs: ConsolidatedNotation::eval, Textual", "src/doc_examples/tree.rs: Tree"]}
