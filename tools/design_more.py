how["C42"]=("prettyPrint and both iterators","views (Spec/View.lean) say what has been looked into; every loop of the printer keeps the blocks in step with a view and fails only where the specification allows it; with C41 the result does not depend on the rest")
how["C43"]=("prettyPrint and both iterators","corollary of C42: nothing near a row is outside of the rows of the window, by an invariant on views")
how["C44"]=("display_pane_rec with all kinds of panes and sizes, PrintedDoc, the Divvier","Spec/Tiles.lean relates a pane notation to the tiles it stands for; induction on the pane notation shows that a successful run displays such tiles, and that the tiles are unique")
how["C45"]=("display_pane_rec and everything it calls","a partial-correctness predicate on runs (result satisfies a postcondition or the failure has a reason), proved for every function by induction on the pane notation; termination likewise, from C13")
how["C46"]=("Tree, its builders and its PrettyDoc methods","case analysis, and induction on the list of children and of overrides")
how["C47"]=("UpwardPrinter, DownwardPrinter and the expand functions once more, with the state kept after a failure (Model/Resume.lean)","a measure on the stacks of blocks decreases with every call, also with those that fail; the state-keeping loops agree with the plain ones (fixpoint induction); blocks further down a stack play no role before their turn (frame lemmas)")
how["C48"]=("prettyPrint and the line iterators","an indentation commutes with the notation tree, with what fits and with the layout (induction on the tree); a newline ends the question of what fits, so what follows it does not matter; induction on the rows")
how["C49"]=("prettyPrint, the line iterators and pretty_print_to_string","a simulation: every function of the model commutes with renaming (fixpoint induction for each loop); with termination (C13) the results are equal; for styles, both documents are renamed to one with a single style")
how['C50']=('prettyPrint and the line iterators','both layouts start in the same state; induction on the greedy layout: what fits at a width fits at a larger one, and until the first different decision the states are equal; in a wide enough window what fits does not depend on the width (induction on the tree, with a bound on the column)')
how['C51']=('the json_* constructors and their notations; pretty_print_to_string','C34 reduces the printed text to the compact text; then by mutual induction on the value: the reader (Spec/JsonRead.lean, with a bound on its depth that is the length of the text) reads the compact text back, whatever follows; json_roots: C48, and a node whose notation does not check the node itself prints the same with and without its needs_separator flag')
how['C52']=('notations, and documents that differ in their notations','the laws are the rules of NEquiv (Spec/Equiv.lean); by induction on its derivations the trees of equivalent notations have the same greedy layouts in every context; the two non-laws are concrete documents')
how['C53']=('the whole printer (as for C01, C02)','An invariant over the tree of the document (every string in a leaf of the tree is a string of the document) is kept by the layout; C02 relates every printed line to the layout.')
how['C54']=('Model/Demo.lean: json_to_doc (with the id counter), pretty_print_json, lines_to_string, and what main writes to stdout','json_to_doc makes the calls of a JSON expression (so C33, C34, C51 apply); the lines are those of the layout (as in C01); induction over the lines for the terminal; and an invariant of the notation tree (both sides of every choice show the same ink) for the colours.')
how['C55']=('Model/Work.lean: the whole printer once more, with a counter of steps','Amortised analysis: every delayed notation, chunk and block carries a potential (12 times the work of its shape, minus a small constant that depends on where it is); every function of the printer takes at most as many steps as the potential decreases, by strong induction on the potential (which also proves termination).')
how['C56']=('The counted printer of C55 and the extensions of documents of C41.','A simulation between the counted runs on the two documents (Proofs/ExtendC.lean, the counted version of Proofs/Extend.lean), then C55 for the smaller document and C42/C43 for what is close.')
how['C57']=('Model/Json.lean (the sample notations), Model/Work.lean (the counted printer).  Specification: Spec/JsonWork.lean (size and depth of an expression).','The shapes of the notations of arrays, objects, comments, pairs and files are computed (folds by induction over the children); inside of a `Flat` there are no choices, so a look ahead is linear in the size; outside, what follows an item on its line is a separator or nothing, so the look ahead beyond it is bounded by a constant.  The work is then bounded by induction over the expression, with the saving of one level of depth paying for the look ahead.')
how['C58']=('The printer, its counted copy and display_pane, on two documents.','Both implementations extend the one that panics outside of the contract (the simulation of C41, with errors kept); that one never panics (C13, C14).')
how['C59']=('the counted printer of C55, run on the document with the nodes outside of the window made dark',"a counted simulation (Proofs/Dim.lean): a session on the dimmed document that does not touch a dark node takes the same steps on the document; the tree and shape of the dimmed document (Proofs/DimTree.lean); which lines each node is on, and that C42's NearFails does not happen for nodes outside the window (Proofs/PlanView.lean, Proofs/PlanTree.lean); the work of the dimmed document, by induction on its tree, counting each line of the window at most once per level; the lower bound by the potential argument of C55 (Proofs/OwnLeast.lean)")
how['C60']=('str_width (with its truncation to u16) and is_char_full_width, in Model/Geometry.lean, over the widths of characters','the columns of a line in the window are the sum of its segment widths (C37), so clipping does nothing; then C29, C30, C31, C44; that the style does not matter for the text is C49')
how['C61']=('the JSON examples (Model/Json.lean), the counted session (Model/Work.lean)','plans: which lines every node takes up (a node is on one line iff it is at most as wide as the page) and in which column of its parent it begins; the nodes that are outside of the lines printed and begin too far to the right are made unavailable; nothing near the focus fails (GPlan.noNearFails, by induction over the views of C42), so C59_near applies; the number of available nodes is bounded by counting columns and lines.')
how['C62']=('tests/standard/generative_testing.rs and NotationGen (Model/Generate.lean)','the stack of the iterator is a path through the decision tree; what is left to be returned is defined along the path, a call of next returns the first of it, advance goes to the path of the rest; induction over sizes for the two generators')
how['C63']=('the test helpers and the test (Model/OracleTest.lean), the oracle, the printer','C09_agree with bounds on the widths of lines (by induction over the notation), C22 to exclude text after an end of line, C02-C04 for the focused prints, all_paths by induction over the document')
how['C64']=('outdated-proofs/refn_impl_cont.hs and refn_impl_tree.hs (Model/Reference.lean), the printer','if the rest of the line fits with second options then it fits in the finished layout (no requirement needed), and conversely by the requirement, both by induction over the finished layout; so both rules take the same options. The Haskell code by induction over the document, with the continuation related to what is displayed before and after')
how['C65']=('the printer','trees and layouts are brought into a normal form without marks and empties; documents that are alike have the same normal form, fitting and layout commute with it, and positions in a layout are those of its normal form')
how['C66']=('print_above_and_below, the three assertions and print_region, with String::insert at a byte offset','the lines before and after the focus are those of the tokens before and after it (C03 to C06); inserting a character at the end of a block of lines and joining lines are homomorphisms')
how['C67']=('the two reference implementations (as for C64)','a document is given by its results under all continuations that keep errors and lose no lines; this is preserved by contexts, and each law is an equation about such results; the normal form by induction with the laws')
how['C68']=('flow_wrap.rs in tests/standard/test_cases and json_comment','the greedy layout of the tree of a folded paragraph, by induction on the words; fewest lines by the usual exchange argument, by induction on the other division')
how['C69']=('json.rs, oracle.rs and pretty_testing.rs','C09 and C63, applied to JSON: by induction on the document, however its choices are taken, the first text after an EndOfLine on the same line is a separator or a closing bracket')
how['C70']=('Display and error messages of notation.rs, valid_notation.rs, consolidated_notation.rs','a canonical form of notations (concatenations grouped to the right) can be read back from the characters, by induction on the notation; digits and quoted strings end where they have to')
how['C71']=('pretty_print_to_string, for documents that implement PrettyDoc lawfully','the denotation of every notation shows the same characters whichever options are taken, by induction on notations and on the document; the printed text is made of what the denotation shows')
how['C72']=('choices of pretty_print.rs','induction on the way in which choices are taken; replacing what follows by its second options keeps the line fitting')
how['C73']=('the document types of iter_chain.rs and ruby_loop.rs, and their builders','the tree of a program, by induction on the program, has only choices that obey the documented requirement, so C10, C72, C71, C09 and C63 apply')
how['C74']=('a single invocation of `eval` (C74_eval_step: iterated, it is `eval`); the printer with room for K nested invocations of `eval` (Model/Stack.lean)','an invariant of reached notations (a place in the valid notation of a node of the document), and a measure that each call decreases; a simulation of the printer by the one with a limited stack')
how['C75']=('as for C51 and C54','giving all nodes the same id is a renaming that the methods respect (C49_to_string); without comments, the value determines the calls; with C51')
how['C76']=('as for C51; the formatter is a separate function on JSON values','by induction on the document, for every text before it on its line and every rest of the line after it: the layout of C10 that the printer makes is the one of the formatter; `fits` is decided for the flat form; C68 for the comments')
how['C77']=('as for C76','by induction on the document, for the formatter of C76: the lines for two widths are compared; C68 (fewest lines) for comments')
how['C78']=('as for C76','by induction on the document: the greedy layout puts the child after a prefix whose lines are known (Proofs/FocusAt.lean); then C03, C04')
how['C79']=('as for C78 and C29','from C29_doc_pane, C28_succeeds and C78: the output of printing a JSON document is known')
how['C80']=('the addition of a size to a position and the derived orders (Model/PosOrder.lean, Model/Display.lean)','case analysis and arithmetic')
how['C81']=('Model/Programs.lean (see C73)','for each kind of notation tree: the columns that have to be on the current line, and what it writes; then the trees of programs by induction, and C10')
how['C82']=('Model/Printer.lean (see C10)','the greedy layout of C10 by induction: what is written, and that the three facts decide what fits; the effect of edits by induction on the tree')
how['C83']=('Model/Printer.lean, Model/Tree.lean (see C10, C44)','the trees of the two documents have the same shape; the layout of C10 makes the same decisions on both by induction; the focus through C03 and C07')
