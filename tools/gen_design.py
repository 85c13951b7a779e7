import json
how={
"C01":("pretty_print_to_string, Printer, Block, eval","simulation: the blocks of the printer denote a sequence of notation trees (`Rep`), and every step preserves what the greedy layout of the rest displays"),
"C02":("pretty_print with all seek functions, both iterators","the state after seeking denotes a split of the layout; lines above and below are the lines of the two parts"),
"C03":("seek_start, seek_child","node boundaries are tokens of the layout; the split is at the node's opening token"),
"C04":("seek_end","same, closing token; blocks before it stay unresolved and are resolved when printing upwards, with the same result"),
"C05":("seek_mark","the split is at the first mark token with the node's id"),
"C06":("seek_text, Textual::split_at","the split is inside of the first document text; splitting does not change later choices if widths add up"),
"C07":("seek_child","search over the layout's tokens; converse by the exact error spec of seeking"),
"C08":("UpwardPrinter/DownwardPrinter::next","each `next` removes one line from what the state denotes; `None` is stable"),
"C09":("oracle.rs","the oracle computes the greedy layout, by induction on notation trees; `first_line_len` against the declarative line lengths"),
"C10":("choose, fits","`fits` decides the declarative condition on the tokens of the rest of the line; layouts are exactly the derivations of an inductive relation"),
"C11":("choose, fits","the line after a first option is the one `fits` looked at"),
"C12":("choose, fits","induction over the choices of the line, comparing with any other resolution"),
"C13":("every panic site of the printer","`Fail.panic` and divergence are unreachable: total-correctness triples `Sat` with a measure on trees"),
"C14":("all calls of document methods","documents that panic whenever the contract is broken: still no panic"),
"C15":("Block::push_text","the layout fails at such a token, in both directions"),
"C16":("eval with flat","the tree of a notation in `Flat` is the tree of first options"),
"C17":("IndentNode, Block::new","inductive `Shows` rules carry the enclosing indentations; trees agree with them"),
"C18":("eval of Fold/Left/Right, JoinPos","`fold` means the same as its unfolding by substitution; notations that mean the same print the same"),
"C19":("eval of Child/Count/Check, normalize_child_index","case analysis; errors are traced to a mismatching place in the document"),
"C20":("with_optional_style, eval of Style/Child","the style is a left fold over the styles met, for any `combine`"),
"C21":("validate_rec","both directions against declarative flaws, by structural induction with context and history generalised"),
"C22":("validate_rec, push_text","history over-approximates the displayed tokens for notations without Child and Fold"),
"C23":("Divvier","arithmetic of the three phases"),
"C24":("allocate_proportional","stable sorting of remainders; uniqueness of fair divisions"),
"C25":("allocate_fixed, allocate_dynamic","list induction"),
"C26":("display_pane","every call of every pane lies in its rectangle; rectangles nest"),
"C27":("display_pane","rectangles of subpanes are disjoint"),
"C28":("display_pane","counting cells; success by total-correctness lemmas"),
"C29":("PrintedDoc, display_line","the list of calls is given in closed form from the printed lines"),
"C30":("choose_focus_line_row","exact model of two `f32` roundings"),
"C31":("PlainText","a cell shows the last write; rows of a displayed document as text"),
"C32":("Tree::new_branch","list induction"),
"C33":("the JSON notations","layouts of JSON trees exist at every width, by induction over expressions, with the line state generalised"),
"C34":("the JSON notations","the text of every layout strips to the compact text"),
"C35":("choose","layouts of trees without choices do not mention the width; for errors and focused printing, a simulation between the printer at one width and at another (Proofs/Width)"),
"C36":("u16 additions and subtractions","every intermediate column is at most the width of a final line"),
"C37":("Line, FocusedLine, Segment","invariant on segments"),
"C38":("the operators","trees of operators; equivalence of notations is a congruence and implies equal prints"),
"C39":("BasicStyle","direct, and for printed segments through C20"),
"C40":("partial printing","corollary of the exact specs: partial prints of documents with a layout never fail"),
"C41":("all of printing and displaying","a simulation between two documents, through fixpoint induction on every loop; no hypotheses on the document"),
}
try: exec(open('/verif/tools/design_more.py').read())
except FileNotFoundError: pass
man={c['property']:c for c in json.load(open('/verif/MANIFEST.json'))['claims']}
out=open('/verif/tools/design_head.md').read()
out+="| Id | Property | Modelled code | How it is proved | Theorems (namespace `PPP`) |\n|---|---|---|---|---|\n"
for l in open('/verif/properties.jsonl'):
    d=json.loads(l); i=d['id']; c=man[i]
    a,b=how[i]
    ths=', '.join('`'+t[4:]+'`' for t in c['theorems'])
    st='' if c['status']=='proved' else ' (**'+c['status']+'**)'
    out+=f"| {i} | {d['title']}{st} | {a} | {b} | {ths} |\n"
out+="\nNotes on hypotheses:\n\n"
for i,c in man.items():
    if c['note']: out+=f"* **{i}**: {c['note']}\n"
out+=open('/verif/tools/design_tail.md').read()
open('/verif/DESIGN.md','w').write(out)
