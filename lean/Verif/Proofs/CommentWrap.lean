import Verif.Proofs.FlowWrap
/-
The words of JSON comments.
-/
namespace PPP

section
variable {sw : String → Nat}

/-- The style of the text of a comment. -/
def commentStyle : BasicStyle :=
  BasicStyle.combine (enterStyle (P := basicDoc fun _ => 0) none default) (BasicStyle.fromLabel "yellow")

/-- The text of word `i`. -/
def commentText (sw : String → Nat) (st : BasicStyle) (words : List (List Char)) (i : Nat) : Textual (basicDoc sw) :=
  ⟨String.ofList (words.getD i []), sw (String.ofList (words.getD i [])), enterStyle (P := basicDoc sw) (some st) default, true⟩

/-- A literal of a comment. -/
def commentLit (sw : String → Nat) (st : BasicStyle) (s : String) : Textual (basicDoc sw) := ⟨s, sw s, st, false⟩

/-- The tree of the words of a comment. -/
def commentTree (sw : String → Nat) (st : BasicStyle) (ind : List (Segment (basicDoc sw))) (wordIds : Nat → Nat) (words : List (List Char)) : NTree (basicDoc sw) :=
  if words = [] then .mark
  else wordsTree none (commentLit sw st " ") ind wordIds (commentText sw st words)
    (words.length - 1)

theorem comment_body_tree {words : List (List Char)} {node : Tree BasicStyle} {cs : List (Tree BasicStyle)}
    {wordIds : Nat → Nat} (hnode : node.children? = some cs) (hcs : cs.length = words.length) (st : BasicStyle)
    (ind : List (Segment (basicDoc sw)))
    (hkids : ∀ (i : Nat), i < words.length → ∃ z, (basicDoc sw).childAt node i =
      .ok (.text (String.ofList (words.getD i [])) (wordIds i) jsonWordN default [] false z)) :
    jsonCommentBody.tree (P := basicDoc sw) node (docKid (basicLaw sw) node) none
      ⟨false, ind, st⟩ = commentTree sw st ind wordIds words := by
  have hnum : (basicDoc sw).numChildren node = .ok (some cs.length) := by simp [hnode]
  let c : Ctx (basicDoc sw) := ⟨false, ind, st⟩
  have hk : ∀ i, i < words.length → docKid (basicLaw sw) node i c = wordTree wordIds (commentText sw st words) i := by
    intro i hi
    obtain ⟨z, h⟩ := hkids i hi
    refine docKid_of (basicLaw sw) h ?_
    rw [docTree_of (basicLaw sw) (a := .text) (s := default) rfl rfl]
    rfl
  unfold jsonCommentBody
  match hn : cs.length with
  | 0 =>
    rw [hn] at hnum
    rw [count_zero_tree (P := basicDoc sw) hnum]
    have : words = [] := List.length_eq_zero_iff.1 (by omega)
    simp only [commentTree, this, if_pos]
    rfl
  | 1 =>
    rw [hn] at hnum
    rw [count_one_tree (P := basicDoc sw) hnum, child_zero_tree (P := basicDoc sw) hnum]
    rw [show docKid (basicLaw sw) node 0 ⟨false, ind, st⟩ = _ from hk 0 (by omega)]
    have : words ≠ [] := by intro e; simp [e] at hcs; simp [hcs] at hn
    simp only [commentTree, if_neg this, show words.length - 1 = 0 by omega]
    rfl
  | n + 2 =>
    rw [hn] at hnum
    rw [count_many_tree (P := basicDoc sw) hnum]
    have hne : words ≠ [] := by intro e; simp [e] at hcs; simp [hcs] at hn
    have hfold := fold_tree (P := basicDoc sw) (node := node) (kid := docKid (basicLaw sw) node) (first := .child 0)
      (join := .left + (.literal " " ||| .newline) + .right) (env := none) hnum
      (fun i hi => by
        obtain ⟨z, h⟩ := hkids i (by omega)
        exact ⟨_, h⟩) c
      (fun k acc => .concat (.concat acc (.choice (.text (commentLit sw st " "))
          (.newline ind))) (wordTree wordIds (commentText sw st words) (k + 1)))
      (fun acc k hk' => by
        rw [← hk (k + 1) (by omega)]
        rfl)
    refine hfold.trans ?_
    rw [child_zero_tree (P := basicDoc sw) hnum, hk 0 (by omega)]
    simp only [commentTree, if_neg hne, show words.length - 1 = n + 1 by omega]
    rfl

/-- The tree of a comment. -/
theorem comment_tree (id : Nat) (wordIds : Nat → Nat) (s : String) :
    rootTree (basicLaw sw) (jsonComment id wordIds s) none = .ok (id,
      .concat (.concat (.text (commentLit sw commentStyle "// "))
        (commentTree sw commentStyle [(commentLit sw commentStyle "// ").segment] wordIds (splitWhitespace [] s.toList))) .eol) := by
  let words := splitWhitespace [] s.toList
  let cs : List (Tree BasicStyle) := words.mapIdx fun i word => Tree.newText (wordIds i) jsonWordN (String.ofList word)
  have hnode : jsonComment id wordIds s = .branch (markSeparators cs).1 id jsonCommentN default [] true false := rfl
  have hlen : (markSeparators cs).1.length = words.length := by
    rw [markSeparators_length]; simp [cs]
  have hch : ∀ (i : Nat), i < words.length → ∃ z', (basicDoc sw).childAt
      (.branch (markSeparators cs).1 id jsonCommentN default [] true false) i =
        .ok (.text (String.ofList (words.getD i [])) (wordIds i) jsonWordN default [] false z') := by
    intro i hi
    have hget : cs[i]? = some (Tree.newText (wordIds i) jsonWordN (String.ofList (words.getD i []))) := by
      simp [cs, List.getElem?_mapIdx, List.getElem?_eq_getElem hi]
    have hm := markSeparators_get cs i _ hget
    split at hm
    · exact ⟨true, basic_childAt hm⟩
    · exact ⟨false, basic_childAt hm⟩
  have key := comment_body_tree (sw := sw) (words := words) (wordIds := wordIds)
    (node := .branch (markSeparators cs).1 id jsonCommentN default [] true false) rfl hlen commentStyle
    [(commentLit sw commentStyle "// ").segment] hch
  unfold rootTree
  rw [hnode, docTree_of (basicLaw sw) (a := jsonCommentN.1) (s := default) rfl rfl]
  have := congrArg (fun t => (Except.ok (ε := Fail Empty) (id,
    NTree.concat (P := basicDoc sw) (.concat (.text (commentLit sw commentStyle "// ")) t) .eol))) key
  exact this

/-- The words of a comment, as words. -/
def asWords (sw : String → Nat) (words : List (List Char)) : List Word :=
  words.map fun x => ⟨String.ofList x, sw (String.ofList x)⟩

theorem fullWords_comment (x : List Char) (ws : List (List Char)) : ∀ (t : Nat → Textual (basicDoc sw)),
    (∀ i, (t i).word = ⟨String.ofList ((x :: ws).getD i []), sw (String.ofList ((x :: ws).getD i []))⟩) →
    fullWords none t ws.length ++ [⟨(t ws.length).str ++ "", (t ws.length).width + 0⟩] =
      asWords sw (x :: ws) := by
  induction ws generalizing x with
  | nil =>
    intro t ht
    have := ht 0
    simp only [Textual.word, Word.mk.injEq] at this
    simp [fullWords, asWords, this]
  | cons y ws ih =>
    intro t ht
    have := ih y (fun i => t (i + 1)) (fun i => by rw [ht]; simp)
    have h0 := ht 0
    simp only [Textual.word, Word.mk.injEq] at h0
    rw [show asWords sw (x :: y :: ws) = ⟨String.ofList x, sw (String.ofList x)⟩ :: asWords sw (y :: ws) from rfl]
    rw [← this]
    simp [fullWords, List.range_succ_eq_map, optStr, optWidth, Function.comp_def, h0]

theorem comment_greedy (id : Nat) (wordIds : Nat → Nat) (st : BasicStyle) (x : List Char) (ws : List (List Char)) (w : Nat) :
    ∃ T, GreedyDoc w id (.concat (.concat (.text (commentLit sw st "// "))
        (commentTree sw st [(commentLit sw st "// ").segment] wordIds (x :: ws))) .eol) (T ++ [.tok .eol]) ∧ .eol ∉ erase T ∧
      (linesOf (erase (T ++ [.tok .eol]))).map lineOf = wordsLines ⟨"// ", sw "// "⟩ ⟨"// ", sw "// "⟩ (sw " ")
        (fill w (sw "// ") (sw "// ") (sw " ") (asWords sw (x :: ws))) := by
  let cur : List (Segment (basicDoc sw)) := [(commentLit sw st "// ").segment]
  have hcs : segsString cur = "// " := by
    show segsString [(commentLit sw st "// ").segment] = "// "
    rw [segsString_singleton]
    rfl
  have hcw : segsWidth cur = sw "// " := by
    simp [cur, segsWidth, commentLit, Textual.segment]
  obtain ⟨T, st', g, h⟩ := words_greedy (w := w) (id := id) (comma := none)
    (sp := commentLit sw st " ") (ind := cur) (ids := wordIds) (t := commentText sw st (x :: ws))
    (st := ⟨0 + sw "// ", false⟩) (cur := cur) rfl (by rw [hcw]; simp) ws.length
    [.eol] 0 (by
      intro st hst
      simp [SecondsFit, NTree.seconds])
  have g' : Greedy w id (commentTree sw st [(commentLit sw st "// ").segment] wordIds (x :: ws)) [.eol] ⟨0 + sw "// ", false⟩ st' T := by
    unfold commentTree
    rw [if_neg (by simp)]
    exact g
  refine ⟨[.tok (.text (commentLit sw st "// "))] ++ T, ⟨_, .concat (.concat .text g') .eol⟩, ?_, ?_⟩
  · have := h.noEol
    simpa [erase, erase_append] using this
  · have h3 := h.lines
    obtain ⟨ls, last, hl, -, -⟩ := h.page
    have e1 : linesOf (erase ([.tok (.text (commentLit sw st "// "))] ++ T ++ [.tok .eol])) = linesFrom cur (erase T) := by
      have e2 : linesOf (erase ([.tok (.text (commentLit sw st "// "))] ++ T ++ [.tok .eol])) =
          linesFrom cur (erase T ++ [.eol]) := by
        simp [erase, erase_append, linesOf, linesFrom, cur]
      rw [e2, linesFrom_append hl.symm, hl]
      simp [linesFrom]
    rw [e1, h3]
    obtain ⟨y, ys, hy⟩ : ∃ y ys, asWords sw (x :: ws) = y :: ys := ⟨_, _, rfl⟩
    rw [hy, ← page_fill]
    have hpw := fullWords_comment (sw := sw) x ws (commentText sw st (x :: ws)) (fun _ => rfl)
    rw [hy] at hpw
    have key := pageAt_write (w := w) (sp := (commentLit sw st " ").word) (ind := ⟨"// ", sw "// "⟩)
      (start := ([], "// ", sw "// ")) "" ws.length 0 y ys hpw
    rw [hcs, hcw]
    rw [show ((commentLit sw st " ").word) = (⟨" ", sw " "⟩ : Word) from rfl] at key ⊢
    rw [← key]
    simp only [Textual.word, String.append_empty, Nat.add_zero]

theorem commentTree_noFail (st : BasicStyle) (ind : List (Segment (basicDoc sw))) (wordIds : Nat → Nat) (words : List (List Char)) :
    (commentTree sw st ind wordIds words).NoFail := by
  unfold commentTree
  split
  · trivial
  · exact wordsTree_noFail ..

end
end PPP
