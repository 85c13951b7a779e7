import Verif.Proofs.Wrap
import Verif.Proofs.JsonMain
import Verif.Model.FlowWrap
import Verif.Props.Layout
/-
Paragraphs and comments fill lines with words.
-/
namespace PPP
variable {P : PrettyDoc}

theorem print_of_greedy (law : P.Lawful) {doc : P.Node} {w : Nat} {id t} (hr : rootTree law doc none = .ok (id, t))
    (hn : t.NoFail) {T : List (GTok P)} (hg : GreedyDoc w id t T) (he : ¬ EolDefect (erase T)) {L : List (String × Nat)}
    (hl : (linesOf (erase T)).map lineOf = L) (s : String) :
    prettyPrintToString doc w = Exec.ofRes (.ok s) ↔
      s = "\n".intercalate (L.map Prod.fst) ∧ ∀ n ∈ L.map Prod.snd, n ≤ maxWidth := by
  subst hl
  rw [C10_iff law s hr hn]
  have hs : linesString (linesOf (erase T)) = "\n".intercalate (((linesOf (erase T)).map lineOf).map Prod.fst) := by
    simp only [linesString, List.map_map]
    rfl
  have hw : TooWide (erase T) ↔ ¬ ∀ n ∈ ((linesOf (erase T)).map lineOf).map Prod.snd, n ≤ maxWidth := by
    unfold TooWide
    constructor
    · rintro ⟨l, h1, h2⟩ h
      have := h (segsWidth l) (List.mem_map.2 ⟨lineOf l, List.mem_map_of_mem h1, rfl⟩)
      omega
    · intro h
      refine Decidable.byContradiction fun h' => h fun n hn => ?_
      obtain ⟨p, hp, rfl⟩ := List.mem_map.1 hn
      obtain ⟨l, hl, rfl⟩ := List.mem_map.1 hp
      refine Decidable.byContradiction fun h'' => h' ⟨l, hl, ?_⟩
      simp only [lineOf] at h''
      omega
  rw [← hs]
  constructor
  · rintro ⟨T', ⟨st', g'⟩, hp, rfl⟩
    obtain ⟨st, g⟩ := hg
    obtain ⟨_, rfl⟩ := greedy_unique g' g
    refine ⟨rfl, ?_⟩
    have := hp.1
    rw [hw] at this
    exact Decidable.byContradiction this
  · rintro ⟨rfl, h⟩
    exact ⟨T, hg, ⟨fun h' => hw.1 h' h, he⟩, rfl⟩

theorem eolDefect_text {T : List (Tok P)} (h : EolDefect T) : ∃ A x C, T = A ++ .text x :: C ∧ .eol ∈ A := by
  obtain ⟨A, B, x, C, rfl, _⟩ := h
  exact ⟨A ++ .eol :: B, x, C, by simp, by simp⟩

theorem no_eolDefect {T : List (Tok P)} (h : .eol ∉ T) : ¬ EolDefect T := by
  intro h'
  obtain ⟨A, x, C, rfl, h2⟩ := eolDefect_text h'
  exact h (by simp [h2])

theorem no_eolDefect_end {T : List (Tok P)} (h : .eol ∉ T) : ¬ EolDefect (T ++ [.eol]) := by
  intro h'
  obtain ⟨A, x, C, e, h2⟩ := eolDefect_text h'
  rcases List.eq_nil_or_concat C with rfl | ⟨C, c, rfl⟩
  · have := congrArg List.getLast? e
    simp at this
  · have hc := congrArg List.dropLast e
    have e2 : A ++ .text x :: C.concat c = (A ++ .text x :: C) ++ [c] := by simp
    rw [e2, List.dropLast_concat, List.dropLast_concat] at hc
    exact h (by rw [hc]; simp [h2])

theorem Writes.lines {cur : List (Segment P)} {T st p} (h : Writes cur T st p) :
    (linesFrom cur T).map lineOf = p.lines := by
  obtain ⟨ls, last, h1, h2, rfl⟩ := h.page
  simp [h1, Page.lines, lineOf]

theorem wordsTree_noFail (comma : Option (Textual P)) (sp : Textual P) (ind : List (Segment P)) (ids : Nat → P.Id)
    (t : Nat → Textual P) (n : Nat) : (wordsTree comma sp ind ids t n).NoFail := by
  induction n with
  | zero => exact ⟨⟨_, rfl⟩, trivial⟩
  | succ n ih =>
    cases comma with
    | none => exact ⟨⟨ih, trivial, trivial⟩, ⟨_, rfl⟩, trivial⟩
    | some c => exact ⟨⟨⟨ih, trivial⟩, trivial, trivial⟩, ⟨_, rfl⟩, trivial⟩

/-! ### Paragraphs -/

section
variable {sw : String → Nat}

theorem flow_childAt {d : FlowWrap} {i : Nat} {c} (h : (flowDoc sw).childAt d i = .ok c) : sizeOf c < sizeOf d := by
  cases d with
  | word id s => simp [PrettyDoc.childAt, FlowWrap.numChildren, FlowWrap.contents] at h
  | words id ws =>
    simp only [PrettyDoc.childAt, FlowWrap.numChildren, FlowWrap.contents, FlowWrap.unwrapChild] at h
    split at h
    · rename_i hi
      rw [List.getElem?_eq_getElem hi] at h
      simp only [Except.ok.injEq] at h
      subst h
      have := List.sizeOf_lt_of_mem (List.getElem_mem hi)
      simp only [FlowWrap.words.sizeOf_spec]
      omega
    · simp at h
  | paragraph id body =>
    simp only [PrettyDoc.childAt, FlowWrap.numChildren, FlowWrap.contents, FlowWrap.unwrapChild] at h
    split at h
    · rename_i hi
      have hi' : i < 1 := hi
      obtain rfl : i = 0 := by omega
      simp at h
      subst h
      simp only [FlowWrap.paragraph.sizeOf_spec]
      omega
    · simp at h

/-- Paragraphs obey the contract of documents. -/
theorem flowLaw (sw : String → Nat) : (flowDoc sw).Lawful where
  wf := Subrelation.wf (r := fun a b : FlowWrap => sizeOf a < sizeOf b) (fun ⟨_, h⟩ => flow_childAt h)
    (InvImage.wf sizeOf Nat.lt_wfRel.wf)
  valid p a h := by
    injection h with h
    subst h
    have h1 : FlowWrap.wordNotation.Valid := by decide
    have h2 : FlowWrap.wordsNotation.Valid := by decide
    have h3 : FlowWrap.paragraphNotation.Valid := by decide
    cases p with
    | word id s => exact h1
    | words id ws => exact h2
    | paragraph id b => exact h3
  last p m h := by
    have h' : p.numChildren = some (m + 1) := by injection h
    simp [h']
  prev p n' i c h1 h2 h3 := rfl
  id_no_panic p := by simp
  notn_no_panic p := by simp
  condition_no_panic p _ _ := by simp
  lookupStyle_no_panic p _ _ := by simp
  nodeStyle_no_panic p := by simp
  numChildren_no_panic p := by simp
  unwrapText_no_panic p h := by
    cases p with
    | word id s => simp [FlowWrap.unwrapText, FlowWrap.contents]
    | words id ws => simp [FlowWrap.numChildren, FlowWrap.contents] at h
    | paragraph id b => simp [FlowWrap.numChildren, FlowWrap.contents] at h
  unwrapChild_no_panic p n i h hi := by
    cases p with
    | word id s => simp [FlowWrap.numChildren, FlowWrap.contents] at h
    | words id ws =>
      have h' : ws.length = n := by simpa [FlowWrap.numChildren, FlowWrap.contents] using h
      have : ws[i]? = some ws[i] := List.getElem?_eq_getElem (by omega)
      simp [FlowWrap.unwrapChild, FlowWrap.contents, this]
    | paragraph id b =>
      have h' : 1 = n := by simpa [FlowWrap.numChildren, FlowWrap.contents] using h
      obtain rfl : i = 0 := by omega
      simp [FlowWrap.unwrapChild, FlowWrap.contents]

/-- The text of word `i`. -/
def flowText (sw : String → Nat) (ws : List String) (i : Nat) : Textual (flowDoc sw) := ⟨ws.getD i "", sw (ws.getD i ""), (), true⟩

/-- A literal. -/
def flowLit (sw : String → Nat) (s : String) : Textual (flowDoc sw) := ⟨s, sw s, (), false⟩

/-- The tree of the words of a paragraph. -/
def flowBody (sw : String → Nat) (next : Nat) (ws : List String) : NTree (flowDoc sw) :=
  if ws = [] then .text (flowLit sw "")
  else .concat (.text (flowLit sw "    "))
    (wordsTree (some (flowLit sw ",")) (flowLit sw " ") [] (fun i => next + i) (flowText sw ws) (ws.length - 1))

theorem flow_kid (next id : Nat) (ws : List String) {i : Nat} (hi : i < ws.length) (c : Ctx (flowDoc sw)) :
    docKid (flowLaw sw) (.words id (ws.mapIdx fun i w => .word (next + i) w)) i c =
      wordTree (fun i => next + i) (flowText sw ws) i := by
  have hc : (flowDoc sw).childAt (.words id (ws.mapIdx fun i w => .word (next + i) w)) i = .ok (.word (next + i) ws[i]) := by
    simp only [PrettyDoc.childAt, FlowWrap.numChildren, FlowWrap.contents, FlowWrap.unwrapChild, List.length_mapIdx, if_pos hi]
    simp [List.getElem?_eq_getElem hi]
  rw [docKid_of (flowLaw sw) hc (docTree_of (flowLaw sw) (a := .text) (s := ()) rfl rfl c.flat c.indent (some c.style))]
  simp only [wordTree, flowText, List.getD_eq_getElem?_getD, List.getElem?_eq_getElem hi, Option.getD_some]
  rfl

theorem flow_words_tree (next id : Nat) (ws : List String) (c : Ctx (flowDoc sw)) (hf : c.flat = false) (hi : c.indent = []) :
    FlowWrap.wordsNotation.tree (P := flowDoc sw) (.words id (ws.mapIdx fun i w => .word (next + i) w))
      (docKid (flowLaw sw) (.words id (ws.mapIdx fun i w => .word (next + i) w))) none c = flowBody sw next ws := by
  let node : FlowWrap := .words id (ws.mapIdx fun i w => .word (next + i) w)
  have hnum : (flowDoc sw).numChildren node = .ok (some ws.length) := by
    simp [node, FlowWrap.numChildren, FlowWrap.contents]
  unfold FlowWrap.wordsNotation
  match hw : ws.length with
  | 0 =>
    rw [hw] at hnum
    rw [count_zero_tree (P := flowDoc sw) hnum]
    rw [List.length_eq_zero_iff] at hw
    simp only [flowBody, hw, if_pos]
    rfl
  | 1 =>
    rw [hw] at hnum
    rw [count_one_tree (P := flowDoc sw) hnum]
    have hne : ws ≠ [] := by intro e; simp [e] at hw
    show NTree.concat _ (Notation.tree (P := flowDoc sw) node _ _ none c) = _
    rw [child_zero_tree (P := flowDoc sw) hnum, flow_kid next id ws (by omega)]
    simp only [flowBody, if_neg hne, hw]
    rfl
  | n + 2 =>
    rw [hw] at hnum
    rw [count_many_tree (P := flowDoc sw) hnum]
    have hne : ws ≠ [] := by intro e; simp [e] at hw
    show NTree.concat _ (Notation.tree (P := flowDoc sw) node _ _ none c) = _
    have hfold := fold_tree (P := flowDoc sw) (node := node) (kid := docKid (flowLaw sw) node) (first := .child 0)
      (join := .left + .literal "," + FlowWrap.softBreak + .right) (env := none) hnum
      (fun i hi => by
        refine ⟨.word (next + i) (ws[i]'(by omega)), ?_⟩
        simp only [PrettyDoc.childAt, node, FlowWrap.numChildren, FlowWrap.contents, FlowWrap.unwrapChild,
          List.length_mapIdx, if_pos (by omega : i < ws.length)]
        simp [List.getElem?_eq_getElem (by omega : i < ws.length)]) c
      (fun k acc => .concat (.concat (.concat acc (.text (flowLit sw ","))) (.choice (.text (flowLit sw " ")) (.newline [])))
        (wordTree (fun i => next + i) (flowText sw ws) (k + 1)))
      (fun acc k hk => by
        have := flow_kid (sw := sw) next id ws (i := k + 1) (by omega) c
        show NTree.concat (.concat (.concat (acc c) _) (if c.flat then _ else .choice _ (.newline c.indent))) (docKid (flowLaw sw) node (k + 1) c) = _
        rw [hf, hi]
        simp only [node]
        rw [this]
        rfl)
    rw [hfold, child_zero_tree (P := flowDoc sw) hnum]
    simp only [node]
    rw [flow_kid next id ws (by omega)]
    simp only [flowBody, if_neg hne, hw]
    rfl

/-- The tree of a paragraph. -/
theorem flow_tree (next : Nat) (ws : List String) :
    rootTree (flowLaw sw) (FlowWrap.mkParagraph next ws) none = .ok (next + ws.length + 1,
      .concat (.concat (.text (flowLit sw "始")) (.child 0 (.ok (next + ws.length)) (flowBody sw next ws)))
        (.text (flowLit sw "端"))) := by
  unfold rootTree
  rw [docTree_of (flowLaw sw) (a := FlowWrap.paragraphNotation) (s := ()) rfl rfl]
  have hnum : (flowDoc sw).numChildren (FlowWrap.mkParagraph next ws) = .ok (some 1) := rfl
  have h0 : (Notation.child 0).tree (P := flowDoc sw) (FlowWrap.mkParagraph next ws)
      (docKid (flowLaw sw) (FlowWrap.mkParagraph next ws)) none ⟨false, [], ()⟩ =
      .child 0 (.ok (next + ws.length)) (flowBody sw next ws) := by
    rw [child_zero_tree (P := flowDoc sw) hnum]
    have hc : (flowDoc sw).childAt (FlowWrap.mkParagraph next ws) 0 =
        .ok (.words (next + ws.length) (ws.mapIdx fun i w => .word (next + i) w)) := rfl
    rw [docKid_of (flowLaw sw) hc (docTree_of (flowLaw sw) (a := FlowWrap.wordsNotation) (s := ()) rfl rfl _ _ _)]
    rw [flow_words_tree next _ ws _ rfl rfl]
    rfl
  have := congrArg (fun t => (Except.ok (ε := Fail Empty) (next + ws.length + 1,
    NTree.concat (P := flowDoc sw) (.concat (.text (flowLit sw "始")) t) (.text (flowLit sw "端"))))) h0
  exact this

theorem fullWords_paragraph (x : String) (ws : List String) : ∀ (t : Nat → Textual (flowDoc sw)),
    (∀ i, t i = flowText sw (x :: ws) i) →
    fullWords (some (flowLit sw ",")) t ws.length ++ [⟨(t ws.length).str ++ "端", (t ws.length).width + sw "端"⟩] =
      paragraphWords sw "端" (x :: ws) := by
  induction ws generalizing x with
  | nil =>
    intro t ht
    simp [fullWords, paragraphWords, ht, flowText]
  | cons y ws ih =>
    intro t ht
    have := ih y (fun i => t (i + 1)) (fun i => by rw [ht]; simp [flowText])
    simp only [paragraphWords]
    rw [← this]
    simp [fullWords, List.range_succ_eq_map, ht, flowText, flowLit, optStr, optWidth, Function.comp_def]

theorem flow_greedy (next : Nat) (x : String) (ws : List String) (w : Nat) : ∃ T,
    GreedyDoc w (next + (x :: ws).length + 1) (.concat (.concat (.text (flowLit sw "始"))
      (.child 0 (.ok (next + (x :: ws).length)) (flowBody sw next (x :: ws)))) (.text (flowLit sw "端"))) T ∧
      .eol ∉ erase T ∧
      (linesOf (erase T)).map lineOf = wordsLines ⟨"始    ", sw "始" + sw "    "⟩ ⟨"", 0⟩ (sw " ")
        (fill w (sw "始" + sw "    ") 0 (sw " ") (paragraphWords sw "端" (x :: ws))) := by
  let cur : List (Segment (flowDoc sw)) := [(flowLit sw "始").segment, (flowLit sw "    ").segment]
  have hcs : segsString cur = "始    " := by
    have : cur = [] ++ [(flowLit sw "始").segment] ++ [(flowLit sw "    ").segment] := rfl
    rw [this, segsString_snoc, segsString_snoc]
    rfl
  have hcw : segsWidth cur = sw "始" + sw "    " := by
    simp [cur, segsWidth, flowLit, Textual.segment]
  obtain ⟨T, st', g, h⟩ := words_greedy (w := w) (id := next + (x :: ws).length) (comma := some (flowLit sw ","))
    (sp := flowLit sw " ") (ind := []) (ids := fun i => next + i) (t := flowText sw (x :: ws))
    (st := ⟨0 + sw "始" + sw "    ", false⟩) (cur := cur) rfl (by rw [hcw]; simp) ws.length
    [.text (flowLit sw "端")] (sw "端") (by
      intro st hst
      simp [SecondsFit, NTree.seconds, lineFits_text, hst, flowLit])
  have h2 := h.text (flowLit sw "端")
  have g' : Greedy w (next + (x :: ws).length) (flowBody sw next (x :: ws)) [.text (flowLit sw "端")]
      ⟨0 + sw "始", false⟩ st' ([.tok (.text (flowLit sw "    "))] ++ T) := by
    unfold flowBody
    rw [if_neg (by simp)]
    exact .concat .text g
  refine ⟨[.tok (.text (flowLit sw "始"))] ++ ([.tok (.text (flowLit sw "    "))] ++ T) ++ [.tok (.text (flowLit sw "端"))],
    ⟨_, .concat (.concat .text (.child g')) .text⟩, ?_, ?_⟩
  · have := h2.noEol
    simpa [erase, erase_append] using this
  · have h3 := h2.lines
    have e1 : linesOf (erase ([.tok (.text (flowLit sw "始"))] ++ ([.tok (.text (flowLit sw "    "))] ++ T) ++
        [.tok (.text (flowLit sw "端"))])) = linesFrom cur (erase T ++ [.text (flowLit sw "端")]) := by
      simp [erase, erase_append, linesOf, linesFrom, cur]
    rw [e1, h3]
    obtain ⟨y, ys, hy⟩ := List.exists_cons_of_ne_nil (l := paragraphWords sw "端" (x :: ws)) (by
      cases ws <;> simp [paragraphWords])
    rw [hy, ← page_fill]
    have hpw := fullWords_paragraph (sw := sw) x ws (flowText sw (x :: ws)) (fun _ => rfl)
    rw [hy] at hpw
    have key := pageAt_write (w := w) (sp := (flowLit sw " ").word) (ind := ⟨"", 0⟩)
      (start := ([], "始    ", sw "始" + sw "    ")) "端" ws.length (sw "端") y ys hpw
    rw [hcs, hcw]
    rw [show ((flowLit sw " ").word) = (⟨" ", sw " "⟩ : Word) from rfl] at key
    rw [← key]
    simp only [Page.put, Textual.word, flowLit, String.append_assoc, Nat.add_assoc]
    rfl

theorem flowBody_noFail (next : Nat) (ws : List String) : (flowBody sw next ws).NoFail := by
  unfold flowBody
  split
  · trivial
  · exact ⟨trivial, wordsTree_noFail ..⟩

end

end PPP
