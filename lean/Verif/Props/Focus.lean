import Verif.Props.Printing
/-
C03 - C07: where the focus is.

`LTree.locate` (Spec/Layout.lean) finds the first displayed occurrence of the node at a path.
-/
namespace PPP
variable {P : PrettyDoc}

theorem focus_split (law : P.Lawful) {doc : P.Node} (hids : P.IdsOnPaths doc) {w : Nat} {style id L}
    (hL : docLayout law doc w style = .ok (id, L)) {path : List Nat} {target : FocusTarget}
    (hfocus : FocusOk P doc target) {l} (hloc : L.locate id path = .ok l) :
    match focusToks target l.id l.node.toks l.after with
    | .ok (B, A) => ∃ o, printAll doc w path target style = Exec.ofRes (.ok o) ∧
        o.beforeFocus = linesOf (l.before ++ B) ∧ o.afterFocus = linesOf A
    | .error e => prettyPrint doc w path target style = Exec.ofRes (.error (.err e)) := by
  obtain ⟨t, hr, hl⟩ := docLayout_ok law hL
  rcases print_ok (I := P.IdsOnPaths doc) law hr hl path hfocus (fun h => h) with
    ⟨r, ups, downs, T0, id', nodeT, afterT, B, A, g1, g2, g3, g4, g5, g6, g7, g8⟩ |
    ⟨j, g1, _, g2⟩ | ⟨e, g1, _, g2⟩
  · obtain ⟨l', h1, h2, h3, h4, h5⟩ := g8 hids
    rw [hloc] at h1
    simp only [Except.ok.injEq] at h1
    subst h1
    rw [h3, h4, h5, g5]
    refine ⟨_, printAll_of g1 g2 g3, ?_, ?_⟩
    · rw [h2]; exact g6
    · exact lines_after g6 g7
  · have := g2 hids
    rw [hloc] at this; simp at this
  · obtain ⟨l', h1, h2⟩ := g2 hids
    rw [hloc] at h1
    simp only [Except.ok.injEq] at h1
    subst h1
    rw [h2]
    exact g1

/-- **C03.**  With `FocusTarget::Start`, what is printed before the focus is exactly what the layout
    displays before the node, and what is printed after it is the node followed by what the layout
    displays after it. -/
theorem C03_start (law : P.Lawful) {doc : P.Node} (hids : P.IdsOnPaths doc) {w : Nat} {style id L}
    (hL : docLayout law doc w style = .ok (id, L)) {path : List Nat} {l}
    (hloc : L.locate id path = .ok l) :
    ∃ o, printAll doc w path .start style = Exec.ofRes (.ok o) ∧
      o.beforeFocus = linesOf l.before ∧ o.afterFocus = linesOf (l.node.toks ++ l.after) := by
  have := focus_split law hids hL (target := .start) (.inl (by simp)) hloc
  simpa [focusToks] using this

/-- **C04.**  With `FocusTarget::End`, what is printed before the focus is what the layout displays up
    to and including the node, and what is printed after it is the rest. -/
theorem C04_end (law : P.Lawful) {doc : P.Node} (hids : P.IdsOnPaths doc) {w : Nat} {style id L}
    (hL : docLayout law doc w style = .ok (id, L)) {path : List Nat} {l}
    (hloc : L.locate id path = .ok l) :
    ∃ o, printAll doc w path .end style = Exec.ofRes (.ok o) ∧
      o.beforeFocus = linesOf (l.before ++ l.node.toks) ∧ o.afterFocus = linesOf l.after := by
  have := focus_split law hids hL (target := .end) (.inl (by simp)) hloc
  simpa [focusToks] using this

/-- **C05**, in general: with `FocusTarget::Mark`, the focus is at the first focus mark with the node's
    id displayed from the node's start on; if there is none, the error is `MissingFocusMark`. -/
theorem C05_mark_general (law : P.Lawful) {doc : P.Node} (hids : P.IdsOnPaths doc) {w : Nat} {style id L}
    (hL : docLayout law doc w style = .ok (id, L)) {path : List Nat} {l}
    (hloc : L.locate id path = .ok l) :
    (∃ b a o, l.node.toks ++ l.after = b ++ .mark l.id :: a ∧ .mark l.id ∉ b ∧
      printAll doc w path .mark style = Exec.ofRes (.ok o) ∧
      o.beforeFocus = linesOf (l.before ++ b) ∧ o.afterFocus = linesOf a) ∨
    (.mark l.id ∉ l.node.toks ++ l.after ∧
      prettyPrint doc w path .mark style = Exec.ofRes (.error (.err .missingFocusMark))) := by
  have h := focus_split law hids hL (target := .mark) (.inl (by simp)) hloc
  simp only [focusToks] at h
  cases hs : splitAtTok (Tok.isMark l.id) (l.node.toks ++ l.after) with
  | none =>
    rw [hs] at h
    exact .inr ⟨splitAtTok_none_mark hs, h⟩
  | some r =>
    obtain ⟨b, x, a⟩ := r
    rw [hs] at h
    obtain ⟨h1, h2, h3⟩ := splitAtTok_eq hs
    obtain ⟨o, h4, h5, h6⟩ := h
    have hx : x = .mark l.id := by
      cases x with
      | mark i => simp [Tok.isMark] at h2; rw [h2]
      | _ => simp [Tok.isMark] at h2
    subst hx
    refine .inl ⟨b, a, o, h1, ?_, h4, h5, h6⟩
    intro hm
    have := h3 _ hm
    simp [Tok.isMark] at this

/-- **C05.**  If the layout of the node displays a focus mark of the node's own notation (not one of a
    child's), then `FocusTarget::Mark` focuses on the first such mark. -/
theorem C05_own_mark (law : P.Lawful) {doc : P.Node} (hids : P.IdsOnPaths doc) {w : Nat} {style id L}
    (hL : docLayout law doc w style = .ok (id, L)) {path : List Nat} {l}
    (hloc : L.locate id path = .ok l) {b a} (hmark : l.node.ownMark = some (b, a)) :
    ∃ o, printAll doc w path .mark style = Exec.ofRes (.ok o) ∧
      o.beforeFocus = linesOf (l.before ++ b) ∧ o.afterFocus = linesOf (a ++ l.after) := by
  have h := focus_split law hids hL (target := .mark) (.inl (by simp)) hloc
  obtain ⟨t, hr, hl⟩ := docLayout_ok law hL
  have hown : MarkOwn l.id l.node := (layoutDoc_markOwn (rootTree_idsDistinct law hids hr) hl).locate path hloc
  have hsplit := ownMark_split hown
  rw [hmark] at hsplit
  simp only at hsplit
  simp only [focusToks, splitAtTok_append_some hsplit] at h
  exact h

/-- **C05**, the error: if the node's layout displays no focus mark of its own, and no later part of the
    layout displays a mark with the node's id (for instance because the node is displayed only once
    and ids are unique), the error is `MissingFocusMark`. -/
theorem C05_missing (law : P.Lawful) {doc : P.Node} (hids : P.IdsOnPaths doc) {w : Nat} {style id L}
    (hL : docLayout law doc w style = .ok (id, L)) {path : List Nat} {l}
    (hloc : L.locate id path = .ok l) (hmark : l.node.ownMark = none) (hafter : .mark l.id ∉ l.after) :
    prettyPrint doc w path .mark style = Exec.ofRes (.error (.err .missingFocusMark)) := by
  rcases C05_mark_general law hids hL hloc with ⟨b, a, o, h1, h2, _⟩ | ⟨_, h⟩
  · exfalso
    obtain ⟨t, hr, hl⟩ := docLayout_ok law hL
    have hown : MarkOwn l.id l.node := (layoutDoc_markOwn (rootTree_idsDistinct law hids hr) hl).locate path hloc
    have hsplit := ownMark_split hown
    rw [hmark] at hsplit
    simp only at hsplit
    have hmem : .mark l.id ∈ l.node.toks ++ l.after := by rw [h1]; simp
    rcases List.mem_append.1 hmem with hm | hm
    · have := hsplit _ hm
      simp [Tok.isMark] at this
    · exact hafter hm
  · exact h

/-- **C06.**  With `FocusTarget::Text(n)`, the focus is inside the first document text displayed from the
    node's start on: its first `n` characters are on the left and the others on the right; nothing
    is lost; if there is no text, the error is `MissingText`. -/
theorem C06_text (law : P.Lawful) {doc : P.Node} (hids : P.IdsOnPaths doc) {w : Nat} {style id L}
    (hL : docLayout law doc w style = .ok (id, L)) {path : List Nat} {l}
    (hloc : L.locate id path = .ok l) (hadd : P.TextsAdditive doc) (n : Nat) :
    (∃ b x a o, l.node.toks ++ l.after = b ++ .text x :: a ∧ x.isFromText = true ∧
      (∀ y, .text y ∈ b → y.isFromText = false) ∧
      printAll doc w path (.text n) style = Exec.ofRes (.ok o) ∧
      o.beforeFocus.map styledChars = (linesOf (l.before ++ b ++
        [.text { x with str := String.ofList (x.str.toList.take n) }])).map styledChars ∧
      o.afterFocus.map styledChars = (linesOf
        (.text { x with str := String.ofList (x.str.toList.drop n) } :: a)).map styledChars) ∨
    ((∀ y, .text y ∈ l.node.toks ++ l.after → y.isFromText = false) ∧
      prettyPrint doc w path (.text n) style = Exec.ofRes (.error (.err .missingText))) := by
  have h := focus_split law hids hL (target := .text n) (.inr hadd) hloc
  simp only [focusToks] at h
  cases hs : splitAtTok Tok.isDocText (l.node.toks ++ l.after) with
  | none =>
    rw [hs] at h
    refine .inr ⟨?_, h⟩
    intro y hy
    exact splitAtTok_eq_none hs _ hy
  | some r =>
    obtain ⟨b, x, a⟩ := r
    rw [hs] at h
    obtain ⟨h1, h2, h3⟩ := splitAtTok_eq hs
    cases x with
    | text x =>
      obtain ⟨o, h4, h5, h6⟩ := h
      refine .inl ⟨b, x, a, o, h1, h2, fun y hy => h3 _ hy, h4, ?_, ?_⟩
      · rw [h5, ← List.append_assoc]
        refine linesFrom_congr_append _ ?_ _ _
        intro cur
        simp only [linesFrom, List.map_cons, List.map_nil, List.cons.injEq, and_true,
          styledChars_append]
        rfl
      · rw [h6]
        simp only [linesOf, linesFrom]
        refine linesFrom_congr _ ?_ ?_ a
        · intro x y z hxy
          rw [styledChars_append, styledChars_append, hxy]
        · rfl
    | _ => simp [Tok.isDocText] at h2

/-- **C06**, without the assumption about widths: the characters split by the focus are as described,
    whenever printing succeeds. -/
theorem C06_segments (t : Textual P) (n : Nat) :
    (t.splitAt n).1.str.toList ++ (t.splitAt n).2.str.toList = t.str.toList ∧
    (t.splitAt n).1.str.toList.length = min n t.str.toList.length := by
  simp [Textual.splitAt]

/-- **C07.**  The path is refused with `InvalidPath(i)` if and only if `i` is the first path element that
    is not the index of a displayed child of the node reached so far. -/
theorem C07_invalid_path_iff (law : P.Lawful) {doc : P.Node} (hids : P.IdsOnPaths doc) {w : Nat} {style id L}
    (hL : docLayout law doc w style = .ok (id, L)) (path : List Nat) {target : FocusTarget}
    (hfocus : FocusOk P doc target) (i : Nat) :
    prettyPrint doc w path target style = Exec.ofRes (.error (.err (.invalidPath i))) ↔
      L.locate id path = .error i := by
  obtain ⟨t, hr, hl⟩ := docLayout_ok law hL
  rcases print_ok (I := P.IdsOnPaths doc) law hr hl path hfocus (fun h => h) with
    ⟨r, ups, downs, T0, id', nodeT, afterT, B, A, g1, g2, g3, g4, g5, g6, g7, g8⟩ |
    ⟨j, g1, _, g2⟩ | ⟨e, g1, he, g2⟩
  · obtain ⟨l', h1, _⟩ := g8 hids
    rw [g1, h1]
    constructor
    · intro h; exact absurd (Exec.ofRes_inj h) (by simp)
    · intro h; simp at h
  · rw [g1, g2 hids]
    constructor
    · intro h; have := Exec.ofRes_inj h; simp at this; rw [this]
    · intro h; simp at h; rw [h]
  · obtain ⟨l', h1, _⟩ := g2 hids
    rw [g1, h1]
    constructor
    · intro h
      have := Exec.ofRes_inj h
      simp at this
      rcases he with ⟨_, rfl⟩ | ⟨_, rfl⟩ <;> simp at this
    · intro h; simp at h

/-- **C07**: a path all of whose nodes are displayed is accepted by `Start` and `End`. -/
theorem C07_displayed_path_accepted (law : P.Lawful) {doc : P.Node} (hids : P.IdsOnPaths doc) {w : Nat}
    {style id L} (hL : docLayout law doc w style = .ok (id, L)) (path : List Nat)
    {target : FocusTarget} (ht : target = .start ∨ target = .end) :
    (∃ r, prettyPrint doc w path target style = Exec.ofRes (.ok r)) ↔
      ∃ l, L.locate id path = .ok l := by
  constructor
  · rintro ⟨r, h⟩
    cases hl : L.locate id path with
    | ok l => exact ⟨l, rfl⟩
    | error i =>
      have hf : FocusOk P doc target := .inl (by rcases ht with rfl | rfl <;> simp)
      rw [(C07_invalid_path_iff law hids hL path hf i).2 hl] at h
      exact absurd (Exec.ofRes_inj h) (by simp)
  · rintro ⟨l, hl⟩
    rcases ht with rfl | rfl
    · obtain ⟨o, h, _⟩ := C03_start law hids hL hl
      obtain ⟨r, _, _, h, _⟩ := printAll_inv h
      exact ⟨r, h⟩
    · obtain ⟨o, h, _⟩ := C04_end law hids hL hl
      obtain ⟨r, _, _, h, _⟩ := printAll_inv h
      exact ⟨r, h⟩

section
open Ex

/-- The hypotheses of C03, C04, C06 and C07 are met at the second child, `bbb`, on the second line. -/
example : ∃ l, exNarrow.locate (nid 3) [1] = .ok l ∧
    linesString (linesOf l.before) = "[aa,\n" ∧ linesString (linesOf (l.node.toks ++ l.after)) = "bbb]" ∧
    linesString (linesOf (l.before ++ l.node.toks)) = "[aa,\nbbb" := ⟨_, rfl, rfl, rfl, rfl⟩

/-- C06: cutting `bbb` after one character. -/
example : ∃ o, printAll (P := exP) exDoc 8 [1] (.text 1) none = Exec.ofRes (.ok o) ∧
    (linesString o.beforeFocus, linesString o.afterFocus) = ("[aa,\nb", "bb]") := by
  have h := focus_split exLaw exIds exLayout_narrow (path := [1]) (target := .text 1) (.inr exAdditive) rfl
  obtain ⟨o, h1, h2, h3⟩ := h
  refine ⟨o, h1, ?_⟩
  rw [h2, h3]
  rfl

/-- C05: the root has a mark of its own, displayed after `bbb`; its first child has none. -/
example : (∃ l b a, exNarrow.locate (nid 3) [] = .ok l ∧ l.node.ownMark = some (b, a) ∧
    linesString (linesOf (l.before ++ b)) = "[aa,\nbbb") ∧
    (∃ l, exNarrow.locate (nid 3) [0] = .ok l ∧ l.node.ownMark = none ∧ .mark l.id ∉ l.after) := by
  refine ⟨⟨_, _, _, rfl, rfl, rfl⟩, ⟨_, rfl, rfl, ?_⟩⟩
  simp [LTree.toks, nid]

/-- C07: there is no third child. -/
example : prettyPrint (P := exP) exDoc 8 [2] .start none = Exec.ofRes (.error (.err (.invalidPath 2))) :=
  (C07_invalid_path_iff exLaw exIds exLayout_narrow [2] (.inl (by simp)) 2).2 rfl

end

end PPP
