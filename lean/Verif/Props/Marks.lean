import Verif.Proofs.Marks
import Verif.Props.Equiv
import Verif.Props.Example
import Verif.Props.Ideal
/-
C65: focus marks (and `Empty`s, and the grouping of concatenations) are invisible.
-/
namespace PPP
variable {P : PrettyDoc}

theorem rootTree_ink (law : P.Lawful) {R : P.Node → P.Node → Prop} (hR : InkAlike R) {p q : P.Node}
    (hpq : R p q) {style id t} (hr : rootTree law p style = .ok (id, t)) :
    ∃ u, rootTree law q style = .ok (id, u) ∧ StripEq t u := by
  obtain ⟨h1, h2⟩ := rootTree_inv law hr
  rcases docTree_ink law hR p hpq false [] style with ⟨f, g1, _⟩ | ⟨t', u, g1, g2, g3⟩
  · rw [h1] at g1; cases g1
  · rw [h1] at g1
    cases g1
    refine ⟨u, ?_, g3⟩
    unfold rootTree
    rw [g2, ← hR.id p q hpq, h2]
    rfl

theorem docLayout_of {law : P.Lawful} {p : P.Node} {w : Nat} {style id t L}
    (hr : rootTree law p style = .ok (id, t)) (hL : t.layoutDoc w id = .ok L) :
    docLayout law p w style = .ok (id, L) := by
  unfold docLayout
  rw [hr]
  simp only [Except.bind_eq, hL]

theorem docLayout_ink (law : P.Lawful) {R : P.Node → P.Node → Prop} (hR : InkAlike R) {p q : P.Node}
    (hpq : R p q) {style id t} (hr : rootTree law p style = .ok (id, t)) (hn : t.NoFail) {w : Nat} {L}
    (hL : docLayout law p w style = .ok (id, L)) :
    ∃ L', docLayout law q w style = .ok (id, L') ∧ L.strip = L'.strip := by
  obtain ⟨t', hr', hl⟩ := docLayout_ok law hL
  rw [hr] at hr'
  cases hr'
  obtain ⟨u, hu, htu⟩ := rootTree_ink law hR hpq hr
  obtain ⟨L', h1, h2⟩ := layoutDoc_stripEq htu hn hl
  exact ⟨L', docLayout_of hu h1, h2⟩

/-- The relation in the other direction. -/
theorem InkAlike.flip {R : P.Node → P.Node → Prop} (hR : InkAlike R) : InkAlike (fun q p => R p q) where
  id p q h := (hR.id q p h).symm
  numChildren p q h := (hR.numChildren q p h).symm
  condition p q c h := (hR.condition q p c h).symm
  lookupStyle p q l h := (hR.lookupStyle q p l h).symm
  nodeStyle p q h := (hR.nodeStyle q p h).symm
  unwrapText p q h := (hR.unwrapText q p h).symm
  child p q i c h hc := by
    cases hd : P.childAt q i with
    | error e => rw [hR.child_error q p i e h hd] at hc; cases hc
    | ok d =>
      obtain ⟨c', h1, h2⟩ := hR.child q p i d h hd
      rw [hc] at h1
      cases h1
      exact ⟨d, rfl, h2⟩
  child_error p q i e h hc := by
    cases hd : P.childAt q i with
    | error e' => rw [hR.child_error q p i e' h hd] at hc; exact hc
    | ok d =>
      obtain ⟨c', h1, h2⟩ := hR.child q p i d h hd
      rw [hc] at h1
      cases h1
  notn p q a h ha := by
    cases hb : P.notn q with
    | error e => rw [hR.notn_error q p e h hb] at ha; cases ha
    | ok b =>
      obtain ⟨a', h1, h2⟩ := hR.notn q p b h hb
      rw [ha] at h1
      cases h1
      exact ⟨b, rfl, h2.symm⟩
  notn_error p q e h ha := by
    cases hb : P.notn q with
    | error e' => rw [hR.notn_error q p e' h hb] at ha; exact ha
    | ok b =>
      obtain ⟨a', h1, h2⟩ := hR.notn q p b h hb
      rw [ha] at h1
      cases h1

theorem InkAlike.below {R : P.Node → P.Node → Prop} (hR : InkAlike R) {p q y : P.Node} (hpq : R p q)
    (hy : P.Below y q) : ∃ x, P.Below x p ∧ R x y := by
  induction hy using Relation.TransGen.head_induction_on with
  | single h =>
    obtain ⟨i, hi⟩ := h
    obtain ⟨x, h1, h2⟩ := hR.flip.child q p i _ hpq hi
    exact ⟨x, .single ⟨i, h1⟩, h2⟩
  | head h _ ih =>
    obtain ⟨i, hi⟩ := h
    obtain ⟨z, hz, hzr⟩ := ih
    obtain ⟨x, h1, h2⟩ := hR.flip.child _ z i _ hzr hi
    exact ⟨x, .head ⟨i, h1⟩ hz, h2⟩

theorem InkAlike.within {R : P.Node → P.Node → Prop} (hR : InkAlike R) {p q y : P.Node} (hpq : R p q)
    (hy : P.Within q y) : ∃ x, P.Within p x ∧ R x y := by
  rcases hy with rfl | hy
  · exact ⟨p, .inl rfl, hpq⟩
  · obtain ⟨x, h1, h2⟩ := hR.below hpq hy
    exact ⟨x, .inr h1, h2⟩

theorem InkAlike.idsOnPaths {R : P.Node → P.Node → Prop} (hR : InkAlike R) {p q : P.Node} (hpq : R p q)
    (h : P.IdsOnPaths p) : P.IdsOnPaths q := by
  intro a b i ha hb hi hj
  obtain ⟨x, hx, hxa⟩ := hR.within hpq ha
  obtain ⟨y, hy, hyb⟩ := hR.below hxa hb
  exact h x y i hx hy ((hR.id x a hxa).trans hi) ((hR.id y b hyb).trans hj)

theorem InkAlike.additive {R : P.Node → P.Node → Prop} (hR : InkAlike R) {p q : P.Node} (hpq : R p q)
    (h : P.TextsAdditive p) : P.TextsAdditive q := by
  intro y s hy hs
  obtain ⟨x, hx, hxy⟩ := hR.within hpq hy
  exact h x s hx ((hR.unwrapText x y hxy).trans hs)

theorem InkAlike.focusOk {R : P.Node → P.Node → Prop} (hR : InkAlike R) {p q : P.Node} (hpq : R p q)
    {target : FocusTarget} (h : FocusOk P p target) : FocusOk P q target :=
  h.imp (fun h => h) (hR.additive hpq)

theorem Output.ext_parts {o o' : Output P} (h1 : o.beforeFocus = o'.beforeFocus)
    (h2 : o.afterFocus = o'.afterFocus) : o = o' := by
  obtain ⟨a, ⟨l, r⟩, b⟩ := o
  obtain ⟨a', ⟨l', r'⟩, b'⟩ := o'
  have hinj : ∀ {x y : Line P}, x.segments = y.segments → x = y := by
    rintro ⟨x⟩ ⟨y⟩ rfl; rfl
  simp only [Output.beforeFocus, Output.afterFocus] at h1 h2
  obtain ⟨h3, h4⟩ := List.append_inj' h1 rfl
  simp only [List.cons.injEq] at h2
  rw [(List.map_inj_right fun _ _ => hinj).1 h3, (List.map_inj_right fun _ _ => hinj).1 h2.2]
  simp only [List.cons.injEq, and_true] at h4
  rw [h4, h2.1]

/-- Two documents that are alike but for their focus marks, `Empty`s and the grouping of
    concatenations: everything that can be observed is the same, with one exception, which is the
    position of the focus for `FocusTarget::Mark`. -/
theorem ink_print (law : P.Lawful) {R : P.Node → P.Node → Prop} (hR : InkAlike R) {p q : P.Node}
    (hpq : R p q) {style id t} (hr : rootTree law p style = .ok (id, t)) (hn : t.NoFail)
    (hids : P.IdsOnPaths p) {w : Nat} {L} (hL : docLayout law p w style = .ok (id, L))
    (path : List Nat) {target : FocusTarget} (ht : target ≠ .mark) (hfocus : FocusOk P p target) :
    (∃ o, printAll p w path target style = Exec.ofRes (.ok o) ∧
      printAll q w path target style = Exec.ofRes (.ok o)) ∨
    ∃ e, prettyPrint p w path target style = Exec.ofRes (.error e) ∧
      prettyPrint q w path target style = Exec.ofRes (.error e) := by
  obtain ⟨L', hL', hs⟩ := docLayout_ink law hR hpq hr hn hL
  have hids' := hR.idsOnPaths hpq hids
  have hfocus' := hR.focusOk hpq hfocus
  cases hl : L.locate id path with
  | error j =>
    exact .inr ⟨_, (C07_invalid_path_iff law hids hL path hfocus j).2 hl,
      (C07_invalid_path_iff law hids' hL' path hfocus' j).2 (locate_stripEq_error hs hl)⟩
  | ok l =>
    obtain ⟨l', hl', e1, e2, e3, e4⟩ := locate_stripEq hs hl
    have h := focus_split law hids hL hfocus hl
    have h' := focus_split law hids' hL' hfocus' hl'
    have hf := focusToks_noMarks ht (id := l.id) e3 e4
    rw [e2] at h hf
    generalize focusToks target l'.id l.node.toks l.after = F at h hf
    generalize focusToks target l'.id l'.node.toks l'.after = F' at h' hf
    rcases F with e | ⟨B, A⟩ <;> rcases F' with e' | ⟨B', A'⟩
    · cases hf
      exact .inr ⟨_, h, h'⟩
    · exact hf.elim
    · exact hf.elim
    · obtain ⟨o, h1, h2, h3⟩ := h
      obtain ⟨o', h1', h2', h3'⟩ := h'
      have : o = o' := by
        refine Output.ext_parts ?_ ?_
        · rw [h2, h2', ← linesOf_noMarks, ← linesOf_noMarks (l'.before ++ B'), noMarks_append, noMarks_append,
            e1, hf.1]
        · rw [h3, h3', ← linesOf_noMarks, ← linesOf_noMarks A', hf.2]
      subst this
      exact .inl ⟨o, h1, h1'⟩

/-- **C65.**  Two documents that are alike, except that focus marks (and `Empty`s) are added, removed or
    moved at some nodes, and concatenations are grouped differently, print to the same string at every
    width, if one of them matches its notations. -/
theorem C65_marks_invisible (law : P.Lawful) {R : P.Node → P.Node → Prop} (hR : InkAlike R) {p q : P.Node}
    (hpq : R p q) {id t} (hr : rootTree law p none = .ok (id, t)) (hn : t.NoFail) (w : Nat) (s : String) :
    prettyPrintToString p w = Exec.ofRes (.ok s) ↔ prettyPrintToString q w = Exec.ofRes (.ok s) := by
  have key : ∀ {R : P.Node → P.Node → Prop} (_ : InkAlike R) {p q : P.Node}, R p q → ∀ {id t},
      rootTree law p none = .ok (id, t) → t.NoFail →
      prettyPrintToString p w = Exec.ofRes (.ok s) → prettyPrintToString q w = Exec.ofRes (.ok s) := by
    intro R hR p q hpq id t hr hn h
    rw [C01_to_string_iff law] at h ⊢
    obtain ⟨id', L, hL, rfl⟩ := h
    obtain ⟨t', hr', _⟩ := docLayout_ok law hL
    rw [hr] at hr'
    cases hr'
    obtain ⟨L', h1, h2⟩ := docLayout_ink law hR hpq hr hn hL
    refine ⟨_, L', h1, ?_⟩
    rw [← linesOf_noMarks, ← LTree.strip_toks, h2, LTree.strip_toks, linesOf_noMarks]
  refine ⟨key hR hpq hr hn, ?_⟩
  obtain ⟨u, hu, htu⟩ := rootTree_ink law hR hpq hr
  have hun : u.NoFail := by
    rw [← NTree.strip_noFail, ← show t.strip = u.strip from htu, NTree.strip_noFail]; exact hn
  exact key hR.flip hpq hu hun

/-- **C65**, for prints with a focus: the same lines are printed, split at the same place, for
    `FocusTarget::Start`, `End` and `Text`. -/
theorem C65_focus (law : P.Lawful) {R : P.Node → P.Node → Prop} (hR : InkAlike R) {p q : P.Node}
    (hpq : R p q) {style id t} (hr : rootTree law p style = .ok (id, t)) (hn : t.NoFail)
    (hids : P.IdsOnPaths p) (w : Nat) (path : List Nat) {target : FocusTarget} (ht : target ≠ .mark)
    (hfocus : FocusOk P p target) (o : Output P) :
    printAll p w path target style = Exec.ofRes (.ok o) ↔ printAll q w path target style = Exec.ofRes (.ok o) := by
  have key : ∀ {R : P.Node → P.Node → Prop} (_ : InkAlike R) {p q : P.Node}, R p q → ∀ {id t},
      rootTree law p style = .ok (id, t) → t.NoFail → P.IdsOnPaths p → FocusOk P p target →
      printAll p w path target style = Exec.ofRes (.ok o) → printAll q w path target style = Exec.ofRes (.ok o) := by
    intro R hR p q hpq id t hr hn hids hfocus h
    obtain ⟨id', L, hL⟩ := layout_of_printAll law hfocus h
    obtain ⟨t', hr', _⟩ := docLayout_ok law hL
    rw [hr] at hr'
    cases hr'
    rcases ink_print law hR hpq hr hn hids hL path ht hfocus with ⟨o', h1, h2⟩ | ⟨e, h1, _⟩
    · rw [h] at h1
      have := Exec.ofRes_inj h1
      simp only [Except.ok.injEq] at this
      rw [this]
      exact h2
    · obtain ⟨r, _, _, h3, _⟩ := printAll_inv h
      rw [h3] at h1
      have := Exec.ofRes_inj h1
      cases this
  refine ⟨key hR hpq hr hn hids hfocus, ?_⟩
  obtain ⟨u, hu, htu⟩ := rootTree_ink law hR hpq hr
  have hun : u.NoFail := by
    rw [← NTree.strip_noFail, ← show t.strip = u.strip from htu, NTree.strip_noFail]; exact hn
  exact key hR.flip hpq hu hun (hR.idsOnPaths hpq hids) (hR.focusOk hpq hfocus)

/-- **C65**, for paths and focus targets that are refused: they are refused with the same error (if the
    document can be printed at all at this width). -/
theorem C65_refused (law : P.Lawful) {R : P.Node → P.Node → Prop} (hR : InkAlike R) {p q : P.Node}
    (hpq : R p q) {style id t} (hr : rootTree law p style = .ok (id, t)) (hn : t.NoFail)
    (hids : P.IdsOnPaths p) {w : Nat} {o0 : Output P}
    (h0 : printAll p w [] .start style = Exec.ofRes (.ok o0)) (path : List Nat) {target : FocusTarget}
    (ht : target ≠ .mark) (hfocus : FocusOk P p target) (e : Fail P.Err) :
    prettyPrint p w path target style = Exec.ofRes (.error e) ↔
      prettyPrint q w path target style = Exec.ofRes (.error e) := by
  obtain ⟨id', L, hL⟩ := layout_of_printAll law (focusOk_start p) h0
  obtain ⟨t', hr', _⟩ := docLayout_ok law hL
  rw [hr] at hr'
  cases hr'
  rcases ink_print law hR hpq hr hn hids hL path ht hfocus with ⟨o', h1, h2⟩ | ⟨f, h1, h2⟩
  · obtain ⟨r, _, _, h3, _⟩ := printAll_inv h1
    obtain ⟨r', _, _, h4, _⟩ := printAll_inv h2
    rw [h3, h4]
    constructor <;> intro h <;> cases Exec.ofRes_inj h
  · rw [h1, h2]

/-- Adding or removing focus marks is a case of `SameInk`. -/
theorem C65_marks {L C : Type} (a b : Notation L C) :
    SameInk (.focusMark + a) a ∧ SameInk (a + .focusMark) a ∧ SameInk (a + .focusMark + b) (a + b) :=
  ⟨.trans (.concat .mark (.refl a)) (.empty_left a), .trans (.concat (.refl a) .mark) (.empty_right a),
    .concat (.trans (.concat (.refl a) .mark) (.empty_right a)) (.refl b)⟩

/-! ### Examples -/

namespace Ex

/-- The list of Props/Example.lean, with the focus mark at the start instead of before the last bracket, and
    grouped differently. -/
def markedN : TreeNotation :=
  ⟨.focusMark + (.literal "[" + ((.fold (.child 0)
      (.left + (.literal "," + (.choice (.literal " ") .newline)) + .right)) + .literal "]")),
   by decide⟩

/-- The document of Props/Example.lean with this notation. -/
def markedDoc : Tree Unit :=
  Tree.newBranch 3 markedN [Tree.newText 1 leafN "aa", Tree.newText 2 leafN "bbb"]

theorem markedN_ink : SameInk listN.1 markedN.1 := by
  have hj : SameInk (L := exP.Label) (C := exP.Cond)
      (.left + .literal "," + (.choice (.literal " ") .newline) + .right)
      (.left + (.literal "," + (.choice (.literal " ") .newline)) + .right) :=
    .concat (.assoc ..) (.refl _)
  refine .trans (.concat (.trans (.concat (.refl _) .mark) (.empty_right _)) (.refl _)) ?_
  refine .trans (.assoc ..) ?_
  refine .trans ?_ (.symm (.trans (.concat .mark (.refl _)) (.empty_left _)))
  exact .concat (.refl _) (.concat (.fold (.refl _) hj) (.refl _))

theorem marked_alike : InkAlike (P := exP) (fun p q => p = q ∨ (p = exDoc ∧ q = markedDoc)) := by
  constructor
  · rintro p q (rfl | ⟨rfl, rfl⟩) <;> rfl
  · rintro p q (rfl | ⟨rfl, rfl⟩) <;> rfl
  · rintro p q c (rfl | ⟨rfl, rfl⟩) <;> rfl
  · rintro p q l (rfl | ⟨rfl, rfl⟩) <;> rfl
  · rintro p q (rfl | ⟨rfl, rfl⟩) <;> rfl
  · rintro p q (rfl | ⟨rfl, rfl⟩) <;> rfl
  · rintro p q i c (rfl | ⟨rfl, rfl⟩) hc
    · exact ⟨c, hc, .inl rfl⟩
    · exact ⟨c, hc, .inl rfl⟩
  · rintro p q i e (rfl | ⟨rfl, rfl⟩) h
    · exact h
    · exact h
  · rintro p q a (rfl | ⟨rfl, rfl⟩) h
    · exact ⟨a, h, .refl a⟩
    · cases h; exact ⟨_, rfl, markedN_ink⟩
  · rintro p q e (rfl | ⟨rfl, rfl⟩) h
    · exact h
    · cases h

theorem exTree_noFail : exTree.NoFail := by simp [exTree, listTree, NTree.NoFail]

/-- The hypotheses of C65 are met: the two lists print the same. -/
example (w : Nat) (s : String) : prettyPrintToString (P := exP) exDoc w = Exec.ofRes (.ok s) ↔
    prettyPrintToString (P := exP) markedDoc w = Exec.ofRes (.ok s) :=
  C65_marks_invisible exLaw marked_alike (.inr ⟨rfl, rfl⟩) exTree_eq exTree_noFail w s

/-- With a focus inside of a text. -/
example (w : Nat) (path : List Nat) (n : Nat) (o : Output exP) :
    printAll (P := exP) exDoc w path (.text n) none = Exec.ofRes (.ok o) ↔
      printAll (P := exP) markedDoc w path (.text n) none = Exec.ofRes (.ok o) :=
  C65_focus exLaw marked_alike (.inr ⟨rfl, rfl⟩) exTree_eq exTree_noFail exIds w path (by simp) (.inr exAdditive) o

/-- An invalid path. -/
example : prettyPrint (P := exP) markedDoc 8 [2] .start none = Exec.ofRes (.error (.err (.invalidPath 2))) := by
  obtain ⟨o, h, _⟩ := C03_start exLaw exIds exLayout_narrow (path := []) rfl
  exact (C65_refused exLaw marked_alike (.inr ⟨rfl, rfl⟩) exTree_eq exTree_noFail exIds h [2] (by simp) (.inl (by simp)) _).1
    ((C07_invalid_path_iff exLaw exIds exLayout_narrow [2] (.inl (by simp)) 2).2 rfl)

/-- `"aaa" ((mark child(0)) | newline)`, for a node without children. -/
def lazyMark : (simpleDoc String.length).Node :=
  ⟨.literal "aaa" + .choice (.focusMark + .child 0) .newline, by decide⟩

/-- `"aaa" (child(0) | newline)`, for a node without children. -/
def lazyPlain : (simpleDoc String.length).Node :=
  ⟨.literal "aaa" + .choice (.child 0) .newline, by decide⟩

end Ex

/-- The hypothesis that the document matches its notations is needed: a focus mark can hide a mistake in an
    option that does not fit, because the notation after the mark is then never looked at. -/
theorem C65_match_needed : SameInk Ex.lazyMark.1 Ex.lazyPlain.1 ∧
    prettyPrintToString (P := simpleDoc String.length) Ex.lazyMark 2 = Exec.ofRes (.ok "aaa\n") ∧
    ∀ s, prettyPrintToString (P := simpleDoc String.length) Ex.lazyPlain 2 ≠ Exec.ofRes (.ok s) := by
  refine ⟨.concat (.refl _) (.choice (C65_marks _ .empty).1 (.refl _)), ?_, ?_⟩
  · rw [C01_to_string_iff (simpleLaw String.length)]
    unfold docLayout
    rw [simple_tree]
    exact ⟨_, _, rfl, rfl⟩
  · intro s
    rw [Ne, C01_to_string_iff (simpleLaw String.length)]
    unfold docLayout
    rw [simple_tree]
    rintro ⟨id, L, h, _⟩
    cases h

end PPP
