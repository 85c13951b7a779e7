import Verif.Proofs.Reworded
import Verif.Props.Example
import Verif.Props.Layout
import Verif.Props.JsonFormat
/-
C83: texts of the same width.
-/
namespace PPP
variable {P : PrettyDoc} {Q : String → String → Prop} {R : P.Node → P.Node → Prop}

theorem Rewording.idsOnPaths (h : Rewording P Q R) {doc doc' : P.Node} (hR : R doc doc') (hids : P.IdsOnPaths doc) : P.IdsOnPaths doc' := by
  have kid : ∀ {p q c'}, R p q → P.ChildOf c' q → ∃ c, P.ChildOf c p ∧ R c c' := by
    rintro p q c' hpq ⟨i, hi⟩
    have := h.childAt hpq i
    rw [hi] at this
    match hc : P.childAt p i, this with
    | .ok c, this => exact ⟨c, ⟨i, hc⟩, this⟩
    | .error _, this => exact this.elim
  have below : ∀ {p' q'}, P.Below p' q' → ∀ {q}, R q q' → ∃ p, P.Below p q ∧ R p p' := by
    intro p' q' hb
    induction hb using Relation.TransGen.head_induction_on with
    | single hc => intro q hq; obtain ⟨c, h1, h2⟩ := kid hq hc; exact ⟨c, .single h1, h2⟩
    | head hc _ ih =>
      intro q hq
      obtain ⟨m, h1, h2⟩ := ih hq
      obtain ⟨c, h3, h4⟩ := kid h2 hc
      exact ⟨c, .head h3 h1, h4⟩
  intro p' q' i hp hq hi
  obtain ⟨p, hp, hpp⟩ : ∃ p, P.Within doc p ∧ R p p' := by
    rcases hp with rfl | hp
    · exact ⟨doc, .inl rfl, hR⟩
    · obtain ⟨p, h1, h2⟩ := below hp hR
      exact ⟨p, .inr h1, h2⟩
  obtain ⟨q, hb, hqq⟩ := below hq hpp
  rw [h.id hpp] at hi
  rw [h.id hqq]
  exact hids p q i hp hb hi

/-- **C83**: if documents differ only in texts, and these are as wide as each other, then both print or none of them does, and the printed
    lines are the same but for these texts: as many lines, each made of as many segments of the same widths and styles, and the string of
    a segment is the same or has been replaced by another text as `Q` says. -/
theorem C83_lines (law : P.Lawful) {doc doc' : P.Node} (h : Reworded P Q doc doc') (w : Nat) (style : Option P.Style) :
    (∃ ls ls', printLines doc w style = Exec.ofRes (.ok ls) ∧ printLines doc' w style = Exec.ofRes (.ok ls') ∧
      SameLines Q ls ls') ∨
    ((∀ ls, printLines doc w style ≠ Exec.ofRes (.ok ls)) ∧ ∀ ls, printLines doc' w style ≠ Exec.ofRes (.ok ls)) := by
  obtain ⟨R, h, hR⟩ := h
  rcases docLayout_reworded law h hR w style with ⟨f, h1, h2⟩ | ⟨id, L, M, h1, h2, h3⟩
  · refine .inr ⟨fun ls hl => ?_, fun ls hl => ?_⟩
    · obtain ⟨_, _, g, _⟩ := (printLines_iff law).1 hl; rw [h1] at g; cases g
    · obtain ⟨_, _, g, _⟩ := (printLines_iff law).1 hl; rw [h2] at g; cases g
  · exact .inl ⟨_, _, (printLines_iff law).2 ⟨id, L, h1, rfl⟩, (printLines_iff law).2 ⟨id, M, h2, rfl⟩, linesOf_alike h3.toks⟩

/-- **C83**, with a focus: it is at the same place.  If it is inside of a text, then also the parts of texts have to be as wide as each other
    (and it is as always assumed that a text is as wide as its parts). -/
theorem C83_focus (law : P.Lawful) {doc doc' : P.Node} (hids : P.IdsOnPaths doc) (h : Reworded P Q doc doc') (w : Nat) (path : List Nat)
    {target : FocusTarget} (hf : FocusOk P doc target) (hf' : FocusOk P doc' target)
    (ht : (∀ pos, target ≠ .text pos) ∨ CutAlike P.strWidth Q) (style : Option P.Style) :
    (∃ o o', printAll doc w path target style = Exec.ofRes (.ok o) ∧ printAll doc' w path target style = Exec.ofRes (.ok o') ∧
      SameLines Q o.beforeFocus o'.beforeFocus ∧ SameLines Q o.afterFocus o'.afterFocus) ∨
    ((∀ o, printAll doc w path target style ≠ Exec.ofRes (.ok o)) ∧ ∀ o, printAll doc' w path target style ≠ Exec.ofRes (.ok o)) := by
  obtain ⟨R, h, hR⟩ := h
  have hids' := h.idsOnPaths hR hids
  have fails : ∀ {d : P.Node} {e}, prettyPrint d w path target style = Exec.ofRes (.error e) →
      ∀ o, printAll d w path target style ≠ Exec.ofRes (.ok o) := by
    intro d e h1 o h2
    obtain ⟨r, _, _, h3, _⟩ := printAll_inv h2
    rw [h1] at h3
    exact absurd (Exec.ofRes_inj h3) (by simp)
  rcases docLayout_reworded law h hR w style with ⟨f, h1, h2⟩ | ⟨id, L, M, h1, h2, h3⟩
  · refine .inr ⟨fun o ho => ?_, fun o ho => ?_⟩
    · obtain ⟨_, _, g⟩ := layout_of_printAll law hf ho; rw [h1] at g; cases g
    · obtain ⟨_, _, g⟩ := layout_of_printAll law hf' ho; rw [h2] at g; cases g
  · rcases locate_reworded path id h3 with ⟨j, g1, g2⟩ | ⟨l, m, g1, g2, g3⟩
    · exact .inr ⟨fails ((C07_invalid_path_iff law hids h1 path hf j).2 g1),
        fails ((C07_invalid_path_iff law hids' h2 path hf' j).2 g2)⟩
    · have f1 := focus_split law hids h1 hf g1
      have f2 := focus_split law hids' h2 hf' g2
      rw [← g3.id] at f2
      rcases focusToks_reworded ht l.id g3.node.toks g3.after with ⟨e, k1, k2⟩ | ⟨b, a, b', a', k1, k2, k3, k4⟩
      · rw [k1] at f1
        rw [k2] at f2
        exact .inr ⟨fails f1, fails f2⟩
      · rw [k1] at f1
        rw [k2] at f2
        obtain ⟨o, i1, i2, i3⟩ := f1
        obtain ⟨o', j1, j2, j3⟩ := f2
        refine .inl ⟨o, o', i1, j1, ?_, ?_⟩
        · rw [i2, j2]; exact linesOf_alike (forall2_append g3.before k3)
        · rw [i3, j3]; exact linesOf_alike k4

/-- **C83**, for the text: both documents print or none of them does. -/
theorem C83_to_string (law : P.Lawful) {doc doc' : P.Node} (h : Reworded P Q doc doc') (w : Nat) :
    (∃ s, prettyPrintToString doc w = Exec.ofRes (.ok s)) ↔ ∃ s, prettyPrintToString doc' w = Exec.ofRes (.ok s) := by
  obtain ⟨R, h, hR⟩ := h
  have key : ∀ d : P.Node, (∃ s, prettyPrintToString d w = Exec.ofRes (.ok s)) ↔ ∃ x, docLayout law d w none = .ok x := by
    intro d
    constructor
    · rintro ⟨s, hs⟩; obtain ⟨id, L, h1, _⟩ := (C01_to_string_iff law d w s).1 hs; exact ⟨_, h1⟩
    · rintro ⟨⟨id, L⟩, hL⟩; exact ⟨_, (C01_to_string_iff law d w _).2 ⟨id, L, hL, rfl⟩⟩
  rw [key, key]
  rcases docLayout_reworded law h hR w none with ⟨f, h1, h2⟩ | ⟨id, L, M, h1, h2, h3⟩
  · rw [h1, h2]
  · rw [h1, h2]; exact ⟨fun _ => ⟨_, rfl⟩, fun _ => ⟨_, rfl⟩⟩

/-! ### Trees -/

/-- **C83**, for the documents of the crate's example: it is enough to replace texts of a tree by others that are as wide. -/
theorem C83_tree {S : Type} {combine : S → S → S} {fromLabel : String → S} {sw : String → Nat} {t t' : Tree S} (h : t.Reworded sw Q t') :
    Reworded (treeDoc S combine fromLabel sw) Q t t' := by
  refine ⟨Tree.Reworded sw Q, ?_, h⟩
  constructor
  case id => intro p q h; cases h <;> rfl
  case notn => intro p q h; cases h <;> rfl
  case nodeStyle => intro p q h; cases h <;> rfl
  case lookupStyle => intro p q h l; cases h <;> rfl
  case condition =>
    intro p q h c
    cases h with
    | text h1 h2 h3 =>
      cases c with
      | isEmptyText => simp [Tree.condition, String.isEmpty_iff, h2]
      | _ => rfl
    | branch h => cases c <;> rfl
  case numChildren =>
    intro p q h
    cases h with
    | text => rfl
    | branch h => simp [Tree.children?, h.length_eq]
  case text =>
    intro p q h hn
    cases h with
    | text h1 h2 h3 => exact ⟨h1, h3⟩
    | branch h => simp [Tree.children?] at hn
  case child =>
    intro p q h n i hn hi
    cases h with
    | text => simp [Tree.children?] at hn
    | @branch cs ds _ _ _ _ _ _ h =>
      have hl := h.length_eq
      simp only [Tree.children?, Option.map_some, Except.ok.injEq, Option.some.injEq] at hn
      subst hn
      have : (cs[i]'hi).Reworded sw Q (ds[i]'(hl ▸ hi)) := h.get hi (hl ▸ hi)
      simp only [Tree.unwrapChild, Tree.children?, List.getElem?_eq_getElem hi, List.getElem?_eq_getElem (hl ▸ hi : i < ds.length)]
      exact this

theorem Tree.Reworded.isComment {S : Type} {sw : String → Nat} {t u : Tree S} (h : t.Reworded sw Q u) : u.isComment = t.isComment := by
  cases h <;> rfl

theorem Tree.Reworded.setNeedsSeparator {S : Type} {sw : String → Nat} {t u : Tree S} (h : t.Reworded sw Q u) :
    t.setNeedsSeparator.Reworded sw Q u.setNeedsSeparator := by
  cases h with
  | text h1 h2 h3 => exact .text h1 h2 h3
  | branch h => exact .branch h

theorem markSeparators_reworded {S : Type} {sw : String → Nat} {ts us : List (Tree S)} (h : List.Forall₂ (Tree.Reworded sw Q) ts us) :
    List.Forall₂ (Tree.Reworded sw Q) (markSeparators ts).1 (markSeparators us).1 ∧ (markSeparators us).2 = (markSeparators ts).2 := by
  induction h with
  | nil => exact ⟨.nil, rfl⟩
  | @cons t u ts us h _ ih =>
    unfold markSeparators
    dsimp only
    rw [h.isComment, ih.2]
    cases t.isComment with
    | true => exact ⟨.cons h ih.1, rfl⟩
    | false =>
      cases (markSeparators ts).2 with
      | true => exact ⟨.cons h.setNeedsSeparator ih.1, rfl⟩
      | false => exact ⟨.cons h ih.1, rfl⟩

theorem newBranch_reworded {S : Type} [Inhabited S] {sw : String → Nat} {ts us : List (Tree S)} (id : Nat) (n : TreeNotation)
    (h : List.Forall₂ (Tree.Reworded sw Q) ts us) : (Tree.newBranch id n ts).Reworded sw Q (Tree.newBranch id n us) :=
  .branch (markSeparators_reworded h).1

theorem newText_reworded {S : Type} [Inhabited S] {sw : String → Nat} (id : Nat) (n : TreeNotation) {s s' : String} (h : SameWord sw Q s s') :
    (Tree.newText (S := S) id n s).Reworded sw Q (Tree.newText id n s') :=
  .text h.width h.empty h.rel

theorem words_reworded {S : Type} [Inhabited S] {sw : String → Nat} (n : TreeNotation) {us vs : List (List Char)}
    (h : List.Forall₂ (fun u v => SameWord sw Q (String.ofList u) (String.ofList v)) us vs) : ∀ ids : Nat → Nat,
    List.Forall₂ (Tree.Reworded sw Q) (us.mapIdx fun i w => Tree.newText (S := S) (ids i) n (String.ofList w))
      (vs.mapIdx fun i w => Tree.newText (ids i) n (String.ofList w)) := by
  induction h with
  | nil => intro ids; exact .nil
  | cons h _ ih =>
    intro ids
    rw [List.mapIdx_cons, List.mapIdx_cons]
    exact .cons (newText_reworded _ _ h) (ih fun i => ids (i + 1))

mutual
/-- JSON documents differ only in their texts if strings, keys, numbers and words of comments are replaced by others that are as wide. -/
theorem build_reworded {sw : String → Nat} : ∀ {e e' : Json}, e.Reworded sw Q e' → e.build.Reworded sw Q e'.build
  | _, _, .null _ => newBranch_reworded _ _ .nil
  | _, _, .bool _ b => by
    cases b
    · exact newBranch_reworded _ _ .nil
    · exact newBranch_reworded _ _ .nil
  | _, _, .string _ h => newText_reworded _ _ h
  | _, _, .number _ h => newText_reworded _ _ h
  | _, _, .array _ h => newBranch_reworded _ _ (builds_reworded h)
  | _, _, .pair _ _ h hv => newBranch_reworded _ _ (.cons (newText_reworded _ _ h) (.cons (build_reworded hv) .nil))
  | _, _, .object _ h => newBranch_reworded _ _ (builds_reworded h)
  | _, _, .comment _ f h => .branch (markSeparators_reworded (words_reworded _ h f)).1
  | _, _, .roots _ h => newBranch_reworded _ _ (builds_reworded h)
theorem builds_reworded {sw : String → Nat} : ∀ {es es' : List Json}, Json.AllReworded sw Q es es' →
    List.Forall₂ (Tree.Reworded sw Q) (Json.builds es) (Json.builds es')
  | _, _, .nil => .nil
  | _, _, .cons h hs => .cons (build_reworded h) (builds_reworded hs)
end

/-- **C83**, for JSON documents: if strings, keys, numbers and words of comments are replaced by others that are as wide, then what is printed is
    the same but for these. -/
theorem C83_json {sw : String → Nat} {e e' : Json} (h : e.Reworded sw Q e') (w : Nat) (style : Option BasicStyle) :
    (∃ ls ls', printLines (P := basicDoc sw) e.build w style = Exec.ofRes (.ok ls) ∧
      printLines (P := basicDoc sw) e'.build w style = Exec.ofRes (.ok ls') ∧ SameLines Q ls ls') ∨
    ((∀ ls, printLines (P := basicDoc sw) e.build w style ≠ Exec.ofRes (.ok ls)) ∧
      ∀ ls, printLines (P := basicDoc sw) e'.build w style ≠ Exec.ofRes (.ok ls)) :=
  C83_lines (basicLaw sw) (C83_tree (build_reworded h)) w style

/-! ### Concrete cases -/

namespace Ex

/-- A tree as `exDoc`, with other texts. -/
def exWords : Tree Unit :=
  Tree.newBranch 3 listN [Tree.newText 1 leafN "xy", Tree.newText 2 leafN "zéb"]

/-- What is replaced by what. -/
def exQ (s s' : String) : Prop := s = "aa" ∧ s' = "xy" ∨ s = "bbb" ∧ s' = "zéb"

theorem exWords_reworded : exDoc.Reworded String.length exQ exWords :=
  .branch (.cons (.text rfl (by decide) (.inl ⟨rfl, rfl⟩)) (.cons (.text rfl (by decide) (.inr ⟨rfl, rfl⟩)) .nil))

/-- Both are printed, and look the same. -/
example : ∃ ls ls', printLines (P := exP) exDoc 8 none = Exec.ofRes (.ok ls) ∧ printLines (P := exP) exWords 8 none = Exec.ofRes (.ok ls') ∧
    SameLines exQ ls ls' ∧ ls.map segsString = ["[aa,", "bbb]"] := by
  have h0 := (printLines_iff exLaw).2 ⟨_, _, exLayout_narrow, rfl⟩
  rcases C83_lines exLaw (C83_tree exWords_reworded) 8 none with ⟨ls, ls', h1, h2, h3⟩ | ⟨h1, _⟩
  · refine ⟨ls, ls', h1, h2, h3, ?_⟩
    have := Exec.ofRes_inj (h1.symm.trans h0)
    simp only [Except.ok.injEq] at this
    subst this
    rfl
  · exact absurd h0 (h1 _)

/-- The focus is at the same place. -/
example : ∃ o o', printAll (P := exP) exDoc 8 [1] .start none = Exec.ofRes (.ok o) ∧
    printAll (P := exP) exWords 8 [1] .start none = Exec.ofRes (.ok o') ∧
    SameLines exQ o.beforeFocus o'.beforeFocus ∧ SameLines exQ o.afterFocus o'.afterFocus := by
  rcases C83_focus exLaw exIds (C83_tree exWords_reworded) 8 [1] (target := .start) (.inl (by simp)) (.inl (by simp)) (.inl (by simp)) none with h | ⟨h, _⟩
  · exact h
  · obtain ⟨o, ho, _⟩ := C03_start exLaw exIds exLayout_narrow (path := [1]) rfl
    exact absurd ho (h o)

/-- Texts with as many characters can be cut alike. -/
theorem exCut : CutAlike exP.strWidth (fun s s' => s.length = s'.length) := by
  intro s s' h n
  have h' : s.toList.length = s'.toList.length := h
  refine ⟨⟨?_, ?_⟩, ?_, ?_⟩ <;> simp [exP, treeDoc, h']

theorem exWords_length : exDoc.Reworded String.length (fun s s' => s.length = s'.length) exWords :=
  .branch (.cons (.text rfl (by decide) rfl) (.cons (.text rfl (by decide) rfl) .nil))

/-- The focus is after the first letter of the second text in both documents. -/
example : ∃ o o', printAll (P := exP) exDoc 8 [1] (.text 1) none = Exec.ofRes (.ok o) ∧
    printAll (P := exP) exWords 8 [1] (.text 1) none = Exec.ofRes (.ok o') ∧
    SameLines (fun s s' => s.length = s'.length) o.beforeFocus o'.beforeFocus ∧
    SameLines (fun s s' => s.length = s'.length) o.afterFocus o'.afterFocus := by
  have hadd : exP.TextsAdditive exWords := by intro p s _ _ a b c _; simp [exP, treeDoc]
  rcases C83_focus exLaw exIds (C83_tree exWords_length) 8 [1] (target := .text 1) (.inr exAdditive) (.inr hadd) (.inr exCut) none with h | ⟨h, _⟩
  · exact h
  · have h1 := focus_split exLaw exIds exLayout_narrow (path := [1]) (target := .text 1) (.inr exAdditive) rfl
    obtain ⟨o, h2, _⟩ := h1
    exact absurd h2 (h o)

/-- The document `fmtJson` of C76 with other texts. -/
def fmtJson' : Json :=
  .object 9 [.pair 5 4 "c" (.array 3 [.number 1 "7", .number 2 "8"]),
    .pair 8 7 "d" (.array 6 [.comment 10 (fun i => 11 + i) "u v  w", .number 14 "0"])]

/-- Any text is replaced by any. -/
theorem fmtJson_reworded : fmtJson.Reworded String.length (fun _ _ => True) fmtJson' :=
  .object _ (.cons (.pair _ _ ⟨rfl, by decide, trivial⟩
      (.array _ (.cons (.number _ ⟨rfl, by decide, trivial⟩) (.cons (.number _ ⟨rfl, by decide, trivial⟩) .nil))))
    (.cons (.pair _ _ ⟨rfl, by decide, trivial⟩ (.array _ (.cons (.comment _ _ (by
      have h1 : splitWhitespace [] "x  y z".toList = [['x'], ['y'], ['z']] := by decide +kernel
      have h2 : splitWhitespace [] "u v  w".toList = [['u'], ['v'], ['w']] := by decide +kernel
      rw [h1, h2]
      exact .cons ⟨rfl, by decide, trivial⟩ (.cons ⟨rfl, by decide, trivial⟩ (.cons ⟨rfl, by decide, trivial⟩ .nil))))
      (.cons (.number _ ⟨rfl, by decide, trivial⟩) .nil)))) .nil))

/-- Both are printed, and look the same. -/
example : ∃ ls ls', printLines (P := basicDoc String.length) fmtJson.build 30 none = Exec.ofRes (.ok ls) ∧
    printLines (P := basicDoc String.length) fmtJson'.build 30 none = Exec.ofRes (.ok ls') ∧ SameLines (fun _ _ => True) ls ls' := by
  rcases C83_json fmtJson_reworded 30 none with h | ⟨h, _⟩
  · exact h
  · have h1 : prettyPrintToString (P := basicDoc String.length) fmtJson.build 30 = Exec.ofRes (.ok
        "{\n    \"a\": [1, 2],\n    \"b\": [\n        // x y z\n        3\n    ]\n}") := by
      rw [C76_layout (w := 30) fmtJson_ok, fmtJson_lines_wide]
      refine ⟨by decide +kernel, ?_⟩
      have : (fmtJson.docLines String.length 30).all (fun l => decide (l.width ≤ maxWidth)) = true := by decide +kernel
      simpa [List.all_eq_true] using this
    obtain ⟨id, L, h2, _⟩ := (C01_to_string_iff (basicLaw String.length) _ _ _).1 h1
    exact absurd ((printLines_iff (basicLaw String.length)).2 ⟨id, L, h2, rfl⟩) (h _)

end Ex
end PPP
