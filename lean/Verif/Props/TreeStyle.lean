import Verif.Model.Style
import Verif.Props.Meaning
/-
C32: which children of a `Tree` need a separator.  C46: what a `Tree` contains.  C39: how `BasicStyle`s combine.
-/
namespace PPP
variable {S : Type}

/-! ### C32 -/

/-- The flag does not change anything else about a tree. -/
theorem Tree.setNeedsSeparator_isComment (t : Tree S) : t.setNeedsSeparator.isComment = t.isComment := by
  cases t <;> rfl

theorem markSeparators_length (cs : List (Tree S)) : (markSeparators cs).1.length = cs.length := by
  induction cs with
  | nil => rfl
  | cons c cs ih =>
    simp only [markSeparators]
    split
    · simp [ih]
    · split <;> simp [ih]

theorem markSeparators_seen (cs : List (Tree S)) :
    (markSeparators cs).2 = true ↔ ∃ d ∈ cs, d.isComment = false := by
  induction cs with
  | nil => simp [markSeparators]
  | cons c cs ih =>
    simp only [markSeparators]
    cases hc : c.isComment with
    | true => simpa [hc] using ih
    | false =>
      split
      · simp_all
      · split <;> simp [hc]

open Classical in
theorem markSeparators_get (cs : List (Tree S)) : ∀ (i : Nat) (c : Tree S), cs[i]? = some c →
    (markSeparators cs).1[i]? = some
      (if c.isComment = false ∧ ∃ j : Nat, i < j ∧ ∃ d : Tree S, cs[j]? = some d ∧ d.isComment = false
        then c.setNeedsSeparator else c) := by
  induction cs with
  | nil => intro i c h; simp at h
  | cons x cs ih =>
    intro i c h
    cases i with
    | zero =>
      simp only [List.getElem?_cons_zero, Option.some.injEq] at h
      subst h
      have hseen : (markSeparators cs).2 = true ↔
          ∃ j : Nat, 0 < j ∧ ∃ d : Tree S, (x :: cs)[j]? = some d ∧ d.isComment = false := by
        rw [markSeparators_seen]
        constructor
        · rintro ⟨d, hd, h⟩
          obtain ⟨j, hj⟩ := List.mem_iff_getElem?.1 hd
          exact ⟨j + 1, by omega, d, by simpa using hj, h⟩
        · rintro ⟨j, hj, d, hd, h⟩
          obtain ⟨j, rfl⟩ : ∃ k, j = k + 1 := ⟨j - 1, by omega⟩
          exact ⟨d, List.mem_of_getElem? (by simpa using hd), h⟩
      simp only [markSeparators]
      rw [← hseen]
      cases hx : x.isComment with
      | true => simp
      | false =>
        cases hs : (markSeparators cs).2 <;> simp
    | succ i =>
      have hi := ih i c (by simpa using h)
      have hex : (∃ j : Nat, i + 1 < j ∧ ∃ d : Tree S, (x :: cs)[j]? = some d ∧ d.isComment = false) ↔
          (∃ j : Nat, i < j ∧ ∃ d : Tree S, cs[j]? = some d ∧ d.isComment = false) := by
        constructor
        · rintro ⟨j, hj, d, hd, h⟩
          obtain ⟨j, rfl⟩ : ∃ k, j = k + 1 := ⟨j - 1, by omega⟩
          exact ⟨j, by omega, d, by simpa using hd, h⟩
        · rintro ⟨j, hj, d, hd, h⟩
          exact ⟨j + 1, by omega, d, by simpa using hd, h⟩
      rw [hex, ← hi]
      simp only [markSeparators]
      split
      · simp
      · split <;> simp

/-- **C32.**  `Tree::new_branch` keeps the children in order; it makes a child satisfy `NeedsSeparator`
    exactly if the child is not a comment and is followed by a sibling that is not a comment; and it
    changes nothing else about the children. -/
theorem C32_separators [Inhabited S] (id : Nat) (notn : TreeNotation) (cs : List (Tree S)) :
    ∃ ds : List (Tree S), (Tree.newBranch id notn cs).children? = some ds ∧ ds.length = cs.length ∧
      ∀ (i : Nat) (c : Tree S), cs[i]? = some c → ∃ d : Tree S, ds[i]? = some d ∧
        d.setNeedsSeparator = c.setNeedsSeparator ∧
        (d.condition .needsSeparator = true ↔ c.condition .needsSeparator = true ∨
          (c.condition .isComment = false ∧
            ∃ j : Nat, i < j ∧ ∃ e : Tree S, cs[j]? = some e ∧ e.condition .isComment = false)) := by
  refine ⟨_, rfl, markSeparators_length cs, ?_⟩
  intro i c h
  refine ⟨_, markSeparators_get cs i c h, ?_, ?_⟩
  · split
    · cases c <;> rfl
    · rfl
  · simp only [Tree.condition]
    split
    · rename_i h1
      have : c.setNeedsSeparator.needsSeparator = true := by cases c <;> rfl
      simp [this, h1]
    · rename_i h1
      simp only [h1, or_false]

/-- The children that the condition is about in practice: made by `new_text` or `new_branch` and not yet
    put under a parent, perhaps made into comments or given styles. -/
inductive Tree.Fresh [Inhabited S] : Tree S → Prop where
  | newText (id notn s) : Fresh (Tree.newText id notn s)
  | newBranch (id notn cs) : Fresh (Tree.newBranch id notn cs)
  | intoComment {t} : Fresh t → Fresh t.intoComment
  | withStyle {t} (s) : Fresh t → Fresh (t.withStyle s)
  | withStyleOverride {t} (l s) : Fresh t → Fresh (t.withStyleOverride l s)

theorem Tree.Fresh.flag [Inhabited S] {t : Tree S} (h : t.Fresh) : t.condition .needsSeparator = false := by
  induction h with
  | newText => rfl
  | newBranch => rfl
  | @intoComment t _ ih => cases t <;> exact ih
  | @withStyle t _ _ ih => cases t <;> exact ih
  | @withStyleOverride t _ _ _ ih => cases t <;> exact ih

/-- **C32**, for fresh children: `NeedsSeparator` holds exactly if the child is not a comment and some
    later sibling is not a comment. -/
theorem C32_fresh [Inhabited S] (id : Nat) (notn : TreeNotation) (cs : List (Tree S))
    (hfresh : ∀ c ∈ cs, c.Fresh) :
    ∃ ds : List (Tree S), (Tree.newBranch id notn cs).children? = some ds ∧ ds.length = cs.length ∧
      ∀ (i : Nat) (c : Tree S), cs[i]? = some c → ∃ d : Tree S, ds[i]? = some d ∧
        (d.condition .needsSeparator = true ↔
          (c.condition .isComment = false ∧
            ∃ j : Nat, i < j ∧ ∃ e : Tree S, cs[j]? = some e ∧ e.condition .isComment = false)) := by
  obtain ⟨ds, h1, h2, h3⟩ := C32_separators id notn cs
  refine ⟨ds, h1, h2, ?_⟩
  intro i c h
  obtain ⟨d, g1, _, g2⟩ := h3 i c h
  refine ⟨d, g1, ?_⟩
  rw [g2, (hfresh c (List.mem_of_getElem? h)).flag]
  simp

/-- A fresh node is a comment exactly if `into_comment` was called on it. -/
theorem C32_comment [Inhabited S] (t : Tree S) (id : Nat) (notn : TreeNotation) (s : String)
    (cs : List (Tree S)) (st : S) (l : String) :
    t.intoComment.condition .isComment = true ∧
    (Tree.newText (S := S) id notn s).condition .isComment = false ∧
    (Tree.newBranch id notn cs).condition .isComment = false ∧
    (t.withStyle st).condition .isComment = t.condition .isComment ∧
    (t.withStyleOverride l st).condition .isComment = t.condition .isComment := by
  refine ⟨?_, rfl, rfl, ?_, ?_⟩ <;> cases t <;> rfl

/-- `IsEmptyText` holds exactly for text nodes with the empty text. -/
theorem C32_isEmptyText (combine : S → S → S) (fromLabel : String → S) (strWidth : String → Nat) (t : Tree S) :
    (treeDoc S combine fromLabel strWidth).condition t .isEmptyText = .ok true ↔
      (treeDoc S combine fromLabel strWidth).numChildren t = .ok none ∧
      (treeDoc S combine fromLabel strWidth).unwrapText t = .ok "" := by
  cases t <;> simp [treeDoc, Tree.condition, Tree.children?, Tree.unwrapText]

/-! ### C46 -/

/-- **C46.**  A `Tree` has a text exactly if it has no children, and a child with index `i` exactly if `i` is less than the
    number of its children: the `unwrap_` methods panic otherwise. -/
theorem C46_text_or_children (combine : S → S → S) (fromLabel : String → S) (strWidth : String → Nat) (t : Tree S) :
    ((∃ s, (treeDoc S combine fromLabel strWidth).unwrapText t = .ok s) ↔
      (treeDoc S combine fromLabel strWidth).numChildren t = .ok none) ∧
    ((treeDoc S combine fromLabel strWidth).unwrapText t ≠ .error .panic ↔
      (treeDoc S combine fromLabel strWidth).numChildren t = .ok none) ∧
    ∀ i, (∃ c, (treeDoc S combine fromLabel strWidth).unwrapChild t i = .ok c) ↔
      ∃ n, (treeDoc S combine fromLabel strWidth).numChildren t = .ok (some n) ∧ i < n := by
  cases t with
  | text s i n st o c x => simp [treeDoc, Tree.children?, Tree.unwrapText, Tree.unwrapChild]
  | branch cs i n st o c x =>
    simp only [treeDoc, Tree.children?, Tree.unwrapText, Tree.unwrapChild]
    refine ⟨by simp, by simp, fun i => ?_⟩
    by_cases h : i < cs.length <;> simp [h]

/-- The contents of a tree: its text, or its children (up to what `NeedsSeparator` says about them). -/
def Tree.Contents (t : Tree S) (c : String ⊕ List (Tree S)) : Prop :=
  match t.children?, c with
  | none, .inl s => t.unwrapText = .ok s
  | some ds, .inr cs => ds.map Tree.setNeedsSeparator = cs.map Tree.setNeedsSeparator
  | _, _ => False

/-- **C46.**  `new_text` and `new_branch` give a node with these contents, this notation and the default style, without
    style overrides; the other builders only change what they are about. -/
theorem C46_builders [Inhabited S] (fromLabel : String → S) (id : Nat) (notn : TreeNotation) (s : String)
    (cs : List (Tree S)) (t : Tree S) (st : S) (l : String) :
    ((Tree.newText (S := S) id notn s).Contents (.inl s) ∧ (Tree.newText (S := S) id notn s).notn = notn ∧
      (Tree.newText (S := S) id notn s).id = id ∧ (Tree.newText (S := S) id notn s).nodeStyle = default ∧
      ∀ l, (Tree.newText (S := S) id notn s).lookupStyle fromLabel l = fromLabel l) ∧
    ((Tree.newBranch id notn cs).Contents (.inr cs) ∧ (Tree.newBranch id notn cs).notn = notn ∧
      (Tree.newBranch id notn cs).id = id ∧ (Tree.newBranch id notn cs).nodeStyle = default ∧
      ∀ l, (Tree.newBranch id notn cs).lookupStyle fromLabel l = fromLabel l) ∧
    (∀ t' ∈ [t.intoComment, t.withStyle st, t.withStyleOverride l st], t'.Contents = t.Contents ∧ t'.notn = t.notn ∧
      t'.id = t.id ∧ t'.condition .needsSeparator = t.condition .needsSeparator) ∧
    (t.withStyle st).nodeStyle = st ∧ t.intoComment.nodeStyle = t.nodeStyle ∧
    (t.withStyleOverride l st).nodeStyle = t.nodeStyle ∧
    t.intoComment.styleOverrides = t.styleOverrides ∧ (t.withStyle st).styleOverrides = t.styleOverrides := by
  refine ⟨⟨rfl, rfl, rfl, rfl, fun _ => rfl⟩, ⟨?_, rfl, rfl, rfl, fun _ => rfl⟩, ?_, ?_, ?_, ?_, ?_, ?_⟩
  · simp only [Tree.Contents, Tree.newBranch, Tree.children?]
    induction cs with
    | nil => rfl
    | cons c cs ih =>
      simp only [markSeparators]
      have hc : c.setNeedsSeparator.setNeedsSeparator = c.setNeedsSeparator := by cases c <;> rfl
      split
      · simp [ih]
      · split <;> simp [ih, hc]
  · intro t' ht
    simp only [List.mem_cons, List.not_mem_nil, or_false] at ht
    rcases ht with rfl | rfl | rfl <;> cases t <;> exact ⟨rfl, rfl, rfl, rfl⟩
  all_goals cases t <;> rfl

/-- **C46.**  Style overrides: the first override for a label counts, and otherwise the label itself is converted. -/
theorem C46_overrides (fromLabel : String → S) (t : Tree S) (l l' : String) (s : S) :
    (t.withStyleOverride l s).lookupStyle fromLabel l' =
      if l' ∈ t.styleOverrides.map (·.1) then t.lookupStyle fromLabel l'
      else if l' = l then s else t.lookupStyle fromLabel l' := by
  have h : (t.withStyleOverride l s).styleOverrides = t.styleOverrides ++ [(l, s)] := by cases t <;> rfl
  simp only [Tree.lookupStyle, h, List.find?_append]
  cases hf : t.styleOverrides.find? (·.1 = l') with
  | some p =>
    have h1 := List.mem_of_find?_eq_some hf
    have h2 := List.find?_some hf
    simp only [decide_eq_true_eq] at h2
    have : l' ∈ t.styleOverrides.map (·.1) := List.mem_map.2 ⟨p, h1, h2⟩
    simp [this]
  | none =>
    have : l' ∉ t.styleOverrides.map (·.1) := by
      intro hm
      obtain ⟨p, h1, h2⟩ := List.mem_map.1 hm
      have := List.find?_eq_none.1 hf p h1
      simp [h2] at this
    rw [if_neg this]
    by_cases hl : l' = l
    · subst hl; simp
    · have : ¬ l = l' := fun h => hl h.symm
      simp [hl, this]

namespace Ex

/-- A list with comments: `a // x b // y`: only `a` needs a separator. -/
example : ((Tree.newBranch 5 listN
      [Tree.newText 1 leafN "a", (Tree.newText 2 leafN "x").intoComment, Tree.newText 3 leafN "b",
       (Tree.newText 4 leafN "y").intoComment] : Tree Unit).children?.map
        (·.map fun c => (c.condition .needsSeparator, c.condition .isComment))) =
    some [(true, false), (false, true), (false, false), (false, true)] := rfl

/-- The first override counts: `kw` is red; `name` is not overridden. -/
example : (((Tree.newText 1 leafN "a" : Tree BasicStyle).withStyleOverride "kw" ⟨.red, false⟩).withStyleOverride
      "kw" ⟨.blue, true⟩).lookupStyle BasicStyle.fromLabel "kw" = ⟨.red, false⟩ := by
  rw [C46_overrides, if_pos (by decide)]
  rfl

end Ex

/-! ### C39 -/

/-- **C39.**  Combining styles takes the inner colour, and is bold if one of the styles is. -/
theorem C39_combine (outer inner : BasicStyle) :
    (outer.combine inner).color = inner.color ∧
    ((outer.combine inner).bold = true ↔ outer.bold = true ∨ inner.bold = true) := by
  simp [BasicStyle.combine]

/-- **C39.**  Setting the colour keeps whether the style is bold; making a style bold keeps its colour. -/
theorem C39_setters (s : BasicStyle) (c : Color) :
    (s.setColor c).color = c ∧ (s.setColor c).bold = s.bold ∧ s.setBold.bold = true ∧ s.setBold.color = s.color ∧
    (s.setColor c).setBold = s.setBold.setColor c := ⟨rfl, rfl, rfl, rfl, rfl⟩

/-- Combining styles is associative. -/
theorem C39_assoc (a b c : BasicStyle) : (a.combine b).combine c = a.combine (b.combine c) := by
  simp [BasicStyle.combine, Bool.or_assoc]

/-- The default style is a unit on the outside.  (It is not on the inside: there it makes things white.) -/
theorem C39_unit (s : BasicStyle) : BasicStyle.new.combine s = s := by
  simp [BasicStyle.combine, BasicStyle.new]

example : BasicStyle.combine ⟨.red, false⟩ BasicStyle.new ≠ ⟨.red, false⟩ := by decide

theorem foldl_combine (ss : List BasicStyle) : ∀ s : BasicStyle,
    (ss.foldl BasicStyle.combine s).color = ((s :: ss).getLast (by simp)).color ∧
    ((ss.foldl BasicStyle.combine s).bold = true ↔ ∃ x ∈ s :: ss, x.bold = true) := by
  induction ss with
  | nil => intro s; simp
  | cons x ss ih =>
    intro s
    obtain ⟨h1, h2⟩ := ih (s.combine x)
    simp only [List.foldl_cons]
    constructor
    · rw [h1]
      cases ss with
      | nil => simp [BasicStyle.combine]
      | cons y ss => simp [List.getLast_cons]
    · rw [h2]
      simp [BasicStyle.combine, or_assoc]

/-- **C39**, for any depth of nesting: the combination of styles (outermost first) has the colour of the
    innermost one, and is bold exactly if one of them is bold. -/
theorem C39_nested (strWidth : String → Nat) (ss : List BasicStyle) {s : BasicStyle}
    (h : combineAll (P := basicDoc strWidth) ss = some s) :
    (∃ x, ss.getLast? = some x ∧ s.color = x.color) ∧ (s.bold = true ↔ ∃ x ∈ ss, x.bold = true) := by
  cases ss with
  | nil => simp [combineAll] at h
  | cons x ss =>
    have h : ss.foldl BasicStyle.combine x = s := by simpa [combineAll] using h
    obtain ⟨h1, h2⟩ := foldl_combine ss x
    rw [h] at h1 h2
    refine ⟨⟨_, List.getLast?_eq_some_getLast (by simp), h1⟩, h2⟩

/-- **C39**, in print.  In everything printed of a `Tree<BasicStyle>`, each text has the colour of the
    innermost style around it, and is bold exactly if a style around it is bold. -/
theorem C39_printed (strWidth : String → Nat) {doc : Tree BasicStyle} {w path target style o}
    (hfocus : FocusOk (basicDoc strWidth) doc target)
    (h : printAll (P := basicDoc strWidth) doc w path target style = Exec.ofRes (.ok o)) :
    ∃ (x : Place (basicDoc strWidth)) (T : List (Tok (basicDoc strWidth))), RootPlace doc style x ∧ Shows x T ∧
      o.lines.map styledChars = (linesOf T).map styledChars ∧
      ∀ t : Textual (basicDoc strWidth), .text t ∈ T → ∃ y, x.Around y ∧
        (y.notn = .literal t.str ∨ (y.notn = .text ∧ (basicDoc strWidth).unwrapText y.node = .ok t.str)) ∧
        ∃ (ss : List BasicStyle) (s : BasicStyle), y.styles = ss ∧ t.style = s ∧
          (∃ x, ss.getLast? = some x ∧ s.color = x.color) ∧ (s.bold = true ↔ ∃ x ∈ ss, x.bold = true) := by
  obtain ⟨x, T, h1, h2, h3, h4⟩ := C20_styles (treeDoc_lawful _ _ _) hfocus h
  refine ⟨x, T, h1, h2, h3, ?_⟩
  intro t ht
  obtain ⟨y, g1, g2, g3⟩ := h4 t ht
  exact ⟨y, g1, g3, y.styles, t.style, rfl, rfl, C39_nested strWidth y.styles g2⟩

/-- The name of a colour. -/
def Color.name : Color → String
  | .white => "white" | .black => "black" | .red => "red" | .green => "green"
  | .yellow => "yellow" | .blue => "blue" | .magenta => "magenta" | .cyan => "cyan"

/-- **C39**, for labels: the name of a colour is that colour, `bold_` makes it bold, and everything else
    is the default style. -/
theorem C39_labels :
    (∀ c : Color, BasicStyle.fromLabel c.name = ⟨c, false⟩) ∧
    (∀ c : Color, BasicStyle.fromLabel ("bold_" ++ c.name) = ⟨c, true⟩) ∧
    (∀ l : String, (∀ c : Color, l ≠ c.name ∧ l ≠ "bold_" ++ c.name) → BasicStyle.fromLabel l = ⟨.white, false⟩) := by
  refine ⟨?_, ?_, ?_⟩
  · intro c; cases c <;> decide
  · intro c; cases c <;> decide
  · intro l h
    have h1 := h .white
    have h2 := h .black
    have h3 := h .red
    have h4 := h .green
    have h5 := h .yellow
    have h6 := h .blue
    have h7 := h .magenta
    have h8 := h .cyan
    simp only [Color.name, show "bold_" ++ "white" = "bold_white" from rfl,
      show "bold_" ++ "black" = "bold_black" from rfl, show "bold_" ++ "red" = "bold_red" from rfl,
      show "bold_" ++ "green" = "bold_green" from rfl, show "bold_" ++ "yellow" = "bold_yellow" from rfl,
      show "bold_" ++ "blue" = "bold_blue" from rfl, show "bold_" ++ "magenta" = "bold_magenta" from rfl,
      show "bold_" ++ "cyan" = "bold_cyan" from rfl] at h1 h2 h3 h4 h5 h6 h7 h8
    simp [BasicStyle.fromLabel, BasicStyle.new, h1, h2, h3, h4, h5, h6, h7, h8]

end PPP
