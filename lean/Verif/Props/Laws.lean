import Verif.Spec.Rewrite
import Verif.Props.Equiv
import Verif.Props.Example
/-
C52: laws for rewriting notations.
-/
namespace PPP

/-! ### The laws -/

section
variable {L C : Type} {nc : Option Nat}

/-- **C52.**  Laws of choices.  A choice between the same is no choice; a first option that comes up again is
    dropped; what follows a choice can be moved into both options, and so can what precedes it on the same
    line; choices can be grouped either way if the option in the middle starts on a new line. -/
theorem C52_choice_laws (a b c x : Notation L C) :
    NEquiv nc (a ||| a) a ∧
    NEquiv nc (a ||| (a ||| b)) (a ||| b) ∧
    NEquiv nc ((a ||| b) + x) ((a + x) ||| (b + x)) ∧
    (x.oneLine = true → NEquiv nc (x + (a ||| b)) ((x + a) ||| (x + b))) ∧
    (b.startsLine = true → NEquiv nc ((a ||| b) ||| c) (a ||| (b ||| c))) :=
  ⟨.choice_self a, .choice_absorb a b, .choice_concat a b x, fun h => .concat_choice h a b,
    fun h => .choice_assoc a c h⟩

/-- **C52.**  Laws of `Flat`: it has no effect on leaves and on itself, takes the first option of a choice,
    and can be moved into the parts of everything else (other than a `Fold`, `Left`, `Right` and a child). -/
theorem C52_flat_laws (a b z o m : Notation L C) (s : String) (l : Option L) (l' : L) (c : C) (pos : CheckPos) :
    (a.isLeaf = true → NEquiv nc (.flat a) a) ∧
    NEquiv nc (.flat (.flat a)) (.flat a) ∧
    NEquiv nc (.flat (a + b)) (.flat a + .flat b) ∧
    NEquiv nc (.flat (a ||| b)) (.flat a) ∧
    NEquiv nc (.flat (.indent s l a)) (.indent s l (.flat a)) ∧
    NEquiv nc (.flat (.style l' a)) (.style l' (.flat a)) ∧
    NEquiv nc (.flat (.check c pos a b)) (.check c pos (.flat a) (.flat b)) ∧
    NEquiv nc (.flat (.count z o m)) (.count (.flat z) (.flat o) (.flat m)) :=
  ⟨.flat_leaf, .flat_flat a, .flat_concat a b, .flat_choice a b, .flat_indent s l a, .flat_style l' a,
    .flat_check c pos a b, .flat_count z o m⟩

/-- **C52.**  `Style` can be moved into the parts of a notation. -/
theorem C52_style_laws (a b z o m : Notation L C) (l : L) (c : C) (pos : CheckPos) :
    NEquiv nc (.style l (a + b)) (.style l a + .style l b) ∧
    NEquiv nc (.style l (a ||| b)) (.style l a ||| .style l b) ∧
    NEquiv nc (.style l (.check c pos a b)) (.check c pos (.style l a) (.style l b)) ∧
    NEquiv nc (.style l (.count z o m)) (.count (.style l z) (.style l o) (.style l m)) :=
  ⟨.style_concat l a b, .style_choice l a b, .style_check l c pos a b, .style_count l z o m⟩

/-- **C52.**  `Indent` can be moved into the parts of a notation; it has no effect on a leaf other than a
    line break. -/
theorem C52_indent_laws (a b z o m : Notation L C) (s : String) (l : Option L) (c : C) (pos : CheckPos) :
    (a.isLeaf = true → a ≠ .newline → NEquiv nc (.indent s none a) a) ∧
    NEquiv nc (.indent s l (a + b)) (.indent s l a + .indent s l b) ∧
    NEquiv nc (.indent s l (a ||| b)) (.indent s l a ||| .indent s l b) ∧
    NEquiv nc (.indent s l (.check c pos a b)) (.check c pos (.indent s l a) (.indent s l b)) ∧
    NEquiv nc (.indent s l (.count z o m)) (.count (.indent s l z) (.indent s l o) (.indent s l m)) :=
  ⟨.indent_leaf, .indent_concat s l a b, .indent_choice s l a b, .indent_check s l c pos a b,
    .indent_count s l z o m⟩

/-- **C52.**  Conditions can be moved out of concatenations and choices. -/
theorem C52_condition_laws (a a' b b' z o m z' o' m' x : Notation L C) (c : C) (pos : CheckPos) :
    NEquiv nc (.check c pos a b + x) (.check c pos (a + x) (b + x)) ∧
    NEquiv nc (x + .check c pos a b) (.check c pos (x + a) (x + b)) ∧
    NEquiv nc (.check c pos a b ||| .check c pos a' b') (.check c pos (a ||| a') (b ||| b')) ∧
    NEquiv nc (.count z o m + x) (.count (z + x) (o + x) (m + x)) ∧
    NEquiv nc (x + .count z o m) (.count (x + z) (x + o) (x + m)) ∧
    NEquiv nc (.count z o m ||| .count z' o' m') (.count (z ||| z') (o ||| o') (m ||| m')) :=
  ⟨.check_concat c pos a b x, .concat_check c pos a b x, .choice_check c pos a a' b b', .count_concat z o m x,
    .concat_count z o m x, .choice_count z z' o o' m m'⟩

end

/-! ### They do not change what is printed -/

section
variable {S : Type} (combine : S → S → S) (fromLabel : String → S) (strWidth : String → Nat)

theorem treeDoc_childAt_branch (cs : List (Tree S)) (id n st o c x) (i : Nat) :
    (treeDoc S combine fromLabel strWidth).childAt (.branch cs id n st o c x) i =
      match cs[i]? with
      | some c => .ok c
      | none => .error .panic := by
  unfold PrettyDoc.childAt
  simp only [treeDoc, Tree.children?, Option.map_some, Tree.unwrapChild]
  split
  · rfl
  · rename_i h
    rw [List.getElem?_eq_none (Nat.le_of_not_lt h)]

theorem rewritten_alike : Alike (P := treeDoc S combine fromLabel strWidth) (Rewritten (S := S)) := by
  constructor
  · rintro p q ⟨⟩ <;> rfl
  · rintro p q (_ | ⟨h, _, _⟩)
    · rfl
    · simp [Tree.children?, h]
  · rintro p q c ⟨⟩ <;> cases c <;> rfl
  · rintro p q l ⟨⟩ <;> rfl
  · rintro p q ⟨⟩ <;> rfl
  · rintro p q ⟨⟩ <;> rfl
  · rintro p q i c hpq hc
    cases hpq with
    | text => cases hc
    | @branch cs ds _ _ _ _ _ _ _ hl hk hn =>
      rw [treeDoc_childAt_branch] at hc
      cases h2 : cs[i]? with
      | none => simp [h2] at hc
      | some c' =>
        simp only [h2, Except.ok.injEq] at hc
        subst hc
        obtain ⟨hi, _⟩ := List.getElem?_eq_some_iff.1 h2
        have hd : ds[i]? = some (ds[i]'(hl ▸ hi)) := List.getElem?_eq_getElem _
        refine ⟨_, ?_, hk i _ _ h2 hd⟩
        rw [treeDoc_childAt_branch, hd]
  · rintro p q i e hpq hc
    cases hpq with
    | text => exact hc
    | @branch cs ds _ _ _ _ _ _ _ hl hk hn =>
      rw [treeDoc_childAt_branch] at hc ⊢
      cases h2 : cs[i]? with
      | some c' => simp [h2] at hc
      | none =>
        rw [List.getElem?_eq_none_iff] at h2
        rw [List.getElem?_eq_none (by omega)]
        simpa [List.getElem?_eq_none h2] using hc
  · rintro p q a nc hpq hn ha
    cases hpq with
    | text h => cases hn; cases ha; exact ⟨_, rfl, h⟩
    | branch hl hk h => cases hn; cases ha; exact ⟨_, rfl, h⟩
  · rintro p q e hpq ha
    cases ha
  · rintro p q n i hpq hn hi
    cases hpq with
    | text h => cases hn
    | branch hl hk h =>
      cases hn
      exact ⟨_, by rw [treeDoc_childAt_branch, List.getElem?_eq_getElem hi]⟩
  · intro p q _; exact ⟨_, rfl⟩

/-- **C52.**  Rewriting notations with these laws, at any nodes of a document, and at any places in their
    notations, does not change what is printed at any width: both documents print the same text, or neither
    prints one.  (`rootTree` and `NoFail`: the document matches its notations.) -/
theorem C52_rewritten_prints_same {d d' : Tree S} (h : Rewritten d d') {id t}
    (hr : rootTree (treeDoc_lawful combine fromLabel strWidth) d none = .ok (id, t)) (hn : t.NoFail)
    (w : Nat) (s : String) :
    prettyPrintToString (P := treeDoc S combine fromLabel strWidth) d w = Exec.ofRes (.ok s) ↔
      prettyPrintToString (P := treeDoc S combine fromLabel strWidth) d' w = Exec.ofRes (.ok s) :=
  C38_alike_print_same _ (rewritten_alike combine fromLabel strWidth) h hr hn w s

end

/-- **C52.**  In what is displayed, choices can be grouped either way if the inner choice obeys the
    documented requirement on choices: whenever the first option fits on the current line, so does the
    second. -/
theorem C52_choice_assoc {P : PrettyDoc} {w : Nat} {a b : NTree P} (c : NTree P)
    (hg : (NTree.choice a b).GoodChoices w) {id k st st' T} :
    (∃ G, Greedy w id (.choice (.choice a b) c) k st st' G ∧ erase G = T) ↔
      ∃ G, Greedy w id (.choice a (.choice b c)) k st st' G ∧ erase G = T :=
  TEquiv.choice_assoc_at c (hg.2.2 k st)

/-! ### Laws that do not hold -/

namespace Ex

/-- A text node that shows its notation only. -/
abbrev oneNode (n : TreeNotation) : Tree Unit := Tree.newText 0 n ""

theorem oneNode_print {n : TreeNotation} {w : Nat} {L : LTree exP}
    (h : docLayout exLaw (oneNode n) w none = .ok (nid 0, L)) (s : String) (hs : s = linesString (linesOf L.toks)) :
    prettyPrintToString (P := exP) (oneNode n) w = Exec.ofRes (.ok s) :=
  (C01_to_string_iff exLaw _ _ _).2 ⟨_, _, h, hs⟩

/-- `(lit("a") | lit("bbb")) | lit("cc")`. -/
def groupLeft : TreeNotation := ⟨.choice (.choice (.literal "a") (.literal "bbb")) (.literal "cc"), by decide⟩
/-- `lit("a") | (lit("bbb") | lit("cc"))`. -/
def groupRight : TreeNotation := ⟨.choice (.literal "a") (.choice (.literal "bbb") (.literal "cc")), by decide⟩

/-- **C52.**  Choices can not be grouped differently in general: at width 2, `("a" | "bbb") | "cc"` prints
    `cc`, because the second option of the inner choice is taken when checking whether it fits, while
    `"a" | ("bbb" | "cc")` prints `a`. -/
theorem C52_choice_not_assoc :
    prettyPrintToString (P := exP) (oneNode groupLeft) 2 = Exec.ofRes (.ok "cc") ∧
    prettyPrintToString (P := exP) (oneNode groupRight) 2 = Exec.ofRes (.ok "a") := by
  constructor
  · refine oneNode_print (L := .text (lit "cc" 2)) ?_ _ rfl
    unfold docLayout rootTree
    rw [docTree_of exLaw (a := groupLeft.1) (s := ()) rfl rfl]
    rfl
  · refine oneNode_print (L := .text (lit "a" 1)) ?_ _ rfl
    unfold docLayout rootTree
    rw [docTree_of exLaw (a := groupRight.1) (s := ()) rfl rfl]
    rfl

/-- `nl + (lit("aa") | lit("b"))`. -/
def breakBefore : TreeNotation := ⟨.newline + .choice (.literal "aa") (.literal "b"), by decide⟩
/-- `(nl + lit("aa")) | (nl + lit("b"))`. -/
def breakInside : TreeNotation := ⟨.choice (.newline + .literal "aa") (.newline + .literal "b"), by decide⟩

/-- **C52.**  A line break can not be moved into a choice: only what is before it has to fit. -/
theorem C52_break_before_choice :
    prettyPrintToString (P := exP) (oneNode breakBefore) 1 = Exec.ofRes (.ok "\nb") ∧
    prettyPrintToString (P := exP) (oneNode breakInside) 1 = Exec.ofRes (.ok "\naa") := by
  constructor
  · refine oneNode_print (L := .concat (.newline []) (.text (lit "b" 1))) ?_ _ rfl
    unfold docLayout rootTree
    rw [docTree_of exLaw (a := breakBefore.1) (s := ()) rfl rfl]
    rfl
  · refine oneNode_print (L := .concat (.newline []) (.text (lit "aa" 2))) ?_ _ rfl
    unfold docLayout rootTree
    rw [docTree_of exLaw (a := breakInside.1) (s := ()) rfl rfl]
    rfl

/-! ### An example -/

/-- The list notation of `exDoc`, with the fold over two children written out, and with the comma and the
    second child moved into the choice. -/
def listN'' : TreeNotation :=
  ⟨.literal "[" + (.child 0 + .choice ((.literal "," + .literal " ") + .child 1)
      ((.literal "," + .newline) + .child 1)) + .focusMark + .literal "]", by decide⟩

/-- The document of `exDoc`, with that notation. -/
def exDoc'' : Tree Unit :=
  Tree.newBranch 3 listN'' [Tree.newText 1 leafN "aa", Tree.newText 2 leafN "bbb"]

theorem listN''_equiv : NEquiv (some 2) listN.1 listN''.1 := by
  have hfold : NEquiv (L := String) (C := TreeCondition) (some 2)
      (.fold (.child 0) (.left + .literal "," + (.choice (.literal " ") .newline) + .right))
      (.child 0 + .literal "," + (.choice (.literal " ") .newline) + .child 1) := .fold_unfold _ _ rfl trivial
  have hc : NEquiv (L := String) (C := TreeCondition) (some 2)
      ((.literal "," + .choice (.literal " ") .newline) + .child 1)
      (.choice ((.literal "," + .literal " ") + .child 1) ((.literal "," + .newline) + .child 1)) :=
    .trans (.concat (.concat_choice rfl _ _) (.refl _)) (.choice_concat _ _ _)
  refine .concat (.concat (.concat (.refl _) (.trans hfold ?_)) (.refl _)) (.refl _)
  exact .trans (.assoc _ _ _) (.trans (.assoc _ _ _) (.concat (.refl _) (.trans (.symm (.assoc _ _ _)) hc)))

theorem rewritten_refl_text {s id n st o c x} : Rewritten (S := Unit) (.text s id n st o c x) (.text s id n st o c x) :=
  .text (.refl _)

theorem exRewritten : Rewritten exDoc exDoc'' := by
  refine .branch rfl ?_ listN''_equiv
  intro i a b ha hb
  match i, ha, hb with
  | 0, ha, hb => cases ha; cases hb; exact rewritten_refl_text
  | 1, ha, hb => cases ha; cases hb; exact rewritten_refl_text

/-- C52 on it. -/
example (w : Nat) (s : String) : prettyPrintToString (P := exP) exDoc w = Exec.ofRes (.ok s) ↔
    prettyPrintToString (P := exP) exDoc'' w = Exec.ofRes (.ok s) :=
  C52_rewritten_prints_same _ _ _ exRewritten exTree_eq exTree_noFail w s

end Ex

end PPP
