import Verif.Proofs.Toks
import Verif.Proofs.Tree
/-
A concrete document, used to show that the hypotheses of the theorems are met.
It is a list `[aa, bbb]` whose separator is `", "` if that fits and a comma and a newline otherwise.
-/
namespace PPP.Ex

/-- `&Tree<()>`, with one column per character. -/
abbrev exP : PrettyDoc := treeDoc Unit (fun _ _ => ()) (fun _ => ()) String.length

abbrev exLaw : exP.Lawful := treeDoc_lawful _ _ _

/-- Just a text. -/
def leafN : TreeNotation := ⟨.text, by decide⟩

/-- `lit("[") + fold(first: child(0), join: left + lit(",") + (lit(" ") | nl) + right) + mark + lit("]")`. -/
def listN : TreeNotation :=
  ⟨.literal "[" + (.fold (.child 0)
      (.left + .literal "," + (.choice (.literal " ") .newline) + .right)) + .focusMark + .literal "]",
   by decide⟩

/-- The document. -/
def exDoc : Tree Unit :=
  Tree.newBranch 3 listN [Tree.newText 1 leafN "aa", Tree.newText 2 leafN "bbb"]

/-- The parts of the trees and layouts below. -/
def lit (s : String) (n : Nat) : Textual exP := ⟨s, n, (), false⟩
@[inherit_doc lit]
def txt (s : String) (n : Nat) : Textual exP := ⟨s, n, (), true⟩
/-- An id, as an id of `exP`. -/
def nid (n : Nat) : exP.Id := n

/-- The tree of the document, in terms of what its two children display. -/
def listTree (kid : Nat → Ctx exP → NTree exP) : NTree exP :=
  .concat (.concat (.concat (.text (lit "[" 1))
    (.concat (.concat (.concat (kid 0 ⟨false, [], ()⟩) (.text (lit "," 1)))
      (.choice (.text (lit " " 1)) (.newline []))) (kid 1 ⟨false, [], ()⟩))) .mark)
    (.text (lit "]" 1))

def exTree : NTree exP :=
  listTree fun
    | 0, _ => .child 0 (.ok (nid 1)) (.text (txt "aa" 2))
    | _, _ => .child 1 (.ok (nid 2)) (.text (txt "bbb" 3))

theorem exTree_eq : rootTree exLaw exDoc none = .ok (nid 3, exTree) := by
  have h0 : ∀ c, docKid exLaw exDoc 0 c = .child 0 (.ok (nid 1)) (.text (txt "aa" 2)) := fun c =>
    docKid_of exLaw (child := Tree.setNeedsSeparator (Tree.newText 1 leafN "aa")) rfl
      (docTree_of exLaw rfl rfl _ _ _)
  have h1 : ∀ c, docKid exLaw exDoc 1 c = .child 1 (.ok (nid 2)) (.text (txt "bbb" 3)) := fun c =>
    docKid_of exLaw (child := Tree.newText 2 leafN "bbb") rfl (docTree_of exLaw rfl rfl _ _ _)
  have ht : ∀ kid, listN.1.tree (P := exP) exDoc kid none ⟨false, [], ()⟩ = listTree kid := fun _ => rfl
  unfold rootTree
  rw [docTree_of exLaw (a := listN.1) (s := ()) rfl rfl]
  change Except.ok (nid 3, listN.1.tree (P := exP) exDoc (docKid exLaw exDoc) none ⟨false, [], ()⟩) = _
  rw [ht]
  simp only [listTree, exTree, h0, h1]

/-- The layout at width 9 or more is `[aa, bbb]`. -/
def exWide : LTree exP :=
  .concat (.concat (.concat (.text (lit "[" 1))
    (.concat (.concat (.concat (.child (nid 3) 0 (nid 1) (.text (txt "aa" 2))) (.text (lit "," 1)))
      (.text (lit " " 1))) (.child (nid 3) 1 (nid 2) (.text (txt "bbb" 3))))) (.mark (nid 3)))
    (.text (lit "]" 1))

/-- The layout at width 8 or less is `[aa,` and `bbb]`. -/
def exNarrow : LTree exP :=
  .concat (.concat (.concat (.text (lit "[" 1))
    (.concat (.concat (.concat (.child (nid 3) 0 (nid 1) (.text (txt "aa" 2))) (.text (lit "," 1)))
      (.newline [])) (.child (nid 3) 1 (nid 2) (.text (txt "bbb" 3))))) (.mark (nid 3)))
    (.text (lit "]" 1))

theorem exLayout_wide : docLayout exLaw exDoc 9 none = .ok (nid 3, exWide) := by
  unfold docLayout; rw [exTree_eq]; rfl

theorem exLayout_narrow : docLayout exLaw exDoc 8 none = .ok (nid 3, exNarrow) := by
  unfold docLayout; rw [exTree_eq]; rfl

/-- The nodes of the document. -/
theorem exWithin {p : Tree Unit} (h : exP.Within exDoc p) :
    p = exDoc ∨ p = Tree.setNeedsSeparator (Tree.newText 1 leafN "aa") ∨ p = Tree.newText 2 leafN "bbb" := by
  have key : ∀ q p, exP.ChildOf q p → (p = exDoc ∨
      p = Tree.setNeedsSeparator (Tree.newText 1 leafN "aa") ∨ p = Tree.newText 2 leafN "bbb") →
      (q = Tree.setNeedsSeparator (Tree.newText 1 leafN "aa") ∨ q = Tree.newText 2 leafN "bbb") := by
    rintro q p ⟨i, hi⟩ hp
    obtain ⟨cs, h1, h2⟩ := treeDoc_childAt hi
    rcases hp with rfl | rfl | rfl
    · cases h1
      match i, h2 with
      | 0, h2 => cases h2; exact .inl rfl
      | 1, h2 => cases h2; exact .inr rfl
      | i + 2, h2 => cases h2
    · cases h1
    · cases h1
  rcases h with h | h
  · exact .inl h
  · right
    change Relation.TransGen exP.ChildOf p exDoc at h
    induction h using Relation.TransGen.head_induction_on with
    | single h => exact key _ _ h (.inl rfl)
    | head h1 _ ih => exact key _ _ h1 (.inr ih)

theorem exIds : exP.IdsOnPaths exDoc := by
  refine idsOnPaths_of_rank (fun i : Nat => i) ?_ (fun p => ⟨_, rfl⟩)
  rintro p q i j hp ⟨k, hk⟩ hi hj
  obtain ⟨cs, h1, h2⟩ := treeDoc_childAt hk
  rcases exWithin hp with rfl | rfl | rfl
  · cases h1
    cases hi
    match k, h2 with
    | 0, h2 => cases h2; cases hj; decide
    | 1, h2 => cases h2; cases hj; decide
    | k + 2, h2 => cases h2
  · cases h1
  · cases h1

theorem exAdditive : exP.TextsAdditive exDoc := by
  intro p s _ _ a b c _
  simp [exP, treeDoc]

/-- The document's lines at width 8. -/
example : linesString (linesOf exNarrow.toks) = "[aa,\nbbb]" := rfl

end PPP.Ex
