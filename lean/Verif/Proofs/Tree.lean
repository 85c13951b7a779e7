import Mathlib.Logic.Relation
import Verif.Model.Tree
import Verif.Spec.Output
/-
The sample document type honours the `PrettyDoc` contract.
-/
namespace PPP
variable {S : Type}

theorem treeDoc_childAt {combine : S → S → S} {fromLabel : String → S} {strWidth : String → Nat}
    {p c : Tree S} {i : Nat} (h : (treeDoc S combine fromLabel strWidth).childAt p i = .ok c) :
    ∃ cs, p.children? = some cs ∧ cs[i]? = some c := by
  unfold PrettyDoc.childAt at h
  cases p with
  | text => simp [treeDoc, Tree.children?] at h
  | branch cs =>
    refine ⟨cs, rfl, ?_⟩
    simp only [treeDoc, Tree.children?, Option.map_some, Tree.unwrapChild] at h
    split at h
    · split at h
      · simp at h; subst h; assumption
      · simp at h
    · simp at h

theorem Tree.sizeOf_child [SizeOf S] {p c : Tree S} {cs : List (Tree S)} (h : p.children? = some cs)
    (hc : c ∈ cs) : sizeOf c < sizeOf p := by
  cases p with
  | text => simp [Tree.children?] at h
  | branch ds =>
    simp only [Tree.children?, Option.some.injEq] at h
    subst h
    have := List.sizeOf_lt_of_mem hc
    simp only [Tree.branch.sizeOf_spec]
    omega

theorem treeDoc_wf (combine : S → S → S) (fromLabel : String → S) (strWidth : String → Nat) :
    WellFounded (treeDoc S combine fromLabel strWidth).ChildOf := by
  refine Subrelation.wf ?_ (measure (fun t : Tree S => sizeOf t)).wf
  rintro c p ⟨i, h⟩
  obtain ⟨cs, h1, h2⟩ := treeDoc_childAt h
  exact Tree.sizeOf_child h1 (List.mem_of_getElem? h2)

/-- `&Tree<S>` honours the contract of `PrettyDoc`. -/
theorem treeDoc_lawful (combine : S → S → S) (fromLabel : String → S) (strWidth : String → Nat) :
    (treeDoc S combine fromLabel strWidth).Lawful where
  wf := treeDoc_wf combine fromLabel strWidth
  valid p a h := by
    have h' : Except.ok (ε := DocFail Empty) (Tree.notn p).1 = .ok a := h
    injection h' with h'
    subst h'
    exact (Tree.notn p).2
  last p n h := by
    simp only [treeDoc, Except.ok.injEq] at h ⊢
    simp only [h]
  prev p n i c _ _ _ := rfl
  id_no_panic p := by simp [treeDoc]
  notn_no_panic p := by simp [treeDoc]
  condition_no_panic p c _ := by simp [treeDoc]
  lookupStyle_no_panic p l _ := by simp [treeDoc]
  nodeStyle_no_panic p := by simp [treeDoc]
  numChildren_no_panic p := by simp [treeDoc]
  unwrapText_no_panic p h := by
    cases p with
    | text => simp [treeDoc, Tree.unwrapText]
    | branch => simp [treeDoc, Tree.children?] at h
  unwrapChild_no_panic p n i h hi := by
    cases p with
    | text => simp [treeDoc, Tree.children?] at h
    | branch cs =>
      simp only [treeDoc, Tree.children?, Option.map_some, Except.ok.injEq, Option.some.injEq] at h
      subst h
      simp [treeDoc, Tree.unwrapChild, Tree.children?, List.getElem?_eq_getElem hi]

/-- Induction over the nodes of a document, from the root down. -/
theorem PrettyDoc.Within.induct {P : PrettyDoc} {doc : P.Node} {Φ : P.Node → Prop} (h0 : Φ doc)
    (hs : ∀ p q, Φ p → P.ChildOf q p → Φ q) {p : P.Node} (h : P.Within doc p) : Φ p := by
  rcases h with rfl | h
  · exact h0
  · change Relation.TransGen P.ChildOf p doc at h
    have : ∀ q, Relation.TransGen P.ChildOf p q → Φ q → Φ p := by
      intro q hq
      induction hq with
      | single h => exact fun hp => hs _ _ hp h
      | tail _ h2 ih => exact fun hp => ih (hs _ _ hp h2)
    exact this doc h h0


/-- If every node's id is greater than those of its children, ids are distinct along paths. -/
theorem idsOnPaths_of_rank {P : PrettyDoc} {doc : P.Node} (rank : P.Id → Nat)
    (h : ∀ p q i j, P.Within doc p → P.ChildOf q p → P.id p = .ok i → P.id q = .ok j → rank j < rank i)
    (hid : ∀ p, ∃ i, P.id p = .ok i) : P.IdsOnPaths doc := by
  have key : ∀ q p, P.Below q p → P.Within doc p → P.Within doc q ∧
      ∀ i j, P.id p = .ok i → P.id q = .ok j → rank j < rank i := by
    intro q p hb
    induction hb using Relation.TransGen.head_induction_on with
    | single hb =>
      intro hp
      refine ⟨?_, fun i j => h _ _ i j hp hb⟩
      rcases hp with rfl | hp
      · exact .inr (.single hb)
      · exact .inr (.head hb hp)
    | head h1 h2 ih =>
      intro hp
      obtain ⟨hw, hlt⟩ := ih hp
      refine ⟨?_, ?_⟩
      · rcases hw with rfl | hw
        · exact .inr (.single h1)
        · exact .inr (.head h1 hw)
      · intro i j hi hj
        obtain ⟨k, hk⟩ := hid _
        exact Nat.lt_trans (h _ _ _ _ hw h1 hk hj) (hlt i k hi hk)
  intro p q i hp hq hi hqi
  exact Nat.lt_irrefl _ ((key q p hq hp).2 i i hi hqi)

end PPP
