import Verif.Proofs.Modular
/-
A node's own conditions only matter if its notation looks at them.
-/
namespace PPP
variable {P : PrettyDoc}

/-- There is no check of the node itself. -/
def Notation.NoHere {L C : Type} : Notation L C → Prop
  | .empty | .newline | .endOfLine | .literal _ | .text | .child _ | .focusMark | .left | .right => True
  | .flat a | .indent _ _ a | .style _ a => a.NoHere
  | .concat a b | .choice a b | .fold a b => a.NoHere ∧ b.NoHere
  | .check _ pos a b => pos ≠ .here ∧ a.NoHere ∧ b.NoHere
  | .count a b c => a.NoHere ∧ b.NoHere ∧ c.NoHere

instance Notation.decNoHere {L C : Type} : (n : Notation L C) → Decidable n.NoHere
  | .empty | .newline | .endOfLine | .literal _ | .text | .child _ | .focusMark | .left | .right =>
    .isTrue (by simp [Notation.NoHere])
  | .flat a | .indent _ _ a | .style _ a => by
    have := Notation.decNoHere a
    unfold Notation.NoHere; infer_instance
  | .concat a b | .choice a b | .fold a b => by
    have := Notation.decNoHere a
    have := Notation.decNoHere b
    unfold Notation.NoHere; infer_instance
  | .check _ pos a b => by
    have := Notation.decNoHere a
    have := Notation.decNoHere b
    unfold Notation.NoHere; infer_instance
  | .count a b c => by
    have := Notation.decNoHere a
    have := Notation.decNoHere b
    have := Notation.decNoHere c
    unfold Notation.NoHere; infer_instance

/-- The two nodes have the same contents and styles. -/
structure SameContents (x y : P.Node) : Prop where
  num : P.numChildren x = P.numChildren y
  text : P.unwrapText x = P.unwrapText y
  look : ∀ l, P.lookupStyle x l = P.lookupStyle y l
  kid : ∀ i, P.childAt x i = P.childAt y i

theorem tree_sameContents {x y : P.Node} (h : SameContents x y) (kid : Nat → Ctx P → NTree P)
    (n : Notation P.Label P.Cond) (hn : n.NoHere) :
    ∀ env c, n.tree x kid env c = n.tree y kid env c := by
  induction n with
  | empty | newline | endOfLine | literal | focusMark => intro env c; simp only [Notation.tree]
  | left | right => intro env c; cases env <;> simp only [Notation.tree]
  | text => intro env c; simp only [Notation.tree, h.num, h.text]
  | flat a ih => intro env c; simp only [Notation.tree, ih hn]
  | indent p l a ih =>
    intro env c
    cases l with
    | none => simp only [Notation.tree, ih hn]
    | some l => simp only [Notation.tree, ih hn, h.look]
  | concat a b iha ihb => intro env c; simp only [Notation.tree, iha hn.1, ihb hn.2]
  | choice a b iha ihb => intro env c; simp only [Notation.tree, iha hn.1, ihb hn.2]
  | check cond pos a b iha ihb =>
    intro env c
    have hi : inspected x env pos = inspected y env pos := by
      cases pos with
      | here => exact absurd rfl hn.1
      | child i => simp only [inspected, h.num, h.kid]
      | leftChild => cases env <;> simp only [inspected, h.kid]
      | rightChild => cases env <;> simp only [inspected, h.kid]
    simp only [Notation.tree, hi, iha hn.2.1, ihb hn.2.2]
  | child i => intro env c; simp only [Notation.tree, h.num]
  | style l a ih => intro env c; simp only [Notation.tree, ih hn, h.look]
  | count a b d iha ihb ihd =>
    intro env c
    simp only [Notation.tree, iha hn.1, ihb hn.2.1, ihd hn.2.2, h.num]
  | fold a b iha ihb =>
    intro env c
    simp only [Notation.tree, h.num, iha hn.1, ihb hn.2, h.kid]

theorem docTree_sameContents (law : P.Lawful) {x y : P.Node} (h : SameContents x y) {a s}
    (hx : P.notn x = .ok a) (hy : P.notn y = .ok a) (hsx : P.nodeStyle x = .ok s) (hsy : P.nodeStyle y = .ok s)
    (hn : a.NoHere) (flat indent outer) : docTree law x flat indent outer = docTree law y flat indent outer := by
  rw [docTree_of law hx hsx, docTree_of law hy hsy, tree_sameContents h _ _ hn]
  have : docKid law x = docKid law y := by
    funext i c
    unfold docKid
    rw [h.kid]
  rw [this]

end PPP
