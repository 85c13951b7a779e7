import Verif.Proofs.Modular
/-
C48: printing is modular: a child on lines of its own is printed as it would be on its own.
-/
namespace PPP
variable {P : PrettyDoc}

/-- C48.  A document that only puts rows below each other, whose indentations leave room on the line:
    its lines are exactly those of its rows, where each child is printed on its own (at the width the
    indentation leaves) and indented; and it prints whenever all of these children print on their own
    and no line is wider than 65535 columns. -/
theorem C48_rows (law : P.Lawful) {doc : P.Node} {r : Rows P.Label P.Cond} {id : P.Id} {s : P.Style} {w : Nat}
    {style : Option P.Style} {ls : List (List (Segment P))}
    (hn : P.notn doc = .ok r.notn) (hid : P.id doc = .ok id) (hs : P.nodeStyle doc = .ok s)
    (hr : r.Narrow P.strWidth w) :
    printLines doc w style = Exec.ofRes (.ok ls) ↔
      r.Lines doc w (enterStyle style s) [] ls ∧ ∀ l ∈ ls, segsWidth l ≤ maxWidth := by
  rw [printLines_iff law, ← rows_layout law (w := w) (id := id) r (I := []) (k := []) (Nat.zero_le _)
    (Nat.zero_le _) hr (fun _ _ => rfl)]
  have hroot : rootTree law doc style =
      .ok (id, r.notn.tree doc (docKid law doc) none ⟨false, [], enterStyle style s⟩) := by
    unfold rootTree
    rw [docTree_of law hn hs, hid]
    rfl
  constructor
  · rintro ⟨id', L, h, rfl⟩
    obtain ⟨t, h1, h2⟩ := docLayout_ok law h
    rw [hroot] at h1
    simp only [Except.ok.injEq, Prod.mk.injEq] at h1
    obtain ⟨rfl, rfl⟩ := h1
    simp only [NTree.layoutDoc, Except.bind_eq] at h2
    split at h2
    · rename_i r hl
      obtain ⟨st, L'⟩ := r
      simp only [Except.ok.injEq] at h2
      subst h2
      exact ⟨st, L', hl, rfl⟩
    · simp at h2
  · rintro ⟨st, L, h, rfl⟩
    refine ⟨id, L, ?_, rfl⟩
    unfold docLayout
    have h : NTree.layout w id _ [] ⟨0, false⟩ = _ := h
    simp only [hroot, Except.bind_eq, NTree.layoutDoc, h]

/-- The text of a document is its lines, joined by newlines. -/
theorem C48_to_string (law : P.Lawful) {doc : P.Node} {w : Nat} {ls : List (List (Segment P))}
    (h : printLines doc w none = Exec.ofRes (.ok ls)) :
    prettyPrintToString doc w = Exec.ofRes (.ok (linesString ls)) := by
  obtain ⟨id, L, h1, rfl⟩ := (printLines_iff law).1 h
  exact (C01_to_string_iff law doc w _).2 ⟨id, L, h1, rfl⟩

/-- No line is wider than 65535 columns. -/
theorem C48_line_width (law : P.Lawful) {c : P.Node} {w : Nat} {style ls}
    (h : printLines c w style = Exec.ofRes (.ok ls)) : ∀ l ∈ ls, segsWidth l ≤ maxWidth := by
  intro l hl
  obtain ⟨id, L, h', rfl⟩ := (printLines_iff law).1 h
  obtain ⟨t, h1, h2⟩ := docLayout_ok law h'
  simp only [NTree.layoutDoc, Except.bind_eq] at h2
  split at h2
  · rename_i r hl'
    simp only [Except.ok.injEq] at h2
    subst h2
    exact (layout_lineWidth t hl' (cur := []) rfl (Nat.zero_le _)).1 l hl
  · simp at h2

/-- C48 for `child(0) ^ child(1)`: the lines of the one, then the lines of the other. -/
theorem C48_two_children (law : P.Lawful) {doc c d : P.Node} {id : P.Id} {s : P.Style} {w : Nat}
    {style : Option P.Style} {ls ls' : List (List (Segment P))}
    (hn : P.notn doc = .ok ((.child 0 : Notation P.Label P.Cond) ^^^ (.child 1 : Notation P.Label P.Cond)))
    (hid : P.id doc = .ok id) (hs : P.nodeStyle doc = .ok s) (hcd : P.HasChildren doc [c, d])
    (hc : printLines c w (some (enterStyle style s)) = Exec.ofRes (.ok ls))
    (hd : printLines d w (some (enterStyle style s)) = Exec.ofRes (.ok ls')) :
    printLines doc w style = Exec.ofRes (.ok (ls ++ ls')) := by
  refine (C48_rows law (r := .above (.child 0) (.child 1)) hn hid hs ⟨trivial, trivial⟩).2 ⟨?_, ?_⟩
  · have h1 := Rows.Lines.child (w := w) (I := []) hcd.1 (i := 0) (j := 0) rfl (hcd.2 0 c rfl) hc
    have h2 := Rows.Lines.child (w := w) (I := []) hcd.1 (i := 1) (j := 1) rfl (hcd.2 1 d rfl) hd
    have h := Rows.Lines.above h1 h2
    rw [show (List.map (fun l : List (Segment P) => [] ++ l) ls) = ls from List.map_id _,
      show (List.map (fun l : List (Segment P) => [] ++ l) ls') = ls' from List.map_id _] at h
    exact h
  · intro l hl
    rcases List.mem_append.1 hl with hl | hl
    · exact C48_line_width law hc l hl
    · exact C48_line_width law hd l hl

/-- C48 is not vacuous: the rows of a printable document are determined. -/
theorem C48_rows_unique {doc : P.Node} {r : Rows P.Label P.Cond} {s : P.Style} {w : Nat} {I ls ls'}
    (h : r.Lines doc w s I ls) : r.Lines doc w s I ls' → ls = ls' := by
  induction h generalizing ls' with
  | line => intro h; cases h; rfl
  | blank => intro h; cases h; rfl
  | mark => intro h; cases h; rfl
  | text _ h2 =>
    intro h
    cases h with
    | text _ g2 => rw [h2] at g2; simp only [Except.ok.injEq] at g2; rw [g2]
  | check h1 _ ih =>
    intro h
    cases h with
    | check g1 g2 =>
      rw [h1] at g1; simp only [Except.ok.injEq] at g1; subst g1
      exact ih g2
  | count h1 _ ih =>
    intro h
    cases h with
    | count g1 g2 =>
      rw [h1] at g1; simp only [Except.ok.injEq, Option.some.injEq] at g1; subst g1
      exact ih g2
  | child h1 h2 h3 h4 =>
    intro h
    cases h with
    | child g1 g2 g3 g4 =>
      rw [h1] at g1; simp only [Except.ok.injEq, Option.some.injEq] at g1; subst g1
      rw [h2] at g2; simp only [Option.some.injEq] at g2; subst g2
      rw [h3] at g3; simp only [Except.ok.injEq] at g3; subst g3
      rw [h4] at g4
      have := Exec.ofRes_inj g4
      simp only [Except.ok.injEq] at this
      rw [this]
  | childless h1 =>
    intro h
    cases h with
    | childless => rfl
    | children g1 g2 =>
      have := g1.1
      rw [h1.1] at this
      simp only [Except.ok.injEq, Option.some.injEq] at this
      exact absurd (List.length_eq_zero_iff.1 this.symm) g2
  | children h1 h2 h3 =>
    intro h
    cases h with
    | childless g1 =>
      have := g1.1
      rw [h1.1] at this
      simp only [Except.ok.injEq, Option.some.injEq] at this
      exact absurd (List.length_eq_zero_iff.1 this) h2
    | children g1 g2 g3 =>
      rename_i cs s I lss cs' lss'
      have hcs : cs = cs' := by
        have hlen := h1.1
        rw [g1.1] at hlen
        simp only [Except.ok.injEq, Option.some.injEq] at hlen
        refine List.ext_getElem hlen.symm fun i hi hi' => ?_
        have a := h1.2 i _ (List.getElem?_eq_getElem hi)
        have b := g1.2 i _ (List.getElem?_eq_getElem hi')
        rw [a] at b
        simpa using b
      subst hcs
      have : lss = lss' := by
        clear h1 h2 g1 g2
        induction h3 generalizing lss' with
        | nil => cases g3; rfl
        | cons h _ ih =>
          cases g3 with
          | cons g g3 =>
            rw [h] at g
            have := Exec.ofRes_inj g
            simp only [Except.ok.injEq] at this
            rw [this, ih g3]
      rw [this]
  | above _ _ ih1 ih2 =>
    intro h
    cases h with
    | above g1 g2 => rw [ih1 g1, ih2 g2]
  | hang _ _ ih1 ih2 =>
    intro h
    cases h with
    | hang g1 g2 => rw [ih1 g1, ih2 g2]
  | styled h1 _ ih =>
    intro h
    cases h with
    | styled g1 g2 =>
      rw [h1] at g1; simp only [Except.ok.injEq] at g1; subst g1
      exact ih g2

namespace Ex

/-- `lit("{") + indent("  ", nl + child(0)) ^ lit("}")`. -/
def blockRows : Rows String TreeCondition := .above (.hang (.line "{") "  " .children) (.line "}")

def blockN : TreeNotation := ⟨blockRows.notn, by decide⟩

/-- A block with the list `[aa, bbb]` in it. -/
def blockDoc : Tree Unit := Tree.newBranch 4 blockN [exDoc]

/-- C48 on it: at width 10, the list is broken as it would be on its own at width 8. -/
example : prettyPrintToString (P := exP) blockDoc 10 = Exec.ofRes (.ok "{\n  [aa,\n  bbb]\n}") := by
  have hkid : printLines (P := exP) exDoc 8 (some ()) = Exec.ofRes (.ok (linesOf exNarrow.toks)) := by
    rw [printLines_iff exLaw]
    refine ⟨nid 3, exNarrow, ?_, rfl⟩
    have : docLayout exLaw exDoc 8 (some ()) = docLayout exLaw exDoc 8 none := by
      unfold docLayout rootTree
      rw [docTree_of exLaw (a := listN.1) (s := ()) rfl rfl, docTree_of exLaw (a := listN.1) (s := ()) rfl rfl]
    rw [this]
    exact exLayout_narrow
  rw [← show 10 - segsWidth ([] ++ [(⟨"  ", exP.strWidth "  ", ()⟩ : Segment exP)]) = 8 from rfl] at hkid
  have hcs : exP.HasChildren blockDoc [exDoc] := by
    refine ⟨rfl, fun i c hi => ?_⟩
    match i, hi with
    | 0, hi => cases hi; rfl
    | i + 1, hi => cases hi
  have hkids : Rows.Lines (P := exP) blockDoc 10 .children () ([] ++ [⟨"  ", exP.strWidth "  ", ()⟩]) _ :=
    Rows.Lines.children hcs (by simp) (List.Forall₂.cons hkid List.Forall₂.nil)
  have hrows : Rows.Lines (P := exP) blockDoc 10 blockRows () [] _ :=
    Rows.Lines.above (Rows.Lines.hang Rows.Lines.line hkids) Rows.Lines.line
  have h := (C48_rows exLaw (style := none) (r := blockRows) (id := nid 4) (s := ()) rfl rfl rfl
    ⟨⟨trivial, by decide, trivial⟩, trivial⟩).2 ⟨hrows, by decide⟩
  exact C48_to_string exLaw h

end Ex
end PPP
