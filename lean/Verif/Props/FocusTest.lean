import Verif.Proofs.FocusTest
import Verif.Props.Focus
import Verif.Props.OracleTest
import Verif.Props.Example
/-
**C66** The checks of the test suite for where the focus is: `assert_pp_seek`, `assert_pp_focus` and `assert_pp_region`
of /repo/tests/standard/pretty_testing.rs.
-/
namespace PPP
variable {P : PrettyDoc}

theorem compareLines_iff {E : Type} (a b : String) : (compareLines a b : Exec E Unit) = Exec.ofRes (.ok ()) ↔ a = b := by
  constructor
  · intro h; exact (compareLines_inv h).symm
  · rintro rfl; exact compareLines_self _

/-- Printing at a path, when that works, means that there is a layout and the node is displayed in it. -/
theorem located_of_printAll (law : P.Lawful) {doc : P.Node} (hids : P.IdsOnPaths doc) {w path target o}
    (hf : FocusOk P doc target) (h : printAll doc w path target none = Exec.ofRes (.ok o)) :
    ∃ id L l, docLayout law doc w none = .ok (id, L) ∧ L.locate id path = .ok l := by
  obtain ⟨id, L, hL⟩ := layout_of_printAll law hf h
  cases hl : L.locate id path with
  | ok l => exact ⟨id, L, l, hL, hl⟩
  | error i =>
    obtain ⟨r, _, _, h1, _⟩ := printAll_inv h
    rw [(C07_invalid_path_iff law hids hL path hf i).2 hl] at h1
    exact absurd (Exec.ofRes_inj h1) (by simp)

/-- **C66** `assert_pp_seek(doc, width, path, expected)` passes if and only if the document has a layout that displays
    the node at `path`, and the expected lines are the text of the layout with a `(` just before and a `)` just after
    what the node displays. -/
theorem C66_seek (law : P.Lawful) {doc : P.Node} (hids : P.IdsOnPaths doc) (w : Nat) (path : List Nat)
    (expected : List String) :
    assertPpSeek doc w path expected = Exec.ofRes (.ok ()) ↔
      ∃ id L l, docLayout law doc w none = .ok (id, L) ∧ L.locate id path = .ok l ∧
        "\n".intercalate expected =
          toksString l.before ++ "(" ++ toksString l.node.toks ++ ")" ++ toksString l.after := by
  have key : ∀ {id L l}, docLayout law doc w none = .ok (id, L) → L.locate id path = .ok l →
      assertPpSeek doc w path expected = compareLines ("\n".intercalate expected)
        (toksString l.before ++ "(" ++ toksString l.node.toks ++ ")" ++ toksString l.after) := by
    intro id L l hL hl
    obtain ⟨o1, p1, b1, f1⟩ : ∃ o : Output P, printAll doc w path .start none = Exec.ofRes (.ok o) ∧
        o.beforeFocus = linesOf (l.before ++ []) ∧ o.afterFocus = linesOf (l.node.toks ++ l.after) :=
      focus_split law hids hL (target := .start) (.inl (by simp)) hl
    obtain ⟨o2, p2, b2, f2⟩ : ∃ o : Output P, printAll doc w path .end none = Exec.ofRes (.ok o) ∧
        o.beforeFocus = linesOf (l.before ++ l.node.toks) ∧ o.afterFocus = linesOf l.after :=
      focus_split law hids hL (target := .end) (.inl (by simp)) hl
    obtain ⟨a1, l1, r1, d1, g1, x1, y1⟩ := printAboveAndBelow_parts p1
    obtain ⟨a2, l2, r2, d2, g2, x2, y2⟩ := printAboveAndBelow_parts p2
    rw [b1, List.append_nil] at x1
    rw [f1] at y1
    rw [b2] at x2
    rw [f2] at y2
    change _ = lineStrs _ at x1 y1 x2 y2
    have e1 : concatLines a1 l1 r1 d1 = Ref.glue (lineStrs l.before) (lineStrs (l.node.toks ++ l.after)) := by
      rw [← x1, ← y1, Ref.glue_snoc]; simp [concatLines]
    have e2 : concatLines a2 l2 r2 d2 = Ref.glue (lineStrs (l.before ++ l.node.toks)) (lineStrs l.after) := by
      rw [← x2, ← y2, Ref.glue_snoc]; simp [concatLines]
    have nb := lineStrs_ne_nil l.before
    have nn := lineStrs_ne_nil l.node.toks
    have na := lineStrs_ne_nil l.after
    have e12 : concatLines a1 l1 r1 d1 = concatLines a2 l2 r2 d2 := by
      rw [e1, e2, lineStrs_append, lineStrs_append, glue_assoc nb nn na]
    have nc : ∀ c, Ref.glue [String.singleton c] (lineStrs l.after) ≠ [] := fun c => Ref.glue_ne_nil (by simp) na
    have ng : Ref.glue (lineStrs l.node.toks) (Ref.glue [String.singleton ')'] (lineStrs l.after)) ≠ [] :=
      Ref.glue_ne_nil nn (nc _)
    unfold assertPpSeek
    rw [g1, Exec.ofRes_ok_bind]
    dsimp only
    rw [g2, Exec.ofRes_ok_bind]
    dsimp only
    rw [e12, compareLines_self, Exec.ofRes_ok_bind, e2, ← x2, insertInto_glue _ _ _ na, Exec.ofRes_ok_bind, x2,
      lineStrs_append, glue_assoc nb nn (nc _), ← x1, insertInto_glue _ _ _ ng, Exec.ofRes_ok_bind, x1]
    rw [join_glue nb (Ref.glue_ne_nil (by simp) ng), join_glue (by simp) ng, join_glue nn (nc _), join_glue (by simp) na,
      join_lineStrs, join_lineStrs, join_lineStrs]
    simp only [String.append_assoc]
    rfl
  constructor
  · intro h
    obtain ⟨⟨a1, l1, r1, d1⟩, h1, _⟩ := bind_ok_inv (show (printAboveAndBelow doc w path .start >>= _) = _ from h)
    obtain ⟨o, p, _⟩ := printAboveAndBelow_inv h1
    obtain ⟨id, L, l, hL, hl⟩ := located_of_printAll law hids (focusOk_start doc) p
    rw [key hL hl, compareLines_iff] at h
    exact ⟨id, L, l, hL, hl, h⟩
  · rintro ⟨id, L, l, hL, hl, h⟩
    rw [key hL hl, compareLines_iff]
    exact h

/-- **C66** `assert_pp_focus(doc, width, path, target, expected)` passes if and only if the document has a layout that
    displays the node at `path` and that has the focus target, and the expected lines are the text of the layout with a
    `|` at the focus. -/
theorem C66_focus (law : P.Lawful) {doc : P.Node} (hids : P.IdsOnPaths doc) (w : Nat) (path : List Nat)
    {target : FocusTarget} (hf : FocusOk P doc target) (expected : List String) :
    assertPpFocus doc w path target expected = Exec.ofRes (.ok ()) ↔
      ∃ id L l B A, docLayout law doc w none = .ok (id, L) ∧ L.locate id path = .ok l ∧
        focusToks target l.id l.node.toks l.after = .ok (B, A) ∧
        "\n".intercalate expected = toksString l.before ++ toksString B ++ "|" ++ toksString A := by
  have key : ∀ {id L l B A}, docLayout law doc w none = .ok (id, L) → L.locate id path = .ok l →
      focusToks target l.id l.node.toks l.after = .ok (B, A) →
      assertPpFocus doc w path target expected = compareLines ("\n".intercalate expected)
        (toksString l.before ++ toksString B ++ "|" ++ toksString A) := by
    intro id L l B A hL hl hB
    have hs := focus_split law hids hL hf hl
    rw [hB] at hs
    obtain ⟨o, p, b, f⟩ := hs
    obtain ⟨a, x, y, d, g, e1, e2⟩ := printAboveAndBelow_parts p
    rw [b] at e1
    rw [f] at e2
    change _ = lineStrs _ at e1 e2
    unfold assertPpFocus
    rw [g, Exec.ofRes_ok_bind]
    dsimp only
    have e3 : concatLines a (x ++ "|") y d = Ref.glue (lineStrs (l.before ++ B)) (Ref.glue ["|"] (lineStrs A)) := by
      have e4 : Ref.glue ["|"] (y :: d) = ("|" ++ y) :: d := by simp [Ref.glue]
      rw [← e1, ← e2, e4, Ref.glue_snoc]; simp [concatLines, String.append_assoc]
    rw [e3, join_glue (lineStrs_ne_nil _) (Ref.glue_ne_nil (by simp) (lineStrs_ne_nil _)),
      join_glue (by simp) (lineStrs_ne_nil _), lineStrs_append, join_glue (lineStrs_ne_nil _) (lineStrs_ne_nil _),
      join_lineStrs, join_lineStrs, join_lineStrs]
    simp only [String.append_assoc, String.intercalate_singleton]
  constructor
  · intro h
    obtain ⟨⟨a1, l1, r1, d1⟩, h1, _⟩ := bind_ok_inv (show (printAboveAndBelow doc w path target >>= _) = _ from h)
    obtain ⟨o, p, _⟩ := printAboveAndBelow_inv h1
    obtain ⟨id, L, l, hL, hl⟩ := located_of_printAll law hids hf p
    cases hB : focusToks target l.id l.node.toks l.after with
    | error e =>
      have hs := focus_split law hids hL hf hl
      rw [hB] at hs
      obtain ⟨r, _, _, h2, _⟩ := printAll_inv p
      rw [hs] at h2
      exact absurd (Exec.ofRes_inj h2) (by simp)
    | ok BA =>
      rw [key hL hl hB, compareLines_iff] at h
      exact ⟨id, L, l, _, _, hL, hl, hB, h⟩
  · rintro ⟨id, L, l, B, A, hL, hl, hB, h⟩
    rw [key hL hl hB, compareLines_iff]
    exact h

/-- **C66** `assert_pp_region(doc, width, path, target, rows, expected)`, for a displayed node that has the focus
    target: it passes if and only if the expected lines are the lines of the layout with the numbers from
    `row - rows / 2` to `row + rows / 2 - 1`, where `row` is the number of the focused line. -/
theorem C66_region (law : P.Lawful) {doc : P.Node} (hids : P.IdsOnPaths doc) {w : Nat} {path : List Nat}
    {target : FocusTarget} (hf : FocusOk P doc target) {id L l B A} (hL : docLayout law doc w none = .ok (id, L))
    (hl : L.locate id path = .ok l) (hB : focusToks target l.id l.node.toks l.after = .ok (B, A)) {rows : Nat}
    (hr : 2 ≤ rows) {row : Nat} (hrow : (linesOf (l.before ++ B)).length = row + 1) (expected : List String) :
    assertPpRegion doc w path target rows expected = Exec.ofRes (.ok ()) ↔
      "\n".intercalate expected = "\n".intercalate
        ((((linesOf L.toks).map segsString).take (row + rows / 2)).drop (row - rows / 2)) := by
  have hs := focus_split law hids hL hf hl
  rw [hB] at hs
  obtain ⟨o, p, b, f⟩ := hs
  obtain ⟨id', L', hL', e, _⟩ := C02_focus_independent law hf p
  rw [hL] at hL'
  cases hL'
  have e1 : o.lines.map segsString = (linesOf L.toks).map segsString := by
    have h2 : ∀ l : List (List (Segment P)), l.map segsString = (l.map styledChars).map fun cs => String.ofList (cs.map (·.1)) := by
      intro l; simp [segsString_eq, Function.comp_def]
    rw [h2, h2, e]
  have e2 : o.above.length = row := by
    rw [← b] at hrow
    simpa [Output.beforeFocus] using hrow
  unfold assertPpRegion
  rw [printRegion_of p hr, Exec.ofRes_ok_bind, e1, e2, compareLines_iff]

/-- **C66** The number of rows has to be at least 2: `assert_pp_region` never passes with fewer, because
    `print_region` computes `rows / 2 - 1`. -/
theorem C66_region_rows {doc : P.Node} {w : Nat} {path : List Nat} {target : FocusTarget} {rows : Nat} (hr : rows < 2)
    (expected : List String) : assertPpRegion doc w path target rows expected ≠ Exec.ofRes (.ok ()) := by
  intro h
  obtain ⟨ls, h1, _⟩ := bind_ok_inv (show (printRegion doc w path target rows >>= _) = _ from h)
  unfold printRegion at h1
  obtain ⟨r, _, h1⟩ := bind_ok_inv h1
  obtain ⟨ups, _, h1⟩ := bind_ok_inv h1
  rw [if_pos (by omega)] at h1
  exact absurd (Exec.ofRes_inj (show Exec.ofRes (.error .panic) = _ from h1)) (by simp)

/-! ### Examples -/

namespace Ex

/-- `[aa,` / `bbb]`, at the second child. -/
example : assertPpSeek (P := exP) exDoc 8 [1] ["[aa,", "(bbb)]"] = Exec.ofRes (.ok ()) :=
  (C66_seek exLaw exIds 8 [1] _).2 ⟨_, _, _, exLayout_narrow, rfl, rfl⟩

/-- Both marks are needed. -/
example : assertPpSeek (P := exP) exDoc 8 [1] ["[aa,", "(bbb])"] ≠ Exec.ofRes (.ok ()) := by
  intro h
  obtain ⟨id, L, l, hL, hl, e⟩ := (C66_seek exLaw exIds 8 [1] _).1 h
  rw [exLayout_narrow] at hL
  cases hL
  cases hl
  exact absurd e (by decide)

/-- `aa|` / `bbb`. -/
example : assertPpFocus (P := exP) exDoc 8 [0] (.text 1) ["[a|a,", "bbb]"] = Exec.ofRes (.ok ()) :=
  (C66_focus exLaw exIds 8 [0] (.inr exAdditive) _).2 ⟨_, _, _, _, _, exLayout_narrow, rfl, rfl, rfl⟩

/-- At the focus mark. -/
example : assertPpFocus (P := exP) exDoc 8 [] .mark ["[aa,", "bbb|]"] = Exec.ofRes (.ok ()) :=
  (C66_focus exLaw exIds 8 [] (.inl (by simp)) _).2 ⟨_, _, _, _, _, exLayout_narrow, rfl, rfl, rfl⟩

/-- Two rows around the end of the document: the line above it and its own line. -/
example : assertPpRegion (P := exP) exDoc 8 [1] .end 2 ["[aa,", "bbb]"] = Exec.ofRes (.ok ()) :=
  (C66_region exLaw exIds (.inl (by simp)) exLayout_narrow rfl rfl (by omega) (row := 1) rfl _).2 rfl

end Ex

end PPP
