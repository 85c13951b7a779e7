import Verif.Model.FocusTest
import Verif.Spec.FocusTest
import Verif.Proofs.OracleTest
import Verif.Proofs.Reference
import Verif.Proofs.Measure
/-
The helpers of the test suite that check where the focus is.
-/
namespace PPP
variable {P : PrettyDoc}

/-- The strings of the lines of some tokens. -/
def lineStrs (T : List (Tok P)) : List String := (linesOf T).map segsString

theorem lineStrs_ne_nil (T : List (Tok P)) : lineStrs T ≠ [] := by
  simp [lineStrs, linesOf, linesFrom_ne_nil]

theorem lineStrs_append (A B : List (Tok P)) : lineStrs (A ++ B) = Ref.glue (lineStrs A) (lineStrs B) := by
  obtain ⟨ls, cur, h⟩ := Ref.exists_snoc (linesFrom_ne_nil [] A)
  obtain ⟨l, ms, h1, h2⟩ := Ref.linesFrom_strs cur B
  have hA : lineStrs A = ls.map segsString ++ [segsString cur] := by simp [lineStrs, linesOf, h]
  rw [hA]
  unfold lineStrs
  rw [h1, Ref.glue_snoc, linesOf, linesFrom_append h.symm, List.map_append, h2]

theorem join_glue {a b : List String} (ha : a ≠ []) (hb : b ≠ []) :
    "\n".intercalate (Ref.glue a b) = "\n".intercalate a ++ "\n".intercalate b := by
  obtain ⟨y, b, rfl⟩ := List.exists_cons_of_ne_nil hb
  obtain ⟨a, x, rfl⟩ := Ref.exists_snoc ha
  rw [Ref.glue_snoc]
  induction a with
  | nil =>
    cases b with
    | nil => simp
    | cons z b =>
      simp only [List.nil_append]
      rw [String.intercalate_cons_of_ne_nil (by simp), String.intercalate_cons_of_ne_nil (l := z :: b) (by simp)]
      simp [String.append_assoc]
  | cons c a ih =>
    simp only [List.cons_append]
    rw [String.intercalate_cons_of_ne_nil (by simp), ih (by simp),
      String.intercalate_cons_of_ne_nil (l := a ++ [x]) (by simp)]
    simp only [String.append_assoc]

/-- Cutting into lines and joining them again gives the text. -/
theorem join_lineStrs (T : List (Tok P)) : "\n".intercalate (lineStrs T) = toksString T := by
  have key : ∀ (T : List (Tok P)) cur, "\n".intercalate ((linesFrom cur T).map segsString) = segsString cur ++ toksString T := by
    intro T
    induction T with
    | nil => intro cur; simp [linesFrom, toksString]
    | cons t T ih =>
      intro cur
      cases t with
      | text t =>
        simp only [linesFrom, toksString, Tok.chars]
        rw [ih, segsString_append, segsString_singleton, String.append_assoc]
        rfl
      | nl ind =>
        simp only [linesFrom, toksString, Tok.chars, List.map_cons]
        rw [String.intercalate_cons_of_ne_nil (by simp [linesFrom_ne_nil]), ih]
        simp [String.append_assoc]
      | eol => simp [linesFrom, toksString, Tok.chars, ih]
      | mark i => simp [linesFrom, toksString, Tok.chars, ih]
  have := key T []
  simpa [lineStrs, linesOf, segsString] using this

theorem glue_assoc {a b c : List String} (ha : a ≠ []) (hb : b ≠ []) (hc : c ≠ []) :
    Ref.glue (Ref.glue a b) c = Ref.glue a (Ref.glue b c) := by
  obtain ⟨z, c, rfl⟩ := List.exists_cons_of_ne_nil hc
  obtain ⟨a, x, rfl⟩ := Ref.exists_snoc ha
  rcases Ref.exists_snoc hb with ⟨b, y, rfl⟩
  cases b with
  | nil =>
    have e : ∀ y z (c : List String), Ref.glue [y] (z :: c) = (y ++ z) :: c := fun y z c => by simp [Ref.glue]
    rw [List.nil_append, e, Ref.glue_snoc, Ref.glue_snoc, Ref.glue_snoc, String.append_assoc]
  | cons w b =>
    have e : Ref.glue (w :: b ++ [y]) (z :: c) = w :: (b ++ (y ++ z) :: c) := Ref.glue_snoc (w :: b) y z c
    rw [e, Ref.glue_snoc, List.cons_append, Ref.glue_snoc,
      show a ++ (x ++ w) :: (b ++ [y]) = (a ++ (x ++ w) :: b) ++ [y] by simp, Ref.glue_snoc]
    simp

/-! ### Inserting a character -/

theorem insertChars_at (c : Char) : ∀ (a b : List Char),
    insertChars c (a.map Char.utf8Size).sum (a ++ b) = some (a ++ c :: b) := by
  intro a
  induction a with
  | nil => intro b; cases b <;> rfl
  | cons d a ih =>
    intro b
    have hd : 0 < d.utf8Size := Char.utf8Size_pos d
    obtain ⟨n, hn⟩ : ∃ n, (List.map Char.utf8Size (d :: a)).sum = n + 1 := ⟨_, (Nat.succ_pred_eq_of_pos (by simp; omega)).symm⟩
    rw [hn, List.cons_append, insertChars]
    simp only [List.map_cons, List.sum_cons] at hn
    rw [if_pos (by omega), show n + 1 - d.utf8Size = (a.map Char.utf8Size).sum by omega, ih]
    rfl

/-- Inserting a character where one block of lines ends and the next begins. -/
theorem insertInto_glue {E : Type} (c : Char) (a : List String) (x : String) {b : List String} (hb : b ≠ []) :
    (insertInto (Ref.glue (a ++ [x]) b) a.length (byteLen x) c : Exec E _) =
      Exec.ofRes (.ok (Ref.glue (a ++ [x]) (Ref.glue [String.singleton c] b))) := by
  obtain ⟨y, b, rfl⟩ := List.exists_cons_of_ne_nil hb
  have e : Ref.glue [String.singleton c] (y :: b) = (String.singleton c ++ y) :: b := by simp [Ref.glue]
  rw [e, Ref.glue_snoc, Ref.glue_snoc]
  unfold insertInto
  rw [show (a ++ (x ++ y) :: b)[a.length]? = some (x ++ y) by simp]
  dsimp only
  rw [String.toList_append, byteLen, insertChars_at]
  dsimp only
  show Exec.ofRes _ = _
  congr 2
  rw [List.set_append_right _ _ (Nat.le_refl _)]
  simp only [Nat.sub_self, List.set_cons_zero]
  congr 2
  apply String.toList_injective
  simp

/-! ### The parts -/

theorem printAboveAndBelow_parts {doc : P.Node} {w : Nat} {path target} {o : Output P}
    (h : printAll doc w path target none = Exec.ofRes (.ok o)) :
    ∃ a l r b, printAboveAndBelow doc w path target = Exec.ofRes (.ok (a, l, r, b)) ∧
      a ++ [l] = o.beforeFocus.map segsString ∧ r :: b = o.afterFocus.map segsString := by
  obtain ⟨r, ups, downs, h1, h2, h3, rfl⟩ := printAll_inv h
  refine ⟨(ups.map Line.toString).reverse, r.focused.toLeftString, r.focused.toRightString,
    downs.map Line.toString, ?_, ?_, ?_⟩
  · unfold printAboveAndBelow
    rw [h1, unwrapping_ok, Exec.ofRes_ok_bind, h2, unwrapping_ok, Exec.ofRes_ok_bind, h3, unwrapping_ok,
      Exec.ofRes_ok_bind]
    rfl
  · simp [Output.beforeFocus, FocusedLine.toLeftString, Line.toString, Function.comp_def]
  · simp [Output.afterFocus, FocusedLine.toRightString, Line.toString, Function.comp_def]

theorem takeFirst_of_drain {next : Printer P → Exec P.Err (Option (Line P) × Printer P)} (n : Nat) :
    ∀ {p lines}, drain next p = Exec.ofRes (.ok lines) → takeFirst next n p = Exec.ofRes (.ok (lines.take n)) := by
  induction n with
  | zero => intro p lines _; rfl
  | succ n ih =>
    intro p lines h
    rcases drain_ok_cases h with ⟨p', h1, rfl⟩ | ⟨line, p', lines', h1, rfl, h2⟩
    · rw [takeFirst, h1, Exec.ofRes_ok_bind]; rfl
    · rw [takeFirst, h1, Exec.ofRes_ok_bind]
      dsimp only
      rw [ih h2, Exec.ofRes_ok_bind]
      rfl

theorem take_drop_around {α : Type} (u : List α) (f : α) (d : List α) (m : Nat) :
    ((u.reverse ++ f :: d).take (u.length + (m + 1))).drop (u.length - (m + 1)) =
      (u.take (m + 1)).reverse ++ f :: d.take m := by
  rw [List.take_append, List.take_of_length_le (by simp), List.length_reverse,
    show u.length + (m + 1) - u.length = m + 1 by omega, List.take_succ_cons,
    List.drop_append_of_le_length (by simp), List.reverse_take]

theorem printRegion_of {doc : P.Node} {w : Nat} {path target} {o : Output P}
    (h : printAll doc w path target none = Exec.ofRes (.ok o)) {rows : Nat} (hr : 2 ≤ rows) :
    printRegion doc w path target rows = Exec.ofRes (.ok
      (((o.lines.map segsString).take (o.above.length + rows / 2)).drop (o.above.length - rows / 2))) := by
  obtain ⟨r, ups, downs, h1, h2, h3, rfl⟩ := printAll_inv h
  unfold printRegion
  rw [h1, unwrapping_ok, Exec.ofRes_ok_bind, takeFirst_of_drain _ h2, unwrapping_ok, Exec.ofRes_ok_bind]
  dsimp only
  rw [if_neg (by omega), takeFirst_of_drain _ h3, unwrapping_ok, Exec.ofRes_ok_bind]
  show Exec.ofRes _ = _
  congr 2
  generalize hn : rows / 2 = n
  obtain ⟨m, rfl⟩ : ∃ m, n = m + 1 := ⟨n - 1, by omega⟩
  have e1 : Output.lines (⟨ups.reverse, r.focused, downs⟩ : Output P) =
      (ups.map (·.segments)).reverse ++ (r.focused.leftSegments ++ r.focused.rightSegments) :: downs.map (·.segments) := by
    simp [Output.lines]
  rw [e1]
  simp only [List.length_reverse, List.map_append, List.map_cons, List.map_reverse, List.map_map]
  have e2 := take_drop_around (ups.map (segsString ∘ fun x => x.segments))
    (segsString (r.focused.leftSegments ++ r.focused.rightSegments)) (downs.map (segsString ∘ fun x => x.segments)) m
  rw [List.length_map] at e2
  have e3 : (Line.toString : Line P → String) = segsString ∘ fun x => x.segments := rfl
  rw [e2, Nat.add_sub_cancel, e3, List.map_take, List.map_take]
  simp [FocusedLine.toString]

end PPP
