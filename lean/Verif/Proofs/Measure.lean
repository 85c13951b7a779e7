import Verif.Model.Geometry
import Verif.Props.PaneText
import Verif.Props.Morph
import Verif.Proofs.JsonDoc
/-
Strings are measured alike by the printer and by the window.
-/
namespace PPP
variable {P : PrettyDoc} {cw : Char → Option Nat}

theorem strCols_append (a b : String) : strCols cw (a ++ b) = strCols cw a + strCols cw b := by
  unfold strCols
  rw [String.toList_append, List.map_append, List.sum_append]

theorem charCols_proper {c : Char} (h : cw c = some 1 ∨ cw c = some 2) :
    charCols (isCharFullWidth cw) c = (cw c).getD 0 := by
  unfold charCols isCharFullWidth
  rcases h with h | h <;> rw [h] <;> rfl

theorem charsCols_append {S : Type} (isFull : Char → Bool) (a b : List (Char × S)) :
    charsCols isFull (a ++ b) = charsCols isFull a + charsCols isFull b := by
  unfold charsCols
  rw [List.map_append, List.sum_append]

theorem charsCols_string {S : Type} (s : String) (style : S) (h : ∀ c ∈ s.toList, cw c = some 1 ∨ cw c = some 2) :
    charsCols (isCharFullWidth cw) (s.toList.map fun c => (c, style)) = strCols cw s := by
  unfold charsCols strCols
  rw [List.map_map]
  exact congrArg List.sum (List.map_congr_left fun c hc => charCols_proper (h c hc))

/-- A line of proper characters takes as many columns in a window as the printer says. -/
theorem charsCols_line {l : List (Segment P)} (hc : ∀ c ∈ styledChars l, cw c.1 = some 1 ∨ cw c.1 = some 2)
    (hs : ∀ s ∈ l, s.width = strCols cw s.str) :
    charsCols (isCharFullWidth cw) (styledChars l) = segsWidth l := by
  induction l with
  | nil => rfl
  | cons s l ih =>
    have e : styledChars (s :: l) = (s.str.toList.map fun c => (c, s.style)) ++ styledChars l := rfl
    rw [e, charsCols_append, ih (fun c h => hc c (by rw [e]; exact List.mem_append_right _ h))
      (fun s h => hs s (List.mem_cons_of_mem _ h)), charsCols_string, ← hs s List.mem_cons_self]
    · simp [segsWidth]
    · intro c h
      exact hc (c, s.style) (by rw [e]; exact List.mem_append_left _ (List.mem_map_of_mem h))

/-- Printing to a string, in a style. -/
def toStringIn (doc : P.Node) (w : Nat) (style : Option P.Style) : Exec P.Err String := do
  let r ← prettyPrint doc w [] .start style
  toStringLoop r.focused.toString r.down

theorem toStringIn_rn {Q : PrettyDoc} {m : Renaming P Q} (h : m.Respects) (doc : P.Node) (w : Nat)
    (style : Option P.Style) :
    Rn m (fun s : String => s) (toStringIn doc w style) (toStringIn (P := Q) (m.node doc) w (style.map m.style)) := by
  refine .bind (prettyPrint_rn h doc w [] .start (.inl ⟨rfl, nofun⟩) style) fun r => ?_
  have : (r.focused.rename m).toString = r.focused.toString := by
    simp [FocusedLine.toString, FocusedLine.rename, segsString, List.foldl_map, Segment.rename]
  simp only [Printed.rename, this]
  exact toStringLoop_rn h _ _

/-- The style in which a document is printed does not matter for its text. -/
theorem toString_of_styled (law : P.Lawful) {doc : P.Node} {w : Nat} {style : Option P.Style} {s : String}
    (h : toStringIn doc w style = Exec.ofRes (.ok s)) : prettyPrintToString doc w = Exec.ofRes (.ok s) := by
  have hr := forget_respected (S := ownStyles P) ⟨fun _ => rfl, fun _ _ => rfl⟩
  have h1 := (toStringIn_rn hr.toRespects doc w style).res h
  obtain ⟨r, h2, _⟩ := C13_to_string_returns law doc w
  have h3 := (toStringIn_rn hr.toRespects doc w none).res h2
  have e : ∀ a : Option Unit, toStringIn (P := P.restyled (noStyles P)) doc w a =
      toStringIn (P := P.restyled (noStyles P)) doc w none := by
    have h : ∀ a : Option Unit, DCN.withOptionalStyle (P := P.restyled (noStyles P)) doc a =
        DCN.withOptionalStyle (P := P.restyled (noStyles P)) doc none := by
      intro a; cases a <;> rfl
    intro a
    unfold toStringIn prettyPrint Printer.seek
    rw [h a]
  have h1 := h1.symm.trans ((e _).trans ((e _).symm.trans h3))
  have h1 := Exec.ofRes_inj h1
  match r, h1, h2 with
  | .ok s', h1, h2 =>
    have : s = s' := by simpa [Res.rename] using h1
    rw [this]; exact h2
  | .error f, h1, _ => simp [Res.rename] at h1

theorem linesString_chars {a b : List (List (Segment P))} (h : a.map styledChars = b.map styledChars) :
    linesString a = linesString b := by
  have e : ∀ l : List (List (Segment P)), l.map segsString = (l.map styledChars).map fun cs => String.ofList (cs.map (·.1)) := by
    intro l
    rw [List.map_map]
    refine List.map_congr_left fun x _ => ?_
    apply String.toList_inj.1
    rw [segsString_toList]
    simp [styledChars, List.map_flatMap, Function.comp_def]
  unfold linesString
  rw [e, e, h]

/-- The lines of a document, printed in any style and with any focus, are those of `pretty_print_to_string`. -/
theorem toString_of_printAll (law : P.Lawful) {doc : P.Node} {w path target style out}
    (hfocus : FocusOk P doc target) (h : printAll doc w path target style = Exec.ofRes (.ok out)) :
    prettyPrintToString doc w = Exec.ofRes (.ok (linesString out.lines)) := by
  obtain ⟨o0, h0, ha, hl, hc, _⟩ := C02_same_as_from_start law hfocus h
  rw [linesString_chars hc]
  obtain ⟨r, ups, downs, h1, _, h3, rfl⟩ := printAll_inv h0
  refine toString_of_styled law (style := style) ?_
  unfold toStringIn
  rw [h1, Exec.ofRes_ok_bind, toStringLoop_of_drain _ h3]
  simp only at ha hl
  unfold linesString Output.lines
  simp only [ha, hl, List.map_nil, List.nil_append, List.map_cons, List.map_append, List.map_map, List.singleton_append]
  simp only [FocusedLine.toString, hl, List.nil_append]
  rfl

theorem lineAt_blank {S : Type} {lines : List (List (Char × S))} {k : Int} (h : k < 0 ∨ lines.length ≤ k) :
    lineAt lines k = [] := by
  unfold lineAt
  split
  · rw [List.getElem?_eq_none (by omega)]; rfl
  · rfl

theorem lineAt_nat {S : Type} {lines : List (List (Char × S))} {k : Nat} (h : k < lines.length) :
    lineAt lines (k : Int) = lines[k] := by
  unfold lineAt
  rw [if_pos (by omega), Int.toNat_natCast, List.getElem?_eq_getElem h]
  rfl

theorem flatMap_const {α β : Type} (l : List α) (x : List β) : l.flatMap (fun _ => x) = (List.replicate l.length x).flatten := by
  induction l with
  | nil => rfl
  | cons a l ih => simp [List.replicate_succ, ih]

/-- If all lines fit into the rows, then there are blank rows, all the lines, and blank rows. -/
theorem rows_all {S β : Type} (f : List (Char × S) → List β) (lines : List (List (Char × S))) (a row height : Nat)
    (h1 : a ≤ row) (h2 : row - a + lines.length ≤ height) :
    (List.range height).flatMap (fun (i : Nat) => f (lineAt lines ((a : Int) + i - row))) =
      (List.replicate (row - a) (f [])).flatten ++ lines.flatMap f ++
        (List.replicate (height - (row - a + lines.length)) (f [])).flatten := by
  obtain ⟨b, rfl⟩ : ∃ b, height = (row - a) + (lines.length + b) := ⟨height - (row - a + lines.length), by omega⟩
  have hblank : ∀ (l : List Nat) (g : Nat → Int), (∀ i ∈ l, g i < 0 ∨ (lines.length : Int) ≤ g i) →
      l.flatMap (fun i => f (lineAt lines (g i))) = (List.replicate l.length (f [])).flatten := by
    intro l g h
    rw [← flatMap_const]
    exact List.flatMap_congr fun i hi => by rw [lineAt_blank (h i hi)]
  rw [List.range_add, List.flatMap_append, List.range_add, List.map_append, List.flatMap_append, List.append_assoc]
  congr 1
  · rw [hblank, List.length_range]
    intro i hi
    rw [List.mem_range] at hi
    omega
  congr 1
  · have : lines = (List.range lines.length).map (fun (i : Nat) => lineAt lines (i : Int)) := by
      refine List.ext_getElem (by simp) fun i h1 h2 => ?_
      rw [List.getElem_map, List.getElem_range, lineAt_nat h1]
    conv_rhs => rw [this]
    rw [List.flatMap_map, List.flatMap_map]
    refine List.flatMap_congr fun i hi => ?_
    congr 2
    omega
  · rw [hblank _ fun (i : Nat) => (a : Int) + i - row]
    · simp only [List.length_map, List.length_range]
      congr 2
      omega
    · intro i hi
      simp only [List.mem_map, List.mem_range] at hi
      obtain ⟨_, ⟨j, _, rfl⟩, rfl⟩ := hi
      omega

end PPP
