import Verif.Proofs.OwnFlag
import Verif.Props.Modular
import Verif.Props.JsonRead
import Verif.Props.TreeStyle
/-
C51, for several values at the top level.
-/
namespace PPP
variable {sw : String → Nat}

theorem intercalate_append (sep : String) {a b : List String} (ha : a ≠ []) (hb : b ≠ []) :
    sep.intercalate (a ++ b) = sep.intercalate a ++ sep ++ sep.intercalate b := by
  induction a with
  | nil => exact absurd rfl ha
  | cons x a ih =>
    cases a with
    | nil =>
      rw [List.cons_append, List.nil_append, String.intercalate_cons_of_ne_nil hb, String.intercalate_singleton]
    | cons y a =>
      rw [List.cons_append, String.intercalate_cons_of_ne_nil (by simp), ih (by simp),
        String.intercalate_cons_of_ne_nil (l := y :: a) (by simp)]
      simp only [String.append_assoc]

theorem linesString_flatten {P : PrettyDoc} {lss : List (List (List (Segment P)))} (h : ∀ ls ∈ lss, ls ≠ []) :
    linesString lss.flatten = "\n".intercalate (lss.map linesString) := by
  induction lss with
  | nil => rfl
  | cons ls lss ih =>
    have ih := ih fun l hl => h l (by simp [hl])
    cases lss with
    | nil => simp [String.intercalate_singleton]
    | cons ls' lss =>
      rw [List.map_cons, String.intercalate_cons_of_ne_nil (by simp), ← ih, List.flatten_cons]
      unfold linesString
      have h1 := h ls (by simp)
      have h2 := h ls' (by simp)
      rw [List.map_append, intercalate_append _ (by simpa using h1) (by simp [h2])]

theorem setNeedsSeparator_same (t : Tree BasicStyle) : SameContents (P := basicDoc sw) t.setNeedsSeparator t := by
  cases t <;> exact ⟨rfl, rfl, fun _ => rfl, fun _ => rfl⟩

/-- What precedes the top-level style, and whether a separator is needed, do not matter for a whole
    document that does not look at it. -/
theorem printLines_root (t : Tree BasicStyle) (hn : t.notn.1.NoHere) (b : Bool) (w : Nat) (ls) :
    printLines (P := basicDoc sw) (if b then t.setNeedsSeparator else t) w (some BasicStyle.new) =
        Exec.ofRes (.ok ls) ↔
      printLines (P := basicDoc sw) t w none = Exec.ofRes (.ok ls) := by
  have h1 : rootTree (basicLaw sw) (if b then t.setNeedsSeparator else t) (some BasicStyle.new) =
      rootTree (basicLaw sw) t none := by
    have hs : docTree (basicLaw sw) t false [] (some BasicStyle.new) = docTree (basicLaw sw) t false [] none := by
      rw [docTree_of (basicLaw sw) (node := t) (a := t.notn.1) (s := t.nodeStyle) rfl rfl,
        docTree_of (basicLaw sw) (node := t) (a := t.notn.1) (s := t.nodeStyle) rfl rfl]
      simp only [enterStyle]
      rw [C39_unit]
    unfold rootTree
    cases b with
    | false => simp only [Bool.false_eq_true, if_false, hs]
    | true =>
      simp only [if_true]
      rw [docTree_sameContents (basicLaw sw) (setNeedsSeparator_same t) (a := t.notn.1) (s := t.nodeStyle)
        (by cases t <;> rfl) rfl (by cases t <;> rfl) rfl hn, hs]
      cases t <;> rfl
  rw [printLines_iff (basicLaw sw), printLines_iff (basicLaw sw)]
  unfold docLayout
  rw [h1]

/-- No notation of the json module looks at the node itself. -/
theorem json_noHere (e : Json) : e.build.notn.1.NoHere := by
  cases e with
  | bool id b =>
    cases b with
    | false => exact (by decide : jsonFalseN.1.NoHere)
    | true => exact (by decide : jsonTrueN.1.NoHere)
  | null => exact (by decide : jsonNullN.1.NoHere)
  | string => exact (by decide : jsonStringN.1.NoHere)
  | number => exact (by decide : jsonNumberN.1.NoHere)
  | array => exact (by decide : jsonArrayN.1.NoHere)
  | pair => exact (by decide : jsonPairN.1.NoHere)
  | object => exact (by decide : jsonObjectN.1.NoHere)
  | comment => exact (by decide : jsonCommentN.1.NoHere)
  | roots => exact (by decide : jsonRootsN.1.NoHere)

theorem printLines_text (e : Json) (w : Nat) (s : String) :
    prettyPrintToString (P := basicDoc sw) e.build w = Exec.ofRes (.ok s) ↔
      ∃ ls, printLines (P := basicDoc sw) e.build w none = Exec.ofRes (.ok ls) ∧ s = linesString ls := by
  rw [C01_to_string_iff (basicLaw sw)]
  simp only [printLines_iff (basicLaw sw)]
  constructor
  · rintro ⟨id, L, h, rfl⟩; exact ⟨_, ⟨id, L, h, rfl⟩, rfl⟩
  · rintro ⟨_, ⟨id, L, h, rfl⟩, rfl⟩; exact ⟨id, L, h, rfl⟩

/-- The rows of a document made by `json_roots`. -/
def rootsRows : Rows String TreeCondition := .count .mark (.child 0) .children

theorem rootsRows_notn : rootsRows.notn = jsonRootsN.1 := rfl

theorem printLines_ne_nil {P : PrettyDoc} (law : P.Lawful) {doc : P.Node} {w style ls}
    (h : printLines doc w style = Exec.ofRes (.ok ls)) : ls ≠ [] := by
  obtain ⟨id, L, _, rfl⟩ := (printLines_iff law).1 h
  simp [linesOf, linesFrom_ne_nil]

theorem markSeparators_cons (c : Tree BasicStyle) (cs : List (Tree BasicStyle)) :
    ∃ b : Bool, (markSeparators (c :: cs)).1 = (if b then c.setNeedsSeparator else c) :: (markSeparators cs).1 := by
  simp only [markSeparators]
  split
  · exact ⟨false, rfl⟩
  · split
    · exact ⟨true, rfl⟩
    · exact ⟨false, rfl⟩

theorem roots_kids (w : Nat) (es : List Json) : ∀ lss,
    List.Forall₂ (fun c ls => printLines (P := basicDoc sw) c w (some BasicStyle.new) = Exec.ofRes (.ok ls))
        (markSeparators (es.map Json.build)).1 lss ↔
      List.Forall₂ (fun (e : Json) ls => printLines (P := basicDoc sw) e.build w none = Exec.ofRes (.ok ls)) es lss := by
  induction es with
  | nil => intro lss; simp [markSeparators]
  | cons e es ih =>
    intro lss
    obtain ⟨b, hb⟩ := markSeparators_cons e.build (es.map Json.build)
    rw [List.map_cons, hb]
    cases lss with
    | nil => simp
    | cons ls lss =>
      rw [List.forall₂_cons, List.forall₂_cons, ih, printLines_root _ (json_noHere e)]

theorem HasChildren.unique {P : PrettyDoc} {doc : P.Node} {cs cs'} (h : P.HasChildren doc cs)
    (h' : P.HasChildren doc cs') : cs = cs' := by
  have hlen := h.1
  rw [h'.1] at hlen
  simp only [Except.ok.injEq, Option.some.injEq] at hlen
  refine List.ext_getElem hlen.symm fun i hi hi' => ?_
  have a := h.2 i _ (List.getElem?_eq_getElem hi)
  have b := h'.2 i _ (List.getElem?_eq_getElem hi')
  rw [a] at b
  simpa using b

theorem stacked_lines {P : PrettyDoc} {doc : P.Node} {cs : List P.Node} (hkids : P.HasChildren doc cs) (hcs : cs ≠ [])
    {w : Nat} {s : P.Style} {ls} :
    Rows.Lines doc w (.count .mark (.child 0) .children) s [] ls ↔
      ∃ lss, List.Forall₂ (fun c ls => printLines c w (some s) = Exec.ofRes (.ok ls)) cs lss ∧ ls = lss.flatten := by
  have hpos : cs.length ≠ 0 := by simpa using hcs
  have hmap : ∀ ls : List (List (Segment P)), ls.map ([] ++ ·) = ls := fun ls => by simp
  constructor
  · intro h
    cases h with
    | count h1 h2 =>
      rw [hkids.1] at h1
      simp only [Except.ok.injEq, Option.some.injEq] at h1
      subst h1
      rw [if_neg hpos] at h2
      split at h2
      · rename_i h1
        cases h2 with
        | child g1 g2 g3 g4 =>
          rename_i n j c ls
          rw [hkids.1, h1] at g1
          simp only [Except.ok.injEq, Option.some.injEq] at g1
          subst g1
          rw [show childIndex 0 1 = some 0 from rfl] at g2
          simp only [Option.some.injEq] at g2
          subst g2
          match cs, h1 with
          | [d], _ =>
            have h0 := hkids.2 0 d rfl
            rw [g3] at h0
            simp only [Except.ok.injEq] at h0
            subst h0
            exact ⟨[ls], .cons g4 .nil, by simp⟩
      · cases h2 with
        | childless h => exact absurd (HasChildren.unique hkids h) hcs
        | children g1 g2 g3 =>
          cases HasChildren.unique hkids g1
          exact ⟨_, g3, hmap _⟩
  · rintro ⟨lss, h, rfl⟩
    refine .count hkids.1 ?_
    rw [if_neg hpos]
    split
    · rename_i h1
      match cs, h1 with
      | [c], _ =>
        match lss, h with
        | [ls], .cons g .nil =>
          rw [← hmap [ls].flatten]
          simp only [List.flatten_cons, List.flatten_nil, List.append_nil]
          exact .child hkids.1 (i := 0) (j := 0) rfl (hkids.2 0 c rfl) g
    · rw [← hmap lss.flatten]
      exact .children hkids hcs h

theorem roots_lines {id : Nat} {es : List Json} (hne : es ≠ []) {w : Nat} {ls} :
    printLines (P := basicDoc sw) (Json.roots id es).build w none = Exec.ofRes (.ok ls) ↔
      ∃ lss, List.Forall₂ (fun (e : Json) ls => printLines (P := basicDoc sw) e.build w none = Exec.ofRes (.ok ls)) es lss ∧
        ls = lss.flatten := by
  have hkids : (basicDoc sw).HasChildren (Json.roots id es).build (markSeparators (es.map Json.build)).1 := by
    simp only [Json.build, jsonRoots, Tree.newBranch, builds_eq]
    refine ⟨rfl, fun i c hi => ?_⟩
    simp only [Tree.unwrapChild, Tree.children?, hi]
  have hcs : (markSeparators (es.map Json.build)).1 ≠ [] := by
    rw [← List.length_pos_iff, markSeparators_length, List.length_map, List.length_pos_iff]; exact hne
  rw [C48_rows (basicLaw sw) (r := rootsRows) (id := id) (s := BasicStyle.new) (style := none) rfl rfl rfl
    ⟨trivial, trivial, trivial⟩]
  refine Iff.trans (and_congr_left' (stacked_lines hkids hcs)) ?_
  constructor
  · rintro ⟨⟨lss, h, rfl⟩, -⟩
    exact ⟨lss, (roots_kids w es lss).1 h, rfl⟩
  · rintro ⟨lss, h, rfl⟩
    refine ⟨⟨lss, (roots_kids w es lss).2 h, rfl⟩, fun l hl => ?_⟩
    obtain ⟨ls, h1, h2⟩ := List.mem_flatten.1 hl
    obtain ⟨i, hi, rfl⟩ := List.getElem_of_mem h1
    have := h.get (i := i) (by rw [h.length_eq]; exact hi) hi
    exact C48_line_width (basicLaw sw) this l h2

/-- **C51.**  Several values and comments at the top level are printed one after the other, each as it
    is on its own. -/
theorem C51_roots {id : Nat} {es : List Json} (hne : es ≠ []) {w : Nat} {s : String} :
    prettyPrintToString (P := basicDoc sw) (Json.roots id es).build w = Exec.ofRes (.ok s) ↔
      ∃ texts : List String,
        List.Forall₂ (fun (e : Json) t => prettyPrintToString (P := basicDoc sw) e.build w = Exec.ofRes (.ok t)) es texts ∧
        s = "\n".intercalate texts := by
  rw [printLines_text]
  constructor
  · rintro ⟨ls, h, rfl⟩
    obtain ⟨lss, h', rfl⟩ := (roots_lines hne).1 h
    clear h
    rename' h' => h
    refine ⟨lss.map linesString, ?_, linesString_flatten ?_⟩
    · rw [List.forall₂_map_right_iff]
      exact h.imp fun e ls h => (printLines_text e w _).2 ⟨ls, h, rfl⟩
    · intro ls hl
      obtain ⟨i, hi, rfl⟩ := List.getElem_of_mem hl
      exact printLines_ne_nil (basicLaw sw) (h.get (i := i) (by rw [h.length_eq]; exact hi) hi)
  · rintro ⟨texts, h, rfl⟩
    obtain ⟨lss, h1, rfl⟩ : ∃ lss, List.Forall₂ (fun (e : Json) ls =>
        printLines (P := basicDoc sw) e.build w none = Exec.ofRes (.ok ls)) es lss ∧ texts = lss.map linesString := by
      clear hne
      induction h with
      | nil => exact ⟨[], .nil, rfl⟩
      | cons h _ ih =>
        obtain ⟨lss, h1, rfl⟩ := ih
        obtain ⟨ls, h2, rfl⟩ := (printLines_text _ w _).1 h
        exact ⟨ls :: lss, .cons h2 h1, rfl⟩
    refine ⟨lss.flatten, (roots_lines hne).2 ⟨lss, h1, rfl⟩, (linesString_flatten ?_).symm⟩
    intro ls hl
    obtain ⟨i, hi, rfl⟩ := List.getElem_of_mem hl
    exact printLines_ne_nil (basicLaw sw) (h1.get (i := i) (by rw [h1.length_eq]; exact hi) hi)

/-- **C51.**  So each of the printed parts can be read back: the text of several values (and comments)
    is cut into one part for each of them, and the part of a value is read as this value. -/
theorem C51_roots_read {id : Nat} {es : List Json} (hne : es ≠ [])
    (h : ∀ e ∈ es, e.isComment = false → e.Value Escaped NumberText) {w : Nat} {s : String}
    (hs : prettyPrintToString (P := basicDoc sw) (Json.roots id es).build w = Exec.ofRes (.ok s)) :
    ∃ texts : List String, s = "\n".intercalate texts ∧
      List.Forall₂ (fun (e : Json) t => e.isComment = false → readJson t = some e.val) es texts := by
  obtain ⟨texts, h1, rfl⟩ := (C51_roots hne).1 hs
  refine ⟨texts, rfl, ?_⟩
  rw [List.forall₂_iff_get] at h1 ⊢
  refine ⟨h1.1, fun i hi hi' hc => C51_round_trip (h _ (List.get_mem _ _) hc) (h1.2 i hi hi')⟩

/-- **C51.**  Without any values, the text is empty. -/
theorem C51_roots_empty (id w : Nat) :
    prettyPrintToString (P := basicDoc sw) (Json.roots id []).build w = Exec.ofRes (.ok "") := by
  have := C48_to_string (basicLaw sw) ((C48_rows (basicLaw sw) (doc := (Json.roots id []).build) (w := w)
    (ls := [[]]) (r := rootsRows) (id := id) (s := BasicStyle.new) (style := none) rfl rfl rfl
    ⟨trivial, trivial, trivial⟩).2 ⟨.count (n := 0) rfl .mark, by simp [segsWidth]⟩)
  exact this

namespace Ex

/-- The two values of C75's example, with a comment between them, and a number after them. -/
def severalRoots : Json := .roots 40 [jsonDocIds, .comment 30 (fun _ => 31) "x", .number 32 "7"]

/-- It meets the hypotheses: at any width, the text is cut into three parts, two of which are read as
    the values. -/
example {w : Nat} {s : String}
    (hs : prettyPrintToString (P := basicDoc String.length) severalRoots.build w = Exec.ofRes (.ok s)) :
    ∃ a b c : String, s = a ++ "\n" ++ (b ++ "\n" ++ c) ∧ readJson a = some (.arr [.bool true]) ∧
      readJson c = some (.num "7") := by
  have hok : ∀ e ∈ [jsonDocIds, Json.comment 30 (fun _ => 31) "x", .number 32 "7"], e.isComment = false →
      e.Value Escaped NumberText := by
    intro e he hc
    simp only [List.mem_cons, List.not_mem_nil, or_false] at he
    rcases he with rfl | rfl | rfl
    · refine .array 3 ?_
      intro e he hc
      change e ∈ [Json.bool 0 true, Json.comment 2 _ " hi"] at he
      simp only [List.mem_cons, List.not_mem_nil, or_false] at he
      rcases he with rfl | rfl
      · exact .bool 0 true
      · simp [Json.isComment] at hc
    · simp [Json.isComment] at hc
    · exact .number 32 ⟨by decide, by decide⟩
  obtain ⟨texts, h1, h2⟩ := C51_roots_read (by simp) hok hs
  match texts, h2 with
  | [a, b, c], .cons ha (.cons _ (.cons hc .nil)) =>
    refine ⟨a, b, c, ?_, ha rfl, hc rfl⟩
    rw [h1, String.intercalate_cons_of_ne_nil (by simp), String.intercalate_cons_of_ne_nil (by simp),
      String.intercalate_singleton]

end Ex
end PPP
