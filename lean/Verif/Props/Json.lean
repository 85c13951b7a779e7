import Verif.Proofs.JsonRoots
import Verif.Props.Choices
/-
C33, C34: JSON documents.
-/
namespace PPP
variable {sw : String → Nat}

/-! ### The text of a token sequence -/

theorem lines_chars {P : PrettyDoc} (T : List (Tok P)) : ∀ cur : List (Segment P),
    (linesString (linesFrom cur T)).toList = (segsString cur).toList ++ toksChars T := by
  have hne : ∀ (T : List (Tok P)) cur, linesFrom cur T ≠ [] := by
    intro T
    induction T with
    | nil => intro cur; simp [linesFrom]
    | cons t T ih => intro cur; cases t <;> simp [linesFrom, ih]
  induction T with
  | nil => intro cur; simp [linesFrom, linesString, toksChars]
  | cons t T ih =>
    intro cur
    cases t with
    | text x =>
      simp only [linesFrom, toksChars]
      rw [ih]
      simp [segsString_toList, Textual.segment, List.append_assoc]
    | nl ind =>
      simp only [linesFrom, toksChars]
      unfold linesString
      rw [List.map_cons, String.intercalate_cons_of_ne_nil (by simpa using hne T ind)]
      have := ih ind
      unfold linesString at this
      simp [this, List.append_assoc]
    | eol => simp only [linesFrom, toksChars]; exact ih cur
    | mark i => simp only [linesFrom, toksChars]; exact ih cur

theorem linesOf_chars {P : PrettyDoc} (T : List (Tok P)) : (linesString (linesOf T)).toList = toksChars T := by
  rw [linesOf, lines_chars]
  simp [segsString]

/-- Anything can be the text of a string or number. -/
abbrev anyText : String → Prop := fun _ => True

/-- The layout of a JSON document. -/
theorem json_layout {C : Prop} {okString okNumber : String → Prop} (hS : ∀ s, okString s → C → Quotable s)
    (hN : ∀ s, okNumber s → C → PlainNumber s) {e : Json} (h : e.Document okString okNumber) (w : Nat)
    (style : Option BasicStyle) :
    ∃ nt T, rootTree (basicLaw sw) e.build style = .ok (e.rootId, nt) ∧ nt.NoFail ∧
      GreedyDoc w (P := basicDoc sw) e.rootId nt T ∧ ¬ EolDefect (erase T) ∧
      (C → ∃ i1, lexRun .normal (toksChars (erase T)) = (e.compact, lexOf i1)) := by
  obtain ⟨nt, h1, h2, e1, i1, h3⟩ := document_step (sw := sw) (C := C) hS hN h style
  obtain ⟨T, hg, _⟩ := C10_greedy_exists_unique (P := basicDoc sw) (w := w) (id := e.rootId) h2
  refine ⟨nt, T, ?_, h2, hg, ?_⟩
  · unfold rootTree
    rw [h1]
    simp only [Except.bind_eq, Call.toRes, build_id]
  · obtain ⟨st, hg⟩ := hg
    obtain ⟨r1, r2⟩ := h3 w e.rootId [] _ _ T rfl hg
    exact ⟨eolRun_no_defect _ r1, fun hC => ⟨i1, r2 hC⟩⟩

/-! ### C33 -/

/-- **C33.**  Every JSON document made with the `json_*` functions prints at every width: the only way to
    fail is a line that is too wide for the column counter (wider than 65535 columns). -/
theorem C33_to_string {e : Json} (h : e.Document anyText anyText) (w : Nat) :
    (∃ s, prettyPrintToString (P := basicDoc sw) e.build w = Exec.ofRes (.ok s)) ∨
    (prettyPrintToString (P := basicDoc sw) e.build w = Exec.ofRes (.error .overflow) ∧
      ∃ nt T, rootTree (basicLaw sw) e.build none = .ok (e.rootId, nt) ∧
        GreedyDoc (P := basicDoc sw) w e.rootId nt T ∧ TooWide (erase T)) := by
  obtain ⟨nt, T, h1, h2, h3, h4, _⟩ := json_layout (sw := sw) (C := False) (fun _ _ h => h.elim) (fun _ _ h => h.elim) h w none
  rcases C15_outcomes (basicLaw sw) h1 h2 h3 with ⟨g, _⟩ | ⟨_, g⟩ | ⟨g1, g2⟩
  · exact .inl ⟨_, g⟩
  · exact absurd g h4
  · exact .inr ⟨g1, nt, T, h1, h3, g2⟩

/-- **C33**: no error is ever returned. -/
theorem C33_no_error {e : Json} (h : e.Document anyText anyText) (w : Nat) (err : PrintingError Empty) :
    prettyPrintToString (P := basicDoc sw) e.build w ≠ Exec.ofRes (.error (.err err)) := by
  rcases C33_to_string (sw := sw) h w with ⟨s, hs⟩ | ⟨hs, _⟩
  · rw [hs]; intro he; exact absurd (Exec.ofRes_inj he) (by simp)
  · rw [hs]; intro he; exact absurd (Exec.ofRes_inj he) (by simp)

theorem json_locate {e : Json} (h : e.Document anyText anyText) (ho : e.Ordered) {w : Nat} {style : Option BasicStyle}
    {id} {L : LTree (basicDoc sw)} (hL : docLayout (basicLaw sw) e.build w style = .ok (id, L)) {path : List Nat}
    (hp : PathIn (basicDoc sw) e.build path) : ∃ l, L.locate id path = .ok l := by
  obtain ⟨nt, hr, hl⟩ := docLayout_ok (basicLaw sw) hL
  obtain ⟨ht, _⟩ := rootTree_inv (basicLaw sw) hr
  have hreach := (document_node (sw := sw) h ho).reach hp ht
  unfold NTree.layoutDoc at hl
  simp only [Except.bind_eq] at hl
  split at hl
  · rename_i r hlay
    obtain ⟨st, L'⟩ := r
    simp only [Except.ok.injEq] at hl
    subst hl
    exact layout_locate w path hreach hlay
  · simp at hl

/-- **C33**, focused prints: if the document prints at all at this width, then it also prints from the
    start and from the end of every one of its nodes (`PathIn`: `path` leads to a node), and the same
    text is printed. -/
theorem C33_focus {e : Json} (h : e.Document anyText anyText) (ho : e.Ordered) {w : Nat} {s : String}
    (hs : prettyPrintToString (P := basicDoc sw) e.build w = Exec.ofRes (.ok s)) {path : List Nat}
    (hp : PathIn (basicDoc sw) e.build path) {target : FocusTarget} (ht : target = .start ∨ target = .end) :
    ∃ o, printAll (P := basicDoc sw) e.build w path target none = Exec.ofRes (.ok o) ∧ linesString o.lines = s := by
  obtain ⟨id, L, hL, rfl⟩ := (C01_to_string_iff (basicLaw sw) _ _ s).1 hs
  obtain ⟨l, hl⟩ := json_locate h ho hL hp
  have hids := (document_node (sw := sw) h ho).ids
  obtain ⟨o, hpr⟩ : ∃ o, printAll (P := basicDoc sw) e.build w path target none = Exec.ofRes (.ok o) := by
    rcases ht with rfl | rfl
    · obtain ⟨o, h1, _⟩ := C03_start (basicLaw sw) hids hL hl
      exact ⟨o, h1⟩
    · obtain ⟨o, h1, _⟩ := C04_end (basicLaw sw) hids hL hl
      exact ⟨o, h1⟩
  refine ⟨o, hpr, ?_⟩
  obtain ⟨id', L', hL', _, _, h3⟩ := C02_focus_independent (basicLaw sw) (.inl (by rcases ht with rfl | rfl <;> simp)) hpr
  rw [hL] at hL'
  simp only [Except.ok.injEq, Prod.mk.injEq] at hL'
  obtain ⟨rfl, rfl⟩ := hL'
  rw [h3 (by rcases ht with rfl | rfl <;> simp)]

/-- **C33**, the other focus targets: the only errors are that there is no focus mark, or no text, to
    focus on. -/
theorem C33_other_targets {e : Json} (h : e.Document anyText anyText) (ho : e.Ordered) {w : Nat} {s : String}
    (hs : prettyPrintToString (P := basicDoc sw) e.build w = Exec.ofRes (.ok s)) {path : List Nat}
    (hp : PathIn (basicDoc sw) e.build path) {target : FocusTarget}
    (hadd : target = .mark ∨ ∀ a b, sw (a ++ b) = sw a + sw b) :
    (∃ r, prettyPrint (P := basicDoc sw) e.build w path target none = Exec.ofRes (.ok r)) ∨
    (target = .mark ∧ prettyPrint (P := basicDoc sw) e.build w path target none = Exec.ofRes (.error (.err .missingFocusMark))) ∨
    (∃ pos, target = .text pos ∧
      prettyPrint (P := basicDoc sw) e.build w path target none = Exec.ofRes (.error (.err .missingText))) := by
  obtain ⟨id, L, hL, rfl⟩ := (C01_to_string_iff (basicLaw sw) _ _ s).1 hs
  obtain ⟨l, hl⟩ := json_locate h ho hL hp
  have hids := (document_node (sw := sw) h ho).ids
  have hf : FocusOk (basicDoc sw) e.build target := by
    rcases hadd with rfl | hadd
    · exact .inl (by simp)
    · refine .inr ?_
      intro p s _ _ a b c _
      rw [← hadd]
      simp
  rcases C40_partial_print_no_errors (basicLaw sw) hL path hf with ⟨r, hr, _⟩ | ⟨err, hr, h1⟩
  · exact .inl ⟨r, hr⟩
  · rcases h1 with ⟨i, rfl, _⟩ | ⟨rfl, rfl⟩ | ⟨rfl, pos, rfl⟩
    · exfalso
      have := (C07_invalid_path_iff (basicLaw sw) hids hL path hf i).1 hr
      rw [hl] at this
      simp at this
    · exact .inr (.inl ⟨rfl, hr⟩)
    · exact .inr (.inr ⟨pos, rfl, hr⟩)

/-! ### Ids given by the counter -/

mutual
theorem Json.assign_ordered (e : Json) (next : Nat) :
    (e.assign next).1.Ordered ∧ (e.assign next).1.rootId < (e.assign next).2 := by
  cases e with
  | null | bool | string | number => simp [Json.assign, Json.Ordered, Json.rootId]
  | array id es =>
    have h := Json.assigns_below es next
    simp only [Json.assign, Json.Ordered, Json.rootId]
    exact ⟨h.2 _ (Nat.le_refl _), Nat.lt_succ_self _⟩
  | object id es =>
    have h := Json.assigns_below es next
    simp only [Json.assign, Json.Ordered, Json.rootId]
    exact ⟨h.2 _ (Nat.le_refl _), Nat.lt_succ_self _⟩
  | roots id es =>
    have h := Json.assigns_below es next
    simp only [Json.assign, Json.Ordered, Json.rootId]
    exact ⟨h.2 _ (Nat.le_refl _), Nat.lt_succ_self _⟩
  | pair id keyId key v =>
    have h := Json.assign_ordered v next
    simp only [Json.assign, Json.Ordered]
    exact ⟨⟨by omega, by omega, h.1⟩, by simp [Json.rootId]⟩
  | comment id wordIds s =>
    simp only [Json.assign, Json.Ordered, Json.rootId]
    exact ⟨fun i hi => by omega, by omega⟩
theorem Json.assigns_below (es : List Json) (next : Nat) :
    next ≤ (Json.assigns es next).2 ∧ ∀ id, (Json.assigns es next).2 ≤ id → Json.AllBelow id (Json.assigns es next).1 := by
  cases es with
  | nil => simp [Json.assigns, Json.AllBelow]
  | cons e es =>
    have h1 := Json.assign_ordered e next
    have h2 := Json.assigns_below es (e.assign next).2
    have h3 := Json.assign_le e next
    simp only [Json.assigns, Json.AllBelow]
    refine ⟨by omega, fun id hid => ⟨by omega, h1.1, h2.2 id hid⟩⟩
theorem Json.assign_le (e : Json) (next : Nat) : next ≤ (e.assign next).2 := by
  cases e with
  | null | bool | string | number => simp [Json.assign]
  | array id es | object id es | roots id es =>
    have h := Json.assigns_below es next
    simp only [Json.assign]
    omega
  | pair id keyId key v =>
    have h := Json.assign_le v next
    simp only [Json.assign]
    omega
  | comment id wordIds s => simp only [Json.assign]; omega
end

/-- The hypothesis of `C33_focus` about ids holds if the ids are the successive values of a counter. -/
theorem C33_ids (e : Json) (next : Nat) : (e.assign next).1.Ordered := (e.assign_ordered next).1

/-! ### C34 -/

/-- **C34.**  Take the comments and the white space (outside of strings) away from the printed text: what is
    left is the JSON text of the document, at every width.  (`json_string` does not escape its
    argument: it has to be given a string in which quotes and backslashes are already escaped.) -/
theorem C34_content {e : Json} (h : e.Document Quotable PlainNumber) {w : Nat} {s : String}
    (hs : prettyPrintToString (P := basicDoc sw) e.build w = Exec.ofRes (.ok s)) :
    minify s = String.ofList e.compact := by
  obtain ⟨nt, T, h1, h2, h3, _, h5⟩ := json_layout (sw := sw) (C := True) (fun _ h _ => h) (fun _ h _ => h) h w none
  obtain ⟨s1, h5⟩ := h5 trivial
  obtain ⟨T', g1, g2, rfl⟩ := (C10_iff (basicLaw sw) s h1 h2).1 hs
  obtain ⟨T0, _, hu⟩ := C10_greedy_exists_unique (P := basicDoc sw) (w := w) (id := e.rootId) h2
  have : T' = T := by rw [hu T' g1, hu T h3]
  subst this
  unfold minify
  rw [linesOf_chars, h5]

/-- **C34**: and more lines can be printed after the document: no string is left open at its end. -/
theorem C34_closed {e : Json} (h : e.Document Quotable PlainNumber) {w : Nat} {s : String}
    (hs : prettyPrintToString (P := basicDoc sw) e.build w = Exec.ofRes (.ok s)) (more : String) :
    minify (s ++ "\n" ++ more) = minify s ++ minify more := by
  obtain ⟨nt, T, h1, h2, h3, _, h5⟩ := json_layout (sw := sw) (C := True) (fun _ h _ => h) (fun _ h _ => h) h w none
  obtain ⟨i1, h5⟩ := h5 trivial
  obtain ⟨T', g1, g2, rfl⟩ := (C10_iff (basicLaw sw) s h1 h2).1 hs
  obtain ⟨T0, _, hu⟩ := C10_greedy_exists_unique (P := basicDoc sw) (w := w) (id := e.rootId) h2
  have : T' = T := by rw [hu T' g1, hu T h3]
  subst this
  have hnl : lexStep (lexOf i1) '\n' = ([], .normal) := by cases i1 <;> rfl
  unfold minify
  simp only [String.toList_append]
  rw [List.append_assoc, lexRun_append, linesOf_chars, h5]
  have : "\n".toList ++ more.toList = '\n' :: more.toList := rfl
  simp only [this, lexRun, hnl, List.nil_append]
  rw [← String.ofList_append]

/-- **C34**: the printed content does not depend on the width, nor on the comments, nor on the ids. -/
theorem C34_width_independent {e e' : Json} (h : e.Document Quotable PlainNumber) (h' : e'.Document Quotable PlainNumber)
    (hc : e.compact = e'.compact) {w w' : Nat} {s s' : String}
    (hs : prettyPrintToString (P := basicDoc sw) e.build w = Exec.ofRes (.ok s))
    (hs' : prettyPrintToString (P := basicDoc sw) e'.build w' = Exec.ofRes (.ok s')) : minify s = minify s' := by
  rw [C34_content h hs, C34_content h' hs', hc]

/-! ### A concrete case -/

namespace Ex

/-- `json_array(vec![json_bool(true), json_comment(" hi")])`. -/
def jsonDoc : Json := .array 0 [.bool 0 true, .comment 0 (fun _ => 0) " hi"]

/-- The same, with the ids that the counter gives to the nodes. -/
def jsonDocIds : Json := (jsonDoc.assign 0).1

theorem jsonDoc_ok : jsonDocIds.Document Quotable PlainNumber := by
  refine .value (.array 3 ?_)
  intro e he hc
  change e ∈ [Json.bool 0 true, Json.comment 2 _ " hi"] at he
  simp only [List.mem_cons, List.not_mem_nil, or_false] at he
  rcases he with rfl | rfl
  · exact .bool 0 true
  · simp [Json.isComment] at hc

/-- What its children display. -/
def jsonKid : Nat → Ctx (basicDoc String.length) → NTree (basicDoc String.length)
  | 0, c => .child 0 (.ok 0) (.text ⟨"true", 4, BasicStyle.combine (BasicStyle.combine c.style default) (BasicStyle.fromLabel "green_bold"), false⟩)
  | 1, c =>
    let s := BasicStyle.combine (BasicStyle.combine c.style default) (BasicStyle.fromLabel "yellow")
    .child 1 (.ok 2) (.concat (.concat (.text ⟨"// ", 3, s, false⟩)
      (.child 0 (.ok 1) (.text ⟨"hi", 2, BasicStyle.combine s default, true⟩))) .eol)
  | _ + 2, _ => .fail .panic

theorem jsonRoot : rootTree (basicLaw String.length) jsonDocIds.build none =
    .ok (3, jsonArrayN.1.tree (P := basicDoc String.length) jsonDocIds.build jsonKid none ⟨false, [], default⟩) := by
  have hk : docKid (basicLaw String.length) jsonDocIds.build = jsonKid := by
    funext i c
    match i with
    | 0 =>
      refine docKid_of (basicLaw String.length) (child := jsonBool 0 true) rfl ?_
      rw [docTree_of (basicLaw String.length) (a := jsonTrueN.1) (s := default) rfl rfl]
      rfl
    | 1 =>
      let cm : Tree BasicStyle := jsonComment 2 (fun i => 1 + i) " hi"
      have h0 : ∀ c, docKid (basicLaw String.length) cm 0 c =
          .child 0 (.ok 1) (.text ⟨"hi", 2, BasicStyle.combine c.style default, true⟩) := by
        intro c
        refine docKid_of (basicLaw String.length) (child := Tree.newText 1 jsonWordN "hi") rfl ?_
        rw [docTree_of (basicLaw String.length) (a := jsonWordN.1) (s := default) rfl rfl]
        rfl
      refine docKid_of (basicLaw String.length) (child := cm) rfl ?_
      rw [docTree_of (basicLaw String.length) (a := jsonCommentN.1) (s := default) rfl rfl]
      change Except.ok (NTree.concat (.concat (.text ⟨"// ", 3, _, false⟩) (docKid (basicLaw String.length) cm 0 _)) .eol) = _
      rw [h0]
      rfl
    | n + 2 => rfl
  unfold rootTree
  rw [docTree_of (basicLaw String.length) (a := jsonArrayN.1) (s := default) rfl rfl, hk]
  rfl

/-- It is printed on four lines at every width, because of the comment. -/
theorem jsonPrinted : prettyPrintToString (P := basicDoc String.length) jsonDocIds.build 80 =
    Exec.ofRes (.ok "[\n    true\n    // hi\n]") := by
  rw [C01_to_string_iff (basicLaw String.length)]
  refine ⟨3, ?_⟩
  unfold docLayout
  rw [jsonRoot]
  exact ⟨_, rfl, rfl⟩

example : minify "[\n    true\n    // hi\n]" = "[true]" := by
  rw [C34_content jsonDoc_ok jsonPrinted]
  rfl

/-- The path to the word of the comment. -/
example : ∃ o, printAll (P := basicDoc String.length) jsonDocIds.build 80 [1, 0] .end none = Exec.ofRes (.ok o) := by
  have hdoc : jsonDocIds.Document anyText anyText := by
    refine .value (.array 3 ?_)
    intro e he hc
    change e ∈ [Json.bool 0 true, Json.comment 2 _ " hi"] at he
    simp only [List.mem_cons, List.not_mem_nil, or_false] at he
    rcases he with rfl | rfl
    · exact .bool 0 true
    · simp [Json.isComment] at hc
  obtain ⟨o, h, _⟩ := C33_focus hdoc (C33_ids jsonDoc 0) jsonPrinted
    (path := [1, 0]) (.cons (child := jsonComment 2 (fun i => 1 + i) " hi") rfl (.cons (child := Tree.newText 1 jsonWordN "hi") rfl .nil)) (.inr rfl)
  exact ⟨o, h⟩

end Ex

end PPP
