import Verif.Props.Printing
/-
Property theorems C13, C14 and C37: no panics, termination, the calling contract, and widths.
-/
namespace PPP
variable {P : PrettyDoc}

/-- The call returns, with a value or with an error: it does not diverge and does not panic.
    (Overflow of the `u16` column counter is a separate outcome; see C36.) -/
def Returns {E α : Type} (x : Exec E α) : Prop :=
  ∃ res : Res E α, x = Exec.ofRes res ∧ res ≠ .error .panic

theorem Returns.of_sat {E α : Type} {x : Exec E α} {ok : α → Prop} {er} (h : Sat x ok er)
    (her : ∀ e, er e → e ≠ .panic) : Returns x := by
  rcases h.exists_res with ⟨a, h1, _⟩ | ⟨e, h1, h2⟩
  · exact ⟨_, h1, by simp⟩
  · exact ⟨_, h1, by simpa using her e h2⟩

theorem print_sat (law : P.Lawful) (doc : P.Node) (w : Nat) (path : List Nat) (target : FocusTarget)
    (style : Option P.Style) :
    Sat (prettyPrint doc w path target style)
      (fun r => Returns (drain Printer.nextUp r.up) ∧ Returns (drain Printer.nextDown r.down) ∧
        ∀ s, Returns (toStringLoop s r.down))
      (fun e => e ≠ .panic) := by
  have hf := rootTree_failIn law doc style
  cases hr : rootTree law doc style with
  | error f =>
    rw [hr] at hf
    rw [print_root_error law hr]
    exact hf
  | ok r =>
    obtain ⟨id, t⟩ := r
    rw [hr] at hf
    refine (print_terminates law hr (Q' := (docPred P doc).fail) docPred_ok hf w path target).mono ?_ ?_
    · rintro r ⟨h1, h2, h3⟩
      exact ⟨.of_sat h1 fun _ h => h, .of_sat h2 fun _ h => h, fun s => .of_sat (h3 s) fun _ h => h⟩
    · rintro e (h | ⟨j, rfl, _⟩ | ⟨rfl, _⟩ | ⟨rfl, _⟩)
      · exact h
      all_goals simp

theorem takeLines_returns {next : Printer P → Exec P.Err (Option (Line P) × Printer P)}
    (hnone : ∀ {p p'}, next p = Exec.ofRes (.ok (none, p')) → p' = p)
    {p : Printer P} (h : Returns (drain next p)) (n : Nat) : Returns (takeLines next n p) := by
  obtain ⟨res, h1, h2⟩ := h
  cases res with
  | ok lines =>
    obtain ⟨p', h, _⟩ := takeLines_of_drain hnone n h1
    exact ⟨_, h, by simp⟩
  | error e =>
    rcases takeLines_of_drain_error n h1 with ⟨r, h⟩ | h
    · exact ⟨_, h, by simp⟩
    · exact ⟨_, h, by simpa using h2⟩

/-- **C13.**  `pretty_print` always returns: it does not loop forever and does not panic, for every
    document, width, path, focus target and style. -/
theorem C13_pretty_print_returns (law : P.Lawful) (doc : P.Node) (w : Nat) (path : List Nat)
    (target : FocusTarget) (style : Option P.Style) :
    Returns (prettyPrint doc w path target style) :=
  .of_sat (print_sat law doc w path target style) fun _ h => h

/-- **C13** (iterators).  Whatever the number of lines taken from the iterators that `pretty_print`
    returns, or when they are run to the end, every call returns. -/
theorem C13_iterators_return (law : P.Lawful) {doc : P.Node} {w : Nat} {path : List Nat}
    {target : FocusTarget} {style : Option P.Style} {r}
    (h : prettyPrint doc w path target style = Exec.ofRes (.ok r)) :
    (∀ n, Returns (takeLines Printer.nextUp n r.up)) ∧
    (∀ n, Returns (takeLines Printer.nextDown n r.down)) ∧
    Returns (drain Printer.nextUp r.up) ∧ Returns (drain Printer.nextDown r.down) := by
  have hs := print_sat law doc w path target style
  rw [h] at hs
  obtain ⟨h1, h2, _⟩ := hs
  exact ⟨takeLines_returns nextUp_none h1, takeLines_returns nextDown_none h2, h1, h2⟩

/-- **C13** (`pretty_print_to_string`). -/
theorem C13_to_string_returns (law : P.Lawful) (doc : P.Node) (w : Nat) :
    Returns (prettyPrintToString doc w) := by
  unfold prettyPrintToString
  rcases (print_sat law doc w [] .start none).exists_res with ⟨r, h1, _, _, h2⟩ | ⟨e, h1, h2⟩
  · rw [h1]
    exact h2 _
  · rw [h1]
    exact ⟨_, rfl, by simpa using h2⟩

/-! ### The calling contract -/

open Classical in
/-- The same document type, except that every method panics when it is called outside of the
    contract stated in the documentation of the trait (/repo/src/pretty_doc.rs:37-95). -/
@[reducible] noncomputable def PrettyDoc.strict (P : PrettyDoc) : PrettyDoc where
  Node := P.Node
  Id := P.Id
  Style := P.Style
  Label := P.Label
  Cond := P.Cond
  Err := P.Err
  decId := P.decId
  combine := P.combine
  strWidth := P.strWidth
  id := P.id
  notn := P.notn
  condition p c := if P.ChecksCond p c then P.condition p c else .error .panic
  lookupStyle p l := if P.UsesLabel p l then P.lookupStyle p l else .error .panic
  nodeStyle := P.nodeStyle
  numChildren := P.numChildren
  unwrapText p := if P.numChildren p = .ok none then P.unwrapText p else .error .panic
  unwrapChild p i :=
    if ∃ n, P.numChildren p = .ok (some n) ∧ i < n then P.unwrapChild p i else .error .panic
  unwrapLastChild p :=
    if ∃ n, P.numChildren p = .ok (some n) ∧ 0 < n then P.unwrapLastChild p else .error .panic
  unwrapPrevSibling c p i :=
    if ∃ n, P.numChildren p = .ok (some n) ∧ i + 1 < n ∧ P.unwrapChild p (i + 1) = .ok c
    then P.unwrapPrevSibling c p i else .error .panic

theorem strict_childAt (p : P.Node) (i : Nat) : P.strict.childAt p i = P.childAt p i := by
  unfold PrettyDoc.childAt PrettyDoc.strict
  cases h : P.numChildren p with
  | error e => rfl
  | ok o =>
    cases o with
    | none => rfl
    | some n =>
      simp only
      by_cases hi : i < n
      · rw [if_pos hi, if_pos ⟨n, h, hi⟩, if_pos hi]
      · rw [if_neg hi, if_neg hi]

theorem strict_childOf : P.strict.ChildOf = P.ChildOf := by
  funext c p
  exact propext ⟨fun ⟨i, h⟩ => ⟨i, (strict_childAt (P := P) p i).symm.trans h⟩,
    fun ⟨i, h⟩ => ⟨i, (strict_childAt (P := P) p i).trans h⟩⟩

open Classical in
/-- A document type that honours the trait's contract still does when it panics outside of it. -/
theorem PrettyDoc.Lawful.strict (law : P.Lawful) : P.strict.Lawful where
  wf := by rw [strict_childOf]; exact law.wf
  valid := law.valid
  last := by
    intro p n hn
    change (if ∃ n, P.numChildren p = .ok (some n) ∧ 0 < n then P.unwrapLastChild p else .error .panic) =
      (if ∃ m, P.numChildren p = .ok (some m) ∧ n < m then P.unwrapChild p n else .error .panic)
    rw [if_pos ⟨_, hn, by omega⟩, if_pos ⟨_, hn, by omega⟩]
    exact law.last p n hn
  prev := by
    intro p n i c hn hi hc
    change (if ∃ m, P.numChildren p = .ok (some m) ∧ i + 1 < m then P.unwrapChild p (i + 1)
      else .error .panic) = _ at hc
    rw [if_pos ⟨_, hn, hi⟩] at hc
    change (if ∃ n, P.numChildren p = .ok (some n) ∧ i + 1 < n ∧ P.unwrapChild p (i + 1) = .ok c
      then P.unwrapPrevSibling c p i else .error .panic) =
      (if ∃ m, P.numChildren p = .ok (some m) ∧ i < m then P.unwrapChild p i else .error .panic)
    rw [if_pos ⟨_, hn, hi, hc⟩, if_pos ⟨_, hn, by omega⟩]
    exact law.prev p n i c hn hi hc
  id_no_panic := law.id_no_panic
  notn_no_panic := law.notn_no_panic
  condition_no_panic := by
    rintro p c ⟨q, a, h1, h2, h3⟩
    rw [strict_childOf] at h3
    have hu : P.ChecksCond p c := ⟨q, a, h1, h2, h3⟩
    change (if P.ChecksCond p c then P.condition p c else .error .panic) ≠ _
    rw [if_pos hu]
    exact law.condition_no_panic p c hu
  lookupStyle_no_panic := by
    intro p l (hu : P.UsesLabel p l)
    change (if P.UsesLabel p l then P.lookupStyle p l else .error .panic) ≠ _
    rw [if_pos hu]
    exact law.lookupStyle_no_panic p l hu
  nodeStyle_no_panic := law.nodeStyle_no_panic
  numChildren_no_panic := law.numChildren_no_panic
  unwrapText_no_panic := by
    intro p (hn : P.numChildren p = .ok none)
    change (if P.numChildren p = .ok none then P.unwrapText p else .error .panic) ≠ _
    rw [if_pos hn]
    exact law.unwrapText_no_panic p hn
  unwrapChild_no_panic := by
    intro p n i hn hi
    change (if ∃ n, P.numChildren p = .ok (some n) ∧ i < n then P.unwrapChild p i
      else .error .panic) ≠ _
    rw [if_pos ⟨_, hn, hi⟩]
    exact law.unwrapChild_no_panic p n i hn hi

/-- **C14.**  No method is ever called outside of its contract: printing a document whose methods
    panic as soon as that happens never panics, whatever is printed and however many lines are
    taken. -/
theorem C14_contract (law : P.Lawful) (doc : P.Node) (w : Nat) (path : List Nat)
    (target : FocusTarget) (style : Option P.Style) :
    Returns (prettyPrint (P := P.strict) doc w path target style) ∧
    Returns (prettyPrintToString (P := P.strict) doc w) ∧
    ∀ r, prettyPrint (P := P.strict) doc w path target style = Exec.ofRes (.ok r) →
      (∀ n, Returns (takeLines Printer.nextUp n r.up)) ∧
      (∀ n, Returns (takeLines Printer.nextDown n r.down)) :=
  ⟨C13_pretty_print_returns law.strict doc w path target style,
   C13_to_string_returns law.strict doc w,
   fun _ h => ⟨(C13_iterators_return law.strict h).1, (C13_iterators_return law.strict h).2.1⟩⟩

section
open Ex
/-- C13 and C14 apply to the sample document type, whose methods do panic outside of the contract. -/
example : exP.Lawful ∧ exP.unwrapText exDoc = .error .panic ∧ exP.unwrapChild exDoc 2 = .error .panic :=
  ⟨exLaw, rfl, rfl⟩
end

/-! ### Widths -/

theorem lines_segs {Φ : Segment P → Prop} (T : List (Tok P)) : ∀ {cur : List (Segment P)},
    (∀ s ∈ cur, Φ s) → (∀ x, .text x ∈ T → Φ x.segment) → (∀ ind, .nl ind ∈ T → ∀ s ∈ ind, Φ s) →
    ∀ l ∈ linesFrom cur T, ∀ s ∈ l, Φ s := by
  induction T with
  | nil =>
    intro cur h1 h2 h3 l hl
    simp only [linesFrom, List.mem_singleton] at hl
    subst hl; exact h1
  | cons tok T ih =>
    intro cur h1 h2 h3
    have h2' : ∀ x, .text x ∈ T → Φ x.segment := fun x hx => h2 x (by simp [hx])
    have h3' : ∀ ind, .nl ind ∈ T → ∀ s ∈ ind, Φ s := fun i hi => h3 i (by simp [hi])
    cases tok with
    | text x =>
      refine ih ?_ h2' h3'
      intro s hs
      rcases List.mem_append.1 hs with hs | hs
      · exact h1 s hs
      · simp only [List.mem_singleton] at hs; subst hs; exact h2 x (by simp)
    | nl ind =>
      intro l hl
      simp only [linesFrom, List.mem_cons] at hl
      rcases hl with rfl | hl
      · exact h1
      · exact ih (h3 ind (by simp)) h2' h3' l hl
    | eol => exact ih h1 h2' h3'
    | mark i => exact ih h1 h2' h3'

/-- **C37.**  In everything that is printed, the width recorded in a segment is the column width of
    its string; so the widths of lines are the sums of the column widths of their strings. -/
theorem C37_segment_widths (law : P.Lawful) {doc : P.Node} {w path target style o}
    (hfocus : FocusOk P doc target) (h : printAll doc w path target style = Exec.ofRes (.ok o)) :
    (∀ l ∈ o.lines, ∀ s ∈ l, s.width = P.strWidth s.str) ∧
    (∀ l ∈ o.above, l.width = (l.segments.map fun s => P.strWidth s.str).sum) ∧
    o.focused.leftWidth = (o.focused.leftSegments.map fun s => P.strWidth s.str).sum ∧
    o.focused.rightWidth = (o.focused.rightSegments.map fun s => P.strWidth s.str).sum ∧
    (∀ l ∈ o.below, l.width = (l.segments.map fun s => P.strWidth s.str).sum) := by
  have key : ∀ l ∈ o.lines, ∀ s ∈ l, s.width = P.strWidth s.str := by
    obtain ⟨id, L, hL⟩ := layout_of_printAll law hfocus h
    obtain ⟨t, hr, hl⟩ := docLayout_ok law hL
    have hf := rootTree_failIn law doc style
    rw [hr] at hf
    have hlv := layoutDoc_leaves hf hl
    obtain ⟨r, ups, downs, h1, h2, h3, rfl⟩ := printAll_inv h
    rcases print_ok (I := False) law hr hl path hfocus (fun h => h.elim) with
        ⟨r', ups', downs', T0, id', nodeT, afterT, B, A, g1, g2, g3, g4, g5, g6, g7, _⟩ |
        ⟨j, g, _⟩ | ⟨e, g, _⟩
    · rw [h1] at g1
      have := Exec.ofRes_inj g1
      simp at this
      subst this
      rw [h2] at g2
      have := Exec.ofRes_inj g2
      simp at this
      subst this
      rw [h3] at g3
      have := Exec.ofRes_inj g3
      simp at this
      subst this
      have hlines : (Output.lines ⟨ups.reverse, r.focused, downs⟩) = linesOf (T0 ++ (B ++ A)) := by
        rw [← List.append_assoc, ← g7]; rfl
      rw [hlines]
      have htok : ∀ tok ∈ T0 ++ (B ++ A), (∀ x, tok = .text x → x.width = P.strWidth x.str) ∧
          (∀ ind, tok = .nl ind → ∀ s ∈ ind, s.width = P.strWidth s.str) := by
        intro tok htok
        rw [g4] at hlv
        have hof : tok ∈ T0 ++ (nodeT ++ afterT) → (∀ x, tok = .text x → x.width = P.strWidth x.str) ∧
          (∀ ind, tok = .nl ind → ∀ s ∈ ind, s.width = P.strWidth s.str) := fun hm =>
            ⟨fun x hx => ((hlv tok hm).1 x hx).1, fun ind hi => (hlv tok hm).2 ind hi⟩
        rcases List.mem_append.1 htok with hm | hm
        · exact hof (by simp [hm])
        · cases target with
          | start =>
            simp only [focusToks, Except.ok.injEq, Prod.mk.injEq] at g5
            obtain ⟨rfl, rfl⟩ := g5
            exact hof (List.mem_append_right _ (by simpa using hm))
          | «end» =>
            simp only [focusToks, Except.ok.injEq, Prod.mk.injEq] at g5
            obtain ⟨rfl, rfl⟩ := g5
            exact hof (List.mem_append_right _ hm)
          | mark =>
            simp only [focusToks] at g5
            cases hs : splitAtTok (Tok.isMark id') (nodeT ++ afterT) with
            | none => rw [hs] at g5; simp at g5
            | some q =>
              rw [hs] at g5
              obtain ⟨b, x, a⟩ := q
              simp only [Except.ok.injEq, Prod.mk.injEq] at g5
              obtain ⟨rfl, rfl⟩ := g5
              obtain ⟨h, _⟩ := splitAtTok_eq hs
              refine hof (List.mem_append_right _ ?_)
              rw [h]
              rcases List.mem_append.1 hm with hm | hm <;> simp [hm]
          | text pos =>
            simp only [focusToks] at g5
            cases hs : splitAtTok Tok.isDocText (nodeT ++ afterT) with
            | none => rw [hs] at g5; simp at g5
            | some q =>
              rw [hs] at g5
              obtain ⟨b, x, a⟩ := q
              obtain ⟨h, hx, _⟩ := splitAtTok_eq hs
              cases x with
              | text x =>
                simp only [Except.ok.injEq, Prod.mk.injEq] at g5
                obtain ⟨rfl, rfl⟩ := g5
                simp only [List.append_assoc, List.singleton_append, List.mem_append, List.mem_cons] at hm
                rcases hm with hm | rfl | rfl | hm
                · refine hof (List.mem_append_right _ ?_)
                  rw [h]; simp [hm]
                · exact ⟨fun x hx => by cases hx; rfl, fun _ hi => by cases hi⟩
                · exact ⟨fun x hx => by cases hx; rfl, fun _ hi => by cases hi⟩
                · refine hof (List.mem_append_right _ ?_)
                  rw [h]; simp [hm]
              | _ => simp [Tok.isDocText] at hx
      refine lines_segs _ (fun s hs => by simp at hs) ?_ ?_
      · intro x hx; exact (htok _ hx).1 x rfl
      · intro ind hi; exact (htok _ hi).2 ind rfl
    · rw [h1] at g; exact absurd (Exec.ofRes_inj g) (by simp)
    · rw [h1] at g; exact absurd (Exec.ofRes_inj g) (by simp)
  have hsum : ∀ segs : List (Segment P), (∀ s ∈ segs, s.width = P.strWidth s.str) →
      segsWidth segs = (segs.map fun s => P.strWidth s.str).sum := by
    intro segs hs
    unfold segsWidth
    rw [List.map_congr_left hs]
  refine ⟨key, ?_, ?_, ?_, ?_⟩
  · intro l hl
    exact hsum _ (key _ (by unfold Output.lines; simp only [List.mem_append, List.mem_map]; exact .inl (.inl ⟨l, hl, rfl⟩)))
  · exact hsum _ fun s hs => key (o.focused.leftSegments ++ o.focused.rightSegments)
      (by simp [Output.lines]) s (by simp [hs])
  · exact hsum _ fun s hs => key (o.focused.leftSegments ++ o.focused.rightSegments)
      (by simp [Output.lines]) s (by simp [hs])
  · intro l hl
    exact hsum _ (key _ (by unfold Output.lines; simp only [List.mem_append, List.mem_map]; exact .inr ⟨l, hl, rfl⟩))

theorem foldl_str (segs : List (Segment P)) : ∀ acc : String,
    segs.foldl (fun acc seg => acc ++ seg.str) acc = acc ++ segsString segs := by
  unfold segsString
  induction segs with
  | nil => simp
  | cons s segs ih =>
    intro acc
    simp only [List.foldl_cons]
    rw [ih, ih ("" ++ s.str)]
    simp [String.append_assoc]

/-- **C37** (conversion).  Turning a `FocusedLine` into a `Line` keeps its text and its width, which are
    those of its two halves together. -/
theorem C37_focused_to_line (l : FocusedLine P) :
    l.toLine.toString = l.toLeftString ++ l.toRightString ∧ l.toString = l.toLine.toString ∧
    l.toLine.width = l.leftWidth + l.rightWidth ∧ l.width = l.toLine.width := by
  refine ⟨?_, rfl, ?_, rfl⟩
  · unfold FocusedLine.toLine Line.toString FocusedLine.toLeftString FocusedLine.toRightString
    conv => lhs; unfold segsString
    rw [List.foldl_append, foldl_str, foldl_str]
    simp
  · simp [FocusedLine.toLine, Line.width, FocusedLine.leftWidth, FocusedLine.rightWidth, segsWidth]

end PPP
