import Verif.Props.Example
/-
C01, C02, C08, C40: what is printed, and that it does not depend on the focus.
-/
namespace PPP
variable {P : PrettyDoc}

theorem bind_ok_inv {E α β : Type} {x : Exec E α} {f : α → Exec E β} {b : β}
    (h : x >>= f = Exec.ofRes (.ok b)) : ∃ a, x = Exec.ofRes (.ok a) ∧ f a = Exec.ofRes (.ok b) := by
  rcases exec_cases x with hx | ⟨r, rfl⟩
  · have h' := congrArg (fun x => ExceptT.run x) h
    simp only [Exec.run_bind, hx] at h'
    simp [Exec.ofRes, ExceptT.run, ExceptT.mk] at h'
  · match r with
    | .ok a => exact ⟨a, rfl, h⟩
    | .error e => rw [Exec.ofRes_error_bind] at h; exact absurd (Exec.ofRes_inj h) (by simp)

theorem printAll_inv {doc : P.Node} {w path target style o}
    (h : printAll doc w path target style = Exec.ofRes (.ok o)) :
    ∃ r ups downs, prettyPrint doc w path target style = Exec.ofRes (.ok r) ∧
      drain Printer.nextUp r.up = Exec.ofRes (.ok ups) ∧
      drain Printer.nextDown r.down = Exec.ofRes (.ok downs) ∧ o = ⟨ups.reverse, r.focused, downs⟩ := by
  unfold printAll at h
  obtain ⟨r, h1, h⟩ := bind_ok_inv h
  obtain ⟨ups, h2, h⟩ := bind_ok_inv h
  obtain ⟨downs, h3, h⟩ := bind_ok_inv h
  have := Exec.ofRes_inj h
  simp at this
  exact ⟨r, ups, downs, h1, h2, h3, this.symm⟩

theorem printAll_of {doc : P.Node} {w path target style r ups downs}
    (h1 : prettyPrint doc w path target style = Exec.ofRes (.ok r))
    (h2 : drain Printer.nextUp r.up = Exec.ofRes (.ok ups))
    (h3 : drain Printer.nextDown r.down = Exec.ofRes (.ok downs)) :
    printAll doc w path target style = Exec.ofRes (.ok ⟨ups.reverse, r.focused, downs⟩) := by
  unfold printAll
  rw [h1, Exec.ofRes_ok_bind, h2, Exec.ofRes_ok_bind, h3]
  rfl

theorem docLayout_cases (law : P.Lawful) (doc : P.Node) (w : Nat) (style : Option P.Style) :
    (∃ f, rootTree law doc style = .error f ∧ docLayout law doc w style = .error f) ∨
    ∃ id t, rootTree law doc style = .ok (id, t) ∧
      ((∃ L, t.layoutDoc w id = .ok L ∧ docLayout law doc w style = .ok (id, L)) ∨
       (∃ f, t.layoutDoc w id = .error f ∧ docLayout law doc w style = .error f)) := by
  unfold docLayout
  cases hr : rootTree law doc style with
  | error f => exact .inl ⟨f, rfl, rfl⟩
  | ok r =>
    obtain ⟨id, t⟩ := r
    refine .inr ⟨id, t, rfl, ?_⟩
    cases hl : t.layoutDoc w id with
    | ok L => exact .inl ⟨L, rfl, by simp [Except.bind_eq, hl]⟩
    | error f => exact .inr ⟨f, rfl, by simp [Except.bind_eq, hl]⟩

theorem docLayout_ok (law : P.Lawful) {doc : P.Node} {w : Nat} {style : Option P.Style} {id L}
    (h : docLayout law doc w style = .ok (id, L)) :
    ∃ t, rootTree law doc style = .ok (id, t) ∧ t.layoutDoc w id = .ok L := by
  rcases docLayout_cases law doc w style with ⟨f, _, h2⟩ | ⟨id', t, h1, ⟨L', h2, h3⟩ | ⟨f, h2, h3⟩⟩
  · rw [h] at h2; simp at h2
  · rw [h] at h3; simp at h3; obtain ⟨rfl, rfl⟩ := h3; exact ⟨t, h1, h2⟩
  · rw [h] at h3; simp at h3

/-- If printing to the end succeeds, then the layout exists. -/
theorem layout_of_printAll (law : P.Lawful) {doc : P.Node} {w path target style o}
    (hfocus : FocusOk P doc target)
    (h : printAll doc w path target style = Exec.ofRes (.ok o)) :
    ∃ id L, docLayout law doc w style = .ok (id, L) := by
  obtain ⟨r, ups, downs, h1, h2, h3, rfl⟩ := printAll_inv h
  rcases docLayout_cases law doc w style with ⟨f, hr, _⟩ | ⟨id', t, hr, ⟨L', g2, g3⟩ | ⟨f, g2, g3⟩⟩
  · rw [print_root_error law hr] at h1; exact absurd (Exec.ofRes_inj h1) (by simp)
  · exact ⟨_, _, g3⟩
  · exact (print_error law hr g2 path hfocus h1 h2 h3).elim

theorem focusOk_start (doc : P.Node) : FocusOk P doc .start := .inl (by simp)

/-- With an empty path and `FocusTarget::Start`, nothing is before the focus. -/
theorem prettyPrint_start_nothing_before (law : P.Lawful) {doc : P.Node} {style id t} {w : Nat}
    (hr : rootTree law doc style = .ok (id, t)) {r}
    (h : prettyPrint doc w [] .start style = Exec.ofRes (.ok r)) :
    drain Printer.nextUp r.up = Exec.ofRes (.ok []) ∧ r.focused.leftSegments = [] := by
  have hf := rootTree_failIn law doc style
  rw [hr] at hf
  obtain ⟨d, hd, hrep⟩ := rootTree_rep law doc style hr
  unfold prettyPrint at h
  have hnew : Printer.new (P := P) w = Exec.ofRes (.ok ⟨w, [], [⟨[], 0, false, []⟩]⟩) := by
    simp [Printer.new, Block.new, segsWidth, Exec.pure_eq]
  rw [hnew] at h
  simp only [Exec.ofRes_ok_bind] at h
  obtain ⟨p, h1, h⟩ := bind_ok_inv h
  have hp : p.prev = [] ∧ ∃ b bs, p.next = b :: bs ∧ b.segments = [] := by
    unfold Printer.seek at h1
    rw [hd, Exec.ofRes_ok_bind] at h1
    obtain ⟨chunk, h2, h1⟩ := bind_ok_inv h1
    have hc := Chunk.new_sat_ok hrep
    rw [h2] at hc
    simp only [Printer.seekPath, Exec.pure_bind', Printer.seekStart] at h1
    obtain ⟨r', h3, h1⟩ := bind_ok_inv h1
    have he := expandFirst_sat (docPred P doc) docPred_ok.overflow (ys := []) hc
      (⟨rfl, rfl, rfl, [], [], rfl, .nil, .nil⟩ :
        FirstR [] ⟨[], 0, false, []⟩ [] ⟨0, false⟩ []) hf
    rw [h3] at he
    obtain ⟨s, _, he⟩ := he
    have := Exec.ofRes_inj h1
    simp at this
    subst this
    exact ⟨rfl, _, _, rfl, he.segs⟩
  obtain ⟨hp1, b, bs, hp2, hp3⟩ := hp
  rw [hp2] at h
  simp only [Printer.printNextLine, hp2] at h
  obtain ⟨⟨line, p'⟩, h2, h⟩ := bind_ok_inv h
  obtain ⟨⟨line', next'⟩, h3, h2⟩ := bind_ok_inv h2
  have := Exec.ofRes_inj h2
  simp at this
  obtain ⟨rfl, rfl⟩ := this
  simp only [hp3, List.length_nil, Nat.not_lt_zero, gt_iff_lt, if_false, List.take_zero] at h
  have := Exec.ofRes_inj h
  simp at this
  subst this
  refine ⟨?_, rfl⟩
  rw [drain_eq]
  simp only [Printer.nextUp, Printer.printPrevLine, hp1]
  rfl

/-- **C01.**  `pretty_print_to_string` returns the lines of the greedy layout, joined by newlines,
    when that layout exists, and an error otherwise. -/
theorem C01_to_string_is_layout (law : P.Lawful) (doc : P.Node) (w : Nat) :
    match docLayout law doc w none with
    | .ok (_, L) => prettyPrintToString doc w = Exec.ofRes (.ok (linesString (linesOf L.toks)))
    | .error _ => ∃ e, prettyPrintToString doc w = Exec.ofRes (.error e) := by
  rcases docLayout_cases law doc w none with ⟨f, hr, h2⟩ | ⟨id, t, hr, ⟨L, hl, h2⟩ | ⟨f, hl, h2⟩⟩
  · rw [h2]
    refine ⟨f, ?_⟩
    unfold prettyPrintToString
    rw [print_root_error law hr]; rfl
  · rw [h2]
    rcases print_ok (I := False) law hr hl [] (focusOk_start doc) (fun h => h.elim) with
      ⟨r, ups, downs, T0, id', nodeT, afterT, B, A, h1, hu, hd, h4, h5, h6, h7, _⟩ |
      ⟨j, _, hj, _⟩ | ⟨e, _, ⟨⟨⟩, _⟩ | ⟨⟨_, ⟨⟩⟩, _⟩, _⟩
    · -- nothing is before the start
      have hcore : ups = [] ∧ r.focused.leftSegments = [] := by
        obtain ⟨this, hl'⟩ := prettyPrint_start_nothing_before law hr h1
        rw [hu] at this
        have := Exec.ofRes_inj this
        simp at this
        exact ⟨this, hl'⟩
      obtain ⟨rfl, hleft⟩ := hcore
      simp only [List.reverse_nil, List.map_nil, List.nil_append, hleft, List.singleton_append] at h7
      have hT : linesOf (T0 ++ B ++ A) = linesOf L.toks := by
        rw [h4]
        exact (focusToks_lines h5 T0).2.1 (by simp)
      rw [hT] at h7
      simp only
      unfold prettyPrintToString
      rw [h1, Exec.ofRes_ok_bind, toStringLoop_of_drain _ hd, linesString, ← h7]
      simp only [FocusedLine.toString, hleft, List.nil_append, List.map_cons, List.map_map]
      rfl
    · simp at hj
  · rw [h2]
    simp only
    have hterm : Sat (prettyPrintToString doc w)
        (fun _ => ∃ r lines, prettyPrint doc w [] .start none = Exec.ofRes (.ok r) ∧
          drain Printer.nextDown r.down = Exec.ofRes (.ok lines)) (fun _ => True) := by
      have hf := rootTree_failIn law doc none
      rw [hr] at hf
      have hs := print_terminates law hr docPred_ok hf w [] .start
      unfold prettyPrintToString
      rcases hs.exists_res with ⟨r, h1, h3, h4, h5⟩ | ⟨e, h1, _⟩
      · rw [h1, Exec.ofRes_ok_bind]
        exact (h5 _).mono (fun _ ⟨lines, h⟩ => ⟨r, lines, rfl, h⟩) (fun _ _ => trivial)
      · rw [h1]; trivial
    rcases hterm.exists_res with ⟨s, _, r, lines, h1, h3⟩ | ⟨e, h1, _⟩
    · exfalso
      obtain ⟨hu, _⟩ := prettyPrint_start_nothing_before law hr h1
      exact print_error law hr hl [] (focusOk_start doc) h1 hu h3
    · exact ⟨e, h1⟩

section
open Ex
/-- C01 at two widths. -/
example : prettyPrintToString (P := exP) exDoc 9 = Exec.ofRes (.ok "[aa, bbb]") := by
  have h := C01_to_string_is_layout exLaw exDoc 9
  rw [exLayout_wide] at h
  rw [h]; rfl
example : prettyPrintToString (P := exP) exDoc 8 = Exec.ofRes (.ok "[aa,\nbbb]") := by
  have h := C01_to_string_is_layout exLaw exDoc 8
  rw [exLayout_narrow] at h
  rw [h]; rfl
end

/-- **C01**, as an equivalence. -/
theorem C01_to_string_iff (law : P.Lawful) (doc : P.Node) (w : Nat) (s : String) :
    prettyPrintToString doc w = Exec.ofRes (.ok s) ↔
      ∃ id L, docLayout law doc w none = .ok (id, L) ∧ s = linesString (linesOf L.toks) := by
  have h := C01_to_string_is_layout law doc w
  cases hd : docLayout law doc w none with
  | error f =>
    rw [hd] at h
    obtain ⟨e, h⟩ := h
    rw [h]
    constructor
    · intro h'; exact absurd (Exec.ofRes_inj h') (by simp)
    · rintro ⟨_, _, h', _⟩; simp at h'
  | ok r =>
    obtain ⟨id, L⟩ := r
    rw [hd] at h
    simp only at h
    rw [h]
    constructor
    · intro h'
      have := Exec.ofRes_inj h'
      simp at this
      exact ⟨id, L, rfl, this.symm⟩
    · rintro ⟨_, _, h', rfl⟩
      simp at h'
      obtain ⟨rfl, rfl⟩ := h'
      rfl

/-- A successful print to the end, in terms of the layout. -/
theorem printAll_layout (law : P.Lawful) {doc : P.Node} {w path target style o id L}
    (hfocus : FocusOk P doc target)
    (h : printAll doc w path target style = Exec.ofRes (.ok o))
    (hL : docLayout law doc w style = .ok (id, L)) :
    ∃ T0 id' nodeT afterT B A, L.toks = T0 ++ (nodeT ++ afterT) ∧
      focusToks target id' nodeT afterT = .ok (B, A) ∧
      o.beforeFocus = linesOf (T0 ++ B) ∧ o.lines = linesOf (T0 ++ B ++ A) ∧
      (P.IdsOnPaths doc → ∃ l, L.locate id path = .ok l ∧ l.before = T0 ∧ l.id = id' ∧
        l.node.toks = nodeT ∧ l.after = afterT) := by
  obtain ⟨t, hr, hl⟩ := docLayout_ok law hL
  obtain ⟨r, ups, downs, h1, h2, h3, rfl⟩ := printAll_inv h
  rcases print_ok (I := P.IdsOnPaths doc) law hr hl path hfocus (fun h => h) with
    ⟨r', ups', downs', T0, id', nodeT, afterT, B, A, g1, g2, g3, g4, g5, g6, g7, g8⟩ |
    ⟨j, g1, _⟩ | ⟨e, g1, _⟩
  · rw [h1] at g1
    have := Exec.ofRes_inj g1
    simp at this
    subst this
    rw [h2] at g2
    have := Exec.ofRes_inj g2
    simp at this
    subst this
    rw [h3] at g3
    have := Exec.ofRes_inj g3
    simp at this
    subst this
    exact ⟨T0, id', nodeT, afterT, B, A, g4, g5, g6, g7, g8⟩
  · rw [h1] at g1; exact absurd (Exec.ofRes_inj g1) (by simp)
  · rw [h1] at g1; exact absurd (Exec.ofRes_inj g1) (by simp)

theorem layout_texts_additive (law : P.Lawful) {doc : P.Node} {w style id L}
    (hA : P.TextsAdditive doc) (hL : docLayout law doc w style = .ok (id, L)) (pos : Nat) :
    ∀ t ∈ L.toks, ∀ x, t = .text x → x.isFromText = true →
      (x.splitAt pos).1.width + (x.splitAt pos).2.width = x.width := by
  obtain ⟨t, hr, hl⟩ := docLayout_ok law hL
  have hf := rootTree_failIn law doc style
  rw [hr] at hf
  intro tok htok x hx hfrom
  have hq := (layoutDoc_leaves hf hl tok htok).1 x hx
  exact (docPred_tgtOk doc (docPred P doc).fail (.text pos)).add pos rfl (.inr hA) x hq hfrom

/-- **C02.**  If printing succeeds, the document has a layout, and whatever the focus was, the lines
    that are printed are exactly those of the layout.  (With `FocusTarget::Text`, one segment is cut
    in two by the focus, so the lines are compared by their styled characters and widths.) -/
theorem C02_focus_independent (law : P.Lawful) {doc : P.Node} {w path target style o}
    (hfocus : FocusOk P doc target)
    (h : printAll doc w path target style = Exec.ofRes (.ok o)) :
    ∃ id L, docLayout law doc w style = .ok (id, L) ∧
      o.lines.map styledChars = (linesOf L.toks).map styledChars ∧
      o.lines.map segsWidth = (linesOf L.toks).map segsWidth ∧
      ((∀ pos, target ≠ .text pos) → o.lines = linesOf L.toks) := by
  obtain ⟨id, L, hL⟩ := layout_of_printAll law hfocus h
  refine ⟨id, L, hL, ?_⟩
  obtain ⟨T0, id', nodeT, afterT, B, A, h1, h2, h3, h4, _⟩ := printAll_layout law hfocus h hL
  obtain ⟨g1, g2, g3⟩ := focusToks_lines h2 T0
  rw [h4, h1]
  refine ⟨g1, ?_, g2⟩
  refine g3 ?_
  intro pos hpos
  rcases hfocus with hne | hA
  · exact absurd hpos (hne pos)
  · intro t ht x hx hfrom
    exact layout_texts_additive law hA hL pos t (by rw [h1]; exact List.mem_append_right _ ht) x hx hfrom

/-- **C02**, without mentioning layouts: a print with any focus shows the same lines as a print
    focused at the start of the document. -/
theorem C02_same_as_from_start (law : P.Lawful) {doc : P.Node} {w path target style o}
    (hfocus : FocusOk P doc target)
    (h : printAll doc w path target style = Exec.ofRes (.ok o)) :
    ∃ o0, printAll doc w [] .start style = Exec.ofRes (.ok o0) ∧
      o0.above = [] ∧ o0.focused.leftSegments = [] ∧
      o.lines.map styledChars = o0.lines.map styledChars ∧
      o.lines.map segsWidth = o0.lines.map segsWidth ∧
      ((∀ pos, target ≠ .text pos) → o.lines = o0.lines) := by
  obtain ⟨id, L, hL, h1, h2, h3⟩ := C02_focus_independent law hfocus h
  obtain ⟨t, hr, hl⟩ := docLayout_ok law hL
  rcases print_ok (I := False) law hr hl [] (focusOk_start doc) (fun h => h.elim) with
      ⟨r, ups, downs, _, _, _, _, _, _, g1, g2, g3, _⟩ | ⟨j, _, hj, _⟩ | ⟨e, _, ⟨⟨⟩, _⟩ | ⟨⟨_, ⟨⟩⟩, _⟩, _⟩
  · obtain ⟨hu, hleft⟩ := prettyPrint_start_nothing_before law hr g1
    rw [g2] at hu
    have := Exec.ofRes_inj hu
    simp at this
    subst this
    have h0 := printAll_of g1 g2 g3
    obtain ⟨id', L', hL', _, _, k3⟩ := C02_focus_independent law (focusOk_start doc) h0
    rw [hL] at hL'
    simp at hL'
    obtain ⟨rfl, rfl⟩ := hL'
    refine ⟨_, h0, rfl, hleft, ?_, ?_, ?_⟩
    · rw [k3 (by simp)]; exact h1
    · rw [k3 (by simp)]; exact h2
    · rw [k3 (by simp)]; exact h3
  · simp at hj

section
open Ex
/-- The hypotheses of C02 are met: this is a successful print, focused on the second child's text. -/
example : FocusOk exP exDoc (.text 1) ∧ ∃ o, printAll (P := exP) exDoc 8 [1] (.text 1) none = Exec.ofRes (.ok o) := by
  refine ⟨.inr exAdditive, ?_⟩
  obtain ⟨t, hr, hl⟩ := docLayout_ok exLaw exLayout_narrow
  rcases print_ok (I := True) exLaw hr hl [1] (target := .text 1) (.inr exAdditive) (fun _ => exIds) with
      ⟨r, ups, downs, _, _, _, _, _, _, g1, g2, g3, _⟩ | ⟨j, g, _, h⟩ | ⟨e, g, _, h⟩
  · exact ⟨_, printAll_of g1 g2 g3⟩
  · cases h trivial
  · obtain ⟨l, h1, h2⟩ := h trivial
    cases h1
    cases h2
end

/-- The lines an upward/downward iterator still has to give. -/
def UpLines (p : Printer P) (lines : List (Line P)) : Prop :=
  drain Printer.nextUp p = Exec.ofRes (.ok lines)
@[inherit_doc UpLines]
def DownLines (p : Printer P) (lines : List (Line P)) : Prop :=
  drain Printer.nextDown p = Exec.ofRes (.ok lines)

/-- **C08** (upward).  Calling `next` `n` times on the upward iterator gives the `n` lines nearest to
    the focus, the same ones as draining it; when there are no more lines it gives `None`, again and
    again; and the iterator is left with the remaining lines. -/
theorem C08_up_iterator {p : Printer P} {lines : List (Line P)} (h : UpLines p lines) (n : Nat) :
    ∃ p', takeLines Printer.nextUp n p = Exec.ofRes (.ok
        ((lines.map some).take n ++ List.replicate (n - lines.length) none, p')) ∧
      UpLines p' (lines.drop n) :=
  takeLines_of_drain nextUp_none n h

/-- **C08** (downward). -/
theorem C08_down_iterator {p : Printer P} {lines : List (Line P)} (h : DownLines p lines) (n : Nat) :
    ∃ p', takeLines Printer.nextDown n p = Exec.ofRes (.ok
        ((lines.map some).take n ++ List.replicate (n - lines.length) none, p')) ∧
      DownLines p' (lines.drop n) :=
  takeLines_of_drain nextDown_none n h

/-- **C08**: an iterator that has returned `None` returns `None` forever (for every document,
    lawful or not). -/
theorem C08_fused (p p' : Printer P) :
    (p.nextUp = Exec.ofRes (.ok (none, p')) → p'.nextUp = Exec.ofRes (.ok (none, p'))) ∧
    (p.nextDown = Exec.ofRes (.ok (none, p')) → p'.nextDown = Exec.ofRes (.ok (none, p'))) := by
  constructor
  · intro h; obtain rfl := nextUp_none h; exact h
  · intro h; obtain rfl := nextDown_none h; exact h

section
open Ex
/-- The hypotheses of C08 are met by the iterators of a real print (focused on the end of the second
    child, so that there is one line above and none below). -/
example : ∃ r u, prettyPrint (P := exP) exDoc 8 [1] .end none = Exec.ofRes (.ok r) ∧
    UpLines r.up [u] ∧ DownLines r.down [] := by
  obtain ⟨t, hr, hl⟩ := docLayout_ok exLaw exLayout_narrow
  rcases print_ok (I := True) exLaw hr hl [1] (target := .end) (.inl (by simp)) (fun _ => exIds) with
      ⟨r, ups, downs, _, _, _, _, _, _, g1, g2, g3, g4, g5, g6, g7, g8⟩ | ⟨j, g, _, h⟩ | ⟨e, g, _, h⟩
  · obtain ⟨l, h1, rfl, rfl, rfl, rfl⟩ := g8 trivial
    cases h1
    cases g5
    have hu : ups.length = 1 := by
      have := congrArg List.length g6
      simpa [linesOf, linesFrom, LTree.toks] using this
    have hd : downs.length = 0 := by
      have := congrArg List.length g7
      simp only [linesOf, linesFrom, LTree.toks, List.length_append, List.length_map,
        List.length_reverse, hu, List.append_nil, List.nil_append, List.cons_append,
        List.length_cons, List.length_nil] at this
      omega
    obtain ⟨u, rfl⟩ := List.length_eq_one_iff.1 hu
    obtain rfl := List.eq_nil_of_length_eq_zero hd
    exact ⟨r, u, g1, g2, g3⟩
  · cases h trivial
  · obtain ⟨l, h1, h2⟩ := h trivial
    cases h2
end

/-- **C40.**  If the whole document can be laid out, then a print with any focus either refuses the
    focus (a path that is not displayed, a missing mark or a missing text), or succeeds, and then any
    number of lines can be taken in both directions without any error. -/
theorem C40_partial_print_no_errors (law : P.Lawful) {doc : P.Node} {w : Nat} {style id L}
    (hL : docLayout law doc w style = .ok (id, L)) (path : List Nat) {target : FocusTarget}
    (hfocus : FocusOk P doc target) :
    (∃ r, prettyPrint doc w path target style = Exec.ofRes (.ok r) ∧
      ∀ n m, (∃ x, takeLines Printer.nextUp n r.up = Exec.ofRes (.ok x)) ∧
        (∃ x, takeLines Printer.nextDown m r.down = Exec.ofRes (.ok x))) ∨
    (∃ e, prettyPrint doc w path target style = Exec.ofRes (.error (.err e)) ∧
      ((∃ i, e = .invalidPath i ∧ i ∈ path) ∨ (e = .missingFocusMark ∧ target = .mark) ∨
        (e = .missingText ∧ ∃ pos, target = .text pos))) := by
  obtain ⟨t, hr, hl⟩ := docLayout_ok law hL
  rcases print_ok (I := False) law hr hl path hfocus (fun h => h.elim) with
      ⟨r, ups, downs, _, _, _, _, _, _, g1, g2, g3, _⟩ | ⟨j, g, hj, _⟩ | ⟨e, g, h, _⟩
  · refine .inl ⟨r, g1, fun n m => ⟨?_, ?_⟩⟩
    · obtain ⟨_, h, _⟩ := takeLines_of_drain nextUp_none n g2
      exact ⟨_, h⟩
    · obtain ⟨_, h, _⟩ := takeLines_of_drain nextDown_none m g3
      exact ⟨_, h⟩
  · exact .inr ⟨_, g, .inl ⟨j, rfl, hj⟩⟩
  · refine .inr ⟨_, g, .inr ?_⟩
    rcases h with ⟨h1, h2⟩ | ⟨h1, h2⟩
    · exact .inl ⟨h2, h1⟩
    · exact .inr ⟨h2, h1⟩

/-- **C40**, with the lines: each line taken is a line of the layout.  Taking `n` lines up and `m`
    lines down from a focus shows exactly the lines of the layout around the focused one. -/
theorem C40_partial_print_lines (law : P.Lawful) {doc : P.Node} {w : Nat} {style id L}
    (hL : docLayout law doc w style = .ok (id, L)) {path : List Nat} {target : FocusTarget}
    (hfocus : FocusOk P doc target) {r}
    (hp : prettyPrint doc w path target style = Exec.ofRes (.ok r)) (n m : Nat) :
    ∃ above focused below pu pd,
      above ++ [focused] ++ below = (linesOf L.toks).map styledChars ∧
      takeLines Printer.nextUp n r.up = Exec.ofRes (.ok pu) ∧
      takeLines Printer.nextDown m r.down = Exec.ofRes (.ok pd) ∧
      pu.1.map (Option.map fun l => styledChars l.segments) =
        (above.reverse.map some).take n ++ List.replicate (n - above.length) none ∧
      styledChars (r.focused.leftSegments ++ r.focused.rightSegments) = focused ∧
      pd.1.map (Option.map fun l => styledChars l.segments) =
        (below.map some).take m ++ List.replicate (m - below.length) none := by
  obtain ⟨t, hr, hl⟩ := docLayout_ok law hL
  rcases print_ok (I := False) law hr hl path hfocus (fun h => h.elim) with
      ⟨r', ups, downs, _, _, _, _, _, _, g1, g2, g3, _⟩ | ⟨j, g, hj, _⟩ | ⟨e, g, h, _⟩
  · rw [hp] at g1
    have := Exec.ofRes_inj g1
    simp at this
    subst this
    obtain ⟨id', L', hL', k1, _, _⟩ := C02_focus_independent law hfocus (printAll_of hp g2 g3)
    rw [hL] at hL'
    simp at hL'
    obtain ⟨rfl, rfl⟩ := hL'
    obtain ⟨p1, e1, _⟩ := takeLines_of_drain nextUp_none n g2
    obtain ⟨p2, e2, _⟩ := takeLines_of_drain nextDown_none m g3
    refine ⟨ups.reverse.map (fun l => styledChars l.segments), _, downs.map (fun l => styledChars l.segments),
      _, _, ?_, e1, e2, ?_, rfl, ?_⟩
    · rw [← k1]
      simp [Output.lines, Function.comp_def]
    · simp [Function.comp_def, List.map_take, ← List.map_reverse]
    · simp [Function.comp_def, List.map_take]
  · rw [hp] at g; exact absurd (Exec.ofRes_inj g) (by simp)
  · rw [hp] at g; exact absurd (Exec.ofRes_inj g) (by simp)

end PPP
