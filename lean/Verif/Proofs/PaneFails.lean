import Verif.Proofs.Tiles
import Verif.Proofs.PaneOk
/-
Displaying panes: why it fails.
-/
namespace PPP
variable {S E L α β : Type} {P : PrettyDoc}

/-- If `m` returns then its result satisfies `post`, or it fails for a good reason. -/
def Outcome (m : PaneM S E α) (post : α → Prop) (why : PaneFail E → Prop) : Prop :=
  ∀ c r, m = some (c, r) → match r with
    | .ok a => post a
    | .error e => why e

theorem Outcome.pure {a : α} {post : α → Prop} {why} (h : post a) : Outcome (pure a : PaneM S E α) post why := by
  intro c r h'; cases h'; exact h

theorem Outcome.fail {e : PaneFail E} {post : α → Prop} {why} (h : why e) :
    Outcome (PaneM.fail e : PaneM S E α) post why := by
  intro c r h'; cases h'; exact h

theorem Outcome.bind {m : PaneM S E α} {f : α → PaneM S E β} {p : α → Prop} {q : β → Prop} {why} (h : Outcome m p why)
    (h' : ∀ a, p a → Outcome (f a) q why) : Outcome (m >>= f) q why := by
  intro c r hm
  rcases PaneM.bind_eq_some hm with ⟨e, h1, rfl⟩ | ⟨c1, a, c2, h1, h2, rfl⟩
  · exact h _ _ h1
  · exact h' a (h _ _ h1) _ _ h2

theorem Outcome.mono {m : PaneM S E α} {p q : α → Prop} {why why' : PaneFail E → Prop} (h : Outcome m p why)
    (hp : ∀ a, p a → q a) (hw : ∀ e, why e → why' e) : Outcome m q why' := by
  intro c r hm
  have := h c r hm
  cases r with
  | ok a => exact hp a this
  | error e => exact hw e this

theorem Succeeds.outcome {m : PaneM S E α} {p : α → Prop} {why} (h : Succeeds m p) : Outcome m p why := by
  intro c r hm
  obtain ⟨c', a, h1, h2⟩ := h
  rw [hm] at h1
  cases h1
  exact h2

theorem Outcome.addUpTo {max a b : Nat} {why : PaneFail E → Prop} (h : ¬ a + b ≤ max → why .overflow) :
    Outcome (addUpTo max a b : PaneM S E Nat) (· = a + b) why := by
  unfold PPP.addUpTo
  split
  · exact .pure rfl
  · exact .fail (h (by assumption))

theorem displayRows_ok (isFull : Char → Bool) (d : PrintedDoc P) (rect : Rectangle)
    (h1 : d.focusLineIndex ≤ d.focusLineRow) (h2 : d.focusLineRow ≤ 2 ^ 24) (h3 : d.lines.length ≤ 2 ^ 24)
    (hc : rect.minCol ≤ rect.maxCol) (hw : rect.maxCol + 2 ≤ maxWidth) :
    Succeeds (do
      let firstRow ← subU d.focusLineRow d.focusLineIndex
      let lastRow ← addUpTo maxHeight firstRow d.lines.length
      eachM (d.displayRow isFull rect firstRow lastRow) (rangeFrom 0 rect.height)) fun _ => True := by
  have hmax : maxHeight = 4294967295 := rfl
  refine .bind (.subU h1) ?_
  rintro _ rfl
  refine .bind (.addUpTo (by omega)) ?_
  rintro _ rfl
  refine .eachM fun i hi => ?_
  have hi : i < rect.height := (mem_rangeFrom.1 hi).2
  have hr : rect.minRow + i < rect.maxRow := by unfold Rectangle.height at hi; omega
  unfold PrintedDoc.displayRow
  split
  · obtain ⟨l, hl⟩ : ∃ l, d.lines[i - (d.focusLineRow - d.focusLineIndex)]? = some l :=
      ⟨_, List.getElem?_eq_getElem (by omega)⟩
    rw [hl]
    simp only
    rcases displayLine_spec isFull l i d.blankStyle hr hc with g | ⟨g, _⟩
    · exact ⟨_, _, g, trivial⟩
    · omega
  · exact ⟨_, _, displayBlankLine_spec i d.blankStyle hr isFull, trivial⟩

/-- A printed document that can be displayed in a window of the given width, unless the focus is too far to the
    right (`far`). -/
structure DocFair (d : PrintedDoc P) (width height : Nat) (far : Prop) : Prop where
  index : d.focusLineIndex ≤ d.focusLineRow
  row : d.focusLineRow ≤ 2 ^ 24
  lines : d.lines.length ≤ height
  point : ∀ r c, d.focusPoint = some (r, c) → r ≤ 2 ^ 24 ∧ (c + width ≤ maxWidth ∨ far)

theorem display_outcome (isFull : Char → Bool) (d : PrintedDoc P) (rect : Rectangle) {width : Nat} {far : Prop}
    (hd : DocFair d width (2 ^ 24) far) (hc : rect.minCol ≤ rect.maxCol) (hw : rect.maxCol ≤ width)
    (hmw : width + 2 ≤ maxWidth) (hr : rect.minRow ≤ 2 ^ 24) {why} (hwhy : far → why .overflow) :
    Outcome (d.display isFull rect) (fun _ => True) why := by
  have hmax : maxHeight = 4294967295 := rfl
  have hrows := (displayRows_ok isFull d rect hd.index hd.row hd.lines hc (by omega)).outcome (why := why)
  unfold PrintedDoc.display
  split
  · rename_i row col heq
    obtain ⟨g1, g2⟩ := hd.point row col heq
    refine .bind (.addUpTo fun h => absurd h (by omega)) ?_
    rintro _ rfl
    refine .bind (.addUpTo fun h => hwhy (g2.resolve_left fun h' => h (by omega))) ?_
    rintro _ rfl
    exact .bind (Succeeds.outcome (.call _)) fun _ _ => hrows
  · exact hrows

theorem Exec.bind_eq_ok {x : Exec E α} {f : α → Exec E β} {b : β} (h : (x >>= f) = Exec.ofRes (.ok b)) :
    ∃ a, x = Exec.ofRes (.ok a) ∧ f a = Exec.ofRes (.ok b) := by
  have h' := congrArg ExceptT.run h
  rw [Exec.run_bind] at h'
  cases hx : x.run with
  | none => rw [hx] at h'; cases h'
  | some r =>
    rw [hx] at h'
    cases r with
    | error e => cases h'
    | ok a => exact ⟨a, hx, h'⟩

theorem takeLines_length {next : Printer P → Exec P.Err (Option (Line P) × Printer P)} : ∀ (n : Nat) {p r},
    takeLines next n p = Exec.ofRes (.ok r) → r.1.length = n
  | 0, p, r, h => by cases Exec.ofRes_inj h; rfl
  | n + 1, p, r, h => by
    unfold takeLines at h
    obtain ⟨a, ha, h⟩ := Exec.bind_eq_ok h
    obtain ⟨b, hb, h⟩ := Exec.bind_eq_ok h
    have := takeLines_length n hb
    cases Exec.ofRes_inj h
    simpa using this

/-- How a pane fails when a document fails. -/
def Fail.toPane : Fail E → PaneFail E
  | .err e => .printing e
  | .panic => .panic
  | .overflow => .overflow

theorem Outcome.lift {x : Exec E α} {post : α → Prop} {why : PaneFail E → Prop}
    (h : ∀ a, x = Exec.ofRes (.ok a) → post a) (h' : ∀ f, x = Exec.ofRes (.error f) → why f.toPane) :
    Outcome (PaneM.lift x : PaneM S E α) post why := by
  intro c r hr
  unfold PaneM.lift at hr
  split at hr
  · cases hr
  · rename_i hx; cases hr; exact h _ hx
  all_goals rename_i hx; cases hr; exact h' _ hx

/-- Why printing a document fails. -/
def DocWhy (env : PaneEnv P L) (width : Nat) : PaneFail P.Err → Prop
  | .invalidUseOfDynamic => False
  | .printing e => DocFails env (.err e)
  | .panic => BadFocusHeight env ∨ DocFails env .panic
  | .overflow => FocusTooFar env width ∨ DocFails env .overflow

theorem DocWhy.of_fail {env : PaneEnv P L} {width : Nat} : ∀ {f : Fail P.Err}, DocFails env f → DocWhy env width f.toPane
  | .err _, h => h
  | .panic, h => .inr h
  | .overflow, h => .inr h

theorem length_filterMap_id_le {α : Type} (xs : List (Option α)) : (xs.filterMap id).length ≤ xs.length :=
  List.length_filterMap_le ..

theorem printedDoc_outcome {env : PaneEnv P L} {label : L} {doc o} {width w h : Nat} (style : P.Style)
    (hl : env.getContent label = some (doc, o)) (hh : h ≤ 2 ^ 24) :
    Outcome (PrintedDoc.new doc o w h style) (fun d => DocFair d width h (FocusTooFar env width)) (DocWhy env width) := by
  have hmax : maxHeight = 4294967295 := rfl
  unfold PrintedDoc.new
  split
  · exact .pure ⟨Nat.zero_le _, Nat.zero_le _, Nat.zero_le _, nofun⟩
  rename_i h0
  rw [not_or] at h0
  simp only [chooseWidth_eq]
  by_cases hq : ∃ q, o.focusHeight = some q ∧ 0 ≤ q ∧ q ≤ 1
  swap
  · intro c r hr
    rcases PaneM.bind_eq_some hr with ⟨e, h1, rfl⟩ | ⟨c1, a, c2, h1, h2, rfl⟩
    · have : e = .panic := by
        unfold PrintingOptions.chooseFocusLineRow at h1
        split at h1
        · cases h1; rfl
        · rename_i q hq'
          split at h1
          · cases h1; rfl
          · split at h1
            · cases h1; rfl
            · rename_i g1 g2
              exact absurd ⟨q, hq', not_not.1 g1, not_not.1 g2⟩ hq
      subst this
      exact .inl ⟨label, doc, o, hl, hq⟩
    · obtain ⟨_, q, k1, k2, k3, _⟩ := chooseFocusLineRow_val h1
      exact absurd ⟨q, k1, k2, k3⟩ hq
  obtain ⟨q, hq, q0, q1⟩ := hq
  have hrow := chooseFocusLineRow_ok (S := P.Style) (E := P.Err) hq q0 q1 (by omega : 1 ≤ h)
  have hlt := focusRow_lt q0 q1 (by omega) hh
  generalize roundToRow _ = row at hrow hlt
  rw [PaneM.bind_ok_nil hrow]
  refine .bind (.lift (fun _ h => h) fun f hf => .of_fail ⟨label, doc, o, style, w, 0, 0, hl, ?_⟩) fun r hr => ?_
  · unfold printAround; rw [hf]; rfl
  refine .bind (.lift (fun _ h => h) fun f hf => .of_fail ⟨label, doc, o, style, w, row, 0, hl, ?_⟩) fun up hup => ?_
  · unfold printAround; rw [hr, Exec.ofRes_ok_bind, hf]; rfl
  obtain ⟨up, pu⟩ := up
  refine .bind (.addUpTo fun h => absurd h (by omega)) ?_
  rintro _ rfl
  refine .bind (.lift (fun _ h => h) fun f hf => .of_fail ⟨label, doc, o, style, w, row, h - (row + 1), hl, ?_⟩)
    fun down hdown => ?_
  · unfold printAround; rw [hr, Exec.ofRes_ok_bind, hup, Exec.ofRes_ok_bind]; simp only; rw [hf]; rfl
  obtain ⟨down, pd⟩ := down
  have l1 := takeLines_length _ hup
  have l2 := takeLines_length _ hdown
  have l3 := length_filterMap_id_le up
  have l4 := length_filterMap_id_le down
  simp only at l1 l2
  refine .pure ⟨?_, ?_, ?_, ?_⟩
  · simp only [List.length_reverse]; omega
  · simp only; omega
  · simp only [List.length_append, List.length_reverse, List.length_singleton]; omega
  · intro r' c' hp
    simp only at hp
    split at hp
    · rename_i hs
      simp only [Option.some.injEq, Prod.mk.injEq] at hp
      obtain ⟨rfl, rfl⟩ := hp
      refine ⟨by omega, ?_⟩
      by_cases hc : r.focused.leftWidth + width ≤ maxWidth
      · exact .inl hc
      · exact .inr ⟨label, doc, o, style, w, r, hl, hs, hr, by omega⟩
    · cases hp

/-- Why displaying panes fails; `dyn`: because of a bad `Dynamic`, `wt`: because of bad weights. -/
def PaneWhy (env : PaneEnv P L) (width : Nat) (dyn wt : Prop) : PaneFail P.Err → Prop
  | .invalidUseOfDynamic => dyn
  | .printing e => DocFails env (.err e)
  | .panic => wt ∨ BadFocusHeight env ∨ DocFails env .panic
  | .overflow => FocusTooFar env width ∨ DocFails env .overflow

theorem PaneWhy.mono {env : PaneEnv P L} {width : Nat} {dyn wt dyn' wt' : Prop} (h1 : dyn → dyn') (h2 : wt → wt') :
    ∀ {e}, PaneWhy env width dyn wt e → PaneWhy env width dyn' wt' e
  | .invalidUseOfDynamic, h => h1 h
  | .printing _, h => h
  | .panic, h => h.imp_left h2
  | .overflow, h => h

theorem DocWhy.pane {env : PaneEnv P L} {width : Nat} {dyn wt : Prop} : ∀ {e}, DocWhy env width e → PaneWhy env width dyn wt e
  | .invalidUseOfDynamic, h => h.elim
  | .printing _, h => h
  | .panic, h => .inr h
  | .overflow, h => h

theorem extractDoc_outcome {why : PaneFail P.Err → Prop} : ∀ (n : PaneNotation L P.Style) (s : P.Style),
    (¬ n.IsDoc → why .invalidUseOfDynamic) → Outcome (extractDoc n s) (fun _ => True) why
  | .horz _, _, h => .fail (h id)
  | .vert _, _, h => .fail (h id)
  | .fill _, _, h => .fail (h id)
  | .doc _, _, _ => .pure trivial
  | .style _ n, _, h => extractDoc_outcome n _ h

theorem printDynamic_outcome {env : PaneEnv P L} {width w h : Nat} (note : PaneNotation L P.Style)
    (style : P.Style) (hh : h ≤ 2 ^ 24) :
    Outcome (printDynamic env note style w h) (fun d => DocFair d width h (FocusTooFar env width))
      (PaneWhy env width (¬ note.IsDoc) False) := by
  unfold printDynamic
  refine .bind (extractDoc_outcome note style fun h => h) fun x _ => ?_
  obtain ⟨l, s⟩ := x
  simp only
  split
  · rename_i hc
    exact (printedDoc_outcome s hc hh).mono (fun _ h => h) fun _ h => h.pane
  · exact .pure ⟨Nat.zero_le _, Nat.zero_le _, Nat.zero_le _, nofun⟩

theorem horzDynamic_outcome {env : PaneEnv P L} {width h : Nat} (style : P.Style)
    (hh : h ≤ 2 ^ 24) : ∀ (panes : Panes L P.Style) (avail : Nat),
    Outcome (horzDynamic env style h panes avail) (fun ds =>
      ds.length = panes.sizes.countP (·.isDynamic) ∧ (ds.map (·.2)).sum ≤ avail ∧
      ∀ d ∈ ds.map (·.1), DocFair d width (2 ^ 24) (FocusTooFar env width))
      (PaneWhy env width (¬ DynamicsAreDocsIn panes) False)
  | .nil, avail => by
    unfold horzDynamic
    exact .pure ⟨rfl, by simp, by simp⟩
  | .cons size note rest, avail => by
    unfold horzDynamic
    by_cases hsize : size = .dynamic
    · subst hsize
      simp only [ne_eq, not_true_eq_false, if_false]
      refine .bind ((printDynamic_outcome note style hh).mono (fun _ h => h)
        fun _ h => h.mono (fun h h' => h (h'.1 rfl)) id) fun d hd => ?_
      refine .bind ((horzDynamic_outcome style hh rest (avail - min d.width avail)).mono (fun _ h => h)
        fun _ h => h.mono (fun h h' => h h'.2.2) id) fun ds hds => ?_
      refine .pure ⟨?_, ?_, ?_⟩
      · simp [Panes.sizes, hds.1, List.countP_cons]
      · have := hds.2.1
        simp only [List.map_cons, List.sum_cons]
        omega
      · intro d' hd'
        simp only [List.map_cons, List.mem_cons] at hd'
        rcases hd' with rfl | hd'
        · exact ⟨hd.index, hd.row, hd.lines.trans hh, hd.point⟩
        · exact hds.2.2 d' hd'
    · rw [if_pos hsize]
      refine (horzDynamic_outcome style hh rest avail).mono (fun ds hds => ⟨?_, hds.2⟩)
        fun _ h => h.mono (fun h h' => h h'.2.2) id
      rw [hds.1, Panes.sizes, List.countP_cons]
      cases size <;> first | rfl | exact absurd rfl hsize

theorem vertDynamic_outcome {env : PaneEnv P L} {width w : Nat} (style : P.Style) : ∀ (panes : Panes L P.Style)
    (avail : Nat), avail ≤ 2 ^ 24 →
    Outcome (vertDynamic env style w panes avail) (fun ds =>
      ds.length = panes.sizes.countP (·.isDynamic) ∧ (ds.map (·.2)).sum ≤ avail ∧
      ∀ d ∈ ds.map (·.1), DocFair d width (2 ^ 24) (FocusTooFar env width))
      (PaneWhy env width (¬ DynamicsAreDocsIn panes) False)
  | .nil, avail, _ => by
    unfold vertDynamic
    exact .pure ⟨rfl, by simp, by simp⟩
  | .cons size note rest, avail, ha => by
    unfold vertDynamic
    by_cases hsize : size = .dynamic
    · subst hsize
      simp only [ne_eq, not_true_eq_false, if_false]
      refine .bind ((printDynamic_outcome note style ha).mono (fun _ h => h)
        fun _ h => h.mono (fun h h' => h (h'.1 rfl)) id) fun d hd => ?_
      have hle : d.height ≤ avail := hd.lines
      refine .bind (Succeeds.outcome (.subU hle)) ?_
      rintro _ rfl
      refine .bind ((vertDynamic_outcome style rest (avail - d.height) (by omega)).mono (fun _ h => h)
        fun _ h => h.mono (fun h h' => h h'.2.2) id) fun ds hds => ?_
      refine .pure ⟨?_, ?_, ?_⟩
      · simp [Panes.sizes, hds.1, List.countP_cons]
      · have := hds.2.1
        simp only [List.map_cons, List.sum_cons]
        omega
      · intro d' hd'
        simp only [List.map_cons, List.mem_cons] at hd'
        rcases hd' with rfl | hd'
        · exact ⟨hd.index, hd.row, hd.lines.trans ha, hd.point⟩
        · exact hds.2.2 d' hd'
    · rw [if_pos hsize]
      refine (vertDynamic_outcome style rest avail ha).mono (fun ds hds => ⟨?_, hds.2⟩)
        fun _ h => h.mono (fun h h' => h h'.2.2) id
      rw [hds.1, Panes.sizes, List.countP_cons]
      cases size <;> first | rfl | exact absurd rfl hsize

theorem finishDivvy_outcome {avail : Nat} {sizes : List PaneSize} {dyn : List Nat}
    (h1 : dyn.length = sizes.countP (·.isDynamic)) (h2 : dyn.sum ≤ (Divvier.new avail sizes).remaining)
    (h4 : avail ≤ 2 ^ 24) {why : PaneFail E → Prop}
    (h3 : ¬ ((weights sizes = [] ∨ 0 < (weights sizes).sum) ∧ (weights sizes).sum < 2 ^ 32) → why .panic) :
    Outcome (finishDivvy (Divvier.new avail sizes) dyn : PaneM S E (List Nat)) (fun out =>
      out.length = sizes.length ∧ out.sum ≤ avail) why := by
  by_cases h : (weights sizes = [] ∨ 0 < (weights sizes).sum) ∧ (weights sizes).sum < 2 ^ 32
  · exact (finishDivvy_ok h1 h2 h h4).outcome
  · unfold finishDivvy
    split
    · rename_i out ho
      obtain ⟨k1, k2, _⟩ := C23_sum _ _ _ _ ho
      exact .pure ⟨k1, k2⟩
    · exact .fail (h3 h)

/-- See `displayPaneRec_outcome`. -/
abbrev NoteWhy (env : PaneEnv P L) (width : Nat) (note : PaneNotation L P.Style) :=
  PaneWhy env width (¬ DynamicsAreDocs note) (¬ GoodWeights note)

/-- See `displayPaneRec_outcome`. -/
abbrev PanesWhy (env : PaneEnv P L) (width : Nat) (panes : Panes L P.Style) :=
  PaneWhy env width (¬ DynamicsAreDocsIn panes) (¬ GoodWeightsIn panes)

mutual
theorem displayPaneRec_outcome {env : PaneEnv P L} {width : Nat}
    (hmw : width + 2 ≤ maxWidth) : ∀ (note : PaneNotation L P.Style) (style : P.Style) (rect : Rectangle),
    rect.minCol ≤ rect.maxCol → rect.minRow ≤ rect.maxRow → rect.maxCol ≤ width →
    rect.maxRow ≤ 2 ^ 24 → Outcome (displayPaneRec env note style rect) (fun _ => True) (NoteWhy env width note)
  | .fill ch, style, rect, h1, h2, h3, h4 => by
    rw [displayPaneRec]
    exact Succeeds.outcome
      (.eachM fun row _ => fillRow_ok env.isFull ch style row rect.maxCol (by omega) _ _ (Nat.le_refl _) h1)
  | .doc label, style, rect, h1, h2, h3, h4 => by
    rw [displayPaneRec]
    split
    · rename_i hc
      refine .bind ((printedDoc_outcome style hc (by unfold Rectangle.height; omega)).mono (fun _ h => h) fun _ h => h.pane)
        fun d hd => ?_
      exact display_outcome env.isFull d rect
        ⟨hd.index, hd.row, hd.lines.trans (by unfold Rectangle.height; omega), hd.point⟩ h1 h3 hmw (by omega) .inl
    · exact .pure trivial
  | .style inner n, style, rect, h1, h2, h3, h4 => by
    rw [displayPaneRec]
    exact displayPaneRec_outcome hmw n _ rect h1 h2 h3 h4
  | .horz panes, style, rect, h1, h2, h3, h4 => by
    rw [displayPaneRec]
    refine .bind ((horzDynamic_outcome style (by unfold Rectangle.height; omega) panes _).mono (fun _ h => h)
      fun _ h => h.mono (fun h => h) False.elim) fun ds hds => ?_
    refine .bind (finishDivvy_outcome (by simpa using hds.1) hds.2.1
      (by unfold Rectangle.width; unfold maxWidth at hmw; omega) fun h => .inl fun h' => h h'.1) fun out hout => ?_
    refine (displayHorz_outcome hmw panes style rect out _ rect.minCol (Nat.le_refl _) ?_ h2 h3 h4 hds.2.2
      (by simpa using hds.1)).mono (fun _ h => h) fun _ h => h.mono (fun h => h) fun h h' => h h'.2
    have := hout.2
    unfold Rectangle.width at this; omega
  | .vert panes, style, rect, h1, h2, h3, h4 => by
    rw [displayPaneRec]
    refine .bind ((vertDynamic_outcome style panes _
      ((remaining_le _ _).trans (by unfold Rectangle.height; omega))).mono (fun _ h => h)
      fun _ h => h.mono (fun h => h) False.elim) fun ds hds => ?_
    refine .bind (finishDivvy_outcome (by simpa using hds.1) hds.2.1
      (by unfold Rectangle.height; omega) fun h => .inl fun h' => h h'.1) fun out hout => ?_
    refine (displayVert_outcome hmw panes style rect out _ rect.minRow (Nat.le_refl _) ?_ h1 h3 h4 hds.2.2
      (by simpa using hds.1)).mono (fun _ h => h) fun _ h => h.mono (fun h => h) fun h h' => h h'.2
    have := hout.2
    unfold Rectangle.height at this; omega

theorem displayHorz_outcome {env : PaneEnv P L} {width : Nat}
    (hmw : width + 2 ≤ maxWidth) : ∀ (panes : Panes L P.Style) (style : P.Style) (rect : Rectangle)
    (widths : List Nat) (docs : List (PrintedDoc P)) (col : Nat), rect.minCol ≤ col →
    col + widths.sum ≤ rect.maxCol → rect.minRow ≤ rect.maxRow → rect.maxCol ≤ width → rect.maxRow ≤ 2 ^ 24 →
    (∀ d ∈ docs, DocFair d width (2 ^ 24) (FocusTooFar env width)) → docs.length = panes.sizes.countP (·.isDynamic) →
    Outcome (displayHorz env panes style rect widths docs col) (fun _ => True) (PanesWhy env width panes)
  | .nil, style, rect, widths, docs, col, _, _, _, _, _, _, _ => by
    rw [displayHorz]
    · exact .pure trivial
    · intros; rename_i h _; cases h
  | .cons size note rest, style, rect, [], docs, col, _, _, _, _, _, _, _ => by
    rw [displayHorz]
    · exact .pure trivial
    · intros; rename_i h; cases h
  | .cons size note rest, style, rect, w :: ws, docs, col, h1, h2, h3, h4, h5, hd, hlen => by
    rw [displayHorz]
    simp only [List.sum_cons] at h2
    refine .bind (Succeeds.outcome (.addUpTo (by omega))) ?_
    rintro _ rfl
    by_cases hsize : size = .dynamic
    · subst hsize
      rw [if_pos rfl]
      cases docs with
      | nil => simp [Panes.sizes, List.countP_cons] at hlen
      | cons d docs =>
        refine .bind (display_outcome env.isFull d _ (hd d (by simp)) (by simp) (by simp; omega) hmw
          (by simp; omega) .inl) fun _ _ => ?_
        exact (displayHorz_outcome hmw rest style rect ws docs (col + w) (by omega) (by omega) h3 h4 h5
          (fun d' h' => hd d' (by simp [h'])) (by simpa [Panes.sizes, List.countP_cons] using hlen)).mono
          (fun _ h => h) fun _ h => h.mono (fun h h' => h h'.2.2) fun h h' => h h'.2
    · rw [if_neg hsize]
      refine .bind ((displayPaneRec_outcome hmw note style { rect with minCol := col, maxCol := col + w } (by simp) h3 (by simp; omega) h5).mono
        (fun _ h => h) fun _ h => h.mono (fun h h' => h (h'.2.1 hsize)) fun h h' => h (h'.1 hsize)) fun _ _ => ?_
      refine (displayHorz_outcome hmw rest style rect ws docs (col + w) (by omega) (by omega) h3 h4 h5 hd ?_).mono
          (fun _ h => h) fun _ h => h.mono (fun h h' => h h'.2.2) fun h h' => h h'.2
      rw [hlen, Panes.sizes, List.countP_cons]
      cases size <;> first | rfl | exact absurd rfl hsize

theorem displayVert_outcome {env : PaneEnv P L} {width : Nat}
    (hmw : width + 2 ≤ maxWidth) : ∀ (panes : Panes L P.Style) (style : P.Style) (rect : Rectangle)
    (heights : List Nat) (docs : List (PrintedDoc P)) (row : Nat), rect.minRow ≤ row →
    row + heights.sum ≤ rect.maxRow → rect.minCol ≤ rect.maxCol → rect.maxCol ≤ width → rect.maxRow ≤ 2 ^ 24 →
    (∀ d ∈ docs, DocFair d width (2 ^ 24) (FocusTooFar env width)) → docs.length = panes.sizes.countP (·.isDynamic) →
    Outcome (displayVert env panes style rect heights docs row) (fun _ => True) (PanesWhy env width panes)
  | .nil, style, rect, heights, docs, row, _, _, _, _, _, _, _ => by
    rw [displayVert]
    · exact .pure trivial
    · intros; rename_i h _; cases h
  | .cons size note rest, style, rect, [], docs, row, _, _, _, _, _, _, _ => by
    rw [displayVert]
    · exact .pure trivial
    · intros; rename_i h; cases h
  | .cons size note rest, style, rect, w :: ws, docs, row, h1, h2, h3, h4, h5, hd, hlen => by
    rw [displayVert]
    simp only [List.sum_cons] at h2
    have hmax : maxHeight = 4294967295 := rfl
    refine .bind (Succeeds.outcome (.addUpTo (by omega))) ?_
    rintro _ rfl
    by_cases hsize : size = .dynamic
    · subst hsize
      rw [if_pos rfl]
      cases docs with
      | nil => simp [Panes.sizes, List.countP_cons] at hlen
      | cons d docs =>
        refine .bind (display_outcome env.isFull d { rect with minRow := row, maxRow := row + w } (hd d (by simp)) h3 h4 hmw
          (by simp; omega) .inl) fun _ _ => ?_
        exact (displayVert_outcome hmw rest style rect ws docs (row + w) (by omega) (by omega) h3 h4 h5
          (fun d' h' => hd d' (by simp [h'])) (by simpa [Panes.sizes, List.countP_cons] using hlen)).mono
          (fun _ h => h) fun _ h => h.mono (fun h h' => h h'.2.2) fun h h' => h h'.2
    · rw [if_neg hsize]
      refine .bind ((displayPaneRec_outcome hmw note style { rect with minRow := row, maxRow := row + w }
        h3 (by simp) h4 (by simp; omega)).mono
        (fun _ h => h) fun _ h => h.mono (fun h h' => h (h'.2.1 hsize)) fun h h' => h (h'.1 hsize)) fun _ _ => ?_
      refine (displayVert_outcome hmw rest style rect ws docs (row + w) (by omega) (by omega) h3 h4 h5 hd ?_).mono
          (fun _ h => h) fun _ h => h.mono (fun h h' => h h'.2.2) fun h h' => h h'.2
      rw [hlen, Panes.sizes, List.countP_cons]
      cases size <;> first | rfl | exact absurd rfl hsize
end

end PPP
