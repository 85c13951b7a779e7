import Verif.Proofs.PaneDoc
/-
Displaying panes: conditions for success.
-/
namespace PPP
variable {S E L α β : Type} {P : PrettyDoc}

/-- `m` succeeds. -/
def Succeeds (m : PaneM S E α) (post : α → Prop) : Prop := ∃ c a, m = some (c, .ok a) ∧ post a

theorem Succeeds.pure {a : α} {post : α → Prop} (h : post a) : Succeeds (pure a : PaneM S E α) post := ⟨[], a, rfl, h⟩

theorem Succeeds.bind {m : PaneM S E α} {f : α → PaneM S E β} {p : α → Prop} {q : β → Prop} (h : Succeeds m p)
    (h' : ∀ a, p a → Succeeds (f a) q) : Succeeds (m >>= f) q := by
  obtain ⟨c, a, h1, h2⟩ := h
  obtain ⟨c', b, h3, h4⟩ := h' a h2
  exact ⟨c ++ c', b, by rw [PaneM.bind_ok h1, h3], h4⟩

theorem Succeeds.mono {m : PaneM S E α} {p q : α → Prop} (h : Succeeds m p) (hpq : ∀ a, p a → q a) : Succeeds m q := by
  obtain ⟨c, a, h1, h2⟩ := h
  exact ⟨c, a, h1, hpq a h2⟩

theorem Succeeds.eachM {f : α → PaneM S E Unit} {xs : List α} (h : ∀ x ∈ xs, Succeeds (f x) fun _ => True) :
    Succeeds (eachM f xs) fun _ => True := by
  induction xs with
  | nil => exact .pure trivial
  | cons x xs ih =>
    exact .bind (h x (by simp)) fun _ _ => ih fun y hy => h y (by simp [hy])

theorem Succeeds.call (c : WCall S) : Succeeds (PaneM.call c : PaneM S E Unit) fun _ => True := ⟨_, _, rfl, trivial⟩

theorem Succeeds.addUpTo {max a b : Nat} (h : a + b ≤ max) : Succeeds (addUpTo max a b : PaneM S E Nat) (· = a + b) :=
  ⟨_, _, addUpTo_ok h, rfl⟩

theorem Succeeds.subU {a b : Nat} (h : b ≤ a) : Succeeds (subU a b : PaneM S E Nat) (· = a - b) :=
  ⟨_, _, subU_ok h, rfl⟩

theorem fillRow_ok (isFull : Char → Bool) (ch : Char) (style : S) (row maxCol : Nat) (hm : maxCol + 2 ≤ maxWidth) :
    ∀ (n col : Nat), maxCol - col ≤ n → col ≤ maxCol →
    Succeeds (fillRow (E := E) isFull ch style row maxCol col) fun _ => True := by
  intro n
  induction n with
  | zero =>
    intro col h1 h2
    have hp2 := charCols_le isFull ch
    have hp := charCols_pos isFull ch
    have hw : (if isFull ch then 2 else 1) = charCols isFull ch := rfl
    unfold fillRow
    simp only [hw]
    rw [if_neg (by omega), if_neg (by omega), if_neg (by omega)]
    exact .pure trivial
  | succ n ih =>
    intro col h1 h2
    have hp2 := charCols_le isFull ch
    have hp := charCols_pos isFull ch
    have hw : (if isFull ch then 2 else 1) = charCols isFull ch := rfl
    unfold fillRow
    simp only [hw]
    rw [if_neg (by omega)]
    split
    · exact .bind (.call _) fun _ _ => ih _ (by omega) (by omega)
    · split
      · exact .call _
      · exact .pure trivial

/-- A printed document that can be displayed in a window of the given width. -/
structure DocGood (d : PrintedDoc P) (width height : Nat) : Prop where
  index : d.focusLineIndex ≤ d.focusLineRow
  row : d.focusLineRow ≤ 2 ^ 24
  lines : d.lines.length ≤ height
  point : ∀ r c, d.focusPoint = some (r, c) → r ≤ 2 ^ 24 ∧ c + width ≤ maxWidth

theorem display_ok (isFull : Char → Bool) (d : PrintedDoc P) (rect : Rectangle) {width : Nat} (hd : DocGood d width (2 ^ 24))
    (hc : rect.minCol ≤ rect.maxCol) (hw : rect.maxCol ≤ width) (hmw : width + 2 ≤ maxWidth)
    (hr : rect.minRow ≤ 2 ^ 24) :
    Succeeds (d.display isFull rect) fun _ => True := by
  have hmax : maxHeight = 4294967295 := rfl
  have hrows : Succeeds (do
      let firstRow ← subU d.focusLineRow d.focusLineIndex
      let lastRow ← addUpTo maxHeight firstRow d.lines.length
      eachM (d.displayRow isFull rect firstRow lastRow) (rangeFrom 0 rect.height)) fun _ => True := by
    refine .bind (.subU hd.index) ?_
    rintro _ rfl
    have h1 := hd.row
    have h2 := hd.lines
    refine .bind (.addUpTo (by omega)) ?_
    rintro _ rfl
    refine .eachM fun i hi => ?_
    have hi : i < rect.height := (mem_rangeFrom.1 hi).2
    have hr : rect.minRow + i < rect.maxRow := by unfold Rectangle.height at hi; omega
    unfold PrintedDoc.displayRow
    split
    · obtain ⟨l, hl⟩ : ∃ l, d.lines[i - (d.focusLineRow - d.focusLineIndex)]? = some l :=
        ⟨_, List.getElem?_eq_getElem (by omega)⟩
      rw [hl]
      simp only
      rcases displayLine_spec isFull l i d.blankStyle hr hc with g | ⟨g, _⟩
      · exact ⟨_, _, g, trivial⟩
      · omega
    · exact ⟨_, _, displayBlankLine_spec i d.blankStyle hr isFull, trivial⟩
  unfold PrintedDoc.display
  split
  · rename_i row col heq
    obtain ⟨g1, g2⟩ := hd.point row col heq
    refine .bind (.addUpTo (by omega)) ?_
    rintro _ rfl
    refine .bind (.addUpTo (by omega)) ?_
    rintro _ rfl
    exact .bind (.call _) fun _ _ => hrows
  · exact hrows

theorem printedDoc_ok {env : PaneEnv P L} {label : L} {doc o} {width w h : Nat} (style : P.Style)
    (hall : AllPrint env width) (hl : env.getContent label = some (doc, o)) (hw : w ≤ width) (hh : h ≤ 2 ^ 24) :
    Succeeds (PrintedDoc.new doc o w h style) fun d => DocGood d width h := by
  by_cases h0 : h = 0 ∨ w = 0
  · unfold PrintedDoc.new
    rw [if_pos h0]
    exact .pure ⟨Nat.zero_le _, Nat.zero_le _, Nat.zero_le _, nofun⟩
  · rw [not_or] at h0
    obtain ⟨⟨q, hq, q0, q1⟩, hd⟩ := hall label doc o hl
    obtain ⟨out, k2, k3⟩ := hd style w (by omega) hw
    have hrow := chooseFocusLineRow_ok (S := P.Style) (E := P.Err) hq q0 q1 (by omega : 1 ≤ h)
    have hlt := focusRow_lt q0 q1 (by omega) hh
    have hmax : maxHeight = 4294967295 := rfl
    obtain ⟨d, m1, m3⟩ := printedDoc_new k2 h0.2 h0.1 hrow (by omega)
    refine ⟨_, d, m1, ?_, ?_, ?_, ?_⟩
    · rw [m3.index, m3.focusLineRow]; omega
    · rw [m3.focusLineRow]; omega
    · have := congrArg List.length m3.lines
      simp only [List.length_append, List.length_drop, List.length_singleton, List.length_take] at this
      omega
    · intro r' c' hp
      rw [m3.focusPoint] at hp
      split at hp
      · rename_i hs
        simp only [Option.some.injEq, Prod.mk.injEq] at hp
        have := k3 hs
        omega
      · cases hp

theorem printDynamic_ok {env : PaneEnv P L} {width w h : Nat} (note : PaneNotation L P.Style)
    (style : P.Style) (hall : AllPrint env width) (hd : note.IsDoc) (hw : w ≤ width) (hh : h ≤ 2 ^ 24) :
    Succeeds (printDynamic env note style w h) fun d => DocGood d width h := by
  unfold printDynamic
  have : ∀ (note : PaneNotation L P.Style) (style : P.Style), note.IsDoc → Succeeds (extractDoc note style) fun _ => True := by
    intro note
    induction note using PaneNotation.rec (motive_2 := fun _ => True) with
    | doc l => intro s _; exact .pure trivial
    | style s n ih => intro s' h; exact ih _ h
    | fill _ => intro s h; exact h.elim
    | horz _ => intro s h; exact h.elim
    | vert _ => intro s h; exact h.elim
    | nil => trivial
    | cons => trivial
  refine .bind (this note style hd) fun x _ => ?_
  obtain ⟨l, s⟩ := x
  simp only
  split
  · rename_i hc
    exact printedDoc_ok s hall hc hw hh
  · exact .pure ⟨Nat.zero_le _, Nat.zero_le _, Nat.zero_le _, nofun⟩

theorem horzDynamic_ok {env : PaneEnv P L} {width h : Nat} (style : P.Style)
    (hall : AllPrint env width) (hh : h ≤ 2 ^ 24) : ∀ (panes : Panes L P.Style) (avail : Nat),
    WellSizedPanes panes → avail ≤ width →
    Succeeds (horzDynamic env style h panes avail) fun ds =>
      ds.length = panes.sizes.countP (·.isDynamic) ∧ (ds.map (·.2)).sum ≤ avail ∧
      ∀ d ∈ ds.map (·.1), DocGood d width (2 ^ 24)
  | .nil, avail, _, _ => by
    unfold horzDynamic
    exact .pure ⟨rfl, by simp, by simp⟩
  | .cons size note rest, avail, hs, ha => by
    unfold horzDynamic
    obtain ⟨s1, s2, s3⟩ := hs
    by_cases hsize : size = .dynamic
    · subst hsize
      simp only [ne_eq, not_true_eq_false, if_false]
      refine .bind (printDynamic_ok note style hall (s1 rfl) ha hh) fun d hd => ?_
      refine .bind (horzDynamic_ok style hall hh rest (avail - min d.width avail) s3 (by omega)) fun ds hds => ?_
      refine .pure ⟨?_, ?_, ?_⟩
      · simp [Panes.sizes, hds.1, List.countP_cons]
      · have := hds.2.1
        simp only [List.map_cons, List.sum_cons]
        omega
      · intro d' hd'
        simp only [List.map_cons, List.mem_cons] at hd'
        rcases hd' with rfl | hd'
        · exact ⟨hd.index, hd.row, hd.lines.trans hh, hd.point⟩
        · exact hds.2.2 d' hd'
    · rw [if_pos hsize]
      refine (horzDynamic_ok style hall hh rest avail s3 ha).mono fun ds hds => ⟨?_, hds.2⟩
      rw [hds.1, Panes.sizes, List.countP_cons]
      cases size <;> first | rfl | exact absurd rfl hsize

theorem vertDynamic_ok {env : PaneEnv P L} {width w : Nat} (style : P.Style)
    (hall : AllPrint env width) (hw : w ≤ width) : ∀ (panes : Panes L P.Style) (avail : Nat),
    WellSizedPanes panes → avail ≤ 2 ^ 24 →
    Succeeds (vertDynamic env style w panes avail) fun ds =>
      ds.length = panes.sizes.countP (·.isDynamic) ∧ (ds.map (·.2)).sum ≤ avail ∧
      ∀ d ∈ ds.map (·.1), DocGood d width (2 ^ 24)
  | .nil, avail, _, _ => by
    unfold vertDynamic
    exact .pure ⟨rfl, by simp, by simp⟩
  | .cons size note rest, avail, hs, ha => by
    unfold vertDynamic
    obtain ⟨s1, s2, s3⟩ := hs
    by_cases hsize : size = .dynamic
    · subst hsize
      simp only [ne_eq, not_true_eq_false, if_false]
      refine .bind (printDynamic_ok note style hall (s1 rfl) hw ha) fun d hd => ?_
      have hle : d.height ≤ avail := hd.lines
      refine .bind (.subU hle) ?_
      rintro _ rfl
      refine .bind (vertDynamic_ok style hall hw rest (avail - d.height) s3 (by omega)) fun ds hds => ?_
      refine .pure ⟨?_, ?_, ?_⟩
      · simp [Panes.sizes, hds.1, List.countP_cons]
      · have := hds.2.1
        simp only [List.map_cons, List.sum_cons]
        omega
      · intro d' hd'
        simp only [List.map_cons, List.mem_cons] at hd'
        rcases hd' with rfl | hd'
        · exact ⟨hd.index, hd.row, hd.lines.trans ha, hd.point⟩
        · exact hds.2.2 d' hd'
    · rw [if_pos hsize]
      refine (vertDynamic_ok style hall hw rest avail s3 ha).mono fun ds hds => ⟨?_, hds.2⟩
      rw [hds.1, Panes.sizes, List.countP_cons]
      cases size <;> first | rfl | exact absurd rfl hsize

theorem le_sum_of_mem' {w : Nat} : ∀ {l : List Nat}, w ∈ l → w ≤ l.sum
  | a :: l, h => by
    rw [List.sum_cons]
    rcases List.mem_cons.1 h with rfl | h
    · omega
    · have := le_sum_of_mem' h; omega

theorem finishDivvy_ok {avail : Nat} {sizes : List PaneSize} {dyn : List Nat}
    (h1 : dyn.length = sizes.countP (·.isDynamic)) (h2 : dyn.sum ≤ (Divvier.new avail sizes).remaining)
    (h3 : (weights sizes = [] ∨ 0 < (weights sizes).sum) ∧ (weights sizes).sum < 2 ^ 32)
    (h4 : avail ≤ 2 ^ 24) :
    Succeeds (finishDivvy (Divvier.new avail sizes) dyn : PaneM S E (List Nat)) fun out =>
      out.length = sizes.length ∧ out.sum ≤ avail := by
  obtain ⟨out, ho⟩ := (C23_succeeds_iff avail sizes dyn).2 ⟨h1, h2, h3.1, by unfold maxUsize; omega, fun w hw => by
    have hw := le_sum_of_mem' hw
    have ha : (Divvier.new avail sizes).remaining ≤ avail := by rw [C23_remaining]; omega
    refine (Nat.mul_le_mul (show _ ≤ 2 ^ 24 by omega) (show w ≤ 2 ^ 32 by omega)).trans ?_
    decide⟩
  obtain ⟨k1, k2, _⟩ := C23_sum _ _ _ _ ho
  refine ⟨[], out, ?_, k1, k2⟩
  unfold finishDivvy
  rw [ho]
  rfl

theorem remaining_le (avail : Nat) (sizes : List PaneSize) : (Divvier.new avail sizes).remaining ≤ avail := by
  rw [C23_remaining]; omega

mutual
theorem displayPaneRec_ok {env : PaneEnv P L} {width : Nat} (hall : AllPrint env width)
    (hmw : width + 2 ≤ maxWidth) : ∀ (note : PaneNotation L P.Style) (style : P.Style) (rect : Rectangle),
    WellSized note → rect.minCol ≤ rect.maxCol → rect.minRow ≤ rect.maxRow → rect.maxCol ≤ width →
    rect.maxRow ≤ 2 ^ 24 → Succeeds (displayPaneRec env note style rect) fun _ => True
  | .fill ch, style, rect, _, h1, h2, h3, h4 => by
    rw [displayPaneRec]
    exact .eachM fun row _ => fillRow_ok env.isFull ch style row rect.maxCol (by omega) _ _ (Nat.le_refl _) h1
  | .doc label, style, rect, _, h1, h2, h3, h4 => by
    rw [displayPaneRec]
    split
    · rename_i hc
      refine .bind (printedDoc_ok style hall hc (by unfold Rectangle.width; omega)
        (by unfold Rectangle.height; omega)) fun d hd => ?_
      exact display_ok env.isFull d rect ⟨hd.index, hd.row, hd.lines.trans (by unfold Rectangle.height; omega), hd.point⟩
        h1 h3 hmw (by omega)
    · exact .pure trivial
  | .style inner n, style, rect, hs, h1, h2, h3, h4 => by
    rw [displayPaneRec]
    exact displayPaneRec_ok hall hmw n _ rect hs h1 h2 h3 h4
  | .horz panes, style, rect, hs, h1, h2, h3, h4 => by
    rw [displayPaneRec]
    refine .bind (horzDynamic_ok style hall (by unfold Rectangle.height; omega) panes _ hs.2
      ((remaining_le _ _).trans (by unfold Rectangle.width; omega))) fun ds hds => ?_
    refine .bind (finishDivvy_ok (by simpa using hds.1) hds.2.1 hs.1
      (by unfold Rectangle.width; unfold maxWidth at hmw; omega)) fun out hout => ?_
    refine displayHorz_ok hall hmw panes style rect out _ rect.minCol hs.2 (Nat.le_refl _) ?_ h2 h3 h4 hds.2.2
      (by simpa using hds.1)
    have := hout.2
    unfold Rectangle.width at this; omega
  | .vert panes, style, rect, hs, h1, h2, h3, h4 => by
    rw [displayPaneRec]
    refine .bind (vertDynamic_ok style hall (by unfold Rectangle.width; omega) panes _ hs.2
      ((remaining_le _ _).trans (by unfold Rectangle.height; omega))) fun ds hds => ?_
    refine .bind (finishDivvy_ok (by simpa using hds.1) hds.2.1 hs.1 (by unfold Rectangle.height; omega)) fun out hout => ?_
    refine displayVert_ok hall hmw panes style rect out _ rect.minRow hs.2 (Nat.le_refl _) ?_ h1 h3 h4 hds.2.2
      (by simpa using hds.1)
    have := hout.2
    unfold Rectangle.height at this; omega

theorem displayHorz_ok {env : PaneEnv P L} {width : Nat} (hall : AllPrint env width)
    (hmw : width + 2 ≤ maxWidth) : ∀ (panes : Panes L P.Style) (style : P.Style) (rect : Rectangle)
    (widths : List Nat) (docs : List (PrintedDoc P)) (col : Nat), WellSizedPanes panes → rect.minCol ≤ col →
    col + widths.sum ≤ rect.maxCol → rect.minRow ≤ rect.maxRow → rect.maxCol ≤ width → rect.maxRow ≤ 2 ^ 24 →
    (∀ d ∈ docs, DocGood d width (2 ^ 24)) → docs.length = panes.sizes.countP (·.isDynamic) →
    Succeeds (displayHorz env panes style rect widths docs col) fun _ => True
  | .nil, style, rect, widths, docs, col, _, _, _, _, _, _, _, _ => by
    rw [displayHorz]
    · exact .pure trivial
    · intros; rename_i h _; cases h
  | .cons size note rest, style, rect, [], docs, col, _, _, _, _, _, _, _, _ => by
    rw [displayHorz]
    · exact .pure trivial
    · intros; rename_i h; cases h
  | .cons size note rest, style, rect, w :: ws, docs, col, hs, h1, h2, h3, h4, h5, hd, hlen => by
    rw [displayHorz]
    simp only [List.sum_cons] at h2
    refine .bind (.addUpTo (by omega)) ?_
    rintro _ rfl
    by_cases hsize : size = .dynamic
    · subst hsize
      rw [if_pos rfl]
      cases docs with
      | nil => simp [Panes.sizes, List.countP_cons] at hlen
      | cons d docs =>
        refine .bind (display_ok env.isFull d _ (hd d (by simp)) (by simp) (by simp; omega) hmw
          (by simp; omega)) fun _ _ => ?_
        exact displayHorz_ok hall hmw rest style rect ws docs (col + w) hs.2.2 (by omega) (by omega) h3 h4 h5
          (fun d' h' => hd d' (by simp [h'])) (by simpa [Panes.sizes, List.countP_cons] using hlen)
    · rw [if_neg hsize]
      refine .bind (displayPaneRec_ok hall hmw note style _ (hs.2.1 hsize) (by simp) h3 (by simp; omega) h5) fun _ _ => ?_
      refine displayHorz_ok hall hmw rest style rect ws docs (col + w) hs.2.2 (by omega) (by omega) h3 h4 h5 hd ?_
      rw [hlen, Panes.sizes, List.countP_cons]
      cases size <;> first | rfl | exact absurd rfl hsize

theorem displayVert_ok {env : PaneEnv P L} {width : Nat} (hall : AllPrint env width)
    (hmw : width + 2 ≤ maxWidth) : ∀ (panes : Panes L P.Style) (style : P.Style) (rect : Rectangle)
    (heights : List Nat) (docs : List (PrintedDoc P)) (row : Nat), WellSizedPanes panes → rect.minRow ≤ row →
    row + heights.sum ≤ rect.maxRow → rect.minCol ≤ rect.maxCol → rect.maxCol ≤ width → rect.maxRow ≤ 2 ^ 24 →
    (∀ d ∈ docs, DocGood d width (2 ^ 24)) → docs.length = panes.sizes.countP (·.isDynamic) →
    Succeeds (displayVert env panes style rect heights docs row) fun _ => True
  | .nil, style, rect, heights, docs, row, _, _, _, _, _, _, _, _ => by
    rw [displayVert]
    · exact .pure trivial
    · intros; rename_i h _; cases h
  | .cons size note rest, style, rect, [], docs, row, _, _, _, _, _, _, _, _ => by
    rw [displayVert]
    · exact .pure trivial
    · intros; rename_i h; cases h
  | .cons size note rest, style, rect, w :: ws, docs, row, hs, h1, h2, h3, h4, h5, hd, hlen => by
    rw [displayVert]
    simp only [List.sum_cons] at h2
    have hmax : maxHeight = 4294967295 := rfl
    refine .bind (.addUpTo (by omega)) ?_
    rintro _ rfl
    by_cases hsize : size = .dynamic
    · subst hsize
      rw [if_pos rfl]
      cases docs with
      | nil => simp [Panes.sizes, List.countP_cons] at hlen
      | cons d docs =>
        refine .bind (display_ok env.isFull d { rect with minRow := row, maxRow := row + w } (hd d (by simp)) h3 h4 hmw
          (by simp; omega)) fun _ _ => ?_
        exact displayVert_ok hall hmw rest style rect ws docs (row + w) hs.2.2 (by omega) (by omega) h3 h4 h5
          (fun d' h' => hd d' (by simp [h'])) (by simpa [Panes.sizes, List.countP_cons] using hlen)
    · rw [if_neg hsize]
      refine .bind (displayPaneRec_ok hall hmw note style { rect with minRow := row, maxRow := row + w }
        (hs.2.1 hsize) h3 (by simp) h4 (by simp; omega)) fun _ _ => ?_
      refine displayVert_ok hall hmw rest style rect ws docs (row + w) hs.2.2 (by omega) (by omega) h3 h4 h5 hd ?_
      rw [hlen, Panes.sizes, List.countP_cons]
      cases size <;> first | rfl | exact absurd rfl hsize
end

end PPP
