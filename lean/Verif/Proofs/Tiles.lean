import Verif.Spec.Tiles
import Verif.Proofs.PaneDoc
/-
Displaying panes: the tiles of the window.
-/
namespace PPP
variable {S E L α β : Type} {P : PrettyDoc}

theorem PaneM.bind_eq_ok {m : PaneM S E α} {f : α → PaneM S E β} {c b} (h : (m >>= f) = some (c, .ok b)) :
    ∃ c1 a c2, m = some (c1, .ok a) ∧ f a = some (c2, .ok b) ∧ c = c1 ++ c2 := by
  rcases PaneM.bind_eq_some h with ⟨e, _, h'⟩ | h
  · cases h'
  · exact h

/-- The `PrintedDoc` for an excerpt. -/
def Excerpt.printed (e : Excerpt P) (setFocus : Bool) (style : P.Style) : PrintedDoc P where
  lines := e.lines
  focusLineIndex := e.above.length
  focusLineRow := e.row
  focusPoint := if setFocus then some (e.row, e.focused.leftWidth) else none
  blankStyle := style

theorem printedDoc_excerpt {doc : P.Node} {o : PrintingOptions} {w h : Nat} {style : P.Style} {c d}
    (hd : PrintedDoc.new doc o w h style = some (c, .ok d)) :
    c = [] ∧ (((w = 0 ∨ h = 0) ∧ d = PrintedDoc.newEmpty style) ∨
      (w ≠ 0 ∧ h ≠ 0 ∧ ∃ e, IsExcerpt doc o style w h e ∧ d = e.printed o.setFocus style)) := by
  obtain rfl := Quiet.printedDoc _ _ _ _ _ _ _ hd
  refine ⟨rfl, ?_⟩
  unfold PrintedDoc.new at hd
  split at hd
  · rename_i h0
    cases hd
    exact .inl ⟨h0.symm, rfl⟩
  rename_i h0
  simp only [not_or] at h0
  refine .inr ⟨h0.2, h0.1, ?_⟩
  simp only [chooseWidth_eq] at hd
  obtain ⟨c1, row, c2, h1, hd_1, hc⟩ := PaneM.bind_eq_ok hd
  obtain rfl := Quiet.chooseFocusLineRow _ _ _ _ h1
  obtain ⟨c1, r, c3, h2, hd_2, hc⟩ := PaneM.bind_eq_ok hd_1
  obtain ⟨rfl, h2'⟩ := lift_val h2
  obtain ⟨c1, up, c4, h3, hd_3, hc⟩ := PaneM.bind_eq_ok hd_2
  obtain ⟨rfl, h3'⟩ := lift_val h3
  obtain ⟨c1, n, c5, h4, hd_4, hc⟩ := PaneM.bind_eq_ok hd_3
  obtain rfl := Quiet.addUpTo _ _ _ _ _ h4
  obtain ⟨rfl, _⟩ := addUpTo_val h4
  obtain ⟨c1, down, c6, h5, hd_5, hc⟩ := PaneM.bind_eq_ok hd_4
  obtain ⟨rfl, h5'⟩ := lift_val h5
  cases hd_5
  obtain ⟨up, pu⟩ := up
  obtain ⟨down, pd⟩ := down
  refine ⟨⟨(up.filterMap id).reverse, r.focused, down.filterMap id, row⟩, ⟨h1, up, down, ?_, rfl, rfl⟩, rfl⟩
  unfold printAround
  dsimp only
  rw [h2', Exec.ofRes_ok_bind, h3', Exec.ofRes_ok_bind, h5']
  rfl

theorem rectCalls_empty (isFull : Char → Bool) (rect : Rectangle) (f : Nat → List (Char × S)) (blank : S)
    (h : rect.width = 0 ∨ rect.height = 0) : rectCalls isFull rect f blank = [] := by
  rcases h with h | h
  · unfold rectCalls
    rw [List.flatMap_eq_nil_iff]
    intro row _
    have hc : ∀ chars : List (Char × S), clip isFull 0 chars = [] := by
      intro chars
      cases chars with
      | nil => rfl
      | cons c cs => rw [clip, if_neg (by have := charCols_pos isFull c.1; omega)]
    simp [rowCalls, h, hc, placed, blanks, charsCols]
  · unfold rectCalls rangeFrom
    unfold Rectangle.height at h
    rw [h]; rfl

theorem display_empty (isFull : Char → Bool) (style : P.Style) {rect : Rectangle} (hc : rect.minCol ≤ rect.maxCol)
    (h : rect.width = 0 ∨ rect.height = 0) {calls}
    (hd : (PrintedDoc.newEmpty (P := P) style).display isFull rect = some (calls, .ok ())) : calls = [] := by
  rw [(display_emits isFull _ rect hc).ok hd, rectCalls_empty _ _ _ _ h]
  rfl

theorem display_excerpt (isFull : Char → Bool) (e : Excerpt P) (setFocus : Bool) (style : P.Style) {rect : Rectangle}
    (hc : rect.minCol ≤ rect.maxCol) {calls}
    (hd : (e.printed setFocus style).display isFull rect = some (calls, .ok ())) :
    calls = (Tile.doc rect style setFocus e).calls isFull := by
  have hle : e.above.length ≤ e.row := by
    have key : ∀ {k : Nat → PaneM P.Style P.Err Unit} {c}, (subU (e.printed setFocus style).focusLineRow
        (e.printed setFocus style).focusLineIndex >>= k) = some (c, .ok ()) → e.above.length ≤ e.row := by
      intro k c h
      obtain ⟨c1, x, c2, h1, _, _⟩ := PaneM.bind_eq_ok h
      obtain rfl := Quiet.subU _ _ _ _ h1
      exact (subU_val h1).2
    unfold PrintedDoc.display at hd
    dsimp only at hd
    split at hd
    · obtain ⟨_, _, _, _, hd1, _⟩ := PaneM.bind_eq_ok hd
      obtain ⟨_, _, _, _, hd2, _⟩ := PaneM.bind_eq_ok hd1
      obtain ⟨_, _, _, _, hd3, _⟩ := PaneM.bind_eq_ok hd2
      exact key hd3
    · exact key hd
  rw [(display_emits isFull _ rect hc).ok hd]
  unfold Tile.calls
  have hrow : ∀ i, (e.printed setFocus style).row i = lineAt (e.lines.map fun l => styledChars l.segments)
      ((e.above.length : Int) + i - e.row) := by
    intro i
    unfold PrintedDoc.row lineAt Excerpt.printed
    dsimp only
    by_cases h : e.row - e.above.length ≤ i
    · rw [if_pos h, if_pos (by omega), List.getElem?_map,
        show ((e.above.length : Int) + i - e.row).toNat = i - (e.row - e.above.length) by omega]
      cases e.lines[i - (e.row - e.above.length)]? <;> rfl
    · rw [if_neg h, if_neg (by omega)]
  rw [rectCalls_congr isFull rect _ fun i _ => hrow i]
  congr 1
  unfold PrintedDoc.focusCalls Excerpt.printed
  cases setFocus
  · rfl
  · simp only [if_true]
    rw [Nat.add_comm e.row, Nat.add_comm e.focused.leftWidth]

theorem extractDoc_docOf : ∀ (n : PaneNotation L P.Style) (s : P.Style) {c x}, extractDoc n s = some (c, .ok x) →
    DocOf n s x.1 x.2
  | .horz _, _, _, _, h => by cases h
  | .vert _, _, _, _, h => by cases h
  | .fill _, _, _, _, h => by cases h
  | .doc _, _, _, _, h => by cases h; exact .doc
  | .style _ n, _, _, _, h => .style (extractDoc_docOf n _ h)

/-- What printing a `Dynamic` pane gives. -/
def DynPrint (env : PaneEnv P L) (n : PaneNotation L P.Style) (style : P.Style) (w h : Nat) (d : PrintedDoc P) : Prop :=
  ∃ label style', DocOf n style label style' ∧
    ((NothingToShow env label w h ∧ d = PrintedDoc.newEmpty style') ∨
      ∃ doc o e, env.getContent label = some (doc, o) ∧ w ≠ 0 ∧ h ≠ 0 ∧ IsExcerpt doc o style' w h e ∧
        d = e.printed o.setFocus style')

theorem printDynamic_dyn {env : PaneEnv P L} {n : PaneNotation L P.Style} {style w h c d}
    (hd : printDynamic env n style w h = some (c, .ok d)) : DynPrint env n style w h d := by
  unfold printDynamic at hd
  obtain ⟨c1, x, c2, h1, hdx, _⟩ := PaneM.bind_eq_ok hd
  refine ⟨x.1, x.2, extractDoc_docOf n style h1, ?_⟩
  obtain ⟨label, style'⟩ := x
  dsimp only at hdx ⊢
  cases hg : env.getContent label with
  | none =>
    rw [hg] at hdx
    cases hdx
    exact .inl ⟨.inl hg, rfl⟩
  | some x =>
    obtain ⟨doc, o⟩ := x
    rw [hg] at hdx
    rcases (printedDoc_excerpt hdx).2 with ⟨h1, h2⟩ | ⟨h1, h2, e, h3, h4⟩
    · exact .inl ⟨.inr h1, h2⟩
    · exact .inr ⟨doc, o, e, rfl, h1, h2, h3, h4⟩

theorem finish_division {avail : Nat} {sizes : List PaneSize} {dyn out : List Nat}
    (h : (Divvier.new avail sizes).finish dyn = some out) :
    Division avail sizes out ∧ got (·.isDynamic) sizes out = dyn ∧ out.sum ≤ avail := by
  obtain ⟨h1, h2, h3, h4, h5, h6⟩ := (finish_spec avail sizes dyn).1 out h
  exact ⟨⟨h1, h3, fun hw => by rw [h4]; exact h6 hw⟩, h4, (C23_sum _ _ _ _ h).2.1⟩

theorem got_dynamic_cons (n : Nat) (ss : List PaneSize) (ws : List Nat) :
    got (·.isDynamic) (.dynamic :: ss) (n :: ws) = n :: got (·.isDynamic) ss ws := rfl

theorem got_dynamic_other {s : PaneSize} (h : s ≠ .dynamic) (n : Nat) (ss : List PaneSize) (ws : List Nat) :
    got (·.isDynamic) (s :: ss) (n :: ws) = got (·.isDynamic) ss ws := by
  cases s with
  | dynamic => exact absurd rfl h
  | _ => rfl

mutual
theorem displayPaneRec_tiles (env : PaneEnv P L) : ∀ (note : PaneNotation L P.Style) (style : P.Style) (rect : Rectangle),
    rect.minCol ≤ rect.maxCol → ∀ calls, displayPaneRec env note style rect = some (calls, .ok ()) →
    ∃ T, Tiles env note style rect T ∧ calls = T.flatMap (Tile.calls env.isFull)
  | .fill ch, style, rect, h, calls, hd => by
    rw [displayPaneRec] at hd
    refine ⟨_, .fill, ?_⟩
    rw [(fill_emits env.isFull ch style rect h).ok hd]
    simp [Tile.calls]
  | .doc label, style, rect, h, calls, hd => by
    rw [displayPaneRec] at hd
    cases hg : env.getContent label with
    | none =>
      rw [hg] at hd
      cases hd
      exact ⟨[], .nothing (.inl hg), rfl⟩
    | some x =>
      obtain ⟨doc, o⟩ := x
      rw [hg] at hd
      obtain ⟨c1, d, c2, h1, h2, rfl⟩ := PaneM.bind_eq_ok hd
      obtain ⟨rfl, h1'⟩ := printedDoc_excerpt h1
      rcases h1' with ⟨h0, rfl⟩ | ⟨h3, h4, e, h5, rfl⟩
      · rw [display_empty env.isFull style h h0 h2]
        exact ⟨[], .nothing (.inr h0), rfl⟩
      · rw [display_excerpt env.isFull e _ style h h2]
        exact ⟨_, .doc hg h3 h4 h5, by simp⟩
  | .style inner n, style, rect, h, calls, hd => by
    rw [displayPaneRec] at hd
    obtain ⟨T, h1, h2⟩ := displayPaneRec_tiles env n _ rect h calls hd
    exact ⟨T, .style h1, h2⟩
  | .horz panes, style, rect, h, calls, hd => by
    rw [displayPaneRec] at hd
    obtain ⟨c1, ds, c2, h1, hd_9, rfl⟩ := PaneM.bind_eq_ok hd
    obtain rfl := Quiet.horzDynamic _ _ _ _ _ _ _ h1
    obtain ⟨c1, widths, c3, h2, hd_10, rfl⟩ := PaneM.bind_eq_ok hd_9
    obtain rfl := Quiet.finishDivvy _ _ _ _ h2
    obtain ⟨g1, g2, g3⟩ := finish_division (finishDivvy_val h2)
    rw [C23_remaining] at h1
    obtain ⟨T, k1, k2⟩ := displayHorz_tiles env panes style rect widths ds rect.minCol _ _ h1 g1.length g2 _ hd_10
    exact ⟨T, .horz g1 k1, by simpa using k2⟩
  | .vert panes, style, rect, h, calls, hd => by
    rw [displayPaneRec] at hd
    obtain ⟨c1, ds, c2, h1, hd_11, rfl⟩ := PaneM.bind_eq_ok hd
    obtain rfl := Quiet.vertDynamic _ _ _ _ _ _ _ h1
    obtain ⟨c1, heights, c3, h2, hd_12, rfl⟩ := PaneM.bind_eq_ok hd_11
    obtain rfl := Quiet.finishDivvy _ _ _ _ h2
    obtain ⟨g1, g2, g3⟩ := finish_division (finishDivvy_val h2)
    rw [C23_remaining] at h1
    obtain ⟨T, k1, k2⟩ := displayVert_tiles env panes style rect heights ds rect.minRow h _ _ h1 g1.length g2 _ hd_12
    exact ⟨T, .vert g1 k1, by simpa using k2⟩

theorem displayHorz_tiles (env : PaneEnv P L) : ∀ (panes : Panes L P.Style) (style : P.Style) (rect : Rectangle)
    (widths : List Nat) (ds : List (PrintedDoc P × Nat)) (col : Nat) (avail : Nat) (c : List (WCall P.Style)),
    horzDynamic env style rect.height panes avail = some (c, .ok ds) →
    widths.length = panes.sizes.length → got (·.isDynamic) panes.sizes widths = ds.map (·.2) → ∀ calls,
    displayHorz env panes style rect widths (ds.map (·.1)) col = some (calls, .ok ()) →
    ∃ T, HTiles env style rect panes avail col widths T ∧ calls = T.flatMap (Tile.calls env.isFull)
  | .nil, style, rect, widths, ds, col, avail, c, h1, h2, h3, calls, hd => by
    obtain rfl : widths = [] := List.eq_nil_of_length_eq_zero (by simpa [Panes.sizes] using h2)
    rw [displayHorz] at hd
    · cases hd
      exact ⟨[], .nil, rfl⟩
    · intros; rename_i h _; cases h
  | .cons size note rest, style, rect, [], ds, col, avail, c, h1, h2, h3, calls, hd => by
    simp [Panes.sizes] at h2
  | .cons size note rest, style, rect, w :: ws, ds, col, avail, c, h1, h2, h3, calls, hd => by
    have h2' : ws.length = rest.sizes.length := by simpa [Panes.sizes] using h2
    rw [displayHorz] at hd
    obtain ⟨c1, col', c2, k1, hd_13, rfl⟩ := PaneM.bind_eq_ok hd
    obtain rfl := Quiet.addUpTo _ _ _ _ _ k1
    obtain ⟨rfl, _⟩ := addUpTo_val k1
    rw [horzDynamic] at h1
    by_cases hs : size = .dynamic
    · subst hs
      rw [if_neg (by simp)] at h1
      obtain ⟨c3, d, c4, m1, h1_14, rfl⟩ := PaneM.bind_eq_ok h1
      obtain ⟨c5, ds', c6, m2, h1_15, rfl⟩ := PaneM.bind_eq_ok h1_14
      cases h1_15
      rw [Panes.sizes, got_dynamic_cons, List.map_cons, List.cons.injEq] at h3
      obtain ⟨rfl, h3⟩ := h3
      simp only [List.map_cons, if_true] at hd_13
      obtain ⟨c7, _, c8, m3, hd_16, rfl⟩ := PaneM.bind_eq_ok hd_13
      obtain ⟨label, style', hdoc, hp⟩ := printDynamic_dyn m1
      obtain ⟨T, j1, j2⟩ := displayHorz_tiles env rest style rect ws ds' _ _ _ m2 h2' h3 _ hd_16
      rcases hp with ⟨hn, rfl⟩ | ⟨doc, o, e, e1, e2, e3, e4, rfl⟩
      · have hw : min (PrintedDoc.newEmpty (P := P) style').width avail = 0 := by
          simp [PrintedDoc.newEmpty, PrintedDoc.width]
        rw [hw] at m3 j1 ⊢
        rw [display_empty env.isFull style' (by simp) (.inl (by simp [Rectangle.width])) m3]
        exact ⟨T, .nothing hdoc hn (by simpa using j1), by simpa using j2⟩
      · have := display_excerpt env.isFull e _ style' (by simp) m3
        subst this
        exact ⟨_, .dynamic hdoc e1 e2 e3 e4 j1, by rw [j2]; simp; rfl⟩
    · rw [if_pos hs] at h1
      rw [Panes.sizes, got_dynamic_other hs] at h3
      rw [if_neg hs] at hd_13
      obtain ⟨c7, _, c8, m3, hd_17, rfl⟩ := PaneM.bind_eq_ok hd_13
      obtain ⟨T, j1, j2⟩ := displayPaneRec_tiles env note style _ (by simp) _ m3
      obtain ⟨T', j3, j4⟩ := displayHorz_tiles env rest style rect ws ds _ _ _ h1 h2' h3 _ hd_17
      exact ⟨_, .pane hs j1 j3, by rw [j2, j4]; simp⟩

theorem displayVert_tiles (env : PaneEnv P L) : ∀ (panes : Panes L P.Style) (style : P.Style) (rect : Rectangle)
    (heights : List Nat) (ds : List (PrintedDoc P × Nat)) (row : Nat), rect.minCol ≤ rect.maxCol →
    ∀ (avail : Nat) (c : List (WCall P.Style)),
    vertDynamic env style rect.width panes avail = some (c, .ok ds) →
    heights.length = panes.sizes.length → got (·.isDynamic) panes.sizes heights = ds.map (·.2) → ∀ calls,
    displayVert env panes style rect heights (ds.map (·.1)) row = some (calls, .ok ()) →
    ∃ T, VTiles env style rect panes avail row heights T ∧ calls = T.flatMap (Tile.calls env.isFull)
  | .nil, style, rect, heights, ds, row, hc, avail, c, h1, h2, h3, calls, hd => by
    obtain rfl : heights = [] := List.eq_nil_of_length_eq_zero (by simpa [Panes.sizes] using h2)
    rw [displayVert] at hd
    · cases hd
      exact ⟨[], .nil, rfl⟩
    · intros; rename_i h _; cases h
  | .cons size note rest, style, rect, [], ds, row, hc, avail, c, h1, h2, h3, calls, hd => by
    simp [Panes.sizes] at h2
  | .cons size note rest, style, rect, w :: ws, ds, row, hc, avail, c, h1, h2, h3, calls, hd => by
    have h2' : ws.length = rest.sizes.length := by simpa [Panes.sizes] using h2
    rw [displayVert] at hd
    obtain ⟨c1, row', c2, k1, hd_18, rfl⟩ := PaneM.bind_eq_ok hd
    obtain rfl := Quiet.addUpTo _ _ _ _ _ k1
    obtain ⟨rfl, _⟩ := addUpTo_val k1
    rw [vertDynamic] at h1
    by_cases hs : size = .dynamic
    · subst hs
      rw [if_neg (by simp)] at h1
      obtain ⟨c3, d, c4, m1, h1_19, rfl⟩ := PaneM.bind_eq_ok h1
      obtain ⟨c9, avail', c10, m4, h1_20, rfl⟩ := PaneM.bind_eq_ok h1_19
      obtain rfl := Quiet.subU _ _ _ _ m4
      obtain ⟨rfl, m5⟩ := subU_val m4
      obtain ⟨c5, ds', c6, m2, h1_21, rfl⟩ := PaneM.bind_eq_ok h1_20
      cases h1_21
      rw [Panes.sizes, got_dynamic_cons, List.map_cons, List.cons.injEq] at h3
      obtain ⟨rfl, h3⟩ := h3
      simp only [List.map_cons, if_true] at hd_18
      obtain ⟨c7, _, c8, m3, hd_22, rfl⟩ := PaneM.bind_eq_ok hd_18
      obtain ⟨label, style', hdoc, hp⟩ := printDynamic_dyn m1
      obtain ⟨T, j1, j2⟩ := displayVert_tiles env rest style rect ws ds' _ hc _ _ m2 h2' h3 _ hd_22
      rcases hp with ⟨hn, rfl⟩ | ⟨doc, o, e, e1, e2, e3, e4, rfl⟩
      · have hw : (PrintedDoc.newEmpty (P := P) style').height = 0 := rfl
        rw [hw] at m3 j1 ⊢
        rw [display_empty env.isFull style' (by exact hc) (.inr (by simp [Rectangle.height])) m3]
        exact ⟨T, .nothing hdoc hn (by simpa using j1), by simpa using j2⟩
      · have := display_excerpt env.isFull e _ style' (by exact hc) m3
        subst this
        exact ⟨_, .dynamic hdoc e1 e2 e3 e4 m5 j1, by rw [j2]; simp; rfl⟩
    · rw [if_pos hs] at h1
      rw [Panes.sizes, got_dynamic_other hs] at h3
      rw [if_neg hs] at hd_18
      obtain ⟨c7, _, c8, m3, hd_23, rfl⟩ := PaneM.bind_eq_ok hd_18
      obtain ⟨T, j1, j2⟩ := displayPaneRec_tiles env note style _ (by exact hc) _ m3
      obtain ⟨T', j3, j4⟩ := displayVert_tiles env rest style rect ws ds _ hc _ _ h1 h2' h3 _ hd_23
      exact ⟨_, .pane hs j1 j3, by rw [j2, j4]; simp⟩
end

end PPP
