import Verif.Proofs.PaneCells
/-
Displaying panes: no cell outside of the window is covered, and no cell is covered twice.
-/
namespace PPP
variable {S E L : Type} {P : PrettyDoc}

theorem finishDivvy_val {d : Divvier} {sizes out : List Nat}
    (h : (finishDivvy d sizes : PaneM S E (List Nat)) = some ([], .ok out)) : d.finish sizes = some out := by
  unfold finishDivvy at h
  split at h
  · cases h; assumption
  · cases h

mutual
theorem displayPaneRec_draws (env : PaneEnv P L) : ∀ (note : PaneNotation L P.Style) (style : P.Style) (rect : Rectangle),
    rect.minCol ≤ rect.maxCol → rect.minRow ≤ rect.maxRow →
    Draws (Covering env note rect.width rect.height) (displayPaneRec env note style rect) rect
  | .fill ch, style, rect, h, _ => by
    rw [displayPaneRec]
    exact .of_emits (fill_emits env.isFull ch style rect h) (cells_rectCalls _ _ _ _)
  | .doc label, style, rect, h, _ => by
    rw [displayPaneRec]
    split
    · exact .quiet_bind (.printedDoc _ _ _ _ _) fun d _ => display_draws _ d rect h _
    · rename_i hn
      exact .pure fun hc => absurd hn hc
  | .style inner n, style, rect, h, h' => by
    rw [displayPaneRec]
    exact displayPaneRec_draws env n _ rect h h'
  | .horz panes, style, rect, h, h' => by
    rw [displayPaneRec]
    refine .quiet_bind (.horzDynamic _ _ _ _ _) fun dyn _ => .quiet_bind (.finishDivvy _ _) fun out hout => ?_
    have hf := finishDivvy_val hout
    obtain ⟨g1, g2, _⟩ := C23_sum _ _ _ _ hf
    refine (displayHorz_draws env panes style rect out _ rect.minCol (Nat.le_refl _)
      (by unfold Rectangle.width at g2; omega) h').mono fun hc => ?_
    obtain ⟨k1, k2⟩ := hc _ out hf
    refine ⟨?_, k2, g1⟩
    unfold Rectangle.width at k1; omega
  | .vert panes, style, rect, h, h' => by
    rw [displayPaneRec]
    refine .quiet_bind (.vertDynamic _ _ _ _ _) fun dyn _ => .quiet_bind (.finishDivvy _ _) fun out hout => ?_
    have hf := finishDivvy_val hout
    obtain ⟨g1, g2, _⟩ := C23_sum _ _ _ _ hf
    refine (displayVert_draws env panes style rect out _ rect.minRow (Nat.le_refl _)
      (by unfold Rectangle.height at g2; omega) h).mono fun hc => ?_
    obtain ⟨k1, k2⟩ := hc _ out hf
    refine ⟨?_, k2, g1⟩
    unfold Rectangle.height at k1; omega

theorem displayHorz_draws (env : PaneEnv P L) : ∀ (panes : Panes L P.Style) (style : P.Style) (rect : Rectangle)
    (widths : List Nat) (docs : List (PrintedDoc P)) (col : Nat), rect.minCol ≤ col →
    col + widths.sum ≤ rect.maxCol → rect.minRow ≤ rect.maxRow →
    Draws (col + widths.sum = rect.maxCol ∧ CoveringH env panes widths rect.height ∧ widths.length = panes.sizes.length)
      (displayHorz env panes style rect widths docs col) { rect with minCol := col }
  | .nil, style, rect, widths, docs, col, h1, h2, h3 => by
    rw [displayHorz]
    · refine .pure ?_
      rintro ⟨k1, _, k3⟩ c ⟨_, _, k4, k5⟩
      have : widths = [] := List.eq_nil_of_length_eq_zero (by simpa [Panes.sizes] using k3)
      subst this
      simp at k1 k4 k5
      omega
    · intros; rename_i h _; cases h
  | .cons size note rest, style, rect, [], docs, col, h1, h2, h3 => by
    rw [displayHorz]
    · refine .pure ?_
      rintro ⟨k1, _, k3⟩
      simp [Panes.sizes] at k3
    · intros; rename_i h; cases h
  | .cons size note rest, style, rect, w :: ws, docs, col, h1, h2, h3 => by
    rw [displayHorz]
    refine .quiet_bind (.addUpTo _ _ _) fun col' hcol => ?_
    obtain ⟨rfl, _⟩ := addUpTo_val hcol
    simp only [List.sum_cons] at h2 ⊢
    have hrest : ∀ docs, Draws (col + (w + ws.sum) = rect.maxCol ∧
        CoveringH env (.cons size note rest) (w :: ws) rect.height ∧
        (w :: ws).length = (Panes.cons size note rest).sizes.length)
      (displayHorz env rest style rect ws docs (col + w)) { rect with minCol := col + w } := by
      intro docs
      refine (displayHorz_draws env rest style rect ws docs (col + w) (by omega) (by omega) h3).mono ?_
      rintro ⟨k1, k2, k3⟩
      exact ⟨by omega, k2.2, by simpa [Panes.sizes] using k3⟩
    have hr : ∀ c, ({ rect with minCol := col } : Rectangle).Has c ↔
        ({ rect with minCol := col, maxCol := col + w } : Rectangle).Has c ∨
        ({ rect with minCol := col + w } : Rectangle).Has c := by
      intro c; simp only [Rectangle.Has]; omega
    have hd : ∀ c, ({ rect with minCol := col, maxCol := col + w } : Rectangle).Has c →
        ¬ ({ rect with minCol := col + w } : Rectangle).Has c := by
      intro c; simp only [Rectangle.Has]; omega
    split
    · cases docs with
      | nil => exact .fail
      | cons d docs =>
        exact .bind (display_draws env.isFull d _ (by simp) _) (fun _ => hrest docs) hr hd
    · rename_i hs
      refine .bind ((displayPaneRec_draws env note style { rect with minCol := col, maxCol := col + w }
        (by simp) h3).mono ?_) (fun _ => hrest docs) hr hd
      rintro ⟨_, k2, _⟩
      have := k2.1 hs
      simpa [Rectangle.width, Rectangle.height] using this

theorem displayVert_draws (env : PaneEnv P L) : ∀ (panes : Panes L P.Style) (style : P.Style) (rect : Rectangle)
    (heights : List Nat) (docs : List (PrintedDoc P)) (row : Nat), rect.minRow ≤ row →
    row + heights.sum ≤ rect.maxRow → rect.minCol ≤ rect.maxCol →
    Draws (row + heights.sum = rect.maxRow ∧ CoveringV env panes heights rect.width ∧
        heights.length = panes.sizes.length)
      (displayVert env panes style rect heights docs row) { rect with minRow := row }
  | .nil, style, rect, heights, docs, row, h1, h2, h3 => by
    rw [displayVert]
    · refine .pure ?_
      rintro ⟨k1, _, k3⟩ c ⟨k4, k5, _, _⟩
      have : heights = [] := List.eq_nil_of_length_eq_zero (by simpa [Panes.sizes] using k3)
      subst this
      simp at k1 k4 k5
      omega
    · intros; rename_i h _; cases h
  | .cons size note rest, style, rect, [], docs, row, h1, h2, h3 => by
    rw [displayVert]
    · refine .pure ?_
      rintro ⟨k1, _, k3⟩
      simp [Panes.sizes] at k3
    · intros; rename_i h; cases h
  | .cons size note rest, style, rect, w :: ws, docs, row, h1, h2, h3 => by
    rw [displayVert]
    refine .quiet_bind (.addUpTo _ _ _) fun row' hrow => ?_
    obtain ⟨rfl, _⟩ := addUpTo_val hrow
    simp only [List.sum_cons] at h2 ⊢
    have hrest : ∀ docs, Draws (row + (w + ws.sum) = rect.maxRow ∧
        CoveringV env (.cons size note rest) (w :: ws) rect.width ∧
        (w :: ws).length = (Panes.cons size note rest).sizes.length)
      (displayVert env rest style rect ws docs (row + w)) { rect with minRow := row + w } := by
      intro docs
      refine (displayVert_draws env rest style rect ws docs (row + w) (by omega) (by omega) h3).mono ?_
      rintro ⟨k1, k2, k3⟩
      exact ⟨by omega, k2.2, by simpa [Panes.sizes] using k3⟩
    have hr : ∀ c, ({ rect with minRow := row } : Rectangle).Has c ↔
        ({ rect with minRow := row, maxRow := row + w } : Rectangle).Has c ∨
        ({ rect with minRow := row + w } : Rectangle).Has c := by
      intro c; simp only [Rectangle.Has]; omega
    have hd : ∀ c, ({ rect with minRow := row, maxRow := row + w } : Rectangle).Has c →
        ¬ ({ rect with minRow := row + w } : Rectangle).Has c := by
      intro c; simp only [Rectangle.Has]; omega
    split
    · cases docs with
      | nil => exact .fail
      | cons d docs =>
        exact .bind (display_draws env.isFull d { rect with minRow := row, maxRow := row + w } h3 _) (fun _ => hrest docs) hr hd
    · rename_i hs
      refine .bind ((displayPaneRec_draws env note style { rect with minRow := row, maxRow := row + w }
        h3 (by simp)).mono ?_) (fun _ => hrest docs) hr hd
      rintro ⟨_, k2, _⟩
      have := k2.1 hs
      simpa [Rectangle.width, Rectangle.height] using this
end

end PPP
