import Verif.Proofs.PaneDraws
import Verif.Props.Printing
/-
C26 – C28: which cells of the window are written.
-/
namespace PPP
variable {L : Type} {P : PrettyDoc}

/-- **C26.**  Every cell covered by a `display_char` call is inside of the window (whether displaying
    the panes succeeds or fails half-way). -/
theorem C26_in_window (env : PaneEnv P L) (note : PaneNotation L P.Style) (style : P.Style) (width height : Nat)
    {calls res} (h : (displayPane env note style width height).run = some (calls, res)) :
    ∀ call ∈ calls, ∀ cell ∈ call.cells, cell.1 < height ∧ cell.2 < width := by
  intro call hc cell hcell
  have := (displayPaneRec_draws env note style { minRow := 0, maxRow := height, minCol := 0, maxCol := width }
    (Nat.zero_le _) (Nat.zero_le _) calls res h).2.1 cell
    (by simp only [cellsOf, List.mem_flatMap]; exact ⟨call, hc, hcell⟩)
  exact ⟨this.2.1, this.2.2.2⟩

/-- **C27.**  No cell is covered twice (whether displaying the panes succeeds or fails half-way). -/
theorem C27_at_most_once (env : PaneEnv P L) (note : PaneNotation L P.Style) (style : P.Style) (width height : Nat)
    {calls res} (h : (displayPane env note style width height).run = some (calls, res)) :
    (cellsOf calls).Nodup :=
  (displayPaneRec_draws env note style { minRow := 0, maxRow := height, minCol := 0, maxCol := width }
    (Nat.zero_le _) (Nat.zero_le _) calls res h).1

/-- **C28.**  If displaying the panes succeeds, and nothing is left over (`Covering`), then every cell of
    the window is covered exactly once. -/
theorem C28_exactly_once (env : PaneEnv P L) (note : PaneNotation L P.Style) (style : P.Style) (width height : Nat)
    (hcov : Covering env note width height)
    {calls} (h : (displayPane env note style width height).run = some (calls, .ok ())) (row col : Nat) :
    (cellsOf calls).count (row, col) = if row < height ∧ col < width then 1 else 0 := by
  obtain ⟨h1, h2, h3⟩ := displayPaneRec_draws env note style
    { minRow := 0, maxRow := height, minCol := 0, maxCol := width } (Nat.zero_le _) (Nat.zero_le _) calls (.ok ()) h
  rw [List.Nodup.count h1]
  have : (row, col) ∈ cellsOf calls ↔ row < height ∧ col < width := by
    constructor
    · intro hm
      have := h2 _ hm
      exact ⟨this.2.1, this.2.2.2⟩
    · intro hm
      exact h3 hcov () rfl _ ⟨Nat.zero_le _, hm.1, Nat.zero_le _, hm.2⟩
  simp only [this]

mutual
theorem Tiled.covering (env : PaneEnv P L) : ∀ (note : PaneNotation L P.Style), Tiled env note → ∀ w h,
    Covering env note w h
  | .fill _, _, _, _ => trivial
  | .doc _, h, _, _ => h
  | .style _ n, h, w, h' => Tiled.covering env n h w h'
  | .horz panes, h, w, h' => fun dyn out hf =>
    ⟨(C23_sum _ _ _ _ hf).2.2 h.1, (TiledPanes.covering env panes h.2 out h').1⟩
  | .vert panes, h, w, h' => fun dyn out hf =>
    ⟨(C23_sum _ _ _ _ hf).2.2 h.1, (TiledPanes.covering env panes h.2 out w).2⟩
theorem TiledPanes.covering (env : PaneEnv P L) : ∀ (panes : Panes L P.Style), TiledPanes env panes → ∀ ws h,
    CoveringH env panes ws h ∧ CoveringV env panes ws h
  | .nil, _, _, _ => ⟨trivial, trivial⟩
  | .cons _ _ _, _, [], _ => ⟨trivial, trivial⟩
  | .cons size n rest, h, w :: ws, h' =>
    ⟨⟨fun hs => Tiled.covering env n (h.1 hs) w h', (TiledPanes.covering env rest h.2 ws h').1⟩,
     ⟨fun hs => Tiled.covering env n (h.1 hs) h' w, (TiledPanes.covering env rest h.2 ws h').2⟩⟩
end

/-- **C28**, for a condition that is independent of the size of the window: all documents exist and
    every `Horz` and `Vert` has a `Proportional` pane. -/
theorem C28_tiled (env : PaneEnv P L) (note : PaneNotation L P.Style) (style : P.Style) (width height : Nat)
    (ht : Tiled env note)
    {calls} (h : (displayPane env note style width height).run = some (calls, .ok ())) (row col : Nat) :
    (cellsOf calls).count (row, col) = if row < height ∧ col < width then 1 else 0 :=
  C28_exactly_once env note style width height (ht.covering env note width height) h row col

end PPP
