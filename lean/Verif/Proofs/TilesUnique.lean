import Verif.Proofs.Tiles
/-
The tiles of a window are determined by the pane notation and the documents.
-/
namespace PPP
variable {L : Type} {P : PrettyDoc}

theorem FirstCome.unique {avail : Nat} {rs F G : List Nat} (hF : FirstCome avail rs F) (hG : FirstCome avail rs G) :
    F = G := by
  have h : ∀ i, F.take i = G.take i := by
    intro i
    induction i with
    | zero => simp
    | succ i ih =>
      by_cases hi : i < rs.length
      · have h1 : i < F.length := by rw [hF.1]; exact hi
        have h2 : i < G.length := by rw [hG.1]; exact hi
        rw [List.take_succ_eq_append_getElem h1, List.take_succ_eq_append_getElem h2, ih]
        have e1 := hF.2 i rs[i] F[i] (List.getElem?_eq_getElem hi) (List.getElem?_eq_getElem h1)
        have e2 := hG.2 i rs[i] G[i] (List.getElem?_eq_getElem hi) (List.getElem?_eq_getElem h2)
        rw [ih] at e1
        rw [e1, e2]
      · rw [List.take_of_length_le (by rw [hF.1]; omega), List.take_of_length_le (by rw [hG.1]; omega)]
        rw [List.take_of_length_le (by rw [hF.1]; omega), List.take_of_length_le (by rw [hG.1]; omega)] at ih
        exact ih
  have := h (max F.length G.length)
  rwa [List.take_of_length_le (Nat.le_max_left _ _), List.take_of_length_le (Nat.le_max_right _ _)] at this

theorem eq_of_got : ∀ {sizes : List PaneSize} {out out' : List Nat}, out.length = sizes.length →
    out'.length = sizes.length → got (·.isFixed) sizes out = got (·.isFixed) sizes out' →
    got (·.isDynamic) sizes out = got (·.isDynamic) sizes out' →
    got (·.isProportional) sizes out = got (·.isProportional) sizes out' → out = out'
  | [], out, out', h1, h2, _, _, _ => by
    rw [List.eq_nil_of_length_eq_zero h1, List.eq_nil_of_length_eq_zero h2]
  | s :: ss, [], _, h1, _, _, _, _ => by simp at h1
  | s :: ss, _ :: _, [], _, h2, _, _, _ => by simp at h2
  | s :: ss, a :: out, b :: out', h1, h2, h3, h4, h5 => by
    simp only [List.length_cons, Nat.add_right_cancel_iff] at h1 h2
    cases s with
    | fixed n =>
      injection h3 with h6 h3
      exact List.cons_eq_cons.2 ⟨h6, eq_of_got h1 h2 h3 h4 h5⟩
    | dynamic =>
      injection h4 with h6 h4
      exact List.cons_eq_cons.2 ⟨h6, eq_of_got h1 h2 h3 h4 h5⟩
    | proportional n =>
      injection h5 with h6 h5
      exact List.cons_eq_cons.2 ⟨h6, eq_of_got h1 h2 h3 h4 h5⟩

theorem got_proportional_nil : ∀ {sizes : List PaneSize} {out : List Nat}, weights sizes = [] →
    got (·.isProportional) sizes out = []
  | [], out, _ => by simp [got]
  | s :: ss, [], _ => by simp [got]
  | s :: ss, a :: out, h => by
    cases s with
    | fixed n => exact got_proportional_nil (sizes := ss) (out := out) h
    | dynamic => exact got_proportional_nil (sizes := ss) (out := out) h
    | proportional n => cases h

theorem Division.unique {avail : Nat} {sizes : List PaneSize} {out out' : List Nat} (h : Division avail sizes out)
    (h' : Division avail sizes out') (hd : got (·.isDynamic) sizes out = got (·.isDynamic) sizes out') : out = out' := by
  refine eq_of_got h.length h'.length (h.fixed.unique h'.fixed) hd ?_
  by_cases hw : weights sizes = []
  · rw [got_proportional_nil hw, got_proportional_nil hw]
  · have e1 := h.fair hw
    have e2 := h'.fair hw
    rw [← hd] at e2
    exact C24_unique e1 e2

theorem IsExcerpt.unique {doc : P.Node} {o : PrintingOptions} {style : P.Style} {w h : Nat} {e e' : Excerpt P}
    (he : IsExcerpt doc o style w h e) (he' : IsExcerpt doc o style w h e') : e = e' := by
  obtain ⟨r1, up, down, h1, h2, h3⟩ := he
  obtain ⟨r2, up', down', h1', h2', h3'⟩ := he'
  rw [r1] at r2
  have hr : e.row = e'.row := by injection r2 with r2; injection r2 with _ r2; injection r2
  rw [hr, h1'] at h1
  have h1 := Exec.ofRes_inj h1
  injection h1 with h1
  injection h1 with a1 h1
  injection h1 with a2 a3
  subst a1 a3
  cases e; cases e'
  simp only at hr h2 h3 h2' h3' a2
  subst hr h2 h3 h2' h3' a2
  rfl

theorem DocOf.unique : ∀ {n : PaneNotation L P.Style} {s : P.Style} {l s' l' s''}, DocOf n s l s' → DocOf n s l' s'' →
    l = l' ∧ s' = s''
  | .doc _, _, _, _, _, _, .doc, .doc => ⟨rfl, rfl⟩
  | .style _ _, _, _, _, _, _, .style h, .style h' => h.unique h'

theorem NothingToShow.not_excerpt {env : PaneEnv P L} {label : L} {w h : Nat} (hn : NothingToShow env label w h) {x}
    (hg : env.getContent label = some x) (hw : w ≠ 0) (hh : h ≠ 0) : False := by
  rcases hn with hn | hn | hn
  · rw [hg] at hn; cases hn
  · exact hw hn
  · exact hh hn

theorem HTiles.dyn {env : PaneEnv P L} {style : P.Style} {rect : Rectangle} : ∀ {panes : Panes L P.Style} {avail col col' ws T ws' T'},
    HTiles env style rect panes avail col ws T → HTiles env style rect panes avail col' ws' T' →
    got (·.isDynamic) panes.sizes ws = got (·.isDynamic) panes.sizes ws'
  | .nil, _, _, _, _, _, _, _, .nil, .nil => rfl
  | .cons _ _ _, _, _, _, _, _, _, _, .pane hs _ h, .pane _ _ h' => by
    rw [Panes.sizes, got_dynamic_other hs, got_dynamic_other hs]; exact h.dyn h'
  | .cons _ _ _, _, _, _, _, _, _, _, .pane hs _ _, .dynamic _ _ _ _ _ _ => absurd rfl hs
  | .cons _ _ _, _, _, _, _, _, _, _, .pane hs _ _, .nothing _ _ _ => absurd rfl hs
  | .cons _ _ _, _, _, _, _, _, _, _, .dynamic _ _ _ _ _ _, .pane hs _ _ => absurd rfl hs
  | .cons _ _ _, _, _, _, _, _, _, _, .nothing _ _ _, .pane hs _ _ => absurd rfl hs
  | .cons _ _ _, _, _, _, _, _, _, _, .dynamic d1 g1 a1 b1 e1 h1, .dynamic d2 g2 a2 b2 e2 h2 => by
    obtain ⟨rfl, rfl⟩ := d1.unique d2
    rw [g1] at g2
    cases g2
    obtain rfl := e1.unique e2
    rw [Panes.sizes, got_dynamic_cons, got_dynamic_cons, h1.dyn h2]
  | .cons _ _ _, _, _, _, _, _, _, _, .dynamic d1 g1 a1 b1 e1 h1, .nothing d2 n2 h2 => by
    obtain ⟨rfl, rfl⟩ := d1.unique d2
    exact (n2.not_excerpt g1 a1 b1).elim
  | .cons _ _ _, _, _, _, _, _, _, _, .nothing d1 n1 h1, .dynamic d2 g2 a2 b2 e2 h2 => by
    obtain ⟨rfl, rfl⟩ := d1.unique d2
    exact (n1.not_excerpt g2 a2 b2).elim
  | .cons _ _ _, _, _, _, _, _, _, _, .nothing d1 n1 h1, .nothing d2 n2 h2 => by
    rw [Panes.sizes, got_dynamic_cons, got_dynamic_cons, h1.dyn h2]

theorem VTiles.dyn {env : PaneEnv P L} {style : P.Style} {rect : Rectangle} : ∀ {panes : Panes L P.Style} {avail row row' hs T hs' T'},
    VTiles env style rect panes avail row hs T → VTiles env style rect panes avail row' hs' T' →
    got (·.isDynamic) panes.sizes hs = got (·.isDynamic) panes.sizes hs'
  | .nil, _, _, _, _, _, _, _, .nil, .nil => rfl
  | .cons _ _ _, _, _, _, _, _, _, _, .pane hs _ h, .pane _ _ h' => by
    rw [Panes.sizes, got_dynamic_other hs, got_dynamic_other hs]; exact h.dyn h'
  | .cons _ _ _, _, _, _, _, _, _, _, .pane hs _ _, .dynamic _ _ _ _ _ _ _ => absurd rfl hs
  | .cons _ _ _, _, _, _, _, _, _, _, .pane hs _ _, .nothing _ _ _ => absurd rfl hs
  | .cons _ _ _, _, _, _, _, _, _, _, .dynamic _ _ _ _ _ _ _, .pane hs _ _ => absurd rfl hs
  | .cons _ _ _, _, _, _, _, _, _, _, .nothing _ _ _, .pane hs _ _ => absurd rfl hs
  | .cons _ _ _, _, _, _, _, _, _, _, .dynamic d1 g1 a1 b1 e1 _ h1, .dynamic d2 g2 a2 b2 e2 _ h2 => by
    obtain ⟨rfl, rfl⟩ := d1.unique d2
    rw [g1] at g2
    cases g2
    obtain rfl := e1.unique e2
    rw [Panes.sizes, got_dynamic_cons, got_dynamic_cons, h1.dyn h2]
  | .cons _ _ _, _, _, _, _, _, _, _, .dynamic d1 g1 a1 b1 e1 _ h1, .nothing d2 n2 h2 => by
    obtain ⟨rfl, rfl⟩ := d1.unique d2
    exact (n2.not_excerpt g1 a1 b1).elim
  | .cons _ _ _, _, _, _, _, _, _, _, .nothing d1 n1 h1, .dynamic d2 g2 a2 b2 e2 _ h2 => by
    obtain ⟨rfl, rfl⟩ := d1.unique d2
    exact (n1.not_excerpt g2 a2 b2).elim
  | .cons _ _ _, _, _, _, _, _, _, _, .nothing d1 n1 h1, .nothing d2 n2 h2 => by
    rw [Panes.sizes, got_dynamic_cons, got_dynamic_cons, h1.dyn h2]

mutual
theorem Tiles.unique {env : PaneEnv P L} : ∀ {note : PaneNotation L P.Style} {style : P.Style} {rect : Rectangle} {T T'},
    Tiles env note style rect T → Tiles env note style rect T' → T = T'
  | .fill _, _, _, _, _, .fill, .fill => rfl
  | .doc _, _, _, _, _, .doc g _ _ e, .doc g' _ _ e' => by
    rw [g] at g'
    cases g'
    rw [e.unique e']
  | .doc _, _, _, _, _, .doc g a b _, .nothing n => (n.not_excerpt g a b).elim
  | .doc _, _, _, _, _, .nothing n, .doc g a b _ => (n.not_excerpt g a b).elim
  | .doc _, _, _, _, _, .nothing _, .nothing _ => rfl
  | .style _ _, _, _, _, _, .style h, .style h' => h.unique h'
  | .horz _, _, _, _, _, .horz d h, .horz d' h' => by
    exact h.unique h' (d.unique d' (h.dyn h'))
  | .vert _, _, _, _, _, .vert d h, .vert d' h' => by
    exact h.unique h' (d.unique d' (h.dyn h'))

theorem HTiles.unique {env : PaneEnv P L} {style : P.Style} {rect : Rectangle} : ∀ {panes : Panes L P.Style} {avail col ws ws' T T'},
    HTiles env style rect panes avail col ws T → HTiles env style rect panes avail col ws' T' → ws = ws' → T = T'
  | .nil, _, _, _, _, _, _, .nil, .nil, _ => rfl
  | .cons _ _ _, _, _, _, _, _, _, .pane hs t h, .pane _ t' h', e => by
    injection e with e1 e2
    subst e1
    rw [t.unique t', h.unique h' e2]
  | .cons _ _ _, _, _, _, _, _, _, .pane hs _ _, .dynamic _ _ _ _ _ _, _ => absurd rfl hs
  | .cons _ _ _, _, _, _, _, _, _, .pane hs _ _, .nothing _ _ _, _ => absurd rfl hs
  | .cons _ _ _, _, _, _, _, _, _, .dynamic _ _ _ _ _ _, .pane hs _ _, _ => absurd rfl hs
  | .cons _ _ _, _, _, _, _, _, _, .nothing _ _ _, .pane hs _ _, _ => absurd rfl hs
  | .cons _ _ _, _, _, _, _, _, _, .dynamic d1 g1 a1 b1 e1 h1, .dynamic d2 g2 a2 b2 e2 h2, e => by
    obtain ⟨rfl, rfl⟩ := d1.unique d2
    rw [g1] at g2
    cases g2
    obtain rfl := e1.unique e2
    rw [h1.unique h2 (List.cons.inj e).2]
  | .cons _ _ _, _, _, _, _, _, _, .dynamic d1 g1 a1 b1 e1 h1, .nothing d2 n2 h2, _ => by
    obtain ⟨rfl, rfl⟩ := d1.unique d2
    exact (n2.not_excerpt g1 a1 b1).elim
  | .cons _ _ _, _, _, _, _, _, _, .nothing d1 n1 h1, .dynamic d2 g2 a2 b2 e2 h2, _ => by
    obtain ⟨rfl, rfl⟩ := d1.unique d2
    exact (n1.not_excerpt g2 a2 b2).elim
  | .cons _ _ _, _, _, _, _, _, _, .nothing d1 n1 h1, .nothing d2 n2 h2, e => h1.unique h2 (List.cons.inj e).2

theorem VTiles.unique {env : PaneEnv P L} {style : P.Style} {rect : Rectangle} : ∀ {panes : Panes L P.Style} {avail row ws ws' T T'},
    VTiles env style rect panes avail row ws T → VTiles env style rect panes avail row ws' T' → ws = ws' → T = T'
  | .nil, _, _, _, _, _, _, .nil, .nil, _ => rfl
  | .cons _ _ _, _, _, _, _, _, _, .pane hs t h, .pane _ t' h', e => by
    injection e with e1 e2
    subst e1
    rw [t.unique t', h.unique h' e2]
  | .cons _ _ _, _, _, _, _, _, _, .pane hs _ _, .dynamic _ _ _ _ _ _ _, _ => absurd rfl hs
  | .cons _ _ _, _, _, _, _, _, _, .pane hs _ _, .nothing _ _ _, _ => absurd rfl hs
  | .cons _ _ _, _, _, _, _, _, _, .dynamic _ _ _ _ _ _ _, .pane hs _ _, _ => absurd rfl hs
  | .cons _ _ _, _, _, _, _, _, _, .nothing _ _ _, .pane hs _ _, _ => absurd rfl hs
  | .cons _ _ _, _, _, _, _, _, _, .dynamic d1 g1 a1 b1 e1 _ h1, .dynamic d2 g2 a2 b2 e2 _ h2, e => by
    obtain ⟨rfl, rfl⟩ := d1.unique d2
    rw [g1] at g2
    cases g2
    obtain rfl := e1.unique e2
    rw [h1.unique h2 (List.cons.inj e).2]
  | .cons _ _ _, _, _, _, _, _, _, .dynamic d1 g1 a1 b1 e1 _ h1, .nothing d2 n2 h2, _ => by
    obtain ⟨rfl, rfl⟩ := d1.unique d2
    exact (n2.not_excerpt g1 a1 b1).elim
  | .cons _ _ _, _, _, _, _, _, _, .nothing d1 n1 h1, .dynamic d2 g2 a2 b2 e2 _ h2, _ => by
    obtain ⟨rfl, rfl⟩ := d1.unique d2
    exact (n1.not_excerpt g2 a2 b2).elim
  | .cons _ _ _, _, _, _, _, _, _, .nothing d1 n1 h1, .nothing d2 n2 h2, e => h1.unique h2 (List.cons.inj e).2

end

end PPP
