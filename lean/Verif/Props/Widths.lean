import Verif.Props.Choices
import Verif.Props.Layout
import Verif.Spec.Widths
/-
C50: how the layout depends on the width.
-/
namespace PPP
variable {P : PrettyDoc}

theorem LineFits.mono {w w' : Nat} {st : LineSt} {T : List (Tok P)} (hw : w ≤ w')
    (h : LineFits w st T) : LineFits w' st T := ⟨Nat.le_trans h.1 hw, h.2⟩

/-- The same tree at two widths: the same decisions, or the wider one takes a first option where the
    narrower one takes a second one. -/
theorem greedy_wider {w w' : Nat} (hw : w ≤ w') {id : P.Id} {t : NTree P} {k st st1 T}
    (h : Greedy w id t k st st1 T) : ∀ {st2 T'}, Greedy w' id t k st st2 T' →
    (T = T' ∧ st1 = st2) ∨ FirstInstead T T' := by
  induction h with
  | empty => intro st2 T' h; cases h; exact .inl ⟨rfl, rfl⟩
  | mark => intro st2 T' h; cases h; exact .inl ⟨rfl, rfl⟩
  | eol => intro st2 T' h; cases h; exact .inl ⟨rfl, rfl⟩
  | newline => intro st2 T' h; cases h; exact .inl ⟨rfl, rfl⟩
  | text => intro st2 T' h; cases h; exact .inl ⟨rfl, rfl⟩
  | child _ ih => intro st2 T' h; cases h with | child h => exact ih h
  | concat _ _ iha ihb =>
    intro st2 T' h
    cases h with
    | concat ha hb =>
      rcases iha ha with ⟨rfl, rfl⟩ | ⟨A, B, B', rfl, rfl⟩
      · rcases ihb hb with ⟨rfl, rfl⟩ | ⟨A, B, B', rfl, rfl⟩
        · exact .inl ⟨rfl, rfl⟩
        · rename_i T1 _ _; exact .inr ⟨T1 ++ A, B, B', by simp, by simp⟩
      · exact .inr ⟨A, _, _, by rw [List.append_assoc]; rfl, by rw [List.append_assoc]; rfl⟩
  | choice_first hf _ ih =>
    intro st2 T' h
    cases h with
    | choice_first _ h =>
      rcases ih h with ⟨rfl, rfl⟩ | ⟨A, B, B', rfl, rfl⟩
      · exact .inl ⟨rfl, rfl⟩
      · exact .inr ⟨_ :: A, B, B', rfl, rfl⟩
    | choice_second hs _ => exact (hs (LineFits.mono hw hf)).elim
  | choice_second hs _ ih =>
    intro st2 T' h
    cases h with
    | choice_first hf h => exact .inr ⟨[], _, _, rfl, rfl⟩
    | choice_second _ h =>
      rcases ih h with ⟨rfl, rfl⟩ | ⟨A, B, B', rfl, rfl⟩
      · exact .inl ⟨rfl, rfl⟩
      · exact .inr ⟨_ :: A, B, B', rfl, rfl⟩

/-- **C50, monotonicity.**  When a document is laid out at two widths, then either all decisions are
    the same, or the first choice that is decided differently takes its first option at the larger
    width and its second option at the smaller one. -/
theorem C50_wider {w w' : Nat} (hw : w ≤ w') {id : P.Id} {t : NTree P} {T T'}
    (h : GreedyDoc w id t T) (h' : GreedyDoc w' id t T') : T = T' ∨ FirstInstead T T' := by
  obtain ⟨st, h⟩ := h
  obtain ⟨st', h'⟩ := h'
  exact (greedy_wider hw h h').imp (fun h => h.1) (fun h => h)

/-- Taking a first option instead of a second one cannot be undone by doing so again. -/
theorem FirstInstead.asymm {T T' : List (GTok P)} (h : FirstInstead T T') : ¬ FirstInstead T' T := by
  obtain ⟨A, B, B', rfl, rfl⟩ := h
  rintro ⟨C, D, D', h1, h2⟩
  induction A generalizing C with
  | nil =>
    cases C with
    | nil => simp at h1
    | cons c C => simp only [List.nil_append, List.cons_append, List.cons.injEq] at h1 h2; rw [← h1.1] at h2; simp at h2
  | cons a A ih =>
    cases C with
    | nil =>
      simp only [List.nil_append, List.cons_append, List.cons.injEq] at h1 h2
      rw [h1.1] at h2
      simp at h2
    | cons c C =>
      simp only [List.cons_append, List.cons.injEq] at h1 h2
      exact ih C h1.2 h2.2

/-- **C50**: between two widths at which the decisions are the same, they are the same. -/
theorem C50_between {w1 w2 w3 : Nat} (h12 : w1 ≤ w2) (h23 : w2 ≤ w3) {id : P.Id} {t : NTree P} {T T'}
    (h1 : GreedyDoc w1 id t T) (h3 : GreedyDoc w3 id t T) (h2 : GreedyDoc w2 id t T') : T' = T := by
  rcases C50_wider h12 h1 h2 with h | h
  · exact h.symm
  · rcases C50_wider h23 h2 h3 with h' | h'
    · exact h'
    · exact (h.asymm h').elim

/-- If everything takes its first option already, a wider window does not change anything. -/
theorem C50_all_first {w w' : Nat} (hw : w ≤ w') {id : P.Id} {t : NTree P} {T T'}
    (h : GreedyDoc w id t T) (h' : GreedyDoc w' id t T') (hT : .second ∉ T) : T' = T := by
  rcases C50_wider hw h h' with h | ⟨A, B, B', rfl, _⟩
  · exact h.symm
  · simp at hT

/-- If everything takes its second option already, a narrower window does not change anything. -/
theorem C50_all_second {w w' : Nat} (hw : w ≤ w') {id : P.Id} {t : NTree P} {T T'}
    (h : GreedyDoc w id t T) (h' : GreedyDoc w' id t T') (hT' : .first ∉ T') : T = T' := by
  rcases C50_wider hw h h' with h | ⟨A, B, B', _, rfl⟩
  · exact h
  · simp at hT'

/-- What the printed strings have to do with it: both are greedy layouts of one tree. -/
theorem C50_strings (law : P.Lawful) {doc : P.Node} {w w' : Nat} (hw : w ≤ w') {s s' : String}
    (h : prettyPrintToString doc w = Exec.ofRes (.ok s))
    (h' : prettyPrintToString doc w' = Exec.ofRes (.ok s')) :
    ∃ id t T T', rootTree law doc none = .ok (id, t) ∧ GreedyDoc w id t T ∧ GreedyDoc w' id t T' ∧
      s = linesString (linesOf (erase T)) ∧ s' = linesString (linesOf (erase T')) ∧
      (T = T' ∨ FirstInstead T T') := by
  obtain ⟨id, L, h1, h2⟩ := (C01_to_string_iff law _ _ _).1 h
  obtain ⟨id', L', h1', h2'⟩ := (C01_to_string_iff law _ _ _).1 h'
  obtain ⟨t, T, g1, g2, g3, _⟩ := docLayout_greedy law h1
  obtain ⟨t', T', g1', g2', g3', _⟩ := docLayout_greedy law h1'
  rw [g1] at g1'
  simp only [Except.ok.injEq, Prod.mk.injEq] at g1'
  obtain ⟨rfl, rfl⟩ := g1'
  exact ⟨id, t, T, T', g1, g2, g2', by rw [g3]; exact h2, by rw [g3']; exact h2', C50_wider hw g2 g2'⟩

/-! ### Wide enough -/

/-- The possible outcomes of `fit` in enough space do not depend on how much there is. -/
theorem fit_enough (t : NTree P) : ∀ e,
    (∃ f, ∀ rem, t.total ≤ rem → t.fit rem e = .error f) ∨
    (∃ b, ∀ rem, t.total ≤ rem → t.fit rem e = .ok (.done b)) ∨
    ∃ c e', c ≤ t.total ∧ ∀ rem, t.total ≤ rem → t.fit rem e = .ok (.more (rem - c) e') := by
  induction t with
  | fail f => intro e; exact .inl ⟨f, fun _ _ => rfl⟩
  | empty => intro e; exact .inr (.inr ⟨0, e, Nat.le_refl _, fun _ _ => rfl⟩)
  | mark => intro e; exact .inr (.inr ⟨0, e, Nat.le_refl _, fun _ _ => rfl⟩)
  | eol => intro e; exact .inr (.inr ⟨0, true, Nat.le_refl _, fun _ _ => rfl⟩)
  | newline ind => intro e; exact .inr (.inl ⟨true, fun _ _ => rfl⟩)
  | text t =>
    intro e
    cases e with
    | true => exact .inr (.inl ⟨false, fun _ _ => rfl⟩)
    | false =>
      refine .inr (.inr ⟨t.width, false, Nat.le_refl _, fun rem h => ?_⟩)
      simp only [NTree.total] at h
      simp [NTree.fit, h]
  | child i c t ih => exact ih
  | choice a b _ ih =>
    intro e
    rcases ih e with ⟨f, h⟩ | ⟨r, h⟩ | ⟨c, e', hc, h⟩
    · exact .inl ⟨f, fun rem hr => h rem (by simp only [NTree.total] at hr; omega)⟩
    · exact .inr (.inl ⟨r, fun rem hr => h rem (by simp only [NTree.total] at hr; omega)⟩)
    · exact .inr (.inr ⟨c, e', by simp only [NTree.total]; omega,
        fun rem hr => h rem (by simp only [NTree.total] at hr; omega)⟩)
  | concat a b iha ihb =>
    intro e
    simp only [NTree.fit, NTree.total, Except.bind_eq]
    cases hb : b.check with
    | error f => exact .inl ⟨f, fun _ _ => rfl⟩
    | ok _ =>
      cases ha : a.check with
      | error f => exact .inl ⟨f, fun _ _ => rfl⟩
      | ok _ =>
        simp only
        rcases iha e with ⟨f, h⟩ | ⟨r, h⟩ | ⟨c, e', hc, h⟩
        · exact .inl ⟨f, fun rem hr => by rw [h rem (by omega)]⟩
        · exact .inr (.inl ⟨r, fun rem hr => by rw [h rem (by omega)]⟩)
        · rcases ihb e' with ⟨f, h'⟩ | ⟨r, h'⟩ | ⟨c', e'', hc', h'⟩
          · exact .inl ⟨f, fun rem hr => by rw [h rem (by omega)]; exact h' _ (by omega)⟩
          · exact .inr (.inl ⟨r, fun rem hr => by rw [h rem (by omega)]; exact h' _ (by omega)⟩)
          · refine .inr (.inr ⟨c + c', e'', by omega, fun rem hr => ?_⟩)
            rw [h rem (by omega), Nat.sub_add_eq]
            exact h' _ (by omega)

/-- The columns of all the texts in some trees. -/
def totals (k : List (NTree P)) : Nat := (k.map NTree.total).sum

theorem fitK_enough (k : List (NTree P)) : ∀ e, ∃ r, ∀ rem, totals k ≤ rem → fitK k rem e = r := by
  induction k with
  | nil => intro e; exact ⟨_, fun _ _ => rfl⟩
  | cons t k ih =>
    intro e
    simp only [fitK, totals, List.map_cons, List.sum_cons, Except.bind_eq]
    rcases fit_enough t e with ⟨f, h⟩ | ⟨r, h⟩ | ⟨c, e', hc, h⟩
    · exact ⟨_, fun rem hr => by rw [h rem (by omega)]⟩
    · exact ⟨_, fun rem hr => by rw [h rem (by omega)]⟩
    · obtain ⟨r, h'⟩ := ih e'
      refine ⟨r, fun rem hr => ?_⟩
      rw [h rem (by omega)]
      exact h' _ (by simp only [totals]; omega)

theorem layout_enough {w w' : Nat} (t : NTree P) : ∀ {id : P.Id} {k : List (NTree P)} {st : LineSt},
    st.col + t.total + totals k ≤ w → st.col + t.total + totals k ≤ w' →
    t.layout w id k st = t.layout w' id k st ∧
      ∀ st' L, t.layout w id k st = .ok (st', L) → st'.col ≤ st.col + t.total := by
  induction t with
  | fail f => intro id k st h h'; exact ⟨rfl, fun _ _ h => by simp [NTree.layout] at h⟩
  | empty =>
    intro id k st h h'
    refine ⟨rfl, fun _ _ h => ?_⟩
    simp only [NTree.layout, Except.ok.injEq, Prod.mk.injEq] at h
    rw [← h.1]; omega
  | mark =>
    intro id k st h h'
    refine ⟨rfl, fun _ _ h => ?_⟩
    simp only [NTree.layout, Except.ok.injEq, Prod.mk.injEq] at h
    rw [← h.1]; omega
  | eol =>
    intro id k st h h'
    refine ⟨rfl, fun _ _ h => ?_⟩
    simp only [NTree.layout, Except.ok.injEq, Prod.mk.injEq] at h
    rw [← h.1]; simp only; omega
  | newline ind =>
    intro id k st h h'
    refine ⟨rfl, fun _ _ h => ?_⟩
    simp only [NTree.layout] at h
    split at h
    · simp only [Except.ok.injEq, Prod.mk.injEq] at h
      rw [← h.1]; simp only [NTree.total]; omega
    · simp at h
  | text t =>
    intro id k st h h'
    refine ⟨rfl, fun _ _ h => ?_⟩
    simp only [NTree.layout] at h
    split at h
    · simp at h
    · split at h
      · simp only [Except.ok.injEq, Prod.mk.injEq] at h
        rw [← h.1]; simp only [NTree.total]; omega
      · simp at h
  | child i c t ih =>
    intro id k st h h'
    cases c with
    | error f => exact ⟨rfl, fun _ _ h => by simp [NTree.layout, Except.bind_eq] at h⟩
    | ok c =>
      obtain ⟨h1, h2⟩ := ih (id := c) (k := k) (st := st) h h'
      simp only [NTree.layout, Except.bind_eq]
      refine ⟨by rw [h1], fun st' L hl => ?_⟩
      split at hl
      · rename_i r hr
        simp only [Except.ok.injEq, Prod.mk.injEq] at hl
        rw [← hl.1]
        exact h2 _ _ hr
      · simp at hl
  | concat a b iha ihb =>
    intro id k st h h'
    simp only [NTree.total] at h h'
    obtain ⟨h1, h2⟩ := iha (id := id) (k := b :: k) (st := st)
      (by simp only [totals, List.map_cons, List.sum_cons] at h ⊢; omega)
      (by simp only [totals, List.map_cons, List.sum_cons] at h' ⊢; omega)
    simp only [NTree.layout, Except.bind_eq, ← h1]
    cases ha : a.layout w id (b :: k) st with
    | error f => exact ⟨rfl, fun _ _ h => by simp at h⟩
    | ok r =>
      obtain ⟨st1, La⟩ := r
      have := h2 _ _ ha
      obtain ⟨h3, h4⟩ := ihb (id := id) (k := k) (st := st1) (by omega) (by omega)
      simp only [← h3]
      refine ⟨trivial, fun st' L hl => ?_⟩
      cases hb : b.layout w id k st1 with
      | error f => rw [hb] at hl; simp at hl
      | ok r =>
        rw [hb] at hl
        obtain ⟨st2, Lb⟩ := r
        have := h4 _ _ hb
        simp only [Except.ok.injEq, Prod.mk.injEq] at hl
        rw [← hl.1]
        simp only [NTree.total]
        omega
  | choice a b iha ihb =>
    intro id k st h h'
    simp only [NTree.total] at h h'
    obtain ⟨h1, h2⟩ := iha (id := id) (k := k) (st := st) (by omega) (by omega)
    obtain ⟨h3, h4⟩ := ihb (id := id) (k := k) (st := st) (by omega) (by omega)
    have hf : fitsLine w st (a :: k) = fitsLine w' st (a :: k) := by
      obtain ⟨r, hr⟩ := fitK_enough (a :: k) st.eol
      have e : totals (a :: k) = a.total + totals k := by simp [totals]
      unfold fitsLine
      rw [if_pos (by omega), if_pos (by omega), hr _ (by omega), hr _ (by omega)]
    simp only [NTree.layout, Except.bind_eq, ← hf, ← h1, ← h3]
    refine ⟨trivial, fun st' L hl => ?_⟩
    simp only [NTree.total]
    split at hl
    · split at hl
      · split at hl
        · have := h2 _ _ hl; omega
        · have := h4 _ _ hl; omega
      · simp at hl
    · simp at hl

/-- **C50, wide windows.**  If all the texts and indentations of a document would fit into the width
    side by side, then a larger width prints the same (or fails in the same way). -/
theorem C50_wide (law : P.Lawful) {doc : P.Node} {id : P.Id} {t : NTree P} {w : Nat} {style}
    (hr : rootTree law doc style = .ok (id, t)) (hw : t.total ≤ w) :
    docLayout law doc w style = docLayout law doc t.total style := by
  have h := (layout_enough (w := w) (w' := t.total) t (id := id) (k := []) (st := ⟨0, false⟩)
    (by simp [totals]; exact hw) (by simp [totals])).1
  unfold docLayout NTree.layoutDoc
  rw [hr]
  simp only [Except.bind_eq, h]

/-- **C50, wide windows.**  For every document there is a width from which on it prints the same, or
    does not print, at every width. -/
theorem C50_eventually (law : P.Lawful) (doc : P.Node) :
    ∃ W, ∀ w, W ≤ w → ∀ s, prettyPrintToString doc w = Exec.ofRes (.ok s) ↔
      prettyPrintToString doc W = Exec.ofRes (.ok s) := by
  cases hr : rootTree law doc none with
  | error f =>
    refine ⟨0, fun w _ s => ?_⟩
    rw [C01_to_string_iff law, C01_to_string_iff law]
    unfold docLayout
    rw [hr]
    rfl
  | ok r =>
    obtain ⟨id, t⟩ := r
    refine ⟨t.total, fun w hw s => ?_⟩
    rw [C01_to_string_iff law, C01_to_string_iff law, C50_wide law hr hw]

/-- **C50, wide windows**, for prints with any focus: the same lines in the same styles. -/
theorem C50_wide_focused (law : P.Lawful) {doc : P.Node} {id : P.Id} {t : NTree P} {w w' : Nat} {style}
    (hr : rootTree law doc style = .ok (id, t)) (hw : t.total ≤ w) (hw' : t.total ≤ w')
    {path path' target target' o o'} (hf : FocusOk P doc target) (hf' : FocusOk P doc target')
    (h : printAll doc w path target style = Exec.ofRes (.ok o))
    (h' : printAll doc w' path' target' style = Exec.ofRes (.ok o')) :
    o.lines.map styledChars = o'.lines.map styledChars ∧
      o.lines.map segsWidth = o'.lines.map segsWidth := by
  obtain ⟨id1, L1, h1, h2, h3, _⟩ := C02_focus_independent law hf h
  obtain ⟨id2, L2, g1, g2, g3, _⟩ := C02_focus_independent law hf' h'
  rw [C50_wide law hr hw, ← C50_wide law hr hw', g1] at h1
  simp only [Except.ok.injEq, Prod.mk.injEq] at h1
  obtain ⟨rfl, rfl⟩ := h1
  exact ⟨by rw [h2, g2], by rw [h3, g3]⟩

/-! ### Examples -/

namespace Ex

/-- The decisions for the example at width 8 and at width 9. -/
def dec8 : List (GTok exP) := [.tok (.text (lit "[" 1)), .tok (.text (txt "aa" 2)), .tok (.text (lit "," 1)),
  .second, .tok (.nl []), .tok (.text (txt "bbb" 3)), .tok (.mark (nid 3)), .tok (.text (lit "]" 1))]
@[inherit_doc dec8]
def dec9 : List (GTok exP) := [.tok (.text (lit "[" 1)), .tok (.text (txt "aa" 2)), .tok (.text (lit "," 1)),
  .first, .tok (.text (lit " " 1)), .tok (.text (txt "bbb" 3)), .tok (.mark (nid 3)), .tok (.text (lit "]" 1))]

theorem dec8_greedy : GreedyDoc 8 (nid 3) exTree dec8 := exGreedy8
theorem dec9_greedy : GreedyDoc 9 (nid 3) exTree dec9 := exGreedy9

/-- C50 on the example: the wider layout takes the first option instead of the second one; and the
    two are not the same. -/
example : FirstInstead dec8 dec9 ∧ dec8 ≠ dec9 := by
  rcases C50_wider (by decide : 8 ≤ 9) dec8_greedy dec9_greedy with h | h
  · simp [dec8, dec9] at h
  · exact ⟨h, by simp [dec8, dec9]⟩

/-- All choices of the example take their first option at width 9: so they do from then on. -/
example {w : Nat} (hw : 9 ≤ w) {T} (h : GreedyDoc w (nid 3) exTree T) : T = dec9 :=
  C50_all_first hw dec9_greedy h (by simp [dec9])

/-- The bound of `C50_wide` for the example is 9. -/
example {w : Nat} (hw : 9 ≤ w) : docLayout exLaw exDoc w none = .ok (nid 3, exWide) :=
  (C50_wide exLaw exTree_eq hw).trans exLayout_wide

end Ex

end PPP
