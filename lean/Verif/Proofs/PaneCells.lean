import Verif.Proofs.Pane
/-
Displaying panes: which cells are covered.
-/
namespace PPP
variable {S E L : Type} {α β : Type} {P : PrettyDoc}

/-! ### The cells of a row -/

theorem cellsOf_append (a b : List (WCall S)) : cellsOf (a ++ b) = cellsOf a ++ cellsOf b := by
  simp [cellsOf]

theorem cellsOf_cons (c : WCall S) (cs : List (WCall S)) : cellsOf (c :: cs) = c.cells ++ cellsOf cs := by
  simp [cellsOf]

theorem cellsOf_prefix {a b : List (WCall S)} (h : a <+: b) : cellsOf a <+: cellsOf b := by
  obtain ⟨c, rfl⟩ := h
  rw [cellsOf_append]
  exact List.prefix_append _ _

theorem cells_placed (isFull : Char → Bool) (row : Nat) (chars : List (Char × S)) : ∀ col,
    cellsOf (placed isFull row col chars) = (List.range' col (charsCols isFull chars)).map (row, ·) := by
  induction chars with
  | nil => intro col; simp [placed, cellsOf, charsCols]
  | cons c cs ih =>
    intro col
    obtain ⟨ch, st⟩ := c
    rw [placed, cellsOf_cons, ih]
    have h : charsCols isFull ((ch, st) :: cs) = charCols isFull ch + charsCols isFull cs := by simp [charsCols]
    rw [h, ← List.range'_append_1, List.map_append]
    congr 1
    simp only [charCols, WCall.cells]
    split <;> rfl

theorem cells_blanks (row col n : Nat) (style : S) :
    cellsOf (blanks row col n style) = (List.range' col n).map (row, ·) := by
  simp only [cellsOf, blanks, List.flatMap_map, WCall.cells, Bool.false_eq_true, if_false]
  rw [List.map_eq_flatMap]

theorem cells_rowCalls (isFull : Char → Bool) (row col w : Nat) (chars : List (Char × S)) (blank : S) :
    cellsOf (rowCalls isFull row col w chars blank) = (List.range' col w).map (row, ·) := by
  have h := clip_cols isFull chars w
  simp only [rowCalls, cellsOf_append, cells_placed, cells_blanks]
  rw [← List.map_append, List.range'_append_1, Nat.add_sub_cancel' h]

/-- The cells of a rectangle, in reading order. -/
def Rectangle.cells (r : Rectangle) : List (Nat × Nat) :=
  (rangeFrom r.minRow r.maxRow).flatMap fun row => (rangeFrom r.minCol r.maxCol).map (row, ·)

theorem mem_rangeFrom {a b x : Nat} : x ∈ rangeFrom a b ↔ a ≤ x ∧ x < b := by
  simp only [rangeFrom, List.mem_range'_1]
  omega

theorem Rectangle.mem_cells {r : Rectangle} {c : Nat × Nat} : c ∈ r.cells ↔ r.Has c := by
  obtain ⟨x, y⟩ := c
  simp [Rectangle.cells, Rectangle.Has, mem_rangeFrom, and_assoc]

theorem Rectangle.cells_nodup (r : Rectangle) : r.cells.Nodup := by
  rw [Rectangle.cells, List.nodup_flatMap]
  refine ⟨fun x _ => ?_, ?_⟩
  · exact List.Nodup.map (fun a b h => by simpa using h) (List.nodup_range' (step := 1))
  · refine List.Pairwise.imp ?_ (List.nodup_range' (step := 1))
    intro a b hab
    rw [Function.onFun, List.disjoint_left]
    intro c hc hc'
    simp only [List.mem_map] at hc hc'
    obtain ⟨_, _, rfl⟩ := hc
    obtain ⟨_, _, h⟩ := hc'
    exact hab (by simpa using (congrArg Prod.fst h).symm)

/-! ### Code that draws in a rectangle -/

/-- `m` covers cells of `r` only, each at most once; and, if `full`, all of them when it succeeds. -/
def Draws (full : Prop) (m : PaneM S E α) (r : Rectangle) : Prop :=
  ∀ calls res, m = some (calls, res) →
    (cellsOf calls).Nodup ∧ (∀ c ∈ cellsOf calls, r.Has c) ∧
    (full → ∀ a, res = .ok a → ∀ c, r.Has c → c ∈ cellsOf calls)

/-- `m` makes no calls. -/
def Quiet (m : PaneM S E α) : Prop := ∀ calls res, m = some (calls, res) → calls = []

theorem Quiet.pure (a : α) : Quiet (pure a : PaneM S E α) := by
  intro c r h; cases h; rfl

theorem Quiet.fail (e) : Quiet (PaneM.fail e : PaneM S E α) := by
  intro c r h; cases h; rfl

theorem Quiet.lift (x : Exec E α) : Quiet (PaneM.lift x : PaneM S E α) := by
  intro c r h
  unfold PaneM.lift at h
  split at h <;> cases h <;> rfl

theorem Quiet.bind {m : PaneM S E α} {f : α → PaneM S E β} (h : Quiet m) (h' : ∀ a, Quiet (f a)) :
    Quiet (m >>= f) := by
  intro c r hm
  rcases PaneM.bind_eq_some hm with ⟨e, he, _⟩ | ⟨c1, a, c2, h1, h2, rfl⟩
  · exact h _ _ he
  · rw [h _ _ h1, h' a _ _ h2]; rfl

theorem Quiet.addUpTo (max a b : Nat) : Quiet (addUpTo max a b : PaneM S E Nat) := by
  unfold PPP.addUpTo; split
  · exact .pure _
  · exact .fail _

theorem Quiet.subU (a b : Nat) : Quiet (subU a b : PaneM S E Nat) := by
  unfold PPP.subU; split
  · exact .pure _
  · exact .fail _

theorem Quiet.finishDivvy (d : Divvier) (sizes : List Nat) : Quiet (finishDivvy d sizes : PaneM S E (List Nat)) := by
  unfold PPP.finishDivvy; split
  · exact .pure _
  · exact .fail _

theorem Quiet.chooseFocusLineRow (o : PrintingOptions) (h : Nat) :
    Quiet (o.chooseFocusLineRow h : PaneM S E Nat) := by
  unfold PrintingOptions.chooseFocusLineRow
  split
  · exact .fail _
  · split
    · exact .fail _
    · split
      · exact .fail _
      · exact .bind (.subU _ _) fun _ => .pure _

theorem Quiet.printedDoc (doc : P.Node) (o : PrintingOptions) (w h : Nat) (s : P.Style) :
    Quiet (PrintedDoc.new doc o w h s) := by
  unfold PrintedDoc.new
  split
  · exact .pure _
  · exact .bind (.chooseFocusLineRow _ _) fun _ => .bind (.lift _) fun _ => .bind (.lift _) fun _ =>
      .bind (.addUpTo _ _ _) fun _ => .bind (.lift _) fun _ => .pure _

theorem Quiet.extractDoc : ∀ (n : PaneNotation L P.Style) (s : P.Style), Quiet (extractDoc n s)
  | .horz _, _ => .fail _
  | .vert _, _ => .fail _
  | .fill _, _ => .fail _
  | .doc _, _ => .pure _
  | .style i n, s => Quiet.extractDoc n (P.combine s i)

theorem Quiet.printDynamic (env : PaneEnv P L) (n s w h) : Quiet (printDynamic env n s w h) := by
  unfold PPP.printDynamic
  refine .bind (.extractDoc _ _) fun x => ?_
  obtain ⟨l, s⟩ := x
  simp only
  split
  · exact .printedDoc _ _ _ _ _
  · exact .pure _

theorem Quiet.horzDynamic (env : PaneEnv P L) (s h) : ∀ (ps : Panes L P.Style) (a : Nat), Quiet (horzDynamic env s h ps a)
  | .nil, _ => .pure _
  | .cons size n rest, a => by
    unfold PPP.horzDynamic
    split
    · exact Quiet.horzDynamic env s h rest a
    · exact .bind (.printDynamic _ _ _ _ _) fun d => .bind (Quiet.horzDynamic env s h rest _) fun _ => .pure _

theorem Quiet.vertDynamic (env : PaneEnv P L) (s w) : ∀ (ps : Panes L P.Style) (a : Nat), Quiet (vertDynamic env s w ps a)
  | .nil, _ => .pure _
  | .cons size n rest, a => by
    unfold PPP.vertDynamic
    split
    · exact Quiet.vertDynamic env s w rest a
    · exact .bind (.printDynamic _ _ _ _ _) fun d => .bind (.subU _ _) fun _ =>
        .bind (Quiet.vertDynamic env s w rest _) fun _ => .pure _

theorem Draws.fail {full e r} : Draws full (PaneM.fail e : PaneM S E α) r := by
  intro c res h
  cases h
  exact ⟨by simp [cellsOf], by simp [cellsOf], fun _ a h => by cases h⟩

/-- Nothing is drawn. -/
theorem Draws.pure {a : α} {r : Rectangle} {full} (h : full → ∀ c, ¬ r.Has c) :
    Draws full (pure a : PaneM S E α) r := by
  intro c res hc
  cases hc
  exact ⟨by simp [cellsOf], by simp [cellsOf], fun hf a _ c hc => absurd hc (h hf c)⟩

theorem Draws.quiet_bind {m : PaneM S E α} {f : α → PaneM S E β} {full r} (h : Quiet m)
    (h' : ∀ a, m = some ([], .ok a) → Draws full (f a) r) : Draws full (m >>= f) r := by
  intro c res hm
  rcases PaneM.bind_eq_some hm with ⟨e, he, rfl⟩ | ⟨c1, a, c2, h1, h2, rfl⟩
  · obtain rfl := h _ _ he
    exact ⟨by simp [cellsOf], by simp [cellsOf], fun _ a h => by cases h⟩
  · obtain rfl := h _ _ h1
    exact h' a h1 _ _ h2

/-- Draw in one part of the rectangle, then in the rest. -/
theorem Draws.bind {m : PaneM S E α} {f : α → PaneM S E β} {full} {r1 r2 r : Rectangle}
    (h : Draws full m r1) (h' : ∀ a, Draws full (f a) r2) (hr : ∀ c, r.Has c ↔ r1.Has c ∨ r2.Has c)
    (hd : ∀ c, r1.Has c → ¬ r2.Has c) : Draws full (m >>= f) r := by
  intro c res hm
  rcases PaneM.bind_eq_some hm with ⟨e, he, rfl⟩ | ⟨c1, a, c2, h1, h2, rfl⟩
  · obtain ⟨k1, k2, _⟩ := h _ _ he
    exact ⟨k1, fun c hc => (hr c).2 (.inl (k2 c hc)), fun _ a h => by cases h⟩
  · obtain ⟨k1, k2, k3⟩ := h _ _ h1
    obtain ⟨l1, l2, l3⟩ := h' a _ _ h2
    rw [cellsOf_append]
    refine ⟨?_, ?_, ?_⟩
    · rw [List.nodup_append']
      refine ⟨k1, l1, ?_⟩
      rw [List.disjoint_left]
      exact fun c hc hc' => hd c (k2 c hc) (l2 c hc')
    · intro c hc
      rw [List.mem_append] at hc
      exact (hr c).2 (hc.imp (k2 c) (l2 c))
    · intro hf b hb c hc
      rw [List.mem_append]
      rcases (hr c).1 hc with hc | hc
      · exact .inl (k3 hf a rfl c hc)
      · exact .inr (l3 hf b hb c hc)

theorem Draws.mono {m : PaneM S E α} {full full' : Prop} {r : Rectangle} (h : Draws full m r) (hf : full' → full) :
    Draws full' m r := fun c res hm => ⟨(h c res hm).1, (h c res hm).2.1, fun x => (h c res hm).2.2 (hf x)⟩

/-- A part of the rectangle is good enough if it needn't be covered. -/
theorem Draws.sub {m : PaneM S E α} {full : Prop} {r r' : Rectangle} (h : Draws full m r)
    (h1 : ∀ c, r.Has c → r'.Has c) (h2 : full → ∀ c, r'.Has c → r.Has c) : Draws full m r' := fun c res hm =>
  ⟨(h c res hm).1, fun c' hc => h1 c' ((h c res hm).2.1 c' hc),
    fun x a ha c' hc => (h c res hm).2.2 x a ha c' (h2 x c' hc)⟩

/-- All the rows of the rectangle. -/
theorem Draws.of_emits {m : PaneM S E Unit} {r : Rectangle} {full : List (WCall S)} {p} (h : Emits m full)
    (hc : cellsOf full = r.cells) : Draws p m r := by
  intro c res hm
  rcases h with h | ⟨c', e, h, hp⟩
  · rw [hm] at h
    cases h
    rw [hc]
    exact ⟨r.cells_nodup, fun c h => Rectangle.mem_cells.1 h, fun _ _ _ c h => Rectangle.mem_cells.2 h⟩
  · rw [hm] at h
    cases h
    have := cellsOf_prefix hp
    rw [hc] at this
    refine ⟨List.Nodup.sublist this.sublist r.cells_nodup,
      fun c h => Rectangle.mem_cells.1 (this.subset h), fun _ a h => by cases h⟩

/-! ### `Fill` -/

theorem clip_replicate_of_lt (isFull : Char → Bool) (ch : Char) (style : S) (n w : Nat) (h : ¬ charCols isFull ch ≤ w) :
    clip isFull w (List.replicate n (ch, style)) = [] := by
  cases n with
  | zero => rfl
  | succ n => rw [List.replicate_succ, clip, if_neg h]

theorem fillRow_spec (isFull : Char → Bool) (ch : Char) (style : S) (row maxCol : Nat) : ∀ (n col : Nat),
    maxCol - col ≤ n → col ≤ maxCol →
    Emits (fillRow (E := E) isFull ch style row maxCol col)
      (rowCalls isFull row col (maxCol - col) (List.replicate n (ch, style)) style) := by
  intro n
  induction n with
  | zero =>
    intro col h1 h2
    unfold fillRow
    have hp := charCols_pos isFull ch
    have h : maxCol - col = 0 := by omega
    rw [h]
    simp only [rowCalls, List.replicate_zero, clip, placed, blanks, charsCols, List.range'_zero, List.map_nil,
      List.nil_append, Nat.zero_sub]
    have hw : (if isFull ch then 2 else 1) = charCols isFull ch := rfl
    simp only [hw]
    split
    · exact .fail
    · rw [if_neg (by omega), if_neg (by omega)]; exact .pure
  | succ n ih =>
    intro col h1 h2
    unfold fillRow
    have hp := charCols_pos isFull ch
    have hp2 := charCols_le isFull ch
    have hw : (if isFull ch then 2 else 1) = charCols isFull ch := rfl
    simp only [hw]
    split
    · exact .fail
    · split
      · rename_i hle
        have := Emits.bind (Emits.call (E := E) (.displayChar ch row col style (isFull ch)))
          (f := fun _ => fillRow isFull ch style row maxCol (col + charCols isFull ch))
          (ih (col + charCols isFull ch) (by omega) (by omega))
        have e : rowCalls isFull row col (maxCol - col) (List.replicate (n + 1) (ch, style)) style =
            [WCall.displayChar ch row col style (isFull ch)] ++ rowCalls isFull row (col + charCols isFull ch)
              (maxCol - (col + charCols isFull ch)) (List.replicate n (ch, style)) style := by
          simp only [rowCalls]
          rw [List.replicate_succ, clip, if_pos (by simp only; omega)]
          simp only [placed, charsCols, List.map_cons, List.sum_cons, List.cons_append, List.nil_append,
            Nat.sub_sub, Nat.add_assoc]
        rw [e]
        exact this
      · rename_i hgt
        have e := clip_replicate_of_lt isFull ch style (n + 1) (maxCol - col) (by omega)
        simp only [rowCalls, e, placed, charsCols, List.map_nil, List.sum_nil, List.nil_append, Nat.sub_zero,
          Nat.add_zero]
        split
        · have : maxCol - col = 1 := by omega
          rw [this]
          exact .call _
        · have : maxCol - col = 0 := by omega
          rw [this]
          exact .pure

theorem cells_flatMap (xs : List α) (f : α → List (WCall S)) :
    cellsOf (xs.flatMap f) = xs.flatMap fun x => cellsOf (f x) := by
  simp [cellsOf, List.flatMap_assoc]

theorem cells_rectCalls (isFull : Char → Bool) (rect : Rectangle) (rows : Nat → List (Char × S)) (blank : S) :
    cellsOf (rectCalls isFull rect rows blank) = rect.cells := by
  simp only [rectCalls, cells_flatMap, cells_rowCalls, Rectangle.cells]
  rfl

theorem fill_emits (isFull : Char → Bool) (ch : Char) (style : S) (rect : Rectangle) (h : rect.minCol ≤ rect.maxCol) :
    Emits (E := E) (eachM (fun row => fillRow isFull ch style row rect.maxCol rect.minCol)
      (rangeFrom rect.minRow rect.maxRow))
      (rectCalls isFull rect (fun _ => List.replicate rect.width (ch, style)) style) :=
  Emits.eachM fun row _ => fillRow_spec isFull ch style row rect.maxCol rect.width rect.minCol (Nat.le_refl _) h

/-! ### Displaying a printed document -/

/-- The characters on row `i` (from the top of the pane). -/
def PrintedDoc.row (d : PrintedDoc P) (i : Nat) : List (Char × P.Style) :=
  if d.focusLineRow - d.focusLineIndex ≤ i then
    match d.lines[i - (d.focusLineRow - d.focusLineIndex)]? with
    | some l => styledChars l.segments
    | none => []
  else []

/-- The focus is set first. -/
def PrintedDoc.focusCalls (d : PrintedDoc P) (rect : Rectangle) : List (WCall P.Style) :=
  match d.focusPoint with
  | some (row, col) => [.setFocus (row + rect.minRow) (col + rect.minCol)]
  | none => []

theorem Emits.quiet_bind {m : PaneM S E α} {f : α → PaneM S E Unit} {full} (hq : Quiet m) (hn : m ≠ none)
    (h : ∀ a, m = some ([], .ok a) → Emits (f a) full) : Emits (m >>= f) full := by
  cases hm : m with
  | none => exact absurd hm hn
  | some x =>
    obtain ⟨c, r⟩ := x
    obtain rfl := hq _ _ hm
    cases r with
    | error e => exact .inr ⟨[], e, rfl, List.nil_prefix⟩
    | ok a =>
      have := h a hm
      rw [← hm, PaneM.bind_ok_nil hm]
      exact this

theorem addUpTo_ne_none {max a b : Nat} : (addUpTo max a b : PaneM S E Nat) ≠ none := by
  unfold addUpTo; split <;> exact nofun

theorem subU_ne_none {a b : Nat} : (subU a b : PaneM S E Nat) ≠ none := by
  unfold subU; split <;> exact nofun

theorem addUpTo_val {max a b c : Nat} (h : (addUpTo max a b : PaneM S E Nat) = some ([], .ok c)) :
    c = a + b ∧ a + b ≤ max := by
  unfold addUpTo at h
  split at h
  · cases h; exact ⟨rfl, by assumption⟩
  · cases h

theorem subU_val {a b c : Nat} (h : (subU a b : PaneM S E Nat) = some ([], .ok c)) : c = a - b ∧ b ≤ a := by
  unfold subU at h
  split at h
  · cases h; exact ⟨rfl, by assumption⟩
  · cases h

theorem displayRow_emits (isFull : Char → Bool) (d : PrintedDoc P) (rect : Rectangle) (hc : rect.minCol ≤ rect.maxCol)
    (i : Nat) (hi : i < rect.height) :
    Emits (d.displayRow isFull rect (d.focusLineRow - d.focusLineIndex)
        (d.focusLineRow - d.focusLineIndex + d.lines.length) i)
      (rowCalls isFull (rect.minRow + i) rect.minCol rect.width (d.row i) d.blankStyle) := by
  have hr : rect.minRow + i < rect.maxRow := by unfold Rectangle.height at hi; omega
  unfold PrintedDoc.displayRow
  split
  · rename_i h
    unfold PrintedDoc.row
    rw [if_pos h.1]
    obtain ⟨l, hl⟩ : ∃ l, d.lines[i - (d.focusLineRow - d.focusLineIndex)]? = some l :=
      ⟨_, List.getElem?_eq_getElem (by omega)⟩
    rw [hl]
    simp only
    rcases displayLine_spec isFull l i d.blankStyle hr hc with g | ⟨_, c, g1, g2⟩
    · exact .inl g
    · exact .inr ⟨c, _, g1, g2⟩
  · rename_i h
    have e : d.row i = [] := by
      unfold PrintedDoc.row
      split
      · rw [List.getElem?_eq_none (by omega)]
      · rfl
    rw [e]
    exact .inl (displayBlankLine_spec i d.blankStyle hr isFull)

theorem display_emits (isFull : Char → Bool) (d : PrintedDoc P) (rect : Rectangle) (hc : rect.minCol ≤ rect.maxCol) :
    Emits (d.display isFull rect) (d.focusCalls rect ++ rectCalls isFull rect d.row d.blankStyle) := by
  have hrows : Emits (do
      let firstRow ← subU d.focusLineRow d.focusLineIndex
      let lastRow ← addUpTo maxHeight firstRow d.lines.length
      eachM (d.displayRow isFull rect firstRow lastRow) (rangeFrom 0 rect.height))
      (rectCalls isFull rect d.row d.blankStyle) := by
    refine .quiet_bind (.subU _ _) subU_ne_none fun f hf => ?_
    obtain ⟨rfl, _⟩ := subU_val hf
    refine .quiet_bind (.addUpTo _ _ _) addUpTo_ne_none fun l hl => ?_
    obtain ⟨rfl, _⟩ := addUpTo_val hl
    have := Emits.eachM (f := d.displayRow isFull rect (d.focusLineRow - d.focusLineIndex)
        (d.focusLineRow - d.focusLineIndex + d.lines.length))
      (F := fun i => rowCalls isFull (rect.minRow + i) rect.minCol rect.width (d.row i) d.blankStyle)
      (xs := rangeFrom 0 rect.height) fun i hi => displayRow_emits isFull d rect hc i (by
        rw [mem_rangeFrom] at hi; exact hi.2)
    have e : rectCalls isFull rect d.row d.blankStyle = (rangeFrom 0 rect.height).flatMap
        fun i => rowCalls isFull (rect.minRow + i) rect.minCol rect.width (d.row i) d.blankStyle := by
      have : rangeFrom rect.minRow rect.maxRow = (rangeFrom 0 rect.height).map (rect.minRow + ·) := by
        simp only [rangeFrom, List.map_add_range', Nat.add_zero, Rectangle.height, Nat.sub_zero]
      rw [rectCalls, this, List.flatMap_map]
      simp
    rw [e]
    exact this
  unfold PrintedDoc.display PrintedDoc.focusCalls
  split
  · rename_i row col heq
    refine .quiet_bind (.addUpTo _ _ _) addUpTo_ne_none fun r hr => ?_
    obtain ⟨rfl, _⟩ := addUpTo_val hr
    refine .quiet_bind (.addUpTo _ _ _) addUpTo_ne_none fun c hc => ?_
    obtain ⟨rfl, _⟩ := addUpTo_val hc
    rw [heq]
    exact Emits.bind (f := fun _ => _) (.call _) hrows
  · rename_i heq
    rw [heq]
    exact hrows

theorem display_draws (isFull : Char → Bool) (d : PrintedDoc P) (rect : Rectangle) (hc : rect.minCol ≤ rect.maxCol) (p) :
    Draws p (d.display isFull rect) rect := by
  refine .of_emits (display_emits isFull d rect hc) ?_
  rw [cellsOf_append, cells_rectCalls]
  have : cellsOf (d.focusCalls rect) = [] := by
    unfold PrintedDoc.focusCalls
    split <;> simp [cellsOf, WCall.cells]
  rw [this, List.nil_append]

end PPP
