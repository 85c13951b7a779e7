import Verif.Model.PlainText
import Verif.Spec.PlainText
import Verif.Proofs.PaneCells
/-
C31: what `PlainText` shows.
-/
namespace PPP
variable {S : Type}

/-- Write one cell. -/
def PlainText.put (w : PlainText) (row col : Nat) (ch : Char) : PlainText :=
  { w with lines := (growTo (row + 1) [] w.lines).modify row fun line => (growTo (col + 1) ' ' line).set col ch }

theorem growTo_length {α : Type} (n : Nat) (x : α) (v : List α) : (growTo n x v).length = max n v.length := by
  simp [growTo]; omega

theorem growTo_get {α : Type} (n : Nat) (x : α) (v : List α) (i : Nat) :
    (growTo n x v)[i]? = match v[i]? with
      | some y => some y
      | none => if i < n then some x else none := by
  unfold growTo
  by_cases h : i < v.length
  · rw [List.getElem?_append_left h, List.getElem?_eq_getElem h]
  · rw [List.getElem?_append_right (by omega), List.getElem?_eq_none (l := v) (by omega), List.getElem?_replicate]
    simp only
    by_cases h' : i < n
    · rw [if_pos h', if_pos (by omega)]
    · rw [if_neg h', if_neg (by omega)]

theorem displayChar_narrow (w : PlainText) (ch : Char) (row col : Nat) :
    w.displayChar ch row col false = w.put row col ch := by
  simp [PlainText.displayChar, PlainText.put]

theorem growTo_self {α : Type} {n : Nat} (x : α) {v : List α} (h : n ≤ v.length) : growTo n x v = v := by
  simp [growTo, h]

theorem displayChar_full (w : PlainText) (ch : Char) (row col : Nat) :
    w.displayChar ch row col true = (w.put row col ch).put row (col + 1) sentinel := by
  unfold PlainText.displayChar PlainText.put
  simp only [if_true]
  congr 1
  rw [growTo_self (n := row + 1) (v := List.modify _ _ _) [] (by rw [List.length_modify, growTo_length]; omega),
    List.modify_modify_eq]
  congr 1
  funext line
  simp only [Function.comp_apply]
  apply List.ext_getElem?
  intro i
  simp only [List.getElem?_set, growTo_length, growTo_get, List.length_set]
  by_cases h1 : col + 1 = i
  · simp only [if_pos h1]
    rw [if_pos (by omega), if_pos (by omega)]
  · rw [if_neg h1, if_neg h1]
    by_cases h2 : col = i
    · simp only [if_pos h2]
      rw [if_pos (by omega), if_pos (by omega)]
    · rw [if_neg h2, if_neg h2]
      cases line[i]? with
      | some y => rfl
      | none =>
        simp only
        by_cases h3 : i < col + 1
        · rw [if_pos (by omega), if_pos h3]
        · rw [if_neg (by omega), if_neg h3]

/-- The contents of a cell. -/
def PlainText.cell (w : PlainText) (row col : Nat) : Option Char := (w.lines[row]?).bind (·[col]?)

/-- The state of the lines of a window after some writes. -/
structure After (w : PlainText) (ws : List ((Nat × Nat) × Char)) : Prop where
  rows : ∀ r, r < w.lines.length ↔ ∃ c ∈ ws.map (·.1), r ≤ c.1
  cells : ∀ r c, w.cell r c = match lastWrite ws (r, c) with
    | some ch => some ch
    | none => if ∃ cell ∈ ws.map (·.1), cell.1 = r ∧ c < cell.2 then some ' ' else none

theorem lastWrite_append_one (ws : List ((Nat × Nat) × Char)) (c : Nat × Nat) (ch : Char) (cell : Nat × Nat) :
    lastWrite (ws ++ [(c, ch)]) cell = if c = cell then some ch else lastWrite ws cell := by
  unfold lastWrite
  rw [List.filter_append]
  by_cases h : c = cell
  · simp [h]
  · simp [h]

theorem After.put {w : PlainText} {ws} (h : After w ws) (row col : Nat) (ch : Char) :
    After (w.put row col ch) (ws ++ [((row, col), ch)]) := by
  constructor
  · intro r
    have := h.rows r
    simp only [PlainText.put, List.length_modify, growTo_length, List.map_append, List.map_cons, List.map_nil,
      List.mem_append, List.mem_singleton]
    constructor
    · intro hr
      by_cases hr' : r < w.lines.length
      · obtain ⟨c, h1, h2⟩ := this.1 hr'
        exact ⟨c, .inl h1, h2⟩
      · exact ⟨(row, col), .inr rfl, by simp only; omega⟩
    · rintro ⟨c, h1 | rfl, h2⟩
      · have := this.2 ⟨c, h1, h2⟩
        omega
      · simp only at h2; omega
  · intro r c
    have hcell := h.cells r c
    rw [lastWrite_append_one]
    have hmem : (∃ cell ∈ (ws ++ [((row, col), ch)]).map (·.1), cell.1 = r ∧ c < cell.2) ↔
        (∃ cell ∈ ws.map (·.1), cell.1 = r ∧ c < cell.2) ∨ (r = row ∧ c < col) := by
      simp only [List.map_append, List.map_cons, List.map_nil, List.mem_append, List.mem_singleton]
      constructor
      · rintro ⟨c', h1 | rfl, h2⟩
        · exact .inl ⟨c', h1, h2⟩
        · exact .inr ⟨h2.1.symm, h2.2⟩
      · rintro (⟨c', h1, h2⟩ | ⟨rfl, h2⟩)
        · exact ⟨c', .inl h1, h2⟩
        · exact ⟨_, .inr rfl, rfl, h2⟩
    unfold PlainText.cell PlainText.put at *
    simp only [List.getElem?_modify]
    by_cases hr : row = r
    · subst hr
      -- the line as it was, or an empty one
      have hline : ∃ line, (growTo (row + 1) [] w.lines)[row]? = some line ∧
          line[c]? = (w.lines[row]?).bind (·[c]?) := by
        rw [growTo_get]
        cases hl : w.lines[row]? with
        | some line => exact ⟨line, rfl, rfl⟩
        | none =>
          refine ⟨[], ?_, rfl⟩
          simp
      obtain ⟨line, h1, h2⟩ := hline
      rw [h1]
      simp only [if_true, Option.map_eq_map, Option.map_some, Option.bind_some, List.getElem?_set, growTo_length, growTo_get, h2, hcell]
      by_cases hc : col = c
      · subst hc
        rw [if_pos rfl, if_pos (by omega), if_pos rfl]
      · rw [if_neg hc, if_neg (show ¬ (row, col) = (row, c) by simp [hc])]
        cases hlw : lastWrite ws (row, c) with
        | some x => rfl
        | none =>
          simp only
          by_cases hex : ∃ cell ∈ ws.map (·.1), cell.1 = row ∧ c < cell.2
          · rw [if_pos hex, if_pos (hmem.2 (.inl hex))]
          · rw [if_neg hex]
            simp only
            by_cases hlt : c < col
            · rw [if_pos (by omega), if_pos (hmem.2 (.inr ⟨rfl, hlt⟩))]
            · rw [if_neg (by omega), if_neg]
              rw [hmem]
              rintro (h | h)
              · exact hex h
              · exact hlt h.2
    · simp only [if_neg hr, Option.map_eq_map, Option.map_id_fun', id_eq]
      rw [if_neg (show ¬ (row, col) = (r, c) by simp [hr])]
      have hline : ((growTo (row + 1) [] w.lines)[r]?).bind (·[c]?) = (w.lines[r]?).bind (·[c]?) := by
        rw [growTo_get]
        cases hl : w.lines[r]? with
        | some line => rfl
        | none =>
          simp only
          split <;> rfl
      rw [hline, hcell]
      cases hlw : lastWrite ws (r, c) with
      | some x => rfl
      | none =>
        simp only
        by_cases hex : ∃ cell ∈ ws.map (·.1), cell.1 = r ∧ c < cell.2
        · rw [if_pos hex, if_pos (hmem.2 (.inl hex))]
        · rw [if_neg hex, if_neg]
          rw [hmem]
          rintro (h | h)
          · exact hex h
          · exact hr h.1.symm

theorem After.step {w : PlainText} {ws} (h : After w ws) (c : WCall S) :
    ∃ w', (plainText S).step w c = .ok w' ∧ After w' (ws ++ c.writes) ∧
      w'.focusPoints = w.focusPoints ++ focusesOf [c] := by
  cases c with
  | setFocus row col => exact ⟨_, rfl, by simpa [WCall.writes] using ⟨h.rows, h.cells⟩, rfl⟩
  | displayChar ch row col style full =>
    refine ⟨_, rfl, ?_, by simp [PlainText.displayChar, focusesOf]⟩
    cases full with
    | false =>
      rw [displayChar_narrow]
      exact h.put row col ch
    | true =>
      rw [displayChar_full]
      have := (h.put row col ch).put row (col + 1) sentinel
      simpa [WCall.writes, sentinel] using this

theorem writes_cells (calls : List (WCall S)) : (writesOf calls).map (·.1) = cellsOf calls := by
  induction calls with
  | nil => rfl
  | cons c cs ih =>
    have : writesOf (c :: cs) = c.writes ++ writesOf cs := rfl
    rw [this, List.map_append, ih, cellsOf_cons]
    congr 1
    cases c with
    | setFocus => rfl
    | displayChar _ _ _ _ full => cases full <;> rfl

theorem After.replay (calls : List (WCall S)) : ∀ {w : PlainText} {ws}, After w ws →
    ∃ w', (plainText S).replay w calls = .ok w' ∧ After w' (ws ++ writesOf calls) ∧
      w'.focusPoints = w.focusPoints ++ focusesOf calls := by
  induction calls with
  | nil => intro w ws h; exact ⟨w, rfl, by simpa [writesOf] using h, by simp [focusesOf]⟩
  | cons c cs ih =>
    intro w ws h
    obtain ⟨w1, h1, h2, h3⟩ := h.step c
    obtain ⟨w2, h4, h5, h6⟩ := ih h2
    refine ⟨w2, ?_, ?_, ?_⟩
    · rw [PrettyWindow.replay, h1]; exact h4
    · rw [List.append_assoc] at h5; exact h5
    · rw [h6, h3]
      have : focusesOf (c :: cs) = focusesOf [c] ++ focusesOf cs := by
        rw [← List.singleton_append, focusesOf, List.filterMap_append]; rfl
      rw [this, List.append_assoc]

/-- **C31.**  After any calls, a `PlainText` window that was empty before

    - has just enough lines;
    - contains in each cell the last character that was written to it, or, if it was never written but
      some cell to the right of it in the same row was, a blank (there is nothing after the rightmost
      cell written);
    - has received the focus points, in order. -/
theorem C31_contents (calls : List (WCall S)) (width height : Nat) :
    ∃ w, (plainText S).replay (PlainText.new width height) calls = .ok w ∧
      (∀ row, row < w.lines.length ↔ ∃ cell ∈ cellsOf calls, row ≤ cell.1) ∧
      (∀ row col, ((w.lines[row]?).bind (·[col]?)) = match lastWrite (writesOf calls) (row, col) with
        | some ch => some ch
        | none => if ∃ cell ∈ cellsOf calls, cell.1 = row ∧ col < cell.2 then some ' ' else none) ∧
      w.focusPoints = focusesOf calls := by
  have h0 : After (PlainText.new width height) [] := ⟨by simp [PlainText.new], by simp [PlainText.new, PlainText.cell, lastWrite]⟩
  obtain ⟨w, h1, h2, h3⟩ := h0.replay calls
  rw [List.nil_append] at h2
  refine ⟨w, h1, ?_, ?_, ?_⟩
  · intro row; rw [h2.rows, writes_cells]
  · intro row col
    have := h2.cells row col
    rw [writes_cells] at this
    exact this
  · rw [h3]; rfl

/-! ### Whole rows -/

theorem replay_append (W : PrettyWindow S) (a b : List (WCall S)) : ∀ {s s'}, W.replay s a = .ok s' →
    W.replay s (a ++ b) = W.replay s' b := by
  induction a with
  | nil => intro s s' h; cases h; rfl
  | cons c cs ih =>
    intro s s' h
    rw [PrettyWindow.replay] at h
    rw [List.cons_append, PrettyWindow.replay]
    cases hs : W.step s c with
    | error e => rw [hs] at h; cases h
    | ok s1 => rw [hs] at h; exact ih h

/-- Writing at the end of the last line. -/
theorem put_end {w : PlainText} {row col : Nat} {ls : List (List Char)} {l : List Char}
    (h : growTo (row + 1) [] w.lines = ls ++ [l]) (h1 : ls.length = row) (h2 : l.length = col) (ch : Char) :
    (w.put row col ch).lines = ls ++ [l ++ [ch]] := by
  unfold PlainText.put
  simp only [h]
  subst h1 h2
  apply List.ext_getElem?
  intro i
  rw [List.getElem?_modify]
  by_cases hi : i < ls.length
  · rw [List.getElem?_append_left hi, List.getElem?_append_left hi]
    have hne : ¬ ls.length = i := by omega
    simp [hne]
  · rw [List.getElem?_append_right (by omega), List.getElem?_append_right (by omega)]
    by_cases he : ls.length = i
    · subst he
      simp [growTo]
    · rw [List.getElem?_eq_none (by simp; omega), List.getElem?_eq_none (by simp; omega)]
      rfl

/-- How a row of characters is stored. -/
def stored (isFull : Char → Bool) (chars : List (Char × S)) : List Char :=
  chars.flatMap fun c => c.1 :: if isFull c.1 then [sentinel] else []

theorem stored_length (isFull : Char → Bool) (chars : List (Char × S)) :
    (stored isFull chars).length = charsCols isFull chars := by
  induction chars with
  | nil => rfl
  | cons c cs ih =>
    simp only [stored, List.flatMap_cons, List.length_append] at ih ⊢
    rw [ih]
    simp only [charsCols, List.map_cons, List.sum_cons, charCols]
    congr 1
    split <;> rfl

theorem replay_placed (isFull : Char → Bool) (row : Nat) (chars : List (Char × S)) :
    ∀ {w : PlainText} {col : Nat} {ls : List (List Char)} {l : List Char},
    growTo (row + 1) [] w.lines = ls ++ [l] → ls.length = row → l.length = col →
    ∃ w', (plainText S).replay w (placed isFull row col chars) = .ok w' ∧
      growTo (row + 1) [] w'.lines = ls ++ [l ++ stored isFull chars] ∧
      (w'.lines = ls ++ [l ++ stored isFull chars] ∨ chars = [] ∧ w'.lines = w.lines) := by
  induction chars with
  | nil =>
    intro w col ls l h h1 h2
    exact ⟨w, rfl, by simpa [stored] using h, .inr ⟨rfl, rfl⟩⟩
  | cons c cs ih =>
    intro w col ls l h h1 h2
    obtain ⟨ch, st⟩ := c
    have hgrow : ∀ x : List Char, growTo (row + 1) [] (ls ++ [x]) = ls ++ [x] := fun x =>
      growTo_self _ (by simp; omega)
    have key : ∃ w1 : PlainText, (plainText S).step w (.displayChar ch row col st (isFull ch)) = .ok w1 ∧
        w1.lines = ls ++ [l ++ stored isFull [(ch, st)]] := by
      refine ⟨_, rfl, ?_⟩
      simp only [stored, List.flatMap_cons, List.flatMap_nil, List.append_nil]
      cases isFull ch with
      | false => rw [displayChar_narrow]; exact put_end h h1 h2 ch
      | true =>
        rw [displayChar_full]
        have e := put_end h h1 h2 ch
        have e' := put_end (w := w.put row col ch) (row := row) (col := col + 1) (ls := ls) (l := l ++ [ch])
          (by rw [e]; exact hgrow _) h1 (by simp [h2]) sentinel
        rw [e']
        simp
    obtain ⟨w1, k1, k2⟩ := key
    obtain ⟨w2, m1, m2, m3⟩ := ih (w := w1) (col := col + charCols isFull ch) (ls := ls)
      (l := l ++ stored isFull [(ch, st)]) (by rw [k2]; exact hgrow _) h1
      (by rw [List.length_append, stored_length, h2]; simp [charsCols])
    have hst : l ++ stored isFull [(ch, st)] ++ stored isFull cs = l ++ stored isFull ((ch, st) :: cs) := by
      simp [stored]
    rw [hst] at m2 m3
    refine ⟨w2, ?_, m2, .inl ?_⟩
    · rw [placed, PrettyWindow.replay, k1]; exact m1
    · rcases m3 with m3 | ⟨rfl, m3⟩
      · exact m3
      · rw [m3, k2]

theorem blanks_placed (row : Nat) (style : S) (n : Nat) : ∀ col,
    blanks row col n style = placed (fun _ => false) row col (List.replicate n (' ', style)) := by
  induction n with
  | zero => intro col; rfl
  | succ n ih =>
    intro col
    have := ih (col + 1)
    simp only [blanks] at this ⊢
    rw [List.replicate_succ, placed, List.range'_succ, List.map_cons, this]
    rfl

/-- How a row of a window is stored. -/
def storedRow (isFull : Char → Bool) (w : Nat) (chars : List (Char × S)) : List Char :=
  stored isFull (clip isFull w chars) ++ List.replicate (w - charsCols isFull (clip isFull w chars)) ' '

theorem replay_row (isFull : Char → Bool) (width : Nat) (chars : List (Char × S)) (blank : S)
    (hw : 0 < width) (w : PlainText) :
    ∃ w', (plainText S).replay w (rowCalls isFull w.lines.length 0 width chars blank) = .ok w' ∧
      w'.lines = w.lines ++ [storedRow isFull width chars] := by
  have h0 : growTo (w.lines.length + 1) [] w.lines = w.lines ++ [[]] := by simp [growTo]
  obtain ⟨w1, h1, h2, h3⟩ := replay_placed isFull w.lines.length (clip isFull width chars) (col := 0) h0 rfl rfl
  obtain ⟨w2, k1, k2, k3⟩ := replay_placed (fun _ => false) w.lines.length
    (List.replicate (width - charsCols isFull (clip isFull width chars)) (' ', blank)) h2 rfl
    (by rw [List.nil_append, stored_length])
  have hst : ∀ n, stored (fun _ => false) (List.replicate n (' ', blank)) = List.replicate n ' ' := by
    intro n
    induction n with
    | zero => rfl
    | succ n ih => rw [List.replicate_succ, List.replicate_succ, ← ih]; rfl
  rw [hst, List.nil_append] at k3
  refine ⟨w2, ?_, ?_⟩
  · rw [rowCalls, replay_append _ _ _ h1, blanks_placed, Nat.zero_add]
    exact k1
  · rcases k3 with k3 | ⟨k3, k4⟩
    · exact k3
    · rw [k4]
      rcases h3 with h3 | ⟨h3, h4⟩
      · rw [h3, storedRow, List.nil_append]
        have : width - charsCols isFull (clip isFull width chars) = 0 := by
          have := congrArg List.length k3
          simpa using this
        rw [this]
        simp
      · rw [h3] at k3
        have := congrArg List.length k3
        simp [charsCols] at this
        omega

theorem replay_rows (isFull : Char → Bool) (width : Nat) (rows : Nat → List (Char × S)) (blank : S) (hw : 0 < width)
    (n : Nat) : ∀ (w : PlainText),
    ∃ w', (plainText S).replay w ((List.range' w.lines.length n).flatMap fun row =>
        rowCalls isFull row 0 width (rows row) blank) = .ok w' ∧
      w'.lines = w.lines ++ (List.range' w.lines.length n).map fun row => storedRow isFull width (rows row) := by
  induction n with
  | zero => intro w; exact ⟨w, rfl, by simp⟩
  | succ n ih =>
    intro w
    obtain ⟨w1, h1, h2⟩ := replay_row isFull width (rows w.lines.length) blank hw w
    obtain ⟨w2, h3, h4⟩ := ih w1
    have hl : w1.lines.length = w.lines.length + 1 := by rw [h2]; simp
    rw [hl] at h3 h4
    refine ⟨w2, ?_, ?_⟩
    · rw [List.range'_succ, List.flatMap_cons, replay_append _ _ _ h1]
      exact h3
    · rw [h4, h2, List.range'_succ, List.map_cons]
      simp

theorem stored_filter (isFull : Char → Bool) (chars : List (Char × S)) (h : ∀ c ∈ chars, c.1 ≠ '\x00') :
    (stored isFull chars).filter (· != sentinel) = chars.map (·.1) := by
  induction chars with
  | nil => rfl
  | cons c cs ih =>
    have hc : (c.1 != sentinel) = true := by simpa [sentinel] using h c (by simp)
    have hs : ∀ b : Bool, (if b then [sentinel] else []).filter (· != sentinel) = [] := by decide
    have e : stored isFull (c :: cs) = c.1 :: ((if isFull c.1 then [sentinel] else []) ++ stored isFull cs) := by
      simp [stored]
    rw [e, List.filter_cons_of_pos (p := (· != sentinel)) hc, List.filter_append, hs, ih fun c' h' => h c' (by simp [h'])]
    rfl

theorem clip_subset (isFull : Char → Bool) (chars : List (Char × S)) : ∀ w, ∀ c ∈ clip isFull w chars, c ∈ chars := by
  induction chars with
  | nil => intro w c h; simp [clip] at h
  | cons x xs ih =>
    intro w c h
    rw [clip] at h
    split at h
    · rw [List.mem_cons] at h ⊢
      exact h.imp id (ih _ c)
    · cases h

theorem focusesOf_append (a b : List (WCall S)) : focusesOf (a ++ b) = focusesOf a ++ focusesOf b := by
  rw [focusesOf, List.filterMap_append]; rfl

theorem focusesOf_map (l : List (Nat × Nat)) : focusesOf (S := S) (l.map fun p => .setFocus p.1 p.2) = l := by
  induction l with
  | nil => rfl
  | cons x xs ih =>
    rw [List.map_cons, ← List.singleton_append, focusesOf_append, ih]
    rfl

theorem focusesOf_placed (isFull : Char → Bool) (row : Nat) (chars : List (Char × S)) : ∀ col,
    focusesOf (placed isFull row col chars) = [] := by
  induction chars with
  | nil => intro col; rfl
  | cons x xs ih =>
    intro col
    rw [placed, ← List.singleton_append, focusesOf_append, ih]
    rfl

theorem focusesOf_flatMap {α : Type} (f : α → List (WCall S)) (h : ∀ x, focusesOf (f x) = []) (xs : List α) :
    focusesOf (xs.flatMap f) = [] := by
  induction xs with
  | nil => rfl
  | cons x xs ih => rw [List.flatMap_cons, focusesOf_append, h, ih]; rfl

/-- **C31.**  A `PlainText` window in which a rectangle at the top left has been filled row by row (as
    `display_pane` does for a document) shows the rows: the characters that fit, padded with blanks to
    the width, and a newline after each row. -/
theorem C31_rows (isFull : Char → Bool) (width height : Nat) (hw : 0 < width) (focus : List (Nat × Nat))
    (rows : Nat → List (Char × S)) (blank : S) (hrows : ∀ i c, c ∈ rows i → c.1 ≠ '\x00') :
    ∃ w, (plainText S).replay (PlainText.new width height)
        (focus.map (fun p => .setFocus p.1 p.2) ++ rectCalls isFull ⟨0, height, 0, width⟩ rows blank) = .ok w ∧
      w.focusPoints = focus ∧
      w.toString = String.ofList ((List.range height).flatMap fun i =>
        (clip isFull width (rows i)).map (·.1) ++
        List.replicate (width - charsCols isFull (clip isFull width (rows i))) ' ' ++ ['\n']) := by
  have hf : ∀ (focus : List (Nat × Nat)) (w : PlainText), (plainText S).replay w
      (focus.map (fun p => WCall.setFocus p.1 p.2)) = .ok { w with focusPoints := w.focusPoints ++ focus } := by
    intro focus
    induction focus with
    | nil => intro w; simp [PrettyWindow.replay]
    | cons p ps ih =>
      intro w
      rw [List.map_cons, PrettyWindow.replay]
      have hs : (plainText S).step w (WCall.setFocus p.1 p.2) = .ok (w.setFocus p.1 p.2) := rfl
      rw [hs]
      refine (ih _).trans ?_
      simp [PlainText.setFocus]
  have hfoc := hf focus (PlainText.new width height)
  obtain ⟨w, h1, h2⟩ := replay_rows isFull width rows blank hw height
    { PlainText.new width height with focusPoints := [] ++ focus }
  have hrect : rectCalls isFull ⟨0, height, 0, width⟩ rows blank =
      (List.range' 0 height).flatMap fun row => rowCalls isFull row 0 width (rows row) blank := rfl
  have hrep : (plainText S).replay (PlainText.new width height)
      (focus.map (fun p => .setFocus p.1 p.2) ++ rectCalls isFull ⟨0, height, 0, width⟩ rows blank) = .ok w := by
    rw [replay_append _ _ _ hfoc, hrect]
    exact h1
  refine ⟨w, hrep, ?_, ?_⟩
  · obtain ⟨w', k1, _, _, k2⟩ := C31_contents
      (focus.map (fun p => .setFocus p.1 p.2) ++ rectCalls isFull ⟨0, height, 0, width⟩ rows blank) width height
    rw [hrep] at k1
    cases k1
    rw [k2, focusesOf_append, focusesOf_map, hrect, focusesOf_flatMap, List.append_nil]
    intro i
    rw [rowCalls, focusesOf_append, blanks_placed, focusesOf_placed, focusesOf_placed, List.append_nil]
  · unfold PlainText.toString
    rw [h2]
    have hnew : (PlainText.new width height).lines = [] := rfl
    simp only [hnew, List.nil_append, List.length_nil, List.flatMap_map, List.range_eq_range']
    congr 1
    refine List.flatMap_congr fun i _ => ?_
    rw [storedRow, List.filter_append, stored_filter isFull _ fun c hc => hrows i c (clip_subset isFull _ _ c hc)]
    congr 2
    rw [List.filter_eq_self]
    intro c hc
    rw [List.mem_replicate] at hc
    rw [hc.2]
    decide

end PPP
