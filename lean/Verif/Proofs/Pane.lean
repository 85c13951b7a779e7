import Verif.Spec.Pane
import Verif.Props.Divvy
/-
Displaying panes: which calls are made.
-/
namespace PPP
variable {S E L : Type} {α β : Type}

theorem PaneM.pure_eq (a : α) : (pure a : PaneM S E α) = some ([], .ok a) := rfl

theorem PaneM.bind_ok {m : PaneM S E α} {f : α → PaneM S E β} {c a} (h : m = some (c, .ok a)) :
    (m >>= f) = match f a with
      | none => none
      | some (c', r) => some (c ++ c', r) := by subst h; rfl

theorem PaneM.bind_ok_nil {m : PaneM S E α} {f : α → PaneM S E β} {a} (h : m = some ([], .ok a)) :
    (m >>= f) = f a := by
  rw [PaneM.bind_ok h]
  cases f a with
  | none => rfl
  | some r => rfl

theorem PaneM.bind_error {m : PaneM S E α} {f : α → PaneM S E β} {c e} (h : m = some (c, .error e)) :
    (m >>= f) = some (c, .error e) := by subst h; rfl

theorem PaneM.bind_none {m : PaneM S E α} {f : α → PaneM S E β} (h : m = none) :
    (m >>= f) = none := by subst h; rfl

@[simp] theorem PaneM.pure_bind' (a : α) (f : α → PaneM S E β) : ((pure a : PaneM S E α) >>= f) = f a :=
  PaneM.bind_ok_nil rfl

theorem PaneM.bind_eq_some {m : PaneM S E α} {f : α → PaneM S E β} {calls r} :
    (m >>= f) = some (calls, r) → (∃ e, m = some (calls, .error e) ∧ r = .error e) ∨
      ∃ c1 a c2, m = some (c1, .ok a) ∧ f a = some (c2, r) ∧ calls = c1 ++ c2 := by
  intro h
  cases hm : m with
  | none => rw [PaneM.bind_none hm] at h; cases h
  | some x =>
    obtain ⟨c, x⟩ := x
    cases x with
    | error e =>
      rw [PaneM.bind_error hm] at h
      cases h
      exact .inl ⟨e, rfl, rfl⟩
    | ok a =>
      rw [PaneM.bind_ok hm] at h
      cases hf : f a with
      | none => rw [hf] at h; cases h
      | some y =>
        obtain ⟨c', y⟩ := y
        rw [hf] at h
        cases h
        exact .inr ⟨c, a, c', rfl, hf, rfl⟩

theorem addUpTo_ok {max a b : Nat} (h : a + b ≤ max) : (addUpTo max a b : PaneM S E Nat) = some ([], .ok (a + b)) := by
  rw [addUpTo, if_pos h]; rfl

theorem addUpTo_overflow {max a b : Nat} (h : ¬ a + b ≤ max) :
    (addUpTo max a b : PaneM S E Nat) = some ([], .error .overflow) := by
  rw [addUpTo, if_neg h]; rfl

theorem subU_ok {a b : Nat} (h : b ≤ a) : (subU a b : PaneM S E Nat) = some ([], .ok (a - b)) := by
  rw [subU, if_pos h]; rfl

/-! ### Code that intends to make certain calls -/

/-- `m` makes the calls `full`, or fails half-way. -/
def Emits (m : PaneM S E Unit) (full : List (WCall S)) : Prop :=
  m = some (full, .ok ()) ∨ ∃ calls e, m = some (calls, .error e) ∧ calls <+: full

theorem Emits.pure : Emits (pure () : PaneM S E Unit) [] := .inl rfl

theorem Emits.fail {e full} : Emits (PaneM.fail e : PaneM S E Unit) full := .inr ⟨[], e, rfl, List.nil_prefix⟩

theorem Emits.call (c : WCall S) : Emits (PaneM.call c : PaneM S E Unit) [c] := .inl rfl

theorem Emits.bind {m : PaneM S E Unit} {f : Unit → PaneM S E Unit} {A B} (h : Emits m A) (h' : Emits (f ()) B) :
    Emits (m >>= f) (A ++ B) := by
  rcases h with h | ⟨c, e, h, hp⟩
  · rcases h' with h' | ⟨c, e, h', hp⟩
    · exact .inl (by rw [PaneM.bind_ok h, h'])
    · exact .inr ⟨A ++ c, e, by rw [PaneM.bind_ok h, h'], (List.prefix_append_right_inj _).2 hp⟩
  · exact .inr ⟨c, e, PaneM.bind_error h, hp.trans (List.prefix_append _ _)⟩

theorem Emits.eachM {f : α → PaneM S E Unit} {F : α → List (WCall S)} :
    ∀ {xs : List α}, (∀ x ∈ xs, Emits (f x) (F x)) → Emits (eachM f xs) (xs.flatMap F)
  | [], _ => .pure
  | x :: xs, h => by
    rw [List.flatMap_cons]
    exact Emits.bind (h x (by simp)) (Emits.eachM fun y hy => h y (by simp [hy]))

theorem eachM_ok {f : α → PaneM S E Unit} {F : α → List (WCall S)} :
    ∀ {xs : List α}, (∀ x ∈ xs, f x = some (F x, .ok ())) → eachM f xs = some (xs.flatMap F, .ok ())
  | [], _ => rfl
  | x :: xs, h => by
    have h1 := h x (by simp)
    have h2 := eachM_ok (f := f) (xs := xs) fun y hy => h y (by simp [hy])
    change (f x >>= fun _ => eachM f xs) = _
    rw [PaneM.bind_ok h1, h2]
    rfl

/-! ### Lines -/

theorem charCols_pos (isFull : Char → Bool) (ch : Char) : 1 ≤ charCols isFull ch := by
  unfold charCols; split <;> omega

theorem charCols_le (isFull : Char → Bool) (ch : Char) : charCols isFull ch ≤ 2 := by
  unfold charCols; split <;> omega

theorem clip_cols (isFull : Char → Bool) (chars : List (Char × S)) : ∀ w,
    charsCols isFull (clip isFull w chars) ≤ w := by
  induction chars with
  | nil => intro w; simp [clip, charsCols]
  | cons c cs ih =>
    intro w
    unfold clip
    split
    · have := ih (w - charCols isFull c.1)
      simp only [charsCols, List.map_cons, List.sum_cons] at this ⊢
      omega
    · simp [charsCols]

theorem clip_self (isFull : Char → Bool) (xs : List (Char × S)) : ∀ {w}, charsCols isFull xs ≤ w →
    clip isFull w xs = xs := by
  induction xs with
  | nil => intro w _; simp [clip]
  | cons c cs ih =>
    intro w h
    simp only [charsCols, List.map_cons, List.sum_cons] at h
    simp only [clip]
    rw [if_pos (by omega), ih (by simp only [charsCols]; omega)]

theorem clip_append (isFull : Char → Bool) (xs ys : List (Char × S)) : ∀ w,
    clip isFull w (xs ++ ys) =
      if charsCols isFull xs ≤ w then xs ++ clip isFull (w - charsCols isFull xs) ys else clip isFull w xs := by
  induction xs with
  | nil => intro w; simp [clip, charsCols]
  | cons c cs ih =>
    intro w
    simp only [List.cons_append, clip]
    have hcols : charsCols isFull (c :: cs) = charCols isFull c.1 + charsCols isFull cs := by simp [charsCols]
    rw [hcols]
    by_cases h : charCols isFull c.1 ≤ w
    · rw [if_pos h, if_pos h, ih]
      by_cases h' : charsCols isFull cs ≤ w - charCols isFull c.1
      · rw [if_pos h', if_pos (by omega), Nat.sub_sub]
      · rw [if_neg h', if_neg (by omega)]
    · rw [if_neg h, if_neg h, if_neg (by omega)]

theorem placed_append (isFull : Char → Bool) (row : Nat) (xs ys : List (Char × S)) : ∀ col,
    placed isFull row col (xs ++ ys) = placed isFull row col xs ++ placed isFull row (col + charsCols isFull xs) ys := by
  induction xs with
  | nil => intro col; simp [placed, charsCols]
  | cons c cs ih =>
    intro col
    obtain ⟨ch, st⟩ := c
    simp only [List.cons_append, placed, ih, charsCols, List.map_cons, List.sum_cons, Nat.add_assoc]

/-- Displaying the characters of a segment. -/
theorem displayChars_spec (isFull : Char → Bool) (row maxCol : Nat) (style : S) (chs : List Char) :
    ∀ {col}, col ≤ maxCol →
    (displayChars (E := E) isFull row maxCol style chs col =
        some (placed isFull row col (clip isFull (maxCol - col) (chs.map (·, style))),
          .ok (col + charsCols isFull (clip isFull (maxCol - col) (chs.map (·, style))),
            decide (charsCols isFull (chs.map (·, style)) ≤ maxCol - col))) ) ∨
    (maxWidth < maxCol + 2 ∧ ∃ calls, displayChars (E := E) isFull row maxCol style chs col =
      some (calls, .error .overflow) ∧
      calls <+: placed isFull row col (clip isFull (maxCol - col) (chs.map (·, style)))) := by
  induction chs with
  | nil => intro col h; exact .inl (by simp [displayChars, clip, placed, charsCols, PaneM.pure_eq]; rfl)
  | cons ch chs ih =>
    intro col h
    have hw : (if isFull ch then 2 else 1) = charCols isFull ch := rfl
    have h1 := charCols_pos isFull ch
    have h2 := charCols_le isFull ch
    simp only [displayChars, hw]
    by_cases ho : col + charCols isFull ch ≤ maxWidth
    swap
    · refine .inr ⟨by omega, [], ?_, List.nil_prefix⟩
      rw [PaneM.bind_error (addUpTo_overflow ho)]
    rw [PaneM.bind_ok_nil (addUpTo_ok ho)]
    by_cases hf : col + charCols isFull ch > maxCol
    · rw [if_pos hf]
      have hc : clip isFull (maxCol - col) (List.map (·, style) (ch :: chs)) = [] := by
        simp only [List.map_cons, clip]
        rw [if_neg (by omega)]
      rw [hc]
      have hd : decide (charsCols isFull (List.map (·, style) (ch :: chs)) ≤ maxCol - col) = false := by
        simp only [charsCols, List.map_cons, List.sum_cons, decide_eq_false_iff_not]
        omega
      rw [hd]
      exact .inl rfl
    · rw [if_neg hf]
      have hc : clip isFull (maxCol - col) (List.map (·, style) (ch :: chs)) =
          (ch, style) :: clip isFull (maxCol - (col + charCols isFull ch)) (chs.map (·, style)) := by
        simp only [List.map_cons, clip]
        rw [if_pos (by omega), Nat.sub_sub]
      rw [hc]
      rcases ih (col := col + charCols isFull ch) (by omega) with g | ⟨g1, calls, g2, g3⟩
      · left
        have hd : decide (charsCols isFull (List.map (·, style) (ch :: chs)) ≤ maxCol - col) =
            decide (charsCols isFull (List.map (·, style) chs) ≤ maxCol - (col + charCols isFull ch)) := by
          refine decide_eq_decide.2 ?_
          simp only [charsCols, List.map_cons, List.sum_cons]
          omega
        rw [PaneM.bind_ok (m := PaneM.call _) rfl, g, hd]
        simp only [placed, charsCols, List.map_cons, List.sum_cons, Nat.add_assoc]
        rfl
      · right
        refine ⟨g1, .displayChar ch row col style (isFull ch) :: calls, ?_, ?_⟩
        · rw [PaneM.bind_ok (m := PaneM.call _) rfl, g2]; rfl
        · simp only [placed]
          exact List.cons_prefix_cons.2 ⟨rfl, g3⟩

variable {P : PrettyDoc}

/-- Displaying the segments of a line. -/
theorem displaySegments_spec (isFull : Char → Bool) (row maxCol : Nat) (segs : List (Segment P)) :
    ∀ {col}, col ≤ maxCol →
    (displaySegments isFull row maxCol segs col =
        some (placed isFull row col (clip isFull (maxCol - col) (styledChars segs)),
          .ok (col + charsCols isFull (clip isFull (maxCol - col) (styledChars segs))))) ∨
    (maxWidth < maxCol + 2 ∧ ∃ calls, displaySegments isFull row maxCol segs col =
      some (calls, .error .overflow) ∧
      calls <+: placed isFull row col (clip isFull (maxCol - col) (styledChars segs))) := by
  induction segs with
  | nil =>
    intro col h
    exact .inl (by simp [displaySegments, styledChars, clip, placed, charsCols, PaneM.pure_eq]; rfl)
  | cons seg segs ih =>
    intro col h
    have hs : styledChars (seg :: segs) = seg.str.toList.map (·, seg.style) ++ styledChars segs := rfl
    rw [hs, clip_append]
    simp only [displaySegments]
    rcases displayChars_spec (E := P.Err) isFull row maxCol seg.style seg.str.toList h with g | ⟨g1, calls, g2, g3⟩
    · rw [PaneM.bind_ok g]
      simp only
      by_cases hc : charsCols isFull (seg.str.toList.map (·, seg.style)) ≤ maxCol - col
      · simp only [clip_self isFull _ hc, hc, decide_true, if_true]
        rw [placed_append]
        have hsub : maxCol - col - charsCols isFull (seg.str.toList.map (·, seg.style)) =
          maxCol - (col + charsCols isFull (seg.str.toList.map (·, seg.style))) := by omega
        rcases ih (col := col + charsCols isFull (seg.str.toList.map (·, seg.style))) (by omega) with
          k | ⟨k1, calls, k2, k3⟩
        · left
          rw [k, hsub]
          simp only [charsCols, List.map_append, List.sum_append, Nat.add_assoc]
          rfl
        · right
          refine ⟨k1, placed isFull row col (seg.str.toList.map (·, seg.style)) ++ calls, ?_, ?_⟩
          · rw [k2]
          · rw [hsub]; exact (List.prefix_append_right_inj _).2 k3
      · left
        rw [if_neg hc]
        have hd : decide (charsCols isFull (seg.str.toList.map (·, seg.style)) ≤ maxCol - col) = false := by
          simp [hc]
        rw [hd]
        simp only [Bool.false_eq_true, if_false, PaneM.pure_eq]
        change some (_ ++ [], _) = _
        rw [List.append_nil]
    · right
      refine ⟨g1, calls, PaneM.bind_error g2, g3.trans ?_⟩
      split
      · rename_i hc
        rw [placed_append, clip_self isFull _ hc]
        exact List.prefix_append _ _
      · exact List.prefix_refl _

theorem blanks_eq (row col n : Nat) (style : S) :
    (List.range' col n).flatMap (fun c => [WCall.displayChar ' ' row c style false]) = blanks row col n style := by
  rw [blanks, List.map_eq_flatMap]

theorem displayBlank_ok (row a b : Nat) (style : S) :
    eachM (E := E) (fun c => .call (.displayChar ' ' row c style false)) (rangeFrom a b) =
      some (blanks row a (b - a) style, .ok ()) := by
  refine (eachM_ok (f := fun c => PaneM.call (.displayChar ' ' row c style false))
    (F := fun c => [WCall.displayChar ' ' row c style false]) fun x _ => rfl).trans ?_
  rw [rangeFrom, blanks_eq]

/-- A line is displayed as a row. -/
theorem displayLine_spec (isFull : Char → Bool) (line : Line P) (rel : Nat) {rect : Rectangle} (blank : P.Style)
    (hr : rect.minRow + rel < rect.maxRow) (hc : rect.minCol ≤ rect.maxCol) :
    displayLine isFull line rel rect blank =
      some (rowCalls isFull (rect.minRow + rel) rect.minCol rect.width (styledChars line.segments) blank, .ok ()) ∨
    (maxWidth < rect.maxCol + 2 ∧ ∃ calls, displayLine isFull line rel rect blank = some (calls, .error .overflow) ∧
      calls <+: rowCalls isFull (rect.minRow + rel) rect.minCol rect.width (styledChars line.segments) blank) := by
  simp only [displayLine]
  rw [if_neg (by omega)]
  have hcols := clip_cols isFull (styledChars line.segments) rect.width
  rcases displaySegments_spec isFull (rect.minRow + rel) rect.maxCol line.segments hc with g | ⟨g1, calls, g2, g3⟩
  · left
    rw [PaneM.bind_ok g]
    simp only [displayBlank_ok, rowCalls, Rectangle.width, Nat.sub_sub]
    rfl
  · right
    exact ⟨g1, calls, PaneM.bind_error g2, g3.trans (List.prefix_append _ _)⟩

theorem displayBlankLine_spec (rel : Nat) {rect : Rectangle} (blank : P.Style)
    (hr : rect.minRow + rel < rect.maxRow) (isFull : Char → Bool) :
    displayBlankLine rel rect blank =
      some (rowCalls isFull (rect.minRow + rel) rect.minCol rect.width [] blank, .ok ()) := by
  simp only [displayBlankLine]
  rw [if_neg (by omega), displayBlank_ok]
  simp [rowCalls, clip, placed, charsCols, Rectangle.width]
  rfl

end PPP
