import Verif.Proofs.Wrap
/-
Filling lines with words.
-/
namespace PPP

theorem wordCols_one (a sp : Nat) (x : Word) : wordCols a sp [x] = a + x.width := by
  simp [wordCols]

theorem wordCols_snoc (a sp : Nat) {l : List Word} (h : l ≠ []) (x : Word) :
    wordCols a sp (l ++ [x]) = wordCols a sp l + sp + x.width := by
  have := congrArg Prod.snd (wordLine_snoc ⟨"", a⟩ sp h x)
  exact this

theorem wordCols_append (a sp : Nat) {l : List Word} (h : l ≠ []) (m : List Word) :
    wordCols a sp l ≤ wordCols a sp (l ++ m) := by
  induction m generalizing l with
  | nil => simp
  | cons x m ih =>
    have h1 := ih (l := l ++ [x]) (by simp)
    rw [wordCols_snoc a sp h] at h1
    simp only [List.append_assoc, List.singleton_append] at h1
    omega

theorem wordCols_suffix (a sp : Nat) (p : List Word) {l : List Word} (h : l ≠ []) :
    wordCols a sp l ≤ wordCols a sp (p ++ l) := by
  unfold wordCols
  have : 0 < l.length := List.length_pos_iff.2 h
  have h2 : sp * (l.length - 1) ≤ sp * ((p ++ l).length - 1) := Nat.mul_le_mul_left _ (by simp only [List.length_append]; omega)
  simp only [List.map_append, List.sum_append]
  omega

variable {w start space : Nat}

theorem fillFrom_flatten (xs : List Word) : ∀ col line, (fillFrom w start space col line xs).flatten = line ++ xs := by
  induction xs with
  | nil => intro col line; simp [fillFrom]
  | cons x xs ih =>
    intro col line
    simp only [fillFrom]
    split
    · rw [ih]; simp
    · simp [ih]

theorem fillFrom_ne (xs : List Word) : ∀ col line, line ≠ [] → ∀ l ∈ fillFrom w start space col line xs, l ≠ [] := by
  induction xs with
  | nil => intro col line h l hl; simp [fillFrom] at hl; rwa [hl]
  | cons x xs ih =>
    intro col line h l hl
    simp only [fillFrom] at hl
    split at hl
    · exact ih _ _ (by simp) l hl
    · rcases List.mem_cons.1 hl with rfl | hl
      · exact h
      · exact ih _ _ (by simp) l hl

/-- Words that fit are put on the line. -/
theorem fillFrom_take {a : Nat} (m : List Word) : ∀ {line ys : List Word}, line ≠ [] → wordCols a space (line ++ m) ≤ w →
    fillFrom w start space (wordCols a space line) line (m ++ ys) =
      fillFrom w start space (wordCols a space (line ++ m)) (line ++ m) ys := by
  induction m with
  | nil => intro line ys _ _; simp
  | cons x m ih =>
    intro line ys h hw
    have e := wordCols_snoc a space h x
    have h1 := wordCols_append a space (l := line ++ [x]) (by simp) m
    simp only [List.append_assoc, List.singleton_append] at h1
    simp only [List.cons_append, fillFrom]
    rw [if_pos (by omega), ← e]
    have := ih (line := line ++ [x]) (ys := ys) (by simp) (by simpa using hw)
    simpa using this

/-- Going on after a line that some lines can follow. -/
theorem fillFrom_le {ls : List (List Word)}
    (fresh : ∀ pre x xs, ls.flatten = pre ++ x :: xs →
      (fillFrom w start space (start + x.width) [x] xs).length ≤ ls.length)
    (ys : List Word) : ∀ pre col line, ls.flatten = pre ++ ys →
      (fillFrom w start space col line ys).length ≤ 1 + ls.length := by
  induction ys with
  | nil => intro pre col line _; simp [fillFrom]
  | cons y ys ih =>
    intro pre col line h
    simp only [fillFrom]
    split
    · exact ih (pre ++ [y]) _ _ (by simp [h])
    · have := fresh pre y ys h
      simp only [List.length_cons]
      omega

theorem fill_fresh (ls : List (List Word)) (hls : ∀ l ∈ ls, wordCols start space l ≤ w ∨ l.length ≤ 1) :
    ∀ pre x xs, ls.flatten = pre ++ x :: xs → (fillFrom w start space (start + x.width) [x] xs).length ≤ ls.length := by
  induction ls with
  | nil => intro pre x xs h; simp at h
  | cons l1 ls ih =>
    have ih' := ih fun l hl => hls l (List.mem_cons_of_mem _ hl)
    intro pre x xs h
    rw [List.flatten_cons] at h
    rcases List.append_eq_append_iff.1 h with ⟨q, rfl, h2⟩ | ⟨q, rfl, h2⟩
    · have := ih' q x xs h2
      simp only [List.length_cons]
      omega
    · cases q with
      | nil =>
        have := ih' [] x xs (by simpa using h2.symm)
        simp only [List.length_cons]
        omega
      | cons y m =>
        simp only [List.cons_append, List.cons.injEq] at h2
        obtain ⟨rfl, rfl⟩ := h2
        rw [← wordCols_one start space x, List.length_cons, Nat.add_comm]
        rcases hls _ (List.mem_cons_self ..) with h3 | h3
        · have h4 := wordCols_suffix start space pre (l := x :: m) (by simp)
          rw [fillFrom_take (line := [x]) m (by simp) (by simpa using (by omega : wordCols start space (x :: m) ≤ w))]
          exact fillFrom_le ih' _ [] _ _ rfl
        · have : m = [] := by
            simp only [List.length_append, List.length_cons] at h3
            exact List.length_eq_zero_iff.1 (by omega)
          subst this
          exact fillFrom_le ih' _ [] _ _ rfl

/-- Filling lines one after the other uses as few lines as possible. -/
theorem fill_le {first : Nat} {xs : List Word} {ls : List (List Word)} (h : ls.flatten = xs)
    (hls : ∀ (i : Nat) l, ls[i]? = some l → wordCols (if i = 0 then first else start) space l ≤ w ∨ l.length ≤ 1) :
    (fill w first start space xs).length ≤ ls.length := by
  cases xs with
  | nil => simp [fill]
  | cons x xs =>
    cases ls with
    | nil => simp at h
    | cons l1 ls =>
      have ih' := fill_fresh ls fun l hl => by
        obtain ⟨i, hi⟩ := List.getElem?_of_mem hl
        exact hls (i + 1) l (by simpa using hi)
      rw [List.flatten_cons] at h
      simp only [fill]
      rw [List.length_cons, Nat.add_comm ls.length 1]
      cases l1 with
      | nil => exact fillFrom_le ih' _ [x] _ _ (by simpa using h)
      | cons y m =>
        simp only [List.cons_append, List.cons.injEq] at h
        obtain ⟨rfl, rfl⟩ := h
        rw [← wordCols_one first space y]
        rcases hls 0 _ rfl with h3 | h3
        · rw [fillFrom_take (line := [y]) m (by simp) (by simpa using h3)]
          exact fillFrom_le ih' _ [] _ _ rfl
        · have : m = [] := by
            simp only [List.length_cons] at h3
            exact List.length_eq_zero_iff.1 (by omega)
          subst this
          exact fillFrom_le ih' _ [] _ _ rfl

theorem fillFrom_head (xs : List Word) : ∀ col line, line ≠ [] →
    ∃ m ls, fillFrom w start space col line xs = (line ++ m) :: ls := by
  induction xs with
  | nil => intro col line _; exact ⟨[], [], by simp [fillFrom]⟩
  | cons x xs ih =>
    intro col line h
    simp only [fillFrom]
    split
    · obtain ⟨m, ls, e⟩ := ih (col + space + x.width) (line ++ [x]) (by simp)
      exact ⟨x :: m, ls, by rw [e]; simp⟩
    · exact ⟨[], fillFrom w start space (start + x.width) [x] xs, by simp⟩

theorem fillFrom_full (xs : List Word) : ∀ {a : Nat} {line : List Word}, line ≠ [] →
    (wordCols a space line ≤ w ∨ line.length = 1) →
      Full w a start space (fillFrom w start space (wordCols a space line) line xs) := by
  induction xs with
  | nil => intro a line _ h; exact h
  | cons x xs ih =>
    intro a line hl h
    simp only [fillFrom]
    rw [← wordCols_snoc a space hl]
    split
    · rename_i hf
      exact ih (by simp) (.inl hf)
    · rename_i hf
      have h1 := ih (a := start) (line := [x]) (by simp) (.inr rfl)
      rw [wordCols_one] at h1
      obtain ⟨m, ls, e⟩ := fillFrom_head (w := w) (start := start) (space := space) xs (start + x.width) [x] (by simp)
      rw [e] at h1 ⊢
      exact ⟨h, fun y hy => by
        simp at hy
        subst hy
        omega, h1⟩

theorem full_fill {first : Nat} (xs : List Word) : Full w first start space (fill w first start space xs) := by
  cases xs with
  | nil => trivial
  | cons x xs =>
    simp only [fill]
    rw [← wordCols_one first space x]
    exact fillFrom_full xs (by simp) (.inr rfl)

/-- Full lines are the lines that filling gives. -/
theorem full_unique (ls : List (List Word)) : ∀ {first : Nat}, (∀ l ∈ ls, l ≠ []) → Full w first start space ls →
    fill w first start space ls.flatten = ls := by
  induction ls with
  | nil => intro first _ _; rfl
  | cons l ls ih =>
    intro first hne hf
    have hl := hne l (List.mem_cons_self ..)
    obtain ⟨x, m, rfl⟩ := List.exists_cons_of_ne_nil hl
    have hfit : wordCols first space (x :: m) ≤ w ∨ (x :: m).length = 1 := by
      cases ls with
      | nil => exact hf
      | cons l' ls => exact hf.1
    have key : fill w first start space (((x :: m) :: ls).flatten) =
        fillFrom w start space (wordCols first space (x :: m)) (x :: m) ls.flatten := by
      simp only [List.flatten_cons, List.cons_append, fill]
      rw [← wordCols_one first space x]
      rcases hfit with h3 | h3
      · exact fillFrom_take (line := [x]) m (by simp) (by simpa using h3)
      · have : m = [] := by
          simp only [List.length_cons] at h3
          exact List.length_eq_zero_iff.1 (by omega)
        subst this
        rfl
    rw [key]
    cases ls with
    | nil => rfl
    | cons l' ls =>
      obtain ⟨-, h2, h3⟩ := hf
      obtain ⟨y, m', rfl⟩ := List.exists_cons_of_ne_nil (hne l' (by simp))
      have h4 := h2 y (by simp)
      rw [wordCols_snoc first space (by simp)] at h4
      have h5 := ih (first := start) (fun l hl => hne l (List.mem_cons_of_mem _ hl)) h3
      simp only [List.flatten_cons, List.cons_append, fill] at h5 ⊢
      simp only [fillFrom]
      rw [if_neg (by omega), h5]

theorem wordCols_mem (a sp : Nat) {l : List Word} {y : Word} (h : y ∈ l) : a + y.width ≤ wordCols a sp l := by
  obtain ⟨p, q, rfl⟩ := List.append_of_mem h
  have h1 := wordCols_suffix a sp p (l := [y] ++ q) (by simp)
  have h2 := wordCols_append a sp (l := [y]) (by simp) q
  rw [wordCols_one] at h2
  exact Nat.le_trans h2 h1

/-- If each word fits on a line, then all lines fit. -/
theorem fillFrom_fits (xs : List Word) : ∀ {a : Nat} {line : List Word}, line ≠ [] → wordCols a space line ≤ w →
    (∀ y ∈ xs, start + y.width ≤ w) →
      ∀ n ∈ linesCols a start space (fillFrom w start space (wordCols a space line) line xs), n ≤ w := by
  induction xs with
  | nil =>
    intro a line _ h _ n hn
    simp [fillFrom, linesCols] at hn
    omega
  | cons x xs ih =>
    intro a line hl h hy n hn
    simp only [fillFrom] at hn
    rw [← wordCols_snoc a space hl] at hn
    split at hn
    · rename_i hf
      exact ih (by simp) hf (fun y h => hy y (List.mem_cons_of_mem _ h)) n hn
    · rcases List.mem_cons.1 hn with rfl | hn
      · exact h
      · have h1 := ih (a := start) (line := [x]) (by simp) (by rw [wordCols_one]; exact hy x (List.mem_cons_self ..))
          (fun y h => hy y (List.mem_cons_of_mem _ h)) n
        rw [wordCols_one] at h1
        refine h1 ?_
        obtain ⟨l, ls, e⟩ := fillFrom_cons w start space xs (start + x.width) [x]
        rw [e] at hn ⊢
        exact hn

end PPP
