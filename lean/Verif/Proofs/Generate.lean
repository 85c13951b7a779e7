import Verif.Spec.Generate
import Mathlib.Data.List.Nodup
import Mathlib.Data.List.Basic
/-
The deterministic generator goes through all the values of a generator.
-/
namespace PPP
variable {α β : Type}

/-! ### Paths through a generator -/

/-- The path `st` (numbers picked, with the ranges) is one through `g`. -/
def GPath (g : Gen α) (st : List (Nat × Nat)) : Prop :=
  match st with
  | [] => True
  | (n, m) :: st =>
    match g with
    | .pick max k => m = max ∧ n < max ∧ GPath (k n) st
    | _ => False
termination_by structural st

/-- The values at or after a path. -/
def restOf (g : Gen α) (st : List (Nat × Nat)) : List α :=
  match st with
  | [] => g.values
  | (n, _) :: st =>
    match g with
    | .pick max k => restOf (k n) st ++ (List.range' (n + 1) (max - (n + 1))).flatMap fun i => (k i).values
    | _ => []
termination_by structural st

/-- The values after a path to a value. -/
def afterOf (g : Gen α) (st : List (Nat × Nat)) : List α :=
  match st with
  | [] => []
  | (n, _) :: st =>
    match g with
    | .pick max k => afterOf (k n) st ++ (List.range' (n + 1) (max - (n + 1))).flatMap fun i => (k i).values
    | _ => []
termination_by structural st

theorem values_pick {max n : Nat} {k : Nat → Gen α} (h : 0 < max) :
    (Gen.pick max k).values = (k 0).values ++ (List.range' 1 (max - 1)).flatMap fun i => (k i).values := by
  obtain ⟨m, rfl⟩ : ∃ m, max = m + 1 := ⟨max - 1, by omega⟩
  simp only [Gen.values, List.range_eq_range', List.range'_succ, List.flatMap_cons, Nat.add_sub_cancel,
    Nat.zero_add]

theorem run_path {g : Gen α} (hg : g.Proper) : ∀ (pre st : List (Nat × Nat)), GPath g st →
    ∃ a full, g.run (pre ++ st) pre.length = some (a, pre ++ full, (pre ++ full).length) ∧ GPath g full ∧
      restOf g st = a :: afterOf g full := by
  induction g with
  | ret a =>
    intro pre st h
    cases st with
    | nil => exact ⟨a, [], by simp [Gen.run], trivial, by simp [restOf, afterOf, Gen.values]⟩
    | cons p st => exact h.elim
  | panic => exact hg.elim
  | pick max k ih =>
    intro pre st h
    cases st with
    | nil =>
      obtain ⟨a, full, h1, h2, h3⟩ := ih 0 (hg.2 0 hg.1) (pre ++ [(0, max)]) [] trivial
      refine ⟨a, (0, max) :: full, ?_, ⟨rfl, hg.1, h2⟩, ?_⟩
      · have : (pre ++ ([] : List (Nat × Nat)))[pre.length]? = none := by simp
        simp only [Gen.run, pickNext, this]
        simpa using h1
      · simp only [restOf] at h3
        simp only [restOf, afterOf]
        rw [values_pick (n := 0) hg.1, h3]
        simp
    | cons p st =>
      obtain ⟨n, m⟩ := p
      obtain ⟨rfl, hn, h⟩ := h
      obtain ⟨a, full, h1, h2, h3⟩ := ih n (hg.2 n hn) (pre ++ [(n, m)]) st h
      refine ⟨a, (n, m) :: full, ?_, ⟨rfl, hn, h2⟩, ?_⟩
      · have : (pre ++ (n, m) :: st)[pre.length]? = some (n, m) := by simp
        simp only [Gen.run, pickNext, this]
        simpa using h1
      · simp only [restOf, afterOf, h3, List.cons_append]

/-- The next path, seen from the bottom of the stack. -/
def nextPath : List (Nat × Nat) → List (Nat × Nat)
  | [] => []
  | (n, m) :: st =>
    match nextPath st with
    | [] => if n + 1 < m then [(n + 1, m)] else []
    | q :: st' => (n, m) :: q :: st'

theorem advanceLoop_append (xs : List (Nat × Nat)) (p : Nat × Nat) :
    advanceLoop (xs ++ [p]) = if advanceLoop xs = [] then advanceLoop [p] else advanceLoop xs ++ [p] := by
  induction xs with
  | nil => simp [advanceLoop]
  | cons q xs ih =>
    obtain ⟨n, m⟩ := q
    simp only [List.cons_append, advanceLoop]
    by_cases h : n + 1 < m
    · simp [h]
    · simp only [h, if_false]; exact ih

theorem advance_eq (st : List (Nat × Nat)) : (advanceLoop st.reverse).reverse = nextPath st := by
  induction st with
  | nil => rfl
  | cons p st ih =>
    obtain ⟨n, m⟩ := p
    rw [List.reverse_cons, advanceLoop_append]
    by_cases h : advanceLoop st.reverse = []
    · rw [h] at ih
      rw [if_pos h]
      simp only [nextPath, ← ih, List.reverse_nil, advanceLoop]
      by_cases hn : n + 1 < m <;> simp [hn]
    · rw [if_neg h]
      have hne : nextPath st ≠ [] := by rw [← ih]; simpa using h
      cases hq : nextPath st with
      | nil => exact absurd hq hne
      | cons q st' =>
        rw [hq] at ih
        simp only [nextPath, hq]
        rw [List.reverse_append, ih]
        rfl

theorem range'_flat {max n : Nat} {k : Nat → Gen α} (h : n < max) :
    (List.range' n (max - n)).flatMap (fun i => (k i).values) =
      (k n).values ++ (List.range' (n + 1) (max - (n + 1))).flatMap fun i => (k i).values := by
  obtain ⟨m, hm⟩ : ∃ m, max - n = m + 1 := ⟨max - n - 1, by omega⟩
  rw [hm, List.range'_succ, List.flatMap_cons]
  rw [show max - (n + 1) = m by omega]

theorem after_path : ∀ (st : List (Nat × Nat)) {g : Gen α}, GPath g st →
    GPath g (nextPath st) ∧ afterOf g st = if nextPath st = [] then [] else restOf g (nextPath st) := by
  intro st
  induction st with
  | nil => intro g h; simp [nextPath, GPath, afterOf]
  | cons p st ih =>
    intro g h
    obtain ⟨n, m⟩ := p
    cases g with
    | ret a => exact h.elim
    | panic => exact h.elim
    | pick max k =>
      obtain ⟨rfl, hn, h⟩ := h
      obtain ⟨h1, h2⟩ := ih h
      simp only [afterOf]
      cases hq : nextPath st with
      | nil =>
        have hp : nextPath ((n, m) :: st) = if n + 1 < m then [(n + 1, m)] else [] := by simp only [nextPath, hq]
        rw [hp]
        rw [hq] at h2
        simp only [if_true] at h2
        rw [h2]
        by_cases hnm : n + 1 < m
        · simp only [hnm, if_true]
          refine ⟨⟨rfl, hnm, trivial⟩, ?_⟩
          simp only [List.nil_append, restOf]
          rw [range'_flat hnm]
          simp
        · simp only [hnm, if_false]
          refine ⟨trivial, ?_⟩
          rw [show m - (n + 1) = 0 by omega]
          simp
      | cons q st' =>
        have hp : nextPath ((n, m) :: st) = (n, m) :: q :: st' := by simp only [nextPath, hq]
        rw [hp]
        rw [hq] at h1 h2
        simp only [reduceCtorEq, if_false] at h2
        refine ⟨⟨rfl, hn, h1⟩, ?_⟩
        simp [restOf, h2]

/-! ### The iterator -/

/-- The iterator has yet to give `as`. -/
def GenAll.Left (s : GenAll α) (as : List α) : Prop :=
  s.gen.Proper ∧ ((s.done = true ∧ as = []) ∨
    (s.done = false ∧ s.index = 0 ∧ GPath s.gen s.stack ∧ restOf s.gen s.stack = as))

theorem GenAll.left_new {g : Gen α} (hg : g.Proper) : (GenAll.new g).Left g.values :=
  ⟨hg, .inr ⟨rfl, rfl, trivial, rfl⟩⟩

theorem GenAll.left_next {s : GenAll α} {as : List α} (h : s.Left as) :
    ∃ s', s.next = some (as.head?, s') ∧ s'.Left as.tail := by
  obtain ⟨hg, ⟨hd, rfl⟩ | ⟨hd, hi, hp, hr⟩⟩ := h
  · exact ⟨s, by simp [GenAll.next, hd], hg, .inl ⟨hd, rfl⟩⟩
  · obtain ⟨a, full, h1, h2, h3⟩ := run_path hg [] s.stack hp
    obtain ⟨h4, h5⟩ := after_path full h2
    simp only [List.nil_append, List.length_nil] at h1
    rw [hr] at h3
    subst h3
    refine ⟨{ s with stack := full, index := full.length }.advance, ?_, ?_, ?_⟩
    · simp [GenAll.next, hd, hi, h1]
    · exact hg
    · simp only [GenAll.advance, advance_eq, List.tail_cons]
      cases hq : nextPath full with
      | nil =>
        rw [hq] at h5
        exact .inl ⟨by simp, by simpa using h5⟩
      | cons q st' =>
        rw [hq] at h4 h5
        exact .inr ⟨by simp [hd], trivial, h4, by simpa using h5.symm⟩

theorem GenAll.left_nexts : ∀ (n : Nat) {s : GenAll α} {as : List α}, s.Left as →
    s.nexts n = some ((List.range n).map fun i => as[i]?) := by
  intro n
  induction n with
  | zero => intro s as _; rfl
  | succ n ih =>
    intro s as h
    obtain ⟨s', h1, h2⟩ := left_next h
    have h3 := ih h2
    simp only [GenAll.nexts, h1, h3]
    rw [List.range_succ_eq_map, List.map_cons, List.map_map]
    cases as with
    | nil => simp [Function.comp_def]
    | cons a as => simp [Function.comp_def]

theorem GenAll.left_collect : ∀ {as : List α} {s : GenAll α}, s.Left as → s.collect = some as := by
  intro as
  induction as with
  | nil =>
    intro s h
    obtain ⟨s', h1, _⟩ := left_next h
    rw [GenAll.collect.eq_def, h1]
    rfl
  | cons a as ih =>
    intro s h
    obtain ⟨s', h1, h2⟩ := left_next h
    rw [GenAll.collect.eq_def, h1]
    simp [ih h2]

/-! ### Values -/

theorem Gen.values_bind (g : Gen α) (f : α → Gen β) :
    (g.bind f).values = g.values.flatMap fun a => (f a).values := by
  induction g with
  | ret a => simp [Gen.bind, Gen.values]
  | panic => simp [Gen.bind, Gen.values]
  | pick max k ih => simp [Gen.bind, Gen.values, ih, List.flatMap_assoc]

theorem Gen.proper_bind {g : Gen α} {f : α → Gen β} (hg : g.Proper) (hf : ∀ a ∈ g.values, (f a).Proper) :
    (g.bind f).Proper := by
  induction g with
  | ret a => exact hf a (by simp [Gen.values])
  | panic => exact hg.elim
  | pick max k ih =>
    refine ⟨hg.1, fun n hn => ih n (hg.2 n hn) ?_⟩
    intro a ha
    exact hf a (by simp only [Gen.values, List.mem_flatMap, List.mem_range]; exact ⟨n, hn, ha⟩)

theorem Gen.values_ne_nil {g : Gen α} (hg : g.Proper) : g.values ≠ [] := by
  induction g with
  | ret a => simp [Gen.values]
  | panic => exact hg.elim
  | pick max k ih =>
    intro h
    simp only [Gen.values, List.flatMap_eq_nil_iff, List.mem_range] at h
    exact ih 0 (hg.2 0 hg.1) (h 0 hg.1)

theorem Gen.runWith_mem {σ : Type} {pick : σ → Nat → Option (Nat × σ)}
    (hpick : ∀ s max, 0 < max → ∃ n s', pick s max = some (n, s') ∧ n < max) {g : Gen α} (hg : g.Proper) :
    ∀ s, ∃ a s', g.runWith pick s = some (a, s') ∧ a ∈ g.values := by
  induction g with
  | ret a => intro s; exact ⟨a, s, rfl, by simp [Gen.values]⟩
  | panic => exact hg.elim
  | pick max k ih =>
    intro s
    obtain ⟨n, s', h1, h2⟩ := hpick s max hg.1
    obtain ⟨a, s'', h3, h4⟩ := ih n (hg.2 n h2) s'
    refine ⟨a, s'', by simp [Gen.runWith, h1, h3], ?_⟩
    simp only [Gen.values, List.mem_flatMap, List.mem_range]
    exact ⟨n, h2, h4⟩

/-! ### Notations -/

theorem bind_def (g : Gen α) (f : α → Gen β) : (g >>= f) = g.bind f := rfl

theorem made_pos {n : Nat} {x} (h : Made n x) : 0 < n := by cases h <;> omega

/-- The leaves. -/
def gLeaf : Nat → Gen (Notation Unit Unit)
  | 0 => .ret .empty
  | 1 => .ret .newline
  | 2 => .ret .endOfLine
  | 3 => .ret (.literal "a")
  | 4 => .ret (.literal "bb")
  | 5 => .ret (.literal "cccc")
  | _ => .panic

theorem notationGen_one : notationGen 1 = .pick 6 gLeaf := by
  rw [notationGen]
  simp only [Nat.one_ne_zero, if_false, if_true]
  congr 1

/-- Two parts. -/
def gPair (f : Notation Unit Unit → Notation Unit Unit → Notation Unit Unit) (size : Nat) :
    Gen (Notation Unit Unit) :=
  .pick (size - 1 - 1) fun n =>
    if n + 1 ≤ size - 1 then
      (notationGen (n + 1)).bind fun l => (notationGen (size - 1 - (n + 1))).bind fun r => .ret (f l r)
    else .panic

/-- One part. -/
def gOne (f : Notation Unit Unit → Notation Unit Unit) (size : Nat) : Gen (Notation Unit Unit) :=
  (notationGen size).bind fun n => .ret (f n)

theorem notationGen_two : notationGen 2 = .pick 2 fun n =>
    match n with
    | 0 => gOne .flat 1
    | 1 => gOne (.nest 2) 1
    | _ => .panic := by
  conv => lhs; rw [notationGen]
  rfl

theorem notationGen_big {size : Nat} (h : 3 ≤ size) : notationGen size = .pick 4 fun n =>
    match n with
    | 0 => gPair .concat size
    | 1 => gPair .choice size
    | 2 => gOne .flat (size - 1)
    | 3 => gOne (.nest 2) (size - 1)
    | _ => .panic := by
  conv => lhs; rw [notationGen]
  rw [if_neg (by omega), if_neg (by omega), if_neg (by omega)]
  rfl

theorem mem_gOne {f : Notation Unit Unit → Notation Unit Unit} {size : Nat} {x} :
    x ∈ (gOne f size).values ↔ ∃ y ∈ (notationGen size).values, f y = x := by
  simp only [gOne, Gen.values_bind, Gen.values, List.mem_flatMap, List.mem_singleton, eq_comm]

theorem mem_gPair {f : Notation Unit Unit → Notation Unit Unit → Notation Unit Unit} {size : Nat} (hs : 3 ≤ size) {x} :
    x ∈ (gPair f size).values ↔ ∃ m n, m + n + 1 = size ∧ 0 < m ∧ 0 < n ∧
      ∃ l ∈ (notationGen m).values, ∃ r ∈ (notationGen n).values, f l r = x := by
  simp only [gPair, Gen.values, List.mem_flatMap, List.mem_range]
  constructor
  · rintro ⟨n, hn, h⟩
    rw [if_pos (by omega)] at h
    simp only [Gen.values_bind, Gen.values, List.mem_flatMap, List.mem_singleton] at h
    obtain ⟨l, hl, r, hr, rfl⟩ := h
    exact ⟨n + 1, size - 1 - (n + 1), by omega, by omega, by omega, l, hl, r, hr, rfl⟩
  · rintro ⟨m, n, rfl, hm, hn, l, hl, r, hr, rfl⟩
    obtain ⟨m, rfl⟩ : ∃ m', m = m' + 1 := ⟨m - 1, by omega⟩
    refine ⟨m, by omega, ?_⟩
    rw [if_pos (by omega)]
    simp only [Gen.values_bind, Gen.values, List.mem_flatMap, List.mem_singleton]
    exact ⟨l, hl, r, by rwa [show m + 1 + n + 1 - 1 - (m + 1) = n by omega], rfl⟩

theorem mem_pick4 {a b c d : Gen (Notation Unit Unit)} {x} :
    x ∈ (Gen.pick 4 fun n => match n with
      | 0 => a
      | 1 => b
      | 2 => c
      | 3 => d
      | _ => .panic).values ↔ x ∈ a.values ∨ x ∈ b.values ∨ x ∈ c.values ∨ x ∈ d.values := by
  simp [Gen.values, List.range_succ]

theorem mem_pick2 {a b : Gen (Notation Unit Unit)} {x} :
    x ∈ (Gen.pick 2 fun n => match n with
      | 0 => a
      | 1 => b
      | _ => .panic).values ↔ x ∈ a.values ∨ x ∈ b.values := by
  simp [Gen.values, List.range_succ]

theorem mem_gLeaf {x} : x ∈ (Gen.pick 6 gLeaf).values ↔ x = .empty ∨ x = .newline ∨ x = .endOfLine ∨
    x = .literal "a" ∨ x = .literal "bb" ∨ x = .literal "cccc" := by
  simp [Gen.values, List.range_succ, gLeaf]

theorem notationGen_values (size : Nat) : ∀ x, x ∈ (notationGen size).values ↔ Made size x := by
  induction size using Nat.strongRecOn with
  | _ size ih =>
    intro x
    by_cases h0 : size = 0
    · subst h0
      rw [notationGen]
      simp only [if_true, Gen.values, List.not_mem_nil, false_iff]
      intro h
      exact absurd (made_pos h) (by omega)
    by_cases h1 : size = 1
    · subst h1
      rw [notationGen_one, mem_gLeaf]
      constructor
      · rintro (rfl | rfl | rfl | rfl | rfl | rfl)
        · exact .empty
        · exact .newline
        · exact .endOfLine
        · exact .a
        · exact .bb
        · exact .cccc
      · have : ∀ {s : Nat} {x}, Made s x → s = 1 → x = .empty ∨ x = .newline ∨ x = .endOfLine ∨
            x = .literal "a" ∨ x = .literal "bb" ∨ x = .literal "cccc" := by
          intro s x h hs
          cases h with
          | empty | newline | endOfLine | a | bb | cccc => simp
          | flat h => have := made_pos h; omega
          | nest h => have := made_pos h; omega
          | concat h h' => have := made_pos h; omega
          | choice h h' => have := made_pos h; omega
        intro h
        exact this h rfl
    by_cases h2 : size = 2
    · subst h2
      rw [notationGen_two, mem_pick2, mem_gOne, mem_gOne]
      constructor
      · rintro (⟨y, hy, rfl⟩ | ⟨y, hy, rfl⟩)
        · exact .flat ((ih 1 (by omega) y).1 hy)
        · exact .nest ((ih 1 (by omega) y).1 hy)
      · have : ∀ {s : Nat} {x}, Made s x → s = 2 → (∃ y ∈ (notationGen 1).values, Notation.flat y = x) ∨
            ∃ y ∈ (notationGen 1).values, Notation.nest 2 y = x := by
          intro s x h hs
          cases h with
          | empty | newline | endOfLine | a | bb | cccc => omega
          | @flat n x h =>
            obtain rfl : n = 1 := by omega
            exact .inl ⟨x, (ih 1 (by omega) x).2 h, rfl⟩
          | @nest n x h =>
            obtain rfl : n = 1 := by omega
            exact .inr ⟨x, (ih 1 (by omega) x).2 h, rfl⟩
          | concat h h' => have := made_pos h; have := made_pos h'; omega
          | choice h h' => have := made_pos h; have := made_pos h'; omega
        intro h
        exact this h rfl
    · have h3 : 3 ≤ size := by omega
      rw [notationGen_big h3, mem_pick4, mem_gOne, mem_gOne, mem_gPair h3, mem_gPair h3]
      constructor
      · rintro (⟨m, n, rfl, hm, hn, l, hl, r, hr, rfl⟩ | ⟨m, n, rfl, hm, hn, l, hl, r, hr, rfl⟩ | ⟨y, hy, rfl⟩ | ⟨y, hy, rfl⟩)
        · exact .concat ((ih m (by omega) l).1 hl) ((ih n (by omega) r).1 hr)
        · exact .choice ((ih m (by omega) l).1 hl) ((ih n (by omega) r).1 hr)
        · have := Made.flat ((ih (size - 1) (by omega) y).1 hy)
          rwa [show size - 1 + 1 = size by omega] at this
        · have := Made.nest ((ih (size - 1) (by omega) y).1 hy)
          rwa [show size - 1 + 1 = size by omega] at this
      · intro h
        cases h with
        | empty | newline | endOfLine | a | bb | cccc => omega
        | @flat n x h => exact .inr (.inr (.inl ⟨x, (ih _ (by omega) x).2 h, rfl⟩))
        | @nest n x h => exact .inr (.inr (.inr ⟨x, (ih _ (by omega) x).2 h, rfl⟩))
        | @concat m n x y hx hy =>
          exact .inl ⟨m, n, rfl, made_pos hx, made_pos hy, x, (ih _ (by have := made_pos hy; omega) x).2 hx, y,
            (ih _ (by have := made_pos hx; omega) y).2 hy, rfl⟩
        | @choice m n x y hx hy =>
          exact .inr (.inl ⟨m, n, rfl, made_pos hx, made_pos hy, x, (ih _ (by have := made_pos hy; omega) x).2 hx, y,
            (ih _ (by have := made_pos hx; omega) y).2 hy, rfl⟩)

theorem gOne_proper {f : Notation Unit Unit → Notation Unit Unit} {size : Nat} (h : (notationGen size).Proper) :
    (gOne f size).Proper := Gen.proper_bind h fun _ _ => trivial

theorem gPair_proper {f : Notation Unit Unit → Notation Unit Unit → Notation Unit Unit} {size : Nat} (hs : 3 ≤ size)
    (h : ∀ m, 0 < m → m < size → (notationGen m).Proper) : (gPair f size).Proper := by
  refine ⟨by omega, fun n hn => ?_⟩
  dsimp only
  rw [if_pos (by omega)]
  exact Gen.proper_bind (h _ (by omega) (by omega)) fun _ _ =>
    Gen.proper_bind (h _ (by omega) (by omega)) fun _ _ => trivial

theorem notationGen_proper (size : Nat) : 0 < size → (notationGen size).Proper := by
  induction size using Nat.strongRecOn with
  | _ size ih =>
    intro h0
    by_cases h1 : size = 1
    · subst h1
      rw [notationGen_one]
      refine ⟨by omega, fun n hn => ?_⟩
      match n, hn with
      | 0, _ | 1, _ | 2, _ | 3, _ | 4, _ | 5, _ => trivial
    by_cases h2 : size = 2
    · subst h2
      rw [notationGen_two]
      refine ⟨by omega, fun n hn => ?_⟩
      match n, hn with
      | 0, _ | 1, _ => exact gOne_proper (ih 1 (by omega) (by omega))
    · have h3 : 3 ≤ size := by omega
      rw [notationGen_big h3]
      refine ⟨by omega, fun n hn => ?_⟩
      match n, hn with
      | 0, _ | 1, _ => exact gPair_proper h3 fun m hm hms => ih m hms hm
      | 2, _ | 3, _ => exact gOne_proper (ih _ (by omega) (by omega))

/-! ### Nothing twice -/

/-- The size of a notation that was made. -/
def madeSize : Notation Unit Unit → Nat
  | .flat x => madeSize x + 1
  | .indent _ _ (.concat _ x) => madeSize x + 1
  | .concat x y => madeSize x + madeSize y + 1
  | .choice x y => madeSize x + madeSize y + 1
  | _ => 1

theorem made_madeSize {n : Nat} {x} (h : Made n x) : madeSize x = n := by
  induction h with
  | empty | newline | endOfLine | a | bb | cccc => rfl
  | flat _ ih => simp [madeSize, ih]
  | nest _ ih => simp [Notation.nest, madeSize, ih]
  | concat _ _ ih1 ih2 => simp [madeSize, ih1, ih2]
  | choice _ _ ih1 ih2 => simp [madeSize, ih1, ih2]

theorem made_size {m n : Nat} {x} (h : Made m x) (h' : Made n x) : m = n :=
  (made_madeSize h).symm.trans (made_madeSize h')

theorem nodup_pick {max : Nat} {k : Nat → Gen α} (h1 : ∀ n < max, (k n).values.Nodup)
    (h2 : ∀ m n, m < max → n < max → m < n → ∀ x, x ∈ (k m).values → x ∉ (k n).values) : (Gen.pick max k).values.Nodup := by
  simp only [Gen.values]
  rw [List.nodup_flatMap]
  refine ⟨fun n hn => h1 n (List.mem_range.1 hn), ?_⟩
  have := List.pairwise_lt_range (n := max)
  refine List.Pairwise.imp_of_mem ?_ this
  intro m n hm hn hmn x hx hx'
  exact h2 m n (List.mem_range.1 hm) (List.mem_range.1 hn) hmn x hx hx'

theorem gOne_nodup {f : Notation Unit Unit → Notation Unit Unit} (hf : Function.Injective f) {size : Nat}
    (h : (notationGen size).values.Nodup) : (gOne f size).values.Nodup := by
  have : (gOne f size).values = (notationGen size).values.map f := by
    simp only [gOne, Gen.values_bind, Gen.values]
    induction (notationGen size).values with
    | nil => rfl
    | cons a as ih => simp [ih]
  rw [this]
  exact h.map hf

theorem gPair_nodup {f : Notation Unit Unit → Notation Unit Unit → Notation Unit Unit}
    (hf : ∀ a b c d, f a b = f c d → a = c ∧ b = d) {size : Nat} (hs : 3 ≤ size)
    (h : ∀ m, 0 < m → m < size → (notationGen m).values.Nodup) : (gPair f size).values.Nodup := by
  refine nodup_pick (fun n hn => ?_) (fun m n hm hn hmn x hx hx' => ?_)
  · rw [if_pos (by omega), Gen.values_bind]
    rw [List.nodup_flatMap]
    refine ⟨fun l hl => ?_, ?_⟩
    · rw [Gen.values_bind]
      have : (notationGen (size - 1 - (n + 1))).values.flatMap (fun a => (Gen.ret (f l a)).values) =
          (notationGen (size - 1 - (n + 1))).values.map (f l) := by
        induction (notationGen (size - 1 - (n + 1))).values with
        | nil => rfl
        | cons a as ih => rw [List.flatMap_cons, ih]; rfl
      rw [this]
      exact (h _ (by omega) (by omega)).map fun a b e => (hf _ _ _ _ e).2
    · refine List.Pairwise.imp_of_mem ?_ (h (n + 1) (by omega) (by omega))
      intro l l' _ _ hll x hx hx'
      simp only [Gen.values_bind, Gen.values, List.mem_flatMap, List.mem_singleton] at hx hx'
      obtain ⟨r, _, rfl⟩ := hx
      obtain ⟨r', _, e⟩ := hx'
      exact hll (hf _ _ _ _ e).1
  · rw [if_pos (by omega)] at hx hx'
    simp only [Gen.values_bind, Gen.values, List.mem_flatMap, List.mem_singleton] at hx hx'
    obtain ⟨l, hl, r, hr, rfl⟩ := hx
    obtain ⟨l', hl', r', hr', e⟩ := hx'
    obtain ⟨rfl, rfl⟩ := hf _ _ _ _ e
    have := made_size ((notationGen_values _ _).1 hl) ((notationGen_values _ _).1 hl')
    omega

theorem nodup_pick4 {a b c d : Gen (Notation Unit Unit)} (ha : a.values.Nodup) (hb : b.values.Nodup)
    (hc : c.values.Nodup) (hd : d.values.Nodup) (hab : ∀ x ∈ a.values, x ∉ b.values) (hac : ∀ x ∈ a.values, x ∉ c.values)
    (had : ∀ x ∈ a.values, x ∉ d.values) (hbc : ∀ x ∈ b.values, x ∉ c.values) (hbd : ∀ x ∈ b.values, x ∉ d.values)
    (hcd : ∀ x ∈ c.values, x ∉ d.values) :
    (Gen.pick 4 fun n => match n with
      | 0 => a
      | 1 => b
      | 2 => c
      | 3 => d
      | _ => .panic).values.Nodup := by
  refine nodup_pick (fun n hn => ?_) (fun m n hm hn hmn x hx hx' => ?_)
  · match n, hn with
    | 0, _ => exact ha
    | 1, _ => exact hb
    | 2, _ => exact hc
    | 3, _ => exact hd
  · obtain ⟨rfl, rfl⟩ | ⟨rfl, rfl⟩ | ⟨rfl, rfl⟩ | ⟨rfl, rfl⟩ | ⟨rfl, rfl⟩ | ⟨rfl, rfl⟩ :
        (m = 0 ∧ n = 1) ∨ (m = 0 ∧ n = 2) ∨ (m = 0 ∧ n = 3) ∨ (m = 1 ∧ n = 2) ∨ (m = 1 ∧ n = 3) ∨ (m = 2 ∧ n = 3) := by
      omega
    · exact hab x hx hx'
    · exact hac x hx hx'
    · exact had x hx hx'
    · exact hbc x hx hx'
    · exact hbd x hx hx'
    · exact hcd x hx hx'

theorem notationGen_nodup (size : Nat) : (notationGen size).values.Nodup := by
  induction size using Nat.strongRecOn with
  | _ size ih =>
    have hflat : Function.Injective (Notation.flat (L := Unit) (C := Unit)) := fun a b h => by simpa using h
    have hnest : Function.Injective (Notation.nest (L := Unit) (C := Unit) 2) := fun a b h => by
      simpa [Notation.nest] using h
    by_cases h0 : size = 0
    · subst h0; rw [notationGen]; simp [Gen.values]
    by_cases h1 : size = 1
    · subst h1
      rw [notationGen_one]
      simp [Gen.values, List.range_succ, gLeaf]
    by_cases h2 : size = 2
    · subst h2
      rw [notationGen_two]
      refine nodup_pick (fun n hn => ?_) (fun m n hm hn hmn x hx hx' => ?_)
      · match n, hn with
        | 0, _ => exact gOne_nodup hflat (ih 1 (by omega))
        | 1, _ => exact gOne_nodup hnest (ih 1 (by omega))
      · obtain rfl : m = 0 := by omega
        obtain rfl : n = 1 := by omega
        obtain ⟨y, _, rfl⟩ := mem_gOne.1 hx
        obtain ⟨z, _, e⟩ := mem_gOne.1 hx'
        cases e
    · have h3 : 3 ≤ size := by omega
      rw [notationGen_big h3]
      refine nodup_pick4 (gPair_nodup (by simp) h3 fun m _ hm => ih m hm)
        (gPair_nodup (by simp) h3 fun m _ hm => ih m hm) (gOne_nodup hflat (ih _ (by omega)))
        (gOne_nodup hnest (ih _ (by omega))) ?_ ?_ ?_ ?_ ?_ ?_
      all_goals
        intro x hx hx'
        first
          | rw [mem_gPair h3] at hx; obtain ⟨_, _, _, _, _, _, _, _, _, rfl⟩ := hx
          | rw [mem_gOne] at hx; obtain ⟨_, _, rfl⟩ := hx
        first
          | rw [mem_gPair h3] at hx'; obtain ⟨_, _, _, _, _, _, _, _, _, e⟩ := hx'
          | rw [mem_gOne] at hx'; obtain ⟨_, _, e⟩ := hx'
        cases e

end PPP
