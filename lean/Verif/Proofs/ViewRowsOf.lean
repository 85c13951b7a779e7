import Verif.Proofs.ViewRows
/-
The neighbourhood of a row.
-/
namespace PPP
variable {P : PrettyDoc}

theorem mem_rowsOf {α : Type} {sep : Nat → List α} {row : Nat → α} {n : Nat} {e : α} (h : e ∈ rowsOf sep row n) :
    (∃ m, e ∈ sep m) ∨ ∃ m, m < n ∧ e = row m := by
  induction n with
  | zero => exact .inl ⟨0, h⟩
  | succ n ih =>
    simp only [rowsOf, List.mem_append, List.mem_cons] at h
    rcases h with h | h | h
    · rcases ih h with h | ⟨m, h1, h2⟩
      · exact .inl h
      · exact .inr ⟨m, by omega, h2⟩
    · exact .inr ⟨n, by omega, h⟩
    · exact .inl ⟨_, h⟩

theorem newlines_pos {id : P.Id} {l : List (NTree P)} {ind} (h : .newline ind ∈ l) :
    0 < newlines (l.map fun p => ((id, p) : P.Id × NTree P)) := by
  obtain ⟨s, u, rfl⟩ := List.append_of_mem h
  simp [newlines]
  omega

theorem rowsOf_split (id : P.Id) (sep : Nat → List (NTree P)) (row : Nat → NTree P) (a : Nat) : ∀ d : Nat,
    (∀ m, a < m → m ≤ a + 1 + d → ∃ ind, .newline ind ∈ sep m) ∨ True →
    ∃ E, rowsOf sep row (a + 1 + d) = rowsOf sep row a ++ row a :: E ∧
      (∀ e ∈ E, (∃ m, e ∈ sep m) ∨ ∃ m, a < m ∧ m < a + 1 + d ∧ e = row m) ∧
      ((∀ m, a < m → m ≤ a + 1 + d → ∃ ind, .newline ind ∈ sep m) →
        d < newlines (E.map fun p => ((id, p) : P.Id × NTree P))) := by
  intro d _
  induction d with
  | zero =>
    refine ⟨sep (a + 1), rfl, fun e he => .inl ⟨_, he⟩, fun h => ?_⟩
    obtain ⟨ind, hi⟩ := h (a + 1) (by omega) (by omega)
    exact newlines_pos hi
  | succ d ih =>
    obtain ⟨E, h1, h2, h3⟩ := ih (.inr trivial)
    refine ⟨E ++ row (a + 1 + d) :: sep (a + 1 + d + 1), ?_, ?_, ?_⟩
    · show rowsOf sep row (a + 1 + d) ++ _ = _
      rw [h1]; simp
    · intro e he
      simp only [List.mem_append, List.mem_cons] at he
      rcases he with he | he | he
      · rcases h2 e he with h | ⟨m, h4, h5, h6⟩
        · exact .inl h
        · exact .inr ⟨m, h4, by omega, h6⟩
      · exact .inr ⟨a + 1 + d, by omega, by omega, he⟩
      · exact .inl ⟨_, he⟩
    · intro h
      obtain ⟨ind, hi⟩ := h (a + 1 + d + 1) (by omega) (by omega)
      have h4 := h3 fun m h5 h6 => h m h5 (by omega)
      have h5 := newlines_pos (id := id) hi
      have h6 : newlines ((id, row (a + 1 + d)) :: (sep (a + 1 + d + 1)).map fun p => ((id, p) : P.Id × NTree P)) ≥
          newlines ((sep (a + 1 + d + 1)).map fun p => ((id, p) : P.Id × NTree P)) := by
        cases row (a + 1 + d) <;> simp [newlines]
      simp only [List.map_append, List.map_cons, newlines_append]
      omega

theorem plain_facts {id : P.Id} {p : NTree P} (h : Plain (id, p)) : p.NoFail ∧ (∀ pid, p.IdAbsent pid) ∧
    (¬ ∃ a b, p = .choice a b) ∧ ¬ ∃ i rid t, p = .child i rid t := by
  cases p with
  | text => exact ⟨trivial, fun _ => trivial, by simp, by simp⟩
  | newline => exact ⟨trivial, fun _ => trivial, by simp, by simp⟩
  | mark => exact ⟨trivial, fun _ => trivial, by simp, by simp⟩
  | eol => exact ⟨trivial, fun _ => trivial, by simp, by simp⟩
  | _ => exact h.elim

/-- The items of a region, given by the rows in it. -/
def RegionOf (id : P.Id) (rid : Nat → Res P.Err P.Id) (tc : Nat → NTree P) (rows : Nat → Prop) (V : View P) : Prop :=
  ∀ y ∈ V, y.1 = id ∧ (Plain y ∨ ∃ m, rows m ∧ y.2 = .child m (rid m) (tc m))

theorem near_of_rows {id : P.Id} {t : NTree P} {n : Nat} {rid : Nat → Res P.Err P.Id} {tc : Nat → NTree P}
    (hrows : IsRows t n rid tc) {i k j : Nat} (hi : i < n)
    (hroot : ∀ m, m < n → rid m ≠ .ok id ∧ (tc m).IdAbsent id)
    (hother : ∀ m, m < n → m ≠ i → ∀ pid, rid i = .ok pid ∨ ¬ (tc i).IdAbsent pid → rid m ≠ .ok pid ∧ (tc m).IdAbsent pid)
    (hwin : ∀ m, m < n → i ≤ m + k → m ≤ i + j → (∃ c, rid m = .ok c) ∧ (tc m).NoFail) :
    ∃ cid D E E' D', Near id t i k j cid (tc i) D E E' D' := by
  obtain ⟨sep, hparts, hplain, hnl⟩ := hrows
  obtain ⟨⟨cid, hcid⟩, hci⟩ := hwin i hi (by omega) (by omega)
  -- the regions before
  obtain ⟨D, E, hDE, hD, hE, hb⟩ : ∃ D E : View P,
      (rowsOf sep (fun m => .child m (rid m) (tc m)) i).map (fun p => (id, p)) = D ++ E ∧
      RegionOf id rid tc (fun m => m < i) D ∧ RegionOf id rid tc (fun m => m < i ∧ i ≤ m + k) E ∧
      (D = [] ∨ k < newlines E) := by
    by_cases hk : k + 1 ≤ i
    · obtain ⟨E, h1, h2, h3⟩ := rowsOf_split id sep (fun m => .child m (rid m) (tc m)) (i - k - 1) k (.inr trivial)
      have he : i - k - 1 + 1 + k = i := by omega
      rw [he] at h1 h2 h3
      refine ⟨(rowsOf sep (fun m => .child m (rid m) (tc m)) (i - k - 1) ++
        [NTree.child (i - k - 1) (rid (i - k - 1)) (tc (i - k - 1))]).map (fun p => (id, p)), E.map (fun p => (id, p)),
        by rw [h1]; simp, ?_, ?_, .inr (h3 fun m h4 h5 => hnl m (by omega) (by omega))⟩
      · intro y hy
        simp only [List.mem_map, List.mem_append, List.mem_singleton] at hy
        obtain ⟨p, hp, rfl⟩ := hy
        refine ⟨rfl, ?_⟩
        rcases hp with hp | hp
        · rcases mem_rowsOf hp with ⟨m, hp⟩ | ⟨m, hm, rfl⟩
          · exact .inl (hplain m id p hp)
          · exact .inr ⟨m, by omega, rfl⟩
        · exact .inr ⟨i - k - 1, by omega, hp⟩
      · intro y hy
        simp only [List.mem_map] at hy
        obtain ⟨p, hp, rfl⟩ := hy
        refine ⟨rfl, ?_⟩
        rcases h2 p hp with ⟨m, hp⟩ | ⟨m, h4, h5, rfl⟩
        · exact .inl (hplain m id p hp)
        · exact .inr ⟨m, by omega, rfl⟩
    · refine ⟨[], _, (List.nil_append _).symm, (by intro y hy; cases hy), ?_, .inl rfl⟩
      intro y hy
      simp only [List.mem_map] at hy
      obtain ⟨p, hp, rfl⟩ := hy
      refine ⟨rfl, ?_⟩
      rcases mem_rowsOf hp with ⟨m, hp⟩ | ⟨m, hm, rfl⟩
      · exact .inl (hplain m id p hp)
      · exact .inr ⟨m, by omega, rfl⟩
  -- the regions after
  obtain ⟨E', D', hED, hE', hD', ha⟩ : ∃ E' D' : View P,
      (rowsOf sep (fun m => .child m (rid m) (tc m)) n).map (fun p => (id, p)) =
        (rowsOf sep (fun m => .child m (rid m) (tc m)) i).map (fun p => (id, p)) ++
          (id, .child i (rid i) (tc i)) :: (E' ++ D') ∧
      RegionOf id rid tc (fun m => i < m ∧ m < n ∧ m ≤ i + j) E' ∧ RegionOf id rid tc (fun m => i < m ∧ m < n) D' ∧
      (D' = [] ∨ j < newlines E') := by
    by_cases hj : i + 1 + j < n
    · obtain ⟨E, h1, h2, h3⟩ := rowsOf_split id sep (fun m => .child m (rid m) (tc m)) i j (.inr trivial)
      obtain ⟨F, g1, g2, _⟩ := rowsOf_split id sep (fun m => .child m (rid m) (tc m)) (i + 1 + j) (n - (i + 1 + j) - 1)
        (.inr trivial)
      have he : i + 1 + j + 1 + (n - (i + 1 + j) - 1) = n := by omega
      rw [he] at g1 g2
      refine ⟨E.map (fun p => (id, p)),
        (NTree.child (i + 1 + j) (rid (i + 1 + j)) (tc (i + 1 + j)) :: F).map (fun p => (id, p)),
        by rw [g1, h1]; simp, ?_, ?_, .inr (h3 fun m h4 h5 => hnl m (by omega) (by omega))⟩
      · intro y hy
        simp only [List.mem_map] at hy
        obtain ⟨p, hp, rfl⟩ := hy
        refine ⟨rfl, ?_⟩
        rcases h2 p hp with ⟨m, hp⟩ | ⟨m, h4, h5, rfl⟩
        · exact .inl (hplain m id p hp)
        · exact .inr ⟨m, by omega, rfl⟩
      · intro y hy
        simp only [List.mem_map, List.mem_cons] at hy
        obtain ⟨p, hp, rfl⟩ := hy
        refine ⟨rfl, ?_⟩
        rcases hp with hp | hp
        · exact .inr ⟨i + 1 + j, by omega, hp⟩
        · rcases g2 p hp with ⟨m, hp⟩ | ⟨m, h4, h5, rfl⟩
          · exact .inl (hplain m id p hp)
          · exact .inr ⟨m, by omega, rfl⟩
    · obtain ⟨F, g1, g2, _⟩ := rowsOf_split id sep (fun m => .child m (rid m) (tc m)) i (n - i - 1) (.inr trivial)
      have he : i + 1 + (n - i - 1) = n := by omega
      rw [he] at g1 g2
      refine ⟨F.map (fun p => (id, p)), [], by rw [g1]; simp, ?_, (by intro y hy; cases hy), .inl rfl⟩
      intro y hy
      simp only [List.mem_map] at hy
      obtain ⟨p, hp, rfl⟩ := hy
      refine ⟨rfl, ?_⟩
      rcases g2 p hp with ⟨m, hp⟩ | ⟨m, h4, h5, rfl⟩
      · exact .inl (hplain m id p hp)
      · exact .inr ⟨m, by omega, rfl⟩
  have clean : ∀ {rows : Nat → Prop} {V : View P}, RegionOf id rid tc rows V →
      (∀ m, rows m → m < n ∧ i ≤ m + k ∧ m ≤ i + j) → Clean V := by
    intro rows V hV hr y hy
    rcases (hV y hy).2 with h | ⟨m, hm, h⟩
    · exact (plain_facts (id := y.1) h).1
    · rw [h]
      obtain ⟨h1, h2, h3⟩ := hr m hm
      exact hwin m h1 h2 h3
  have other : ∀ {w : Nat} {rows : Nat → Prop} {V : View P}, RegionOf id rid tc rows V → (∀ m, rows m → m < n ∧ m ≠ i) →
      ∀ pid i', (pid = id ∧ i' = i ∨ cid = pid ∨ ¬ (tc i).IdAbsent pid) → ∀ V', Expands w V V' → ∀ y ∈ V',
        ¬ MayBeChild pid i' y := by
    intro w rows V hV hr pid i' hp V' hE y hy hm
    have habs : ∀ y ∈ V, y.2.IdAbsent pid := by
      intro y hy
      rcases (hV y hy).2 with h | ⟨m, hm, h⟩
      · exact (plain_facts (id := y.1) h).2.1 pid
      · rw [h]
        obtain ⟨h1, h2⟩ := hr m hm
        rcases hp with ⟨rfl, _⟩ | hp | hp
        · exact hroot m h1
        · exact hother m h1 h2 pid (.inl (hp ▸ hcid))
        · exact hother m h1 h2 pid (.inr hp)
    have hch : ∀ y ∈ V, ¬ ∃ a b, y.2 = .choice a b := by
      intro y hy
      rcases (hV y hy).2 with h | ⟨m, hm, h⟩
      · exact (plain_facts (id := y.1) h).2.2.1
      · rw [h]; simp
    have hyV := hE.own habs (fun y hy _ => hch y hy) y hy hm.1
    rcases hp with ⟨rfl, rfl⟩ | hp
    · rcases hm.2 with ⟨c, t', h⟩ | h
      · rcases (hV y hyV).2 with h' | ⟨m, hm', h'⟩
        · exact (plain_facts (id := y.1) h').2.2.2 ⟨_, _, _, h⟩
        · rw [h] at h'
          simp only [NTree.child.injEq] at h'
          exact (hr m hm').2 h'.1.symm
      · exact hch y hyV h
    · have h1 : pid = id := hm.1.symm.trans (hV y hyV).1
      subst h1
      rcases hp with hp | hp
      · exact (hroot i hi).1 (hp ▸ hcid)
      · exact hp (hroot i hi).2
  refine ⟨cid, D, E, E', D', ⟨?_, hb, ha, clean hE (by omega), clean hE' (by omega), hci, ?_, ?_, ?_, (hroot i hi).2⟩⟩
  · unfold shown
    rw [hparts, hED, hDE, hcid]
    simp
  · intro w pid i' hp X hX
    simp only [List.mem_cons, List.not_mem_nil, or_false] at hX
    rcases hX with rfl | rfl | rfl | rfl
    · exact other hD (by omega) pid i' hp
    · exact other hE (by omega) pid i' hp
    · exact other hE' (by omega) pid i' hp
    · exact other hD' (by omega) pid i' hp
  · intro f hf
    rw [hparts] at hf
    rcases mem_rowsOf hf with ⟨m, h⟩ | ⟨m, _, h⟩
    · exact hplain m id _ h
    · cases h
  · intro h
    exact (hroot i hi).1 (h ▸ hcid)

end PPP
