import Verif.Proofs.Generate
import Mathlib.Combinatorics.Enumerative.Catalan
/-
The generator of trees.
-/
namespace PPP

theorem treeGen_succ (n : Nat) : treeGen (n + 1) = (treeGenLoop n).bind fun ts => .ret (.node ts) := by
  rw [treeGen]
  rfl

theorem treeGenLoop_zero : treeGenLoop 0 = .ret [] := by
  rw [treeGenLoop]
  rfl

theorem treeGenLoop_succ (n : Nat) : treeGenLoop (n + 1) = .pick (n + 1) fun i =>
    if i + 1 ≤ n + 1 then
      (treeGen (i + 1)).bind fun t => (treeGenLoop (n + 1 - (i + 1))).bind fun ts => .ret (t :: ts)
    else .panic := by
  rw [treeGenLoop, if_pos (by omega)]
  rfl

theorem tree_size_pos (t : GTree) : 0 < t.size := by cases t; simp [GTree.size]

theorem loop_values (n : Nat) : ∀ ts, ts ∈ (treeGenLoop n).values ↔ GTree.sizes ts = n := by
  induction n using Nat.strongRecOn with
  | _ n ih =>
    intro ts
    cases n with
    | zero =>
      rw [treeGenLoop_zero]
      simp only [Gen.values, List.mem_singleton]
      cases ts with
      | nil => simp [GTree.sizes]
      | cons t ts => have := tree_size_pos t; simp [GTree.sizes]; omega
    | succ n =>
      rw [treeGenLoop_succ]
      simp only [Gen.values, List.mem_flatMap, List.mem_range]
      constructor
      · rintro ⟨i, hi, h⟩
        rw [if_pos (by omega), treeGen_succ] at h
        simp only [Gen.values_bind, Gen.values, List.mem_flatMap, List.mem_singleton] at h
        obtain ⟨_, ⟨us, hus, rfl⟩, vs, hvs, rfl⟩ := h
        have h1 := (ih i (by omega) us).1 hus
        have h2 := (ih _ (by omega) vs).1 hvs
        simp only [GTree.sizes, GTree.size]
        omega
      · intro h
        cases ts with
        | nil => simp [GTree.sizes] at h
        | cons t ts =>
          obtain ⟨us⟩ := t
          simp only [GTree.sizes, GTree.size] at h
          refine ⟨GTree.sizes us, by omega, ?_⟩
          rw [if_pos (by omega), treeGen_succ]
          simp only [Gen.values_bind, Gen.values, List.mem_flatMap, List.mem_singleton]
          exact ⟨_, ⟨us, (ih _ (by omega) us).2 rfl, rfl⟩, ts, (ih _ (by omega) ts).2 (by omega), rfl⟩

theorem loop_proper (n : Nat) : (treeGenLoop n).Proper := by
  induction n using Nat.strongRecOn with
  | _ n ih =>
    cases n with
    | zero => rw [treeGenLoop_zero]; trivial
    | succ n =>
      rw [treeGenLoop_succ]
      refine ⟨by omega, fun i hi => ?_⟩
      dsimp only
      rw [if_pos (by omega), treeGen_succ]
      refine Gen.proper_bind (Gen.proper_bind (ih i (by omega)) fun _ _ => trivial) fun _ _ => ?_
      exact Gen.proper_bind (ih _ (by omega)) fun _ _ => trivial

theorem flatMap_single {α β : Type} (f : α → β) (as : List α) : (as.flatMap fun a => [f a]) = as.map f := by
  induction as with
  | nil => rfl
  | cons a as ih => rw [List.flatMap_cons, ih]; rfl

theorem loop_nodup (n : Nat) : (treeGenLoop n).values.Nodup := by
  induction n using Nat.strongRecOn with
  | _ n ih =>
    cases n with
    | zero => rw [treeGenLoop_zero]; simp [Gen.values]
    | succ n =>
      rw [treeGenLoop_succ]
      refine nodup_pick (fun i hi => ?_) (fun i j hi hj hij x hx hx' => ?_)
      · rw [if_pos (by omega), treeGen_succ]
        simp only [Gen.values_bind, Gen.values, flatMap_single]
        rw [List.nodup_flatMap]
        refine ⟨fun t _ => (ih _ (by omega)).map fun a b e => by simpa using e, ?_⟩
        have h := (ih i (by omega)).map (f := GTree.node) fun a b e => by simpa using e
        refine List.Pairwise.imp_of_mem ?_ h
        intro l l' _ _ hll x hx hx'
        simp only [List.mem_map] at hx hx'
        obtain ⟨r, _, rfl⟩ := hx
        obtain ⟨r', _, e⟩ := hx'
        simp only [List.cons.injEq] at e
        exact hll e.1.symm
      · rw [if_pos (by omega), treeGen_succ] at hx hx'
        simp only [Gen.values_bind, Gen.values, List.mem_flatMap, List.mem_singleton] at hx hx'
        obtain ⟨_, ⟨us, hus, rfl⟩, vs, hvs, rfl⟩ := hx
        obtain ⟨_, ⟨us', hus', rfl⟩, vs', hvs', e⟩ := hx'
        simp only [List.cons.injEq, GTree.node.injEq] at e
        obtain ⟨rfl, rfl⟩ := e
        have h1 := (loop_values _ _).1 hus
        have h2 := (loop_values _ _).1 hus'
        omega

theorem loop_length (n : Nat) : (treeGenLoop n).values.length = catalan n := by
  induction n using Nat.strongRecOn with
  | _ n ih =>
    cases n with
    | zero => rw [treeGenLoop_zero]; simp [Gen.values]
    | succ n =>
      rw [treeGenLoop_succ, catalan_succ]
      simp only [Gen.values, List.length_flatMap]
      rw [Finset.sum_fin_eq_sum_range, Finset.sum_range, ← List.sum_ofFn]
      congr 1
      refine List.ext_getElem (by simp) ?_
      intro i h1 h2
      simp only [List.length_map, List.length_range] at h1
      simp only [List.getElem_map, List.getElem_range, List.getElem_ofFn]
      rw [if_pos (by omega), dif_pos (by omega), treeGen_succ]
      simp only [Gen.values_bind, Gen.values, flatMap_single, List.length_flatMap, List.length_map]
      rw [ih _ (by omega), show n + 1 - (i + 1) = n - i by omega]
      rw [List.map_const', List.sum_replicate]
      simp [ih i (by omega)]

end PPP
