import Verif.Proofs.GenerateTree
/-
C62: the generators of the test suite generate everything, once.
-/
namespace PPP
variable {α : Type}

/-- **C62.**  The iterator made for a generator yields all the values that the generator can return, in
    order, and then `None`, however often it is called; it does not panic. -/
theorem C62_iterator {g : Gen α} (hg : g.Proper) (n : Nat) :
    (GenAll.new g).nexts n = some ((List.range n).map fun i => g.values[i]?) :=
  GenAll.left_nexts n (GenAll.left_new hg)

/-- **C62**: it can be collected. -/
theorem C62_collect {g : Gen α} (hg : g.Proper) : (GenAll.new g).collect = some g.values :=
  GenAll.left_collect (GenAll.left_new hg)

/-- **C62**: `generate_all_up_to_size` collects all the values of the sizes from 1 on, *without* the size that
    it is called with. -/
theorem C62_up_to_size {gen : Nat → Gen α} (hg : ∀ n, 0 < n → (gen n).Proper) (maxSize : Nat) :
    ∃ as, generateAllUpToSize gen maxSize = some as ∧ ∀ a, a ∈ as ↔ ∃ n, 0 < n ∧ n < maxSize ∧ a ∈ (gen n).values := by
  have key : ∀ ns : List Nat, (∀ n ∈ ns, 0 < n) →
      ns.mapM (fun size => (generateAllOfSize gen size).collect) = some (ns.map fun n => (gen n).values) := by
    intro ns
    induction ns with
    | nil => intro _; rfl
    | cons n ns ih =>
      intro h
      rw [List.mapM_cons, ih fun m hm => h m (by simp [hm])]
      have := C62_collect (hg n (h n (by simp)))
      simp [generateAllOfSize, this]
  refine ⟨((List.range' 1 (maxSize - 1)).map fun n => (gen n).values).flatten, ?_, ?_⟩
  · unfold generateAllUpToSize
    rw [key _ (by intro n hn; simp only [List.mem_range'_1] at hn; omega)]
    rfl
  · intro a
    simp only [List.mem_flatten, List.mem_map, List.mem_range'_1]
    constructor
    · rintro ⟨_, ⟨n, hn, rfl⟩, ha⟩
      exact ⟨n, by omega, by omega, ha⟩
    · rintro ⟨n, h1, h2, ha⟩
      exact ⟨_, ⟨n, by omega, rfl⟩, ha⟩

/-- **C62**, random generation: whatever numbers are picked, as long as they are in the ranges asked for, the
    generator returns one of its values. -/
theorem C62_random {σ : Type} {pick : σ → Nat → Option (Nat × σ)}
    (hpick : ∀ s max, 0 < max → ∃ n s', pick s max = some (n, s') ∧ n < max) {g : Gen α} (hg : g.Proper) (s : σ) :
    ∃ a s', g.runWith pick s = some (a, s') ∧ a ∈ g.values := Gen.runWith_mem hpick hg s

/-- **C62**, the generator of notations: for every size from 1 on, it is proper, and its values are the
    notations of that size, each of them once. -/
theorem C62_notations {size : Nat} (h : 0 < size) :
    (notationGen size).Proper ∧ (notationGen size).values.Nodup ∧ ∀ x, x ∈ (notationGen size).values ↔ Made size x :=
  ⟨notationGen_proper size h, notationGen_nodup size, notationGen_values size⟩

/-- **C62**, the generator of trees: for every size from 1 on, it is proper, and its values are the trees of
    that size, each of them once; their number is a Catalan number. -/
theorem C62_trees (n : Nat) :
    (treeGen (n + 1)).Proper ∧ (treeGen (n + 1)).values.Nodup ∧ (∀ t, t ∈ (treeGen (n + 1)).values ↔ t.size = n + 1) ∧
      (treeGen (n + 1)).values.length = catalan n := by
  rw [treeGen_succ]
  refine ⟨Gen.proper_bind (loop_proper n) fun _ _ => trivial, ?_, ?_, ?_⟩
  · simp only [Gen.values_bind, Gen.values, flatMap_single]
    exact (loop_nodup n).map fun a b e => by simpa using e
  · rintro ⟨ts⟩
    simp only [Gen.values_bind, Gen.values, flatMap_single, List.mem_map, GTree.node.injEq, exists_eq_right, GTree.size,
      loop_values]
    omega
  · simp only [Gen.values_bind, Gen.values, flatMap_single, List.length_map]
    exact loop_length n

/-- The test of the generators in the repository: there are 14 trees of size 5. -/
example : ∃ ts, (GenAll.new (treeGen 5)).collect = some ts ∧ ts.length = 14 := by
  obtain ⟨h1, _, _, h2⟩ := C62_trees 4
  refine ⟨_, C62_collect h1, ?_⟩
  rw [h2]
  rw [catalan_eq_centralBinom_div]
  decide

/-- A notation of size 7 that is generated (but not by `generate_all_up_to_size(NotationGen, 7)`). -/
example : Notation.concat (.literal "a") (.nest 2 (.choice (.flat .newline) (.literal "bb"))) ∈ (notationGen 7).values ∧
    ∀ as, generateAllUpToSize notationGen 7 = some as →
      Notation.concat (.literal "a") (.nest 2 (.choice (.flat .newline) (.literal "bb"))) ∉ as := by
  have hm : Made 7 (.concat (.literal "a") (.nest 2 (.choice (.flat .newline) (.literal "bb")))) :=
    .concat (m := 1) (n := 5) .a (.nest (n := 4) (.choice (m := 2) (n := 1) (.flat .newline) .bb))
  refine ⟨(notationGen_values 7 _).2 hm, ?_⟩
  intro as h hx
  obtain ⟨as', h1, h2⟩ := C62_up_to_size (gen := notationGen) (fun n hn => (C62_notations hn).1) 7
  rw [h1] at h
  cases h
  obtain ⟨n, _, h3, h4⟩ := (h2 _).1 hx
  have := made_size hm ((notationGen_values n _).1 h4)
  omega

end PPP
