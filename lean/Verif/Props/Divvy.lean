import Verif.Spec.Divvy
import Mathlib.Tactic.Ring
import Mathlib.Tactic.LinearCombination
/-
C23, C24, C25: dividing space between panes.
-/
namespace PPP

/-! ### Fair division -/

theorem foldl_modify_length (is : List (Nat × Nat)) : ∀ (l : List Nat),
    (is.foldl (fun alloc a => alloc.modify a.2 (· + 1)) l).length = l.length := by
  induction is with
  | nil => intro l; rfl
  | cons i is ih => intro l; simp [ih]

theorem foldl_modify_get (is : List (Nat × Nat)) (hn : (is.map (·.2)).Nodup) : ∀ (l : List Nat) (j : Nat),
    (is.foldl (fun alloc a => alloc.modify a.2 (· + 1)) l)[j]? =
      l[j]?.map (· + if j ∈ is.map (·.2) then 1 else 0) := by
  induction is with
  | nil => intro l j; simp
  | cons i is ih =>
    intro l j
    simp only [List.map_cons, List.nodup_cons] at hn
    rw [List.foldl_cons, ih hn.2]
    by_cases hj : j = i.2
    · subst hj
      rw [List.getElem?_modify_eq, if_neg hn.1, if_pos (by simp)]
      cases l[i.2]? <;> simp
    · rw [List.getElem?_modify_ne _ _ (Ne.symm hj)]
      have : (j ∈ (i :: is).map (·.2)) ↔ j ∈ is.map (·.2) := by simp [hj]
      simp only [this]

theorem foldl_modify_sum (is : List (Nat × Nat)) : ∀ (l : List Nat), (∀ a ∈ is, a.2 < l.length) →
    (is.foldl (fun alloc a => alloc.modify a.2 (· + 1)) l).sum = l.sum + is.length := by
  have hm : ∀ (l : List Nat) i, i < l.length → (l.modify i (· + 1)).sum = l.sum + 1 := by
    intro l
    induction l with
    | nil => intro i h; simp at h
    | cons a l ih =>
      intro i h
      cases i with
      | zero => simp; omega
      | succ i => simp only [List.modify_succ_cons, List.sum_cons]; rw [ih i (by simpa using h)]; omega
  induction is with
  | nil => intro l _; simp
  | cons i is ih =>
    intro l h
    simp only [List.foldl_cons]
    rw [ih _ (by intro a ha; simpa using h a (by simp [ha])), hm _ _ (h i (by simp))]
    simp; omega

theorem div_mod_sum (c : Nat) (t : Nat) (hs : List Nat) :
    t * (hs.map fun h => c * h / t).sum + (hs.map fun h => c * h % t).sum = c * hs.sum := by
  induction hs with
  | nil => simp
  | cons h hs ih =>
    simp only [List.map_cons, List.sum_cons]
    have := Nat.div_add_mod (c * h) t
    linear_combination ih + this

theorem sum_mod_le (c t : Nat) (ht : 0 < t) (hs : List Nat) :
    (hs.map fun h => c * h % t).sum ≤ t * (hs.countP fun h => 0 < c * h % t) ∧
    ((hs.countP fun h => 0 < c * h % t) ≠ 0 →
      (hs.map fun h => c * h % t).sum < t * (hs.countP fun h => 0 < c * h % t)) := by
  induction hs with
  | nil => simp
  | cons h hs ih =>
    have := Nat.mod_lt (c * h) ht
    by_cases hp : 0 < c * h % t
    · simp only [List.map_cons, List.sum_cons, List.countP_cons, hp, decide_true, if_true, Nat.mul_add]
      constructor
      · omega
      · intro _; omega
    · simp only [List.map_cons, List.sum_cons, List.countP_cons, hp, decide_false]
      have h0 : c * h % t = 0 := by omega
      simp only [h0, Nat.zero_add]
      simpa using ih

theorem cookieAllocation_fair (c : Nat) (hs : List Nat) (ht : 0 < hs.sum) :
    Fair c hs (cookieAllocation c hs) ∧ (hs.map fun h => c * h / hs.sum).sum ≤ c := by
  obtain ⟨t, htdef⟩ : ∃ t, t = hs.sum := ⟨_, rfl⟩
  rw [← htdef] at ht
  -- the parts
  obtain ⟨fl, hfl⟩ : ∃ l, l = hs.map fun h => c * h / t := ⟨_, rfl⟩
  obtain ⟨rm, hrm⟩ : ∃ l, l = hs.map fun h => c * h % t := ⟨_, rfl⟩
  obtain ⟨S, hS⟩ : ∃ S, S = rm.zipIdx.insertionSort (fun a b => b.1 ≤ a.1) := ⟨_, rfl⟩
  have hsum : t * fl.sum + rm.sum = c * t := by rw [hfl, hrm, htdef]; exact div_mod_sum c _ hs
  have hle : fl.sum ≤ c := by
    have : t * fl.sum ≤ t * c := by rw [Nat.mul_comm t c]; omega
    exact Nat.le_of_mul_le_mul_left this ht
  have hout : cookieAllocation c hs =
      (S.take (c - fl.sum)).foldl (fun alloc a => alloc.modify a.2 (· + 1)) fl := by
    rw [hS, hfl, hrm, htdef]; rfl
  have hk : t * (c - fl.sum) = rm.sum := by
    rw [Nat.mul_sub, Nat.mul_comm t c]; omega
  have hcount := sum_mod_le c t ht hs
  rw [← hrm, ← hk] at hcount
  obtain ⟨hc1, hc2⟩ := hcount
  have hlen : rm.length = hs.length := by rw [hrm]; simp
  have hfllen : fl.length = hs.length := by rw [hfl]; simp
  have hperm : S.Perm rm.zipIdx := by rw [hS]; exact List.perm_insertionSort _ _
  have hSlen : S.length = hs.length := by rw [hperm.length_eq]; simp [hlen]
  have hidx : (S.map (·.2)).Perm (List.range hs.length) := by
    have := hperm.map (·.2)
    rwa [List.zipIdx_map_snd, hlen, ← List.range_eq_range'] at this
  have hnodup : (S.map (·.2)).Nodup := hidx.nodup_iff.2 List.nodup_range
  have hmem : ∀ p ∈ S, rm[p.2]? = some p.1 := by
    intro p hp
    have := (hperm.mem_iff).1 hp
    exact (List.mem_zipIdx_iff_getElem? (x := p) (l := rm)).1 this
  have hkcount : c - fl.sum ≤ hs.countP fun h => 0 < c * h % t := Nat.le_of_mul_le_mul_left hc1 ht
  have hklen : c - fl.sum ≤ S.length := by
    rw [hSlen]; exact hkcount.trans List.countP_le_length
  have hpair : S.Pairwise fun a b => b.1 ≤ a.1 := by
    rw [hS]
    have : Std.Total (fun a b : Nat × Nat => b.1 ≤ a.1) := ⟨fun a b => Nat.le_total _ _⟩
    have : IsTrans (Nat × Nat) (fun a b : Nat × Nat => b.1 ≤ a.1) := ⟨fun a b c h1 h2 => Nat.le_trans h2 h1⟩
    exact List.pairwise_insertionSort _ _
  have hget : ∀ j : Nat, (cookieAllocation c hs)[j]? =
      fl[j]?.map (· + if j ∈ (S.take (c - fl.sum)).map (·.2) then 1 else 0) := by
    intro j
    rw [hout, foldl_modify_get _ (hnodup.sublist ((List.take_sublist _ _).map _))]
  have hflget : ∀ (i : Nat) h, hs[i]? = some h → fl[i]? = some (c * h / t) := by
    intro i h hh; rw [hfl]; simp [hh]
  have hrmget : ∀ (i : Nat) h, hs[i]? = some h → rm[i]? = some (c * h % t) := by
    intro i h hh; rw [hrm]; simp [hh]
  -- the number of positive remainders, in the sorted list
  have hpos : S.countP (fun p => 0 < p.1) = hs.countP fun h => 0 < c * h % t := by
    rw [hperm.countP_eq]
    have : rm.zipIdx.countP (fun p => 0 < p.1) = (rm.zipIdx.map (·.1)).countP (fun r => 0 < r) := by
      rw [List.countP_map]; rfl
    rw [this, List.zipIdx_map_fst, hrm, List.countP_map]
    rfl
  have htakepos : ∀ p ∈ S.take (c - fl.sum), 0 < p.1 := by
    -- otherwise all that follow are zero too, and there would be fewer positive ones
    intro p hp
    by_contra h0
    obtain ⟨A, B, hAB⟩ := List.append_of_mem hp
    have hB : ∀ q ∈ S.drop (c - fl.sum), ¬ 0 < q.1 := by
      intro q hq
      have := hpair
      rw [← List.take_append_drop (c - fl.sum) S, List.pairwise_append] at this
      have := this.2.2 p hp q hq
      omega
    have hcnt : S.countP (fun p => 0 < p.1) < c - fl.sum := by
      conv_lhs => rw [← List.take_append_drop (c - fl.sum) S]
      rw [List.countP_append, (List.countP_eq_zero (l := S.drop (c - fl.sum))).2 (by simpa using hB), hAB]
      have hl : (A ++ p :: B).length ≤ c - fl.sum := by rw [← hAB]; simp
      simp only [List.countP_append, List.countP_cons, List.length_append, List.length_cons] at hl ⊢
      have e1 := List.countP_le_length (p := fun p : Nat × Nat => 0 < p.1) (l := A)
      have e2 := List.countP_le_length (p := fun p : Nat × Nat => 0 < p.1) (l := B)
      simp only [h0, decide_false]
      simp only [Bool.false_eq_true, if_false]
      omega
    omega
  have hstable : ∀ p ∈ S.take (c - fl.sum), ∀ q ∈ S.drop (c - fl.sum), q.1 < p.1 ∨ q.1 = p.1 ∧ p.2 < q.2 := by
    intro p hp q hq
    have h1 := hpair
    rw [← List.take_append_drop (c - fl.sum) S, List.pairwise_append] at h1
    have hqp := h1.2.2 p hp q hq
    rcases Nat.lt_or_ge q.1 p.1 with h | h
    · exact .inl h
    refine .inr ⟨by omega, ?_⟩
    by_contra hlt
    have hpS : p ∈ S := List.mem_of_mem_take hp
    have hqS : q ∈ S := List.mem_of_mem_drop hq
    have hnS : S.Nodup := List.Nodup.of_map _ hnodup
    have hsub1 : List.Sublist [p, q] S := by
      have : List.Sublist ([p] ++ [q]) (S.take (c - fl.sum) ++ S.drop (c - fl.sum)) :=
        List.Sublist.append (List.singleton_sublist.2 hp) (List.singleton_sublist.2 hq)
      rwa [List.take_append_drop] at this
    have hne : p ≠ q := by
      rintro rfl
      have := hnS.sublist hsub1
      simp at this
    have hneq : q.2 ≠ p.2 := by
      intro he
      have a1 := hmem p hpS
      have a2 := hmem q hqS
      rw [he, a1] at a2
      exact hne (Prod.ext (Option.some.inj a2) he.symm)
    have hlt' : q.2 < p.2 := by omega
    have hsub0 : List.Sublist [q, p] rm.zipIdx := by
      have hq' := hmem q hqS
      have hp' := hmem p hpS
      have : List.Sublist ([q] ++ [p]) (rm.zipIdx.take p.2 ++ rm.zipIdx.drop p.2) := by
        refine List.Sublist.append (List.singleton_sublist.2 ?_) (List.singleton_sublist.2 ?_)
        · refine List.mem_iff_getElem?.2 ⟨q.2, ?_⟩
          rw [List.getElem?_take_of_lt hlt', List.getElem?_zipIdx, hq']
          simp
        · refine List.mem_iff_getElem?.2 ⟨0, ?_⟩
          rw [List.getElem?_drop, Nat.add_zero, List.getElem?_zipIdx, hp']
          simp
      rwa [List.take_append_drop] at this
    have hsub2 : List.Sublist [q, p] S := by
      rw [hS]
      have : Std.Total (fun a b : Nat × Nat => b.1 ≤ a.1) := ⟨fun a b => Nat.le_total _ _⟩
      have : IsTrans (Nat × Nat) (fun a b : Nat × Nat => b.1 ≤ a.1) := ⟨fun a b c h1 h2 => Nat.le_trans h2 h1⟩
      exact List.pair_sublist_insertionSort (r := fun a b : Nat × Nat => b.1 ≤ a.1) (by omega) hsub0
    -- both orders in a list without repetition
    clear * - hsub1 hsub2 hnS hne
    induction S with
    | nil => cases hsub1
    | cons x S ih =>
      simp only [List.nodup_cons] at hnS
      cases hsub1 with
      | cons _ hsub1 =>
        cases hsub2 with
        | cons _ hsub2 => exact ih hnS.2 hsub1 hsub2
        | cons_cons _ hsub2 => exact hnS.1 (hsub1.subset (by simp))
      | cons_cons _ hsub1 =>
        cases hsub2 with
        | cons _ hsub2 => exact hnS.1 (hsub2.subset (by simp))
        | cons_cons _ hsub2 => exact hne rfl
  refine ⟨⟨?_, ?_, ?_, ?_⟩, by rw [← htdef, ← hfl]; exact hle⟩
  · rw [hout, foldl_modify_length, hfllen]
  · rw [hout, foldl_modify_sum]
    · rw [List.length_take, Nat.min_eq_left hklen]; omega
    · intro a ha
      have : a.2 ∈ S.map (·.2) := List.mem_map_of_mem (List.mem_of_mem_take ha)
      rw [hidx.mem_iff, List.mem_range] at this
      omega
  · intro i h a hh ha
    rw [← htdef]
    rw [hget, hflget i h hh] at ha
    simp only [Option.map_some, Option.some.injEq] at ha
    split at ha
    · rename_i hi
      refine .inr ⟨ha.symm, ?_⟩
      obtain ⟨p, hp, hp2⟩ := List.mem_map.1 hi
      have h1 := htakepos p hp
      have h2 := hmem p (List.mem_of_mem_take hp)
      rw [hp2, hrmget i h hh] at h2
      rw [Option.some.inj h2]
      exact h1
    · exact .inl ha.symm
  · intro i j h h' a b hh hh' ha hb ha1 hb1
    rw [← htdef] at *
    rw [hget, hflget i h hh] at ha
    rw [hget, hflget j h' hh'] at hb
    simp only [Option.map_some, Option.some.injEq] at ha hb
    have hi : i ∈ (S.take (c - fl.sum)).map (·.2) := by
      by_contra hi
      rw [if_neg hi] at ha; omega
    have hj : j ∉ (S.take (c - fl.sum)).map (·.2) := by
      intro hj
      rw [if_pos hj] at hb; omega
    obtain ⟨p, hp, rfl⟩ := List.mem_map.1 hi
    have hjS : j ∈ S.map (·.2) := by
      rw [hidx.mem_iff, List.mem_range]
      exact (List.getElem?_eq_some_iff.1 hh').1
    obtain ⟨q, hq, rfl⟩ := List.mem_map.1 hjS
    have hqd : q ∈ S.drop (c - fl.sum) := by
      rw [← List.take_append_drop (c - fl.sum) S, List.mem_append] at hq
      exact hq.resolve_left fun hq => hj (List.mem_map_of_mem hq)
    have e1 := hmem p (List.mem_of_mem_take hp)
    have e2 := hmem q (List.mem_of_mem_drop hqd)
    rw [hrmget _ _ hh] at e1
    rw [hrmget _ _ hh'] at e2
    rw [Option.some.inj e1, Option.some.inj e2]
    exact hstable p hp q hqd

/-! ### The loops -/

@[simp] theorem got_cons (kind : PaneSize → Bool) (s : PaneSize) (ss : List PaneSize) (a : Nat) (as : List Nat) :
    got kind (s :: ss) (a :: as) = if kind s then a :: got kind ss as else got kind ss as := by
  unfold got
  simp only [List.zip_cons_cons, List.filter_cons]
  split <;> simp

@[simp] theorem got_nil (kind : PaneSize → Bool) (as : List Nat) : got kind [] as = [] := by simp [got]

@[simp] theorem isFixed_fixed (n : Nat) : (PaneSize.fixed n).isFixed = true := rfl
@[simp] theorem isFixed_dynamic : (PaneSize.dynamic).isFixed = false := rfl
@[simp] theorem isFixed_proportional (n : Nat) : (PaneSize.proportional n).isFixed = false := rfl
@[simp] theorem isDynamic_fixed (n : Nat) : (PaneSize.fixed n).isDynamic = false := rfl
@[simp] theorem isDynamic_dynamic : (PaneSize.dynamic).isDynamic = true := rfl
@[simp] theorem isDynamic_proportional (n : Nat) : (PaneSize.proportional n).isDynamic = false := rfl
@[simp] theorem isProportional_fixed (n : Nat) : (PaneSize.fixed n).isProportional = false := rfl
@[simp] theorem isProportional_dynamic : (PaneSize.dynamic).isProportional = false := rfl
@[simp] theorem isProportional_proportional (n : Nat) : (PaneSize.proportional n).isProportional = true := rfl

@[simp] theorem weights_fixed (n ss) : weights (.fixed n :: ss) = weights ss := rfl
@[simp] theorem weights_dynamic (ss) : weights (.dynamic :: ss) = weights ss := rfl
@[simp] theorem weights_proportional (w ss) : weights (.proportional w :: ss) = w :: weights ss := rfl
@[simp] theorem requests_fixed (n ss) : requests (.fixed n :: ss) = n :: requests ss := rfl
@[simp] theorem requests_dynamic (ss) : requests (.dynamic :: ss) = requests ss := rfl
@[simp] theorem requests_proportional (w ss) : requests (.proportional w :: ss) = requests ss := rfl

theorem childHungers_eq (ss : List PaneSize) : childHungers ss = weights ss := by
  induction ss with
  | nil => rfl
  | cons s ss ih => cases s <;> simp [childHungers, ih]


theorem FirstCome.cons {avail r rs F} (h : FirstCome (avail - min avail r) rs F) :
    FirstCome avail (r :: rs) (min avail r :: F) := by
  refine ⟨by simp [h.1], ?_⟩
  intro i r' a h1 h2
  cases i with
  | zero => simp at h1 h2; subst h1 h2; simp [Nat.min_comm]
  | succ i =>
    simp only [List.getElem?_cons_succ] at h1 h2
    rw [h.2 i r' a h1 h2]
    simp only [List.take_succ_cons, List.sum_cons]
    omega

theorem allocateFixed_spec (ps : List PaneSize) : ∀ {as : List Nat} {c}, as.length = ps.length →
    (allocateFixed ps as c).1.length = ps.length ∧
    (allocateFixed ps as c).2 = c - (requests ps).sum ∧
    (got (·.isFixed) ps (allocateFixed ps as c).1).sum = min c (requests ps).sum ∧
    FirstCome c (requests ps) (got (·.isFixed) ps (allocateFixed ps as c).1) := by
  induction ps with
  | nil =>
    intro as c h
    simp at h; subst h
    simp [allocateFixed, requests, FirstCome]
  | cons p ps ih =>
    intro as c h
    cases as with
    | nil => simp at h
    | cons a as =>
      simp only [List.length_cons, Nat.add_right_cancel_iff] at h
      cases p with
      | fixed n =>
        obtain ⟨h1, h2, h3, h4⟩ := ih (c := c - min c n) h
        simp only [allocateFixed, got_cons, isFixed_fixed, if_true, requests_fixed, List.sum_cons,
          List.length_cons, h1, h2, h3]
        refine ⟨trivial, by omega, by omega, h4.cons⟩
      | dynamic =>
        obtain ⟨h1, h2, h3, h4⟩ := ih (c := c) h
        simp [allocateFixed, h1, h2, h3, h4]
      | proportional w =>
        obtain ⟨h1, h2, h3, h4⟩ := ih (c := c) h
        simp [allocateFixed, h1, h2, h3, h4]

theorem allocateDynamicLoop_spec (ps : List PaneSize) : ∀ {as sizes : List Nat}, as.length = ps.length →
    (∀ out, allocateDynamicLoop ps as sizes = some out → out.length = ps.length ∧
      got (·.isFixed) ps out = got (·.isFixed) ps as ∧ got (·.isDynamic) ps out = sizes) ∧
    ((allocateDynamicLoop ps as sizes).isSome ↔ sizes.length = ps.countP (·.isDynamic)) := by
  induction ps with
  | nil =>
    intro as sizes h
    simp at h; subst h
    cases sizes <;> simp [allocateDynamicLoop, List.countP_cons]
  | cons p ps ih =>
    intro as sizes h
    cases as with
    | nil => simp at h
    | cons a as =>
      simp only [List.length_cons, Nat.add_right_cancel_iff] at h
      cases p with
      | dynamic =>
        cases sizes with
        | nil => simp [allocateDynamicLoop, List.countP_cons]
        | cons s sizes =>
          obtain ⟨h1, h2⟩ := ih (sizes := sizes) h
          cases hr : allocateDynamicLoop ps as sizes with
          | none =>
            rw [hr] at h2
            simp only [allocateDynamicLoop, hr]
            simp at h2
            simp [List.countP_cons, h2]
          | some out =>
            rw [hr] at h2
            obtain ⟨g1, g2, g3⟩ := h1 out hr
            simp at h2
            simp [allocateDynamicLoop, List.countP_cons, hr, g1, g2, g3, h2]
      | fixed n =>
        obtain ⟨h1, h2⟩ := ih (sizes := sizes) h
        cases hr : allocateDynamicLoop ps as sizes with
        | none =>
          rw [hr] at h2
          simp at h2
          simp [allocateDynamicLoop, List.countP_cons, hr, h2]
        | some out =>
          rw [hr] at h2
          obtain ⟨g1, g2, g3⟩ := h1 out hr
          simp at h2
          simp [allocateDynamicLoop, List.countP_cons, hr, g1, g2, g3, h2]
      | proportional n =>
        obtain ⟨h1, h2⟩ := ih (sizes := sizes) h
        cases hr : allocateDynamicLoop ps as sizes with
        | none =>
          rw [hr] at h2
          simp at h2
          simp [allocateDynamicLoop, List.countP_cons, hr, h2]
        | some out =>
          rw [hr] at h2
          obtain ⟨g1, g2, g3⟩ := h1 out hr
          simp at h2
          simp [allocateDynamicLoop, List.countP_cons, hr, g1, g2, g3, h2]

theorem allocateProportionalLoop_spec (ps : List PaneSize) : ∀ {as alloc : List Nat} {c},
    as.length = ps.length → alloc.length = (weights ps).length → alloc.sum ≤ c →
    ∃ out c', allocateProportionalLoop ps as alloc c = some (out, c') ∧ out.length = ps.length ∧
      got (·.isFixed) ps out = got (·.isFixed) ps as ∧ got (·.isDynamic) ps out = got (·.isDynamic) ps as ∧
      got (·.isProportional) ps out = alloc := by
  induction ps with
  | nil =>
    intro as alloc c h h' h''
    simp at h; subst h
    simp [weights] at h'; subst h'
    simp [allocateProportionalLoop]
  | cons p ps ih =>
    intro as alloc c h h' h''
    cases as with
    | nil => simp at h
    | cons a as =>
      simp only [List.length_cons, Nat.add_right_cancel_iff] at h
      cases p with
      | proportional w =>
        cases alloc with
        | nil => simp at h'
        | cons g alloc =>
          simp at h' h''
          obtain ⟨out, c', h1, h2, h3, h4, h5⟩ := ih (c := c - g) h h' (by omega)
          refine ⟨g :: out, c', ?_, ?_⟩
          · simp only [allocateProportionalLoop, h1]
            rw [if_pos (by omega)]
            rfl
          · simp [h2, h3, h4, h5]
      | fixed n =>
        obtain ⟨out, c', h1, h2, h3, h4, h5⟩ := ih (c := c) h (by simpa using h') h''
        refine ⟨a :: out, c', ?_, ?_⟩
        · simp [allocateProportionalLoop, h1]
        · simp [h2, h3, h4, h5]
      | dynamic =>
        obtain ⟨out, c', h1, h2, h3, h4, h5⟩ := ih (c := c) h (by simpa using h') h''
        refine ⟨a :: out, c', ?_, ?_⟩
        · simp [allocateProportionalLoop, h1]
        · simp [h2, h3, h4, h5]

theorem got_sum (ps : List PaneSize) : ∀ {out : List Nat}, out.length = ps.length →
    out.sum = (got (·.isFixed) ps out).sum + (got (·.isDynamic) ps out).sum +
      (got (·.isProportional) ps out).sum := by
  induction ps with
  | nil => intro out h; simp at h; subst h; simp
  | cons p ps ih =>
    intro out h
    cases out with
    | nil => simp at h
    | cons a out =>
      simp only [List.length_cons, Nat.add_right_cancel_iff] at h
      have := ih h
      cases p <;> simp <;> omega

/-- Everything about the division, at once. -/
theorem finish_spec (avail : Nat) (sizes : List PaneSize) (dyn : List Nat) :
    (∀ out, (Divvier.new avail sizes).finish dyn = some out →
      out.length = sizes.length ∧
      (got (·.isFixed) sizes out).sum = min avail (requests sizes).sum ∧
      FirstCome avail (requests sizes) (got (·.isFixed) sizes out) ∧
      got (·.isDynamic) sizes out = dyn ∧
      (weights sizes = [] → got (·.isProportional) sizes out = []) ∧
      (weights sizes ≠ [] → Fair (avail - (requests sizes).sum - dyn.sum) (weights sizes)
        (got (·.isProportional) sizes out))) ∧
    (((Divvier.new avail sizes).finish dyn).isSome ↔
      dyn.length = sizes.countP (·.isDynamic) ∧ dyn.sum ≤ avail - (requests sizes).sum ∧
      (weights sizes = [] ∨ 0 < (weights sizes).sum) ∧ (weights sizes).sum ≤ maxUsize ∧
      ∀ w ∈ weights sizes, (avail - (requests sizes).sum - dyn.sum) * w ≤ maxUsize) := by
  obtain ⟨h1, h2, h3, h4⟩ := allocateFixed_spec sizes (as := List.replicate sizes.length 0) (c := avail) (by simp)
  obtain ⟨as, c, hr⟩ : ∃ as c, allocateFixed sizes (List.replicate sizes.length 0) avail = (as, c) := ⟨_, _, rfl⟩
  have hnew : Divvier.new avail sizes = ⟨sizes, as, c⟩ := by simp only [Divvier.new, hr]
  rw [hnew]
  simp only [hr] at h1 h2 h3 h4
  simp only [Divvier.finish, Divvier.allocateDynamic, Divvier.allocateProportional, childHungers_eq]
  subst h2
  obtain ⟨d1, d2⟩ := allocateDynamicLoop_spec sizes (as := as) (sizes := dyn) h1
  by_cases hs : dyn.sum ≤ avail - (requests sizes).sum
  swap
  · simp [hs]
  simp only [hs, if_true, true_and]
  cases hd : allocateDynamicLoop sizes as dyn with
  | none =>
    rw [hd] at d2
    simp only [Option.isSome_none, Bool.false_eq_true, false_iff] at d2
    simp [d2]
  | some as' =>
    rw [hd] at d2
    simp only [Option.isSome_some, true_iff] at d2
    obtain ⟨g1, g2, g3⟩ := d1 as' hd
    simp only [Option.bind_eq_bind, Option.bind_some, d2, true_and]
    by_cases hw : weights sizes = []
    · have hc : cookieAllocation (avail - (requests sizes).sum - dyn.sum) [] = [] := by
        simp [cookieAllocation]
      obtain ⟨out, c', p1, p2, p3, p4, p5⟩ := allocateProportionalLoop_spec sizes (as := as') (alloc := [])
        (c := avail - (requests sizes).sum - dyn.sum) g1 (by simp [hw]) (by simp)
      simp only [hw, hc, p1, ne_eq, not_true_eq_false, false_and, if_false, List.map_nil, List.sum_nil,
        Nat.zero_le, if_true, Option.bind_some, true_or, Nat.not_lt_zero, List.not_mem_nil, exists_false,
        or_false, Option.some.injEq, Option.isSome_some]
      refine ⟨?_, by simp⟩
      rintro _ rfl
      exact ⟨p2, by rw [p3, g2, h3], by rw [p3, g2]; exact h4, by rw [p4, g3], fun _ => p5, fun h => h.elim⟩
    · by_cases hz : (weights sizes).sum = 0
      · simp [hw, hz]
      by_cases ho : maxUsize < (weights sizes).sum ∨
          ∃ w ∈ weights sizes, maxUsize < (avail - (requests sizes).sum - dyn.sum) * w
      · simp only [hz, and_false, if_false, ho, if_true, Option.isSome_none]
        refine ⟨fun _ h => (nomatch h), ?_⟩
        refine ⟨fun h => (nomatch h), ?_⟩
        rintro ⟨_, h1, h2⟩
        rcases ho with ho | ⟨w, hw, ho⟩
        · omega
        · have := h2 w hw; omega
      · obtain ⟨f1, f2⟩ := cookieAllocation_fair (avail - (requests sizes).sum - dyn.sum) (weights sizes) (by omega)
        obtain ⟨out, c', p1, p2, p3, p4, p5⟩ := allocateProportionalLoop_spec sizes (as := as')
          (alloc := cookieAllocation (avail - (requests sizes).sum - dyn.sum) (weights sizes))
          (c := avail - (requests sizes).sum - dyn.sum) g1 f1.length (by rw [f1.sum])
        simp only [p1, f2, hz, and_false, if_false, ho, if_true, Option.bind_some, Option.some.injEq,
          Option.isSome_some, true_iff]
        have ho' : (weights sizes).sum ≤ maxUsize ∧
            ∀ w ∈ weights sizes, (avail - (requests sizes).sum - dyn.sum) * w ≤ maxUsize :=
          ⟨by by_contra h; exact ho (.inl (by omega)),
            fun w hw => by by_contra h; exact ho (.inr ⟨w, hw, by omega⟩)⟩
        refine ⟨?_, .inr (by omega), ho'⟩
        rintro _ rfl
        exact ⟨p2, by rw [p3, g2, h3], by rw [p3, g2]; exact h4, by rw [p4, g3], fun h => absurd h hw,
          fun _ => by rw [p5]; exact f1⟩

/-! ### The theorems -/

/-- **C23.**  Dividing space succeeds if and only if there is one size for each `Dynamic` pane, these
    fit into what the `Fixed` panes leave over, the `Proportional` panes (if any) do not all have
    weight zero, and the weights are not so large that arithmetic overflows. -/
theorem C23_succeeds_iff (avail : Nat) (sizes : List PaneSize) (dyn : List Nat) :
    (∃ out, (Divvier.new avail sizes).finish dyn = some out) ↔
      dyn.length = sizes.countP (·.isDynamic) ∧ dyn.sum ≤ (Divvier.new avail sizes).remaining ∧
      (weights sizes = [] ∨ 0 < (weights sizes).sum) ∧ (weights sizes).sum ≤ maxUsize ∧
      ∀ w ∈ weights sizes, ((Divvier.new avail sizes).remaining - dyn.sum) * w ≤ maxUsize := by
  have h : (Divvier.new avail sizes).remaining = avail - (requests sizes).sum :=
    (allocateFixed_spec sizes (as := List.replicate sizes.length 0) (c := avail) (by simp)).2.1
  rw [h, ← (finish_spec avail sizes dyn).2, Option.isSome_iff_exists]

/-- **C23.**  What is left for the `Dynamic` and `Proportional` panes. -/
theorem C23_remaining (avail : Nat) (sizes : List PaneSize) :
    (Divvier.new avail sizes).remaining = avail - (requests sizes).sum :=
  (allocateFixed_spec sizes (as := List.replicate sizes.length 0) (c := avail) (by simp)).2.1

/-- **C23.**  Every pane gets a size; the sizes sum to at most the available size, and to exactly the
    available size if there is a `Proportional` pane. -/
theorem C23_sum (avail : Nat) (sizes : List PaneSize) (dyn out : List Nat)
    (h : (Divvier.new avail sizes).finish dyn = some out) :
    out.length = sizes.length ∧ out.sum ≤ avail ∧ (weights sizes ≠ [] → out.sum = avail) := by
  obtain ⟨h1, h2, h3, h4, h5, h6⟩ := (finish_spec avail sizes dyn).1 out h
  obtain ⟨_, hd, _⟩ := (finish_spec avail sizes dyn).2.1 (by simp [h])
  have hs := got_sum sizes h1
  rw [h2, h4] at hs
  refine ⟨h1, ?_, ?_⟩
  · by_cases hw : weights sizes = []
    · rw [h5 hw] at hs; simp at hs; omega
    · rw [(h6 hw).sum] at hs; omega
  · intro hw
    rw [(h6 hw).sum] at hs
    omega

/-- **C24.**  What the `Fixed` and `Dynamic` panes leave over is divided fairly among the
    `Proportional` panes. -/
theorem C24_fair (avail : Nat) (sizes : List PaneSize) (dyn out : List Nat)
    (h : (Divvier.new avail sizes).finish dyn = some out) (hw : weights sizes ≠ []) :
    Fair (avail - (requests sizes).sum - dyn.sum) (weights sizes) (got (·.isProportional) sizes out) :=
  ((finish_spec avail sizes dyn).1 out h).2.2.2.2.2 hw

/-- **C24.**  A fair division is unique: weights and space determine everyone's share. -/
theorem C24_unique {c : Nat} {hs a b : List Nat} (ha : Fair c hs a) (hb : Fair c hs b) : a = b := by
  -- if they differ, someone is rounded up in `a` only, and someone else in `b` only
  have key : ∀ {a b : List Nat}, Fair c hs a → Fair c hs b → ∀ (i : Nat) x y, a[i]? = some x → b[i]? = some y →
      y < x → ∃ j : Nat, ∃ x' y', a[j]? = some x' ∧ b[j]? = some y' ∧ x' < y' := by
    intro a b ha hb i x y hx hy hlt
    by_contra hno
    have hle : ∀ (j : Nat) x' y', a[j]? = some x' → b[j]? = some y' → y' ≤ x' := by
      intro j x' y' h1 h2
      by_contra hc
      exact hno ⟨j, x', y', h1, h2, by omega⟩
    have : b.sum < a.sum := by
      have hl : a.length = b.length := by rw [ha.length, hb.length]
      clear hno ha hb
      induction a generalizing b i with
      | nil => simp at hx
      | cons u a ih =>
        cases b with
        | nil => simp at hl
        | cons v b =>
          simp only [List.sum_cons]
          have h0 : v ≤ u := hle 0 u v rfl rfl
          have hle' : ∀ (j : Nat) x' y', a[j]? = some x' → b[j]? = some y' → y' ≤ x' :=
            fun j x' y' h1 h2 => hle (j + 1) x' y' (by simpa using h1) (by simpa using h2)
          have hsum : ∀ (a b : List Nat), a.length = b.length →
              (∀ (j : Nat) x' y', a[j]? = some x' → b[j]? = some y' → y' ≤ x') → b.sum ≤ a.sum := by
            intro a
            induction a with
            | nil => intro b h _; simp at h; rw [List.eq_nil_of_length_eq_zero h.symm]
            | cons u a ih =>
              intro b h h'
              cases b with
              | nil => simp at h
              | cons v b =>
                have := h' 0 u v rfl rfl
                have := ih b (by simpa using h)
                  fun j x' y' h1 h2 => h' (j + 1) x' y' (by simpa using h1) (by simpa using h2)
                simp only [List.sum_cons]; omega
          have hl' : a.length = b.length := by simpa using hl
          cases i with
          | zero =>
            simp at hx hy
            subst hx hy
            have := hsum a b hl' hle'
            omega
          | succ i =>
            have := ih i (by simpa using hx) (by simpa using hy) hle' hl'
            omega
    rw [ha.sum, hb.sum] at this
    omega
  apply List.ext_getElem?
  intro i
  by_contra hne
  have hl : a.length = b.length := by rw [ha.length, hb.length]
  have hlt : i < a.length := by
    by_contra hge
    rw [List.getElem?_eq_none (by omega), List.getElem?_eq_none (by omega)] at hne
    exact hne rfl
  obtain ⟨x, hx⟩ : ∃ x, a[i]? = some x := ⟨_, List.getElem?_eq_getElem hlt⟩
  obtain ⟨y, hy⟩ : ∃ y, b[i]? = some y := ⟨_, List.getElem?_eq_getElem (hl ▸ hlt)⟩
  obtain ⟨h, hh⟩ : ∃ h, hs[i]? = some h := ⟨_, List.getElem?_eq_getElem (ha.length ▸ hlt)⟩
  have hxy : x ≠ y := by rintro rfl; exact hne (by rw [hx, hy])
  -- two positions at which the roundings are opposite
  have main : ∀ {a b : List Nat}, Fair c hs a → Fair c hs b → ∀ (i j : Nat) x y x' y', a[i]? = some x →
      b[i]? = some y → a[j]? = some x' → b[j]? = some y' → y < x → x' < y' → False := by
    intro a b ha hb i j x y x' y' h1 h2 h3 h4 hlt hlt'
    obtain ⟨u, hu⟩ : ∃ h, hs[i]? = some h :=
      ⟨_, List.getElem?_eq_getElem (ha.length ▸ (List.getElem?_eq_some_iff.1 h1).1)⟩
    obtain ⟨v, hv⟩ : ∃ h, hs[j]? = some h :=
      ⟨_, List.getElem?_eq_getElem (ha.length ▸ (List.getElem?_eq_some_iff.1 h3).1)⟩
    have a1 := ha.neighbour i u x hu h1
    have a2 := ha.neighbour j v x' hv h3
    have b1 := hb.neighbour i u y hu h2
    have b2 := hb.neighbour j v y' hv h4
    have r1 := ha.largest i j u v x x' hu hv h1 h3 (by omega) (by omega)
    have r2 := hb.largest j i v u y' y hv hu h4 h2 (by omega) (by omega)
    omega
  rcases Nat.lt_or_gt_of_ne hxy with hlt | hlt
  · obtain ⟨j, y', x', h1, h2, h3⟩ := key hb ha i y x hy hx hlt
    exact main hb ha i j y x y' x' hy hx h1 h2 hlt h3
  · obtain ⟨j, x', y', h1, h2, h3⟩ := key ha hb i x y hx hy hlt
    exact main ha hb i j x y x' y' hx hy h1 h2 hlt h3

/-- **C25.**  The `i`'th `Fixed` pane gets what it asks for, or whatever the `Fixed` panes before it
    have left; `Dynamic` panes get exactly the sizes that were given for them. -/
theorem C25_fixed_and_dynamic (avail : Nat) (sizes : List PaneSize) (dyn out : List Nat)
    (h : (Divvier.new avail sizes).finish dyn = some out) :
    (got (·.isFixed) sizes out).length = (requests sizes).length ∧
    (∀ (i : Nat) request given, (requests sizes)[i]? = some request →
      (got (·.isFixed) sizes out)[i]? = some given →
      given = min request (avail - ((got (·.isFixed) sizes out).take i).sum)) ∧
    got (·.isDynamic) sizes out = dyn := by
  obtain ⟨_, _, h3, h4, _⟩ := (finish_spec avail sizes dyn).1 out h
  exact ⟨h3.1, h3.2, h4⟩

namespace Ex

/-- 20 columns for a mix of panes. -/
theorem divvyMix : (Divvier.new 20 [.proportional 2, .fixed 5, .dynamic, .fixed 2, .proportional 1]).finish [4] =
    some [6, 5, 4, 2, 3] := by
  decide +kernel

example : Fair 9 [2, 1] [6, 3] := C24_fair 20 _ [4] _ divvyMix (by decide)
example : [6, 5, 4, 2, 3].sum = 20 := (C23_sum 20 _ [4] _ divvyMix).2.2 (by decide)

/-- Ties go to the left, and too much is asked for by the `Fixed` panes in the second case. -/
example : (Divvier.new 3 [.proportional 1, .proportional 1]).finish [] = some [2, 1] := by decide +kernel
example : (Divvier.new 6 [.fixed 4, .fixed 4, .fixed 1, .dynamic]).finish [0] = some [4, 2, 0, 0] := by decide +kernel

/-- A weight so large that multiplying it with the available space overflows. -/
example : (Divvier.new 3 [.proportional (2 ^ 63)]).finish [] = none := by decide +kernel

/-- Panes with only zero weights: a division by zero. -/
example : (Divvier.new 3 [.fixed 1, .proportional 0]).finish [] = none := by decide +kernel

end Ex

/-- The examples of the unit tests in /repo/src/pane/divvy.rs. -/
example : (Divvier.new 61 [.proportional 1, .proportional 2, .proportional 3]).finish [] = some [10, 20, 31] := by
  decide +kernel
/-- Another. -/
example : (Divvier.new 20 [.proportional 2, .fixed 5, .dynamic, .fixed 2, .proportional 1]).finish [4] =
    some [6, 5, 4, 2, 3] := by
  decide +kernel

end PPP
