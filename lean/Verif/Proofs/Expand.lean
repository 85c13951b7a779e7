import Verif.Proofs.Blocks
/-
Creating, choosing and expanding chunks.
-/
namespace PPP
variable {P : PrettyDoc}

theorem Chunk.new_sat {d : DCN P} {rid t} (h : Rep d rid t) :
    Sat (Chunk.new d) (fun c => ∃ id, rid = .ok id ∧ ChunkR c (id, t))
      (fun e => rid = .error e ∨ t = .fail e) := by
  have hr := h.idRes_eq
  unfold Chunk.new
  unfold DCN.idRes at hr
  unfold call
  rw [← hr]
  match rid, h with
  | .error f, h => exact .inl rfl
  | .ok id, h =>
    rw [Exec.ofRes_ok_bind]
    refine Sat.bind' h.eval_sat ?_ ?_
    · intro c hc; exact ⟨id, rfl, rfl, hc.2⟩
    · intro e he; exact .inr he

theorem Chunk.new_sat_ok {d : DCN P} {id t} (h : Rep d (.ok id) t) :
    Sat (Chunk.new d) (fun c => ChunkR c (id, t)) (fun e => t = .fail e) := by
  refine (Chunk.new_sat h).mono ?_ ?_
  · rintro c ⟨id', h1, h2⟩; injection h1 with h1; subst h1; exact h2
  · rintro e (h | h)
    · simp at h
    · exact h

/-- Expanding all of the items. -/
def spineAll : List (Item P) → Option (List (Item P))
  | [] => some []
  | x :: xs =>
    match x.2.spine with
    | .error _ => none
    | .ok s => (spineAll xs).map (tag x.1 s ++ ·)

theorem spineAll_append (xs ys : List (Item P)) :
    spineAll (xs ++ ys) = (spineAll xs).bind fun s => (spineAll ys).map (s ++ ·) := by
  induction xs with
  | nil => simp [spineAll]
  | cons x xs ih =>
    simp only [List.cons_append, spineAll]
    cases x.2.spine with
    | error _ => rfl
    | ok s =>
      simp only [ih]
      cases spineAll xs with
      | none => rfl
      | some s' => cases spineAll ys <;> simp

theorem spineAll_concat (id : P.Id) (a b : NTree P) (xs) :
    spineAll ((id, .concat a b) :: xs) = spineAll ((id, a) :: (id, b) :: xs) := by
  simp only [spineAll, NTree.spine, Except.bind_eq]
  cases a.spine with
  | error _ => rfl
  | ok sa =>
    cases b.spine with
    | error _ => rfl
    | ok sb => cases spineAll xs <;> simp

theorem spineAll_single (id : P.Id) (t : NTree P) :
    spineAll [(id, t)] = match t.spine with
      | .error _ => none
      | .ok s => some (tag id s) := by
  simp only [spineAll]; cases t.spine <;> simp

def AllFailIn (Q : Pred P) (xs : List (Item P)) : Prop := ∀ x ∈ xs, x.2.FailIn Q

theorem AllFailIn.cons {Q : Pred P} {x : Item P} {xs} (h : x.2.FailIn Q)
    (h' : AllFailIn Q xs) : AllFailIn Q (x :: xs) := by
  intro y hy; rcases List.mem_cons.1 hy with rfl | hy
  · exact h
  · exact h' y hy

theorem AllFailIn.head {Q : Pred P} {x : Item P} {xs} (h : AllFailIn Q (x :: xs)) :
    x.2.FailIn Q := h x (by simp)

theorem AllFailIn.tail {Q : Pred P} {x : Item P} {xs} (h : AllFailIn Q (x :: xs)) :
    AllFailIn Q xs := fun y hy => h y (by simp [hy])

theorem AllFailIn.append {Q : Pred P} {xs ys : List (Item P)} (h : AllFailIn Q xs)
    (h' : AllFailIn Q ys) : AllFailIn Q (xs ++ ys) := by
  intro y hy; rcases List.mem_append.1 hy with hy | hy
  · exact h y hy
  · exact h' y hy

theorem AllFailIn.left {Q : Pred P} {xs ys : List (Item P)}
    (h : AllFailIn Q (xs ++ ys)) : AllFailIn Q xs := fun y hy => h y (by simp [hy])
theorem AllFailIn.right {Q : Pred P} {xs ys : List (Item P)}
    (h : AllFailIn Q (xs ++ ys)) : AllFailIn Q ys := fun y hy => h y (by simp [hy])

theorem NTree.FailIn.spine {Q : Pred P} {t : NTree P} (h : t.FailIn Q) :
    ∀ {s}, t.spine = .ok s → ∀ id, AllFailIn Q (tag id s) := by
  induction t with
  | concat a b iha ihb =>
    intro s hs id
    obtain ⟨sa, sb, ha, hb, rfl⟩ := NTree.spine_concat_ok hs
    rw [tag_append]
    exact (iha h.1 ha id).append (ihb h.2 hb id)
  | newline ind =>
    intro s hs id; simp [NTree.spine] at hs; split at hs <;> simp at hs; subst hs
    intro x hx; simp at hx; subst hx; exact h
  | fail f => intro s hs; simp [NTree.spine] at hs
  | empty => intro s hs; simp [NTree.spine] at hs; subst hs; intro id x hx; simp at hx
  | _ =>
    intro s hs id; simp [NTree.spine] at hs; subst hs
    intro x hx; simp at hx; subst hx; exact h

/-- The blocks `block :: next` represent items; the first block is `block` with some chunks. -/
structure FirstR (next : List (Block P)) (block : Block P) (segs : List (Segment P)) (st : LineSt)
    (xs : List (Item P)) : Prop where
  segs : block.segments = segs
  col : block.prefixLen = st.col
  eol : block.atEol = st.eol
  items : ∃ items tail, xs = items ++ tail ∧ ChunksR block.chunks items ∧ RestR next tail

variable (Q : Pred P)

theorem expandFirstLoop_sat (hQ : Q .overflow) (n : Nat) :
    ∀ {next : List (Block P)} {block : Block P} {stack xs segs st ys},
    All2 ChunkR stack xs → FirstR next block segs st ys → AllFailIn Q xs → sizes (trees xs) ≤ n →
    Sat (expandFirstLoop next block stack)
      (fun r => ∃ s, spineAll xs.reverse = some s ∧ FirstR r.1 r.2 segs st (s ++ ys))
      (fun e => Q e ∧ spineAll xs.reverse = none) := by
  induction n with
  | zero =>
    intro next block stack xs segs st ys hs hf hfail hn
    cases hs with
    | nil => rw [expandFirstLoop]; exact ⟨[], rfl, hf⟩
    | @cons _ x _ _ _ _ => have := x.2.size_pos; simp at hn; omega
  | succ n ih =>
    intro next block stack xs segs st ys hs hf hfail hn
    rw [expandFirstLoop.eq_def]
    cases hs with
    | nil => exact ⟨[], rfl, hf⟩
    | @cons c x stack xs hc hs =>
      obtain ⟨id, t⟩ := x
      obtain ⟨cn, cid⟩ := c
      obtain ⟨hid, hcn⟩ := hc
      simp only at hid hcn
      subst hid
      have hfs := hfail.tail
      simp only [trees_cons, sizes_cons] at hn
      have keep : t.Atomic → t.spine = .ok [t] → 0 < t.size → ChunkR ⟨cn, cid⟩ (cid, t) →
          Sat (expandFirstLoop next { block with chunks := ⟨cn, cid⟩ :: block.chunks } stack)
            (fun r => ∃ s, spineAll ((cid, t) :: xs).reverse = some s ∧
              FirstR r.1 r.2 segs st (s ++ ys))
            (fun e => Q e ∧ spineAll ((cid, t) :: xs).reverse = none) := by
        intro hat hsp hsz hch
        have hf' : FirstR next { block with chunks := ⟨cn, cid⟩ :: block.chunks } segs st
            ((cid, t) :: ys) := by
          obtain ⟨items, tail, rfl, h1, h2⟩ := hf.items
          exact ⟨hf.segs, hf.col, hf.eol, _, _, rfl, .cons ⟨hch, hat⟩ h1, h2⟩
        refine (ih hs hf' hfs (by omega)).mono ?_ ?_
        · rintro r ⟨s, h1, h2⟩
          refine ⟨s ++ [(cid, t)], ?_, by simpa using h2⟩
          simp [spineAll_append, h1, spineAll_single, hsp]
        · rintro e ⟨h1, h2⟩
          exact ⟨h1, by simp [spineAll_append, h2]⟩
      cases hcn with
      | empty =>
        have hsz : (NTree.empty : NTree P).size = 1 := rfl
        refine (ih hs hf hfs (by omega)).mono ?_ ?_
        · rintro r ⟨s, h1, h2⟩
          exact ⟨s, by simp [spineAll_append, h1, spineAll_single, NTree.spine], h2⟩
        · rintro e ⟨h1, h2⟩; exact ⟨h1, by simp [spineAll_append, h2]⟩
      | eol => exact keep trivial rfl (NTree.size_pos _) ⟨rfl, .eol⟩
      | text => exact keep trivial rfl (NTree.size_pos _) ⟨rfl, .text⟩
      | mark => exact keep trivial rfl (NTree.size_pos _) ⟨rfl, .mark⟩
      | choice ha hb => exact keep trivial rfl (NTree.size_pos _) ⟨rfl, .choice ha hb⟩
      | child h => exact keep trivial rfl (NTree.size_pos _) ⟨rfl, .child h⟩
      | @newline ind =>
        simp only [NTree.size] at hn
        unfold Block.new
        by_cases hw : segsWidth ind.reverse ≤ maxWidth
        · simp only [hw, if_true, Exec.pure_bind']
          have hf' : FirstR (⟨ind.reverse, segsWidth ind.reverse, false, block.chunks⟩ :: next)
              { block with chunks := [] } segs st ((cid, .newline ind.reverse) :: ys) := by
            obtain ⟨items, tail, rfl, h1, h2⟩ := hf.items
            exact ⟨hf.segs, hf.col, hf.eol, [], _, rfl, .nil, .cons rfl hw rfl h1 h2⟩
          refine (ih hs hf' hfs (by omega)).mono ?_ ?_
          · rintro r ⟨s, h1, h2⟩
            exact ⟨s ++ [(cid, .newline ind.reverse)],
              by simp [spineAll_append, h1, spineAll_single, NTree.spine, hw], by simpa using h2⟩
          · rintro e ⟨h1, h2⟩; exact ⟨h1, by simp [spineAll_append, h2]⟩
        · simp only [hw, if_false]
          refine Sat.overflowing ⟨hQ, ?_⟩
          simp [spineAll_append, spineAll_single, NTree.spine, hw]
      | @concat a b ta tb ha hb =>
        simp only [NTree.size] at hn
        have hfl := hfail.head
        have hrev : spineAll ((cid, NTree.concat ta tb) :: xs).reverse =
            spineAll ((cid, tb) :: (cid, ta) :: xs).reverse := by
          simp only [List.reverse_cons, List.append_assoc, spineAll_append, List.cons_append,
            List.nil_append, spineAll_concat]
        rw [hrev]
        refine Sat.bind' (Chunk.new_sat_ok ha) ?_ ?_
        · intro l hl
          refine Sat.bind' (Chunk.new_sat_ok hb) ?_ ?_
          · intro r hr
            refine ih (.cons hr (.cons hl hs)) hf (.cons hfl.2 (.cons hfl.1 hfs)) ?_
            simp only [trees_cons, sizes_cons]; omega
          · rintro e rfl
            refine ⟨hfl.2, ?_⟩
            simp only [List.reverse_cons, List.append_assoc, spineAll_append, List.cons_append,
              List.nil_append, spineAll, NTree.spine]
            cases spineAll xs.reverse <;> cases ta.spine <;> rfl
        · rintro e rfl
          refine ⟨hfl.1, ?_⟩
          simp [spineAll_append, spineAll, NTree.spine]

theorem expandFirst_sat (hQ : Q .overflow) {next : List (Block P)} {block : Block P} {chunk x segs st ys}
    (hc : ChunkR chunk x) (hf : FirstR next block segs st ys) (hfail : x.2.FailIn Q) :
    Sat (expandFirst next block chunk)
      (fun r => ∃ s, x.2.spine = .ok s ∧ FirstR r.1 r.2 segs st (tag x.1 s ++ ys))
      (fun e => Q e ∧ ∃ f, x.2.spine = .error f) := by
  refine (expandFirstLoop_sat Q hQ _ (.cons hc .nil) hf (.cons hfail (fun _ h => by simp at h))
    (Nat.le_refl _)).mono ?_ ?_
  · rintro r ⟨s, h1, h2⟩
    obtain ⟨id, t⟩ := x
    simp only [List.reverse_cons, List.reverse_nil, List.nil_append, spineAll_single] at h1
    cases hs : t.spine with
    | error _ => simp [hs] at h1
    | ok s' => simp [hs] at h1; subst h1; exact ⟨s', rfl, h2⟩
  · rintro e ⟨h1, h2⟩
    obtain ⟨id, t⟩ := x
    simp only [List.reverse_cons, List.reverse_nil, List.nil_append, spineAll_single] at h2
    cases hs : t.spine with
    | error f => exact ⟨h1, f, rfl⟩
    | ok s' => simp [hs] at h2

/-! ### Expanding towards the last block -/

/-- Cutting a block at its newlines: the new previous blocks (nearest first) and the last block. -/
inductive Splits : BSpec P → List (BSpec P) → BSpec P → Prop where
  | refl (b) : Splits b [] b
  | step {segs st xs id ind ys pv b'} : segsWidth ind ≤ maxWidth →
      Splits ⟨ind, ⟨segsWidth ind, false⟩, ys⟩ pv b' →
      Splits ⟨segs, st, xs ++ (id, .newline ind) :: ys⟩ (pv ++ [⟨segs, st, xs⟩]) b'

theorem Splits.adv {b : BSpec P} {pv' b'} (h : Splits b pv' b') (w k) (pv) :
    Adv w k ⟨pv, b.segs, b.st, b.items⟩ ⟨pv' ++ pv, b'.segs, b'.st, b'.items⟩ := by
  induction h generalizing pv with
  | refl b => exact .refl _ _ _
  | step hw _ ih =>
    rw [List.append_assoc]
    exact (AdvR.skip hw trivial (.inr fun _ => trivial)).trans (ih _)

theorem Splits.sizes_le {b : BSpec P} {pv' b'} (h : Splits b pv' b') :
    sizes (trees b'.items) ≤ sizes (trees b.items) := by
  induction h with
  | refl => exact Nat.le_refl _
  | step _ _ ih => simp only [trees_append, trees_cons, sizes_append, sizes_cons] at *; omega

/-- A bound on the work left in the previous blocks. -/
def pvSize (pv : List (BSpec P)) : Nat := (pv.map fun b => sizes (trees b.items) + 1).sum

theorem Splits.pvSize_le {b : BSpec P} {pv' b'} (h : Splits b pv' b') :
    pvSize pv' + sizes (trees b'.items) ≤ sizes (trees b.items) := by
  induction h with
  | refl => simp [pvSize]
  | step _ _ ih =>
    simp only [pvSize, List.map_append, List.sum_append, List.map_cons, List.map_nil,
      List.sum_cons, List.sum_nil, trees_append, trees_cons, sizes_append, sizes_cons,
      NTree.size] at *
    omega

theorem Splits.failIn {b : BSpec P} {pv' b'} (h : Splits b pv' b') (hf : AllFailIn Q b.items) :
    AllFailIn Q b'.items ∧ ∀ p ∈ pv', AllFailIn Q p.items := by
  induction h with
  | refl => exact ⟨hf, by simp⟩
  | step _ _ ih =>
    have hr := ih hf.right.tail
    refine ⟨hr.1, ?_⟩
    intro p hp
    rcases List.mem_append.1 hp with hp | hp
    · exact hr.2 p hp
    · simp at hp; subst hp; exact hf.left

theorem expandLastLoop_sat (hQ : Q .overflow) (n : Nat) :
    ∀ {prev : List (Block P)} {block : Block P} {chunks stack xs segs st ys items pv},
    All2 ChunkR stack xs → All2 BlockR prev pv → BlockR block ⟨segs, st, items⟩ →
    ChunksR chunks.reverse ys → AllFailIn Q xs → sizes (trees xs) ≤ n →
    Sat (expandLastLoop prev block chunks stack)
      (fun r => ∃ s pv' b', spineAll xs = some s ∧ Splits ⟨segs, st, ys ++ s⟩ pv' b' ∧
        All2 BlockR r.1 (pv' ++ pv) ∧ BlockR r.2 { b' with items := b'.items ++ items })
      (fun e => Q e ∧ spineAll xs = none) := by
  induction n with
  | zero =>
    intro prev block chunks stack xs segs st ys items pv hs hp hb hc hfail hn
    cases hs with
    | nil =>
      rw [expandLastLoop]
      exact ⟨[], [], ⟨segs, st, ys⟩, rfl, by simpa using Splits.refl _, hp,
        ⟨hb.segs, hb.col, hb.eol, hc.append hb.chunks⟩⟩
    | @cons _ x _ _ _ _ => have := x.2.size_pos; simp at hn; omega
  | succ n ih =>
    intro prev block chunks stack xs segs st ys items pv hs hp hb hc hfail hn
    rw [expandLastLoop.eq_def]
    cases hs with
    | nil =>
      exact ⟨[], [], ⟨segs, st, ys⟩, rfl, by simpa using Splits.refl _, hp,
        ⟨hb.segs, hb.col, hb.eol, hc.append hb.chunks⟩⟩
    | @cons c x stack xs hch hs =>
      obtain ⟨id, t⟩ := x
      obtain ⟨cn, cid⟩ := c
      obtain ⟨hid, hcn⟩ := hch
      simp only at hid hcn
      subst hid
      have hfs := hfail.tail
      simp only [trees_cons, sizes_cons] at hn
      have keep : t.Atomic → t.spine = .ok [t] → 0 < t.size → ChunkR ⟨cn, cid⟩ (cid, t) →
          Sat (expandLastLoop prev block (⟨cn, cid⟩ :: chunks) stack)
            (fun r => ∃ s pv' b', spineAll ((cid, t) :: xs) = some s ∧
              Splits ⟨segs, st, ys ++ s⟩ pv' b' ∧ All2 BlockR r.1 (pv' ++ pv) ∧
              BlockR r.2 { b' with items := b'.items ++ items })
            (fun e => Q e ∧ spineAll ((cid, t) :: xs) = none) := by
        intro hat hsp hsz hch
        have hc' : ChunksR ((⟨cn, cid⟩ :: chunks).reverse) (ys ++ [(cid, t)]) := by
          rw [List.reverse_cons]; exact hc.append (.cons ⟨hch, hat⟩ .nil)
        refine (ih hs hp hb hc' hfs (by omega)).mono ?_ ?_
        · rintro r ⟨s, pv', b', h1, h2, h3, h4⟩
          exact ⟨(cid, t) :: s, pv', b', by simp [spineAll, hsp, h1], by simpa using h2, h3, h4⟩
        · rintro e ⟨h1, h2⟩
          exact ⟨h1, by simp [spineAll, hsp, h2]⟩
      cases hcn with
      | empty =>
        have hsz : (NTree.empty : NTree P).size = 1 := rfl
        refine (ih hs hp hb hc hfs (by omega)).mono ?_ ?_
        · rintro r ⟨s, pv', b', h1, h2⟩
          exact ⟨s, pv', b', by simp [spineAll, NTree.spine, h1], h2⟩
        · rintro e ⟨h1, h2⟩; exact ⟨h1, by simp [spineAll, NTree.spine, h2]⟩
      | eol => exact keep trivial rfl (NTree.size_pos _) ⟨rfl, .eol⟩
      | text => exact keep trivial rfl (NTree.size_pos _) ⟨rfl, .text⟩
      | mark => exact keep trivial rfl (NTree.size_pos _) ⟨rfl, .mark⟩
      | choice ha hb => exact keep trivial rfl (NTree.size_pos _) ⟨rfl, .choice ha hb⟩
      | child h => exact keep trivial rfl (NTree.size_pos _) ⟨rfl, .child h⟩
      | @newline ind =>
        simp only [NTree.size] at hn
        unfold Block.new
        by_cases hw : segsWidth ind.reverse ≤ maxWidth
        · simp only [hw, if_true, Exec.pure_bind']
          refine (ih (chunks := []) (ys := []) (pv := ⟨segs, st, ys⟩ :: pv) (segs := ind.reverse)
            (block := ⟨ind.reverse, segsWidth ind.reverse, false, block.chunks⟩)
            (prev := ⟨block.segments, block.prefixLen, block.atEol, chunks.reverse⟩ :: prev)
            (st := ⟨segsWidth ind.reverse, false⟩)
            (items := items) hs (.cons ⟨hb.segs, hb.col, hb.eol, hc⟩ hp) ⟨rfl, rfl, rfl, hb.chunks⟩
            .nil hfs (by omega)).mono ?_ ?_
          · rintro r ⟨s, pv', b', h1, h2, h3, h4⟩
            refine ⟨(cid, .newline ind.reverse) :: s, pv' ++ [⟨segs, st, ys⟩], b',
              by simp [spineAll, h1, NTree.spine, hw], .step hw h2, ?_, h4⟩
            simpa using h3
          · rintro e ⟨h1, h2⟩; exact ⟨h1, by simp [spineAll, NTree.spine, hw, h2]⟩
        · simp only [hw, if_false]
          refine Sat.overflowing ⟨hQ, ?_⟩
          simp [spineAll, NTree.spine, hw]
      | @concat a b ta tb ha hbb =>
        simp only [NTree.size] at hn
        have hfl := hfail.head
        rw [spineAll_concat]
        refine Sat.bind' (Chunk.new_sat_ok hbb) ?_ ?_
        · intro r hr
          refine Sat.bind' (Chunk.new_sat_ok ha) ?_ ?_
          · intro l hl
            refine ih (.cons hl (.cons hr hs)) hp hb hc (.cons hfl.1 (.cons hfl.2 hfs)) ?_
            simp only [trees_cons, sizes_cons]; omega
          · rintro e rfl
            refine ⟨hfl.1, ?_⟩
            simp [spineAll, NTree.spine]
        · rintro e rfl
          refine ⟨hfl.2, ?_⟩
          simp only [spineAll, NTree.spine]
          cases ta.spine <;> rfl

theorem expandLast_sat (hQ : Q .overflow) {prev : List (Block P)} {block : Block P}
    {chunk x segs st items pv}
    (hc : ChunkR chunk x) (hp : All2 BlockR prev pv) (hb : BlockR block ⟨segs, st, items⟩)
    (hfail : x.2.FailIn Q) :
    Sat (expandLast prev block chunk)
      (fun r => ∃ s pv' b', x.2.spine = .ok s ∧ Splits ⟨segs, st, tag x.1 s⟩ pv' b' ∧
        All2 BlockR r.1 (pv' ++ pv) ∧ BlockR r.2 { b' with items := b'.items ++ items })
      (fun e => Q e ∧ ∃ f, x.2.spine = .error f) := by
  refine (expandLastLoop_sat Q hQ _ (.cons hc .nil) hp hb .nil
    (.cons hfail (fun _ h => by simp at h)) (Nat.le_refl _)).mono ?_ ?_
  · rintro r ⟨s, pv', b', h1, h2⟩
    obtain ⟨id, t⟩ := x
    simp only [spineAll_single] at h1
    cases hs : t.spine with
    | error _ => simp [hs] at h1
    | ok s' => simp [hs] at h1; subst h1; exact ⟨s', pv', b', rfl, by simpa using h2⟩
  · rintro e ⟨h1, h2⟩
    obtain ⟨id, t⟩ := x
    simp only [spineAll_single] at h2
    cases hs : t.spine with
    | error f => exact ⟨h1, f, rfl⟩
    | ok s' => simp [hs] at h2

theorem fit_fail {t : NTree P} (h : t.FailIn Q) : ∀ {rem e f}, t.fit rem e = .error f → Q f := by
  induction t with
  | fail g => intro rem e f hf; simp [NTree.fit] at hf; subst hf; exact h
  | concat a b iha ihb =>
    intro rem e f hf
    simp only [NTree.fit, Except.bind_eq] at hf
    have hcheck : ∀ {t : NTree P}, t.FailIn Q → ∀ {g}, t.check = .error g → Q g := by
      intro t ht g hg
      cases t <;> simp_all [NTree.check, NTree.FailIn]
    cases hb : b.check with
    | error g => simp [hb] at hf; subst hf; exact hcheck h.2 hb
    | ok _ =>
      cases ha : a.check with
      | error g => simp [ha, hb] at hf; subst hf; exact hcheck h.1 ha
      | ok _ =>
        cases hfa : a.fit rem e with
        | error g => simp [ha, hb, hfa] at hf; subst hf; exact iha h.1 hfa
        | ok s =>
          cases s with
          | done r => simp [ha, hb, hfa] at hf
          | more r e' => simp only [ha, hb, hfa] at hf; exact ihb h.2 hf
  | choice a b iha ihb => intro rem e f hf; exact ihb h.2 hf
  | child i cid t ih => intro rem e f hf; exact ih h.2 hf
  | text t =>
    intro rem e f hf
    simp only [NTree.fit] at hf
    split at hf
    · simp at hf
    · split at hf <;> simp at hf
  | _ => intro rem e f hf; simp [NTree.fit] at hf

theorem fitK_fail {xs : List (Item P)} (h : AllFailIn Q xs) :
    ∀ {rem e f}, fitK (trees xs) rem e = .error f → Q f := by
  induction xs with
  | nil => intro rem e f hf; simp [fitK] at hf
  | cons x xs ih =>
    intro rem e f hf
    simp only [trees_cons, fitK, Except.bind_eq] at hf
    cases hx : x.2.fit rem e with
    | error g => simp [hx] at hf; subst hf; exact fit_fail Q h.head hx
    | ok s =>
      cases s with
      | done r => simp [hx] at hf
      | more r e' => simp only [hx] at hf; exact ih h.tail hf

/-- `choose` picks the option that the layout picks. -/
theorem choose_sat {w : Nat} {block : Block P} {segs st items id a b ta tb}
    (hb : BlockR block ⟨segs, st, items⟩) (ha : Rep a (.ok id) ta) (hb' : Rep b (.ok id) tb)
    (hfail : (NTree.choice ta tb).FailIn Q) (hfs : AllFailIn Q items) :
    Sat (choose w block a b)
      (fun c => ∃ r, ta.check = .ok () ∧ fitsLine w st (ta :: trees items) = .ok r ∧
        ChunkR c (id, if r then ta else tb))
      (fun e => Q e ∧ (ta.check = .error e ∨ fitsLine w st (ta :: trees items) = .error e ∨
        (ta.check = .ok () ∧ fitsLine w st (ta :: trees items) = .ok false ∧ tb = .fail e))) := by
  unfold choose
  refine Sat.bind' (Chunk.new_sat_ok ha) ?_ ?_
  · intro c1 hc1
    have hchk : ta.check = .ok () := hc1.2.check_ok
    rw [hb.col, hb.eol]
    have h2 : fitsLine w st (ta :: trees items) = .ok false → Sat (Chunk.new b)
        (fun c => ∃ r, ta.check = .ok () ∧ fitsLine w st (ta :: trees items) = .ok r ∧
          ChunkR c (id, if r then ta else tb))
        (fun e => Q e ∧ (ta.check = .error e ∨ fitsLine w st (ta :: trees items) = .error e ∨
          (ta.check = .ok () ∧ fitsLine w st (ta :: trees items) = .ok false ∧ tb = .fail e))) := by
      intro hfl
      refine (Chunk.new_sat_ok hb').mono ?_ ?_
      · intro c hc; exact ⟨false, hchk, hfl, hc⟩
      · rintro e rfl; exact ⟨hfail.2, .inr (.inr ⟨hchk, hfl, rfl⟩)⟩
    by_cases hw : st.col ≤ w
    · simp only [ge_iff_le, hw, if_true]
      rw [fits_eq hc1.2 hb.chunks.weaken]
      have hfl : fitsLine w st (ta :: trees items) =
          fitK (ta :: trees items) (w - st.col) st.eol := by simp [fitsLine, hw]
      cases hk : fitK (ta :: trees items) (w - st.col) st.eol with
      | error f =>
        rw [hk] at hfl
        exact ⟨fitK_fail Q (AllFailIn.cons (x := (id, ta)) hfail.1 hfs) hk, .inr (.inl hfl)⟩
      | ok r =>
        rw [hk] at hfl
        simp only [Exec.ofRes_ok_bind]
        cases r with
        | true => exact ⟨true, hchk, hfl, hc1⟩
        | false => exact h2 hfl
    · simp only [ge_iff_le, hw, if_false]
      exact h2 (by simp [fitsLine, hw])
  · rintro e rfl
    exact ⟨hfail.1, .inl rfl⟩

end PPP
