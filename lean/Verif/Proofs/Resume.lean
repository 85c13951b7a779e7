import Verif.Model.Resume
import Verif.Proofs.Loops
/-
The state-keeping iterators: they agree with the plain model, and which blocks they leave behind.
-/
namespace PPP
variable {P : PrettyDoc}
open Lean.Order

section
variable {σ E α β : Type}

theorem Keep.run_bind (x : Keep σ E α) (f : α → Keep σ E β) (s : σ) :
    (x >>= f).run s = match x.run s with
      | none => none
      | some (.ok a, s') => (f a).run s'
      | some (.error e, s') => some (.error e, s') := by
  change Option.bind (x s) (fun r => ExceptT.bindCont f r.1 r.2) = _
  change _ = match x s with
      | none => none
      | some (.ok a, s') => (f a).run s'
      | some (.error e, s') => some (.error e, s')
  match x s with
  | none => rfl
  | some (.ok a, s') => rfl
  | some (.error e, s') => rfl

theorem Keep.run_of (x : Exec E α) (s : σ) : (Keep.of x).run s = x.run.map fun r => (r, s) := rfl

theorem Keep.run_pure (a : α) (s : σ) : (pure a : Keep σ E α).run s = some (.ok a, s) := rfl

/-- Partial correctness with the state kept after a failure. -/
def KSat (x : Keep σ E α) (s : σ) (post : Except (Fail E) α → σ → Prop) : Prop :=
  ∀ r s', x.run s = some (r, s') → post r s'

theorem KSat.admissible (s : σ) (post : Except (Fail E) α → σ → Prop) :
    Lean.Order.admissible fun x : Keep σ E α => KSat x s post := by
  apply admissible_pi
  intro r
  apply admissible_pi
  intro s'
  exact admissible_apply (P := fun (_ : σ) (x : Option (Except (Fail E) α × σ)) => x = some (r, s') → post r s') (x := s)
    (Option.admissible_eq_some _ _)


theorem KSat.bind {x : Keep σ E α} {f : α → Keep σ E β} {s : σ}
    {mid : Except (Fail E) α → σ → Prop} {post : Except (Fail E) β → σ → Prop}
    (h : KSat x s mid) (h1 : ∀ a s', mid (.ok a) s' → KSat (f a) s' post)
    (h2 : ∀ e s', mid (.error e) s' → post (.error e) s') : KSat (x >>= f) s post := by
  intro r s' hr
  rw [Keep.run_bind] at hr
  match hx : x.run s with
  | none => rw [hx] at hr; cases hr
  | some (.ok a, s1) => rw [hx] at hr; exact h1 a s1 (h _ _ hx) r s' hr
  | some (.error e, s1) =>
    rw [hx] at hr
    simp only [Option.some.injEq, Prod.mk.injEq] at hr
    obtain ⟨rfl, rfl⟩ := hr
    exact h2 e _ (h _ _ hx)

theorem KSat.of {x : Exec E α} {s : σ} {ok : α → Prop} {er : Fail E → Prop} (h : Sat x ok er) :
    KSat (Keep.of x) s (fun r s' => s' = s ∧ match r with
      | .ok a => ok a
      | .error e => er e) := by
  intro r s' hr
  rw [Keep.run_of] at hr
  match hx : x.run with
  | none => rw [hx] at hr; cases hr
  | some r0 =>
    rw [hx] at hr
    simp only [Option.map_some, Option.some.injEq, Prod.mk.injEq] at hr
    obtain ⟨rfl, rfl⟩ := hr
    unfold Sat at h
    rw [hx] at h
    refine ⟨rfl, ?_⟩
    cases r0 <;> exact h

theorem KSat.pure {a : α} {s : σ} {post : Except (Fail E) α → σ → Prop} (h : post (.ok a) s) :
    KSat (pure a : Keep σ E α) s post := by
  intro r s' hr
  rw [Keep.run_pure] at hr
  simp only [Option.some.injEq, Prod.mk.injEq] at hr
  obtain ⟨rfl, rfl⟩ := hr
  exact h

theorem KSat.mono {x : Keep σ E α} {s : σ} {post post' : Except (Fail E) α → σ → Prop}
    (h : KSat x s post) (h1 : ∀ r s', post r s' → post' r s') : KSat x s post' :=
  fun r s' hr => h1 r s' (h r s' hr)

/-- The state-keeping computation `x` does what the plain one `y` does. -/
def KAg (x : Keep σ E α) (s : σ) (c : β → α × σ) (y : Exec E β) : Prop :=
  ∀ r, y.run = some r → match r with
    | .ok b => x.run s = some (.ok (c b).1, (c b).2)
    | .error f => ∃ s', x.run s = some (.error f, s')

theorem KAg.admissible (x : Keep σ E α) (s : σ) (c : β → α × σ) :
    Lean.Order.admissible fun y : Exec E β => KAg x s c y := by
  apply admissible_pi
  intro r
  exact Option.admissible_eq_some _ _

theorem KAg.of {x : Exec E α} {s : σ} : KAg (Keep.of x) s (fun a => (a, s)) x := by
  intro r hr
  rw [Keep.run_of, hr]
  cases r
  · exact ⟨s, rfl⟩
  · rfl

theorem KAg.pure {a : α} {s : σ} {c : β → α × σ} {b : β} (h : c b = (a, s)) :
    KAg (pure a : Keep σ E α) s c (pure b) := by
  intro r hr
  have hr : some (.ok b) = some r := hr
  injection hr with hr
  subst hr
  simp only [h]
  rfl

theorem KAg.bind {γ δ : Type} {x : Keep σ E α} {s : σ} {c : β → α × σ} {y : Exec E β}
    {f : α → Keep σ E γ} {g : β → Exec E δ} {d : δ → γ × σ} (h : KAg x s c y)
    (hf : ∀ b, KAg (f (c b).1) (c b).2 d (g b)) : KAg (x >>= f) s d (y >>= g) := by
  intro r hr
  rw [Exec.run_bind] at hr
  match hy : y.run with
  | none => rw [hy] at hr; cases hr
  | some (.ok b) =>
    rw [hy] at hr
    have h1 := h _ hy
    simp only at h1 hr
    have h2 := hf b r hr
    rw [Keep.run_bind, h1]
    exact h2
  | some (.error e) =>
    rw [hy] at hr
    injection hr with hr
    subst hr
    obtain ⟨s', h1⟩ := h _ hy
    simp only
    rw [Keep.run_bind, h1]
    exact ⟨s', rfl⟩

end

/-! ### Agreement with the plain model -/

theorem KAg.panicking {σ α β : Type} {s : σ} {c : β → α × σ} :
    KAg (Keep.of panicking : Keep σ P.Err α) s c panicking := by
  intro r hr
  have hr : some (.error .panic) = some r := hr
  injection hr with hr
  subst hr
  exact ⟨s, rfl⟩

theorem expandFirstLoop_ag (next : List (Block P)) (block : Block P) (stack : List (Chunk P)) :
    KAg (expandFirstLoopK block stack) next (fun r => (r.2, r.1)) (expandFirstLoop next block stack) := by
  revert next block stack
  apply expandFirstLoop.fixpoint_induct (motive := fun F => ∀ next block stack,
    KAg (expandFirstLoopK block stack) next (fun r => (r.2, r.1)) (F next block stack))
  · exact admissible_pi_apply _ fun _ => admissible_pi_apply _ fun _ => admissible_pi_apply _ fun _ =>
      KAg.admissible _ _ _
  · intro F ih next block stack
    rw [expandFirstLoopK.eq_def]
    cases stack with
    | nil => exact .pure rfl
    | cons chunk stack =>
      obtain ⟨cn, id⟩ := chunk
      cases cn with
      | empty => exact ih _ _ _
      | textual t => exact ih _ _ _
      | choice a b => exact ih _ _ _
      | child i c => exact ih _ _ _
      | endOfLine => exact ih _ _ _
      | focusMark => exact ih _ _ _
      | newline ind =>
        refine KAg.bind .of fun b => ?_
        intro r hr
        have := ih (b :: next) { block with chunks := [] } stack r hr
        rw [Keep.run_bind]
        exact this
      | concat l r =>
        refine KAg.bind .of fun a => KAg.bind .of fun b => ih _ _ _

theorem expandLastLoop_ag (prev : List (Block P)) (block : Block P) (chunks stack : List (Chunk P)) :
    KAg (expandLastLoopK block chunks stack) prev (fun r => (r.2, r.1))
      (expandLastLoop prev block chunks stack) := by
  revert prev block chunks stack
  apply expandLastLoop.fixpoint_induct (motive := fun F => ∀ prev block chunks stack,
    KAg (expandLastLoopK block chunks stack) prev (fun r => (r.2, r.1)) (F prev block chunks stack))
  · exact admissible_pi_apply _ fun _ => admissible_pi_apply _ fun _ => admissible_pi_apply _ fun _ =>
      admissible_pi_apply _ fun _ => KAg.admissible _ _ _
  · intro F ih prev block chunks stack
    rw [expandLastLoopK.eq_def]
    cases stack with
    | nil => exact .pure rfl
    | cons chunk stack =>
      obtain ⟨cn, id⟩ := chunk
      cases cn with
      | empty => exact ih _ _ _ _
      | textual t => exact ih _ _ _ _
      | choice a b => exact ih _ _ _ _
      | child i c => exact ih _ _ _ _
      | endOfLine => exact ih _ _ _ _
      | focusMark => exact ih _ _ _ _
      | newline ind =>
        intro r hr
        rw [Keep.run_bind]
        exact KAg.bind (s := ({ block with chunks := chunks.reverse } :: prev))
          (f := fun b => expandLastLoopK b [] stack) (d := fun r => (r.2, r.1)) .of
          (fun b => ih _ b [] stack) r hr
      | concat l r =>
        refine KAg.bind .of fun a => KAg.bind .of fun b => ih _ _ _ _

theorem printNextLoop_ag (w : Nat) (next : List (Block P)) (block : Block P) :
    KAg (printLoopK .down w block) next (fun r => r) (printNextLoop w next block) := by
  revert next block
  apply printNextLoop.fixpoint_induct (width := w) (motive := fun F => ∀ next block,
    KAg (printLoopK .down w block) next (fun r => r) (F next block))
  · exact admissible_pi_apply _ fun _ => admissible_pi_apply _ fun _ => KAg.admissible _ _ _
  · intro F ih next block
    rw [printLoopK.eq_def]
    obtain ⟨segs, col, eol, chunks⟩ := block
    cases chunks with
    | nil =>
      exact KAg.pure rfl
    | cons chunk chunks =>
      obtain ⟨cn, id⟩ := chunk
      cases cn with
      | empty => exact .panicking
      | textual t => exact KAg.bind .of fun b => ih _ _
      | choice a b =>
        refine KAg.bind .of fun c => KAg.bind (expandFirstLoop_ag _ _ _) fun r => ih _ _
      | child i c => refine KAg.bind .of fun c => KAg.bind (expandFirstLoop_ag _ _ _) fun r => ih _ _
      | endOfLine => exact ih _ _
      | focusMark => exact ih _ _
      | newline ind => exact .panicking
      | concat l r => exact .panicking

theorem printPrevLoop_ag (w : Nat) (prev : List (Block P)) (block : Block P) :
    KAg (printLoopK .up w block) prev (fun r => r) (printPrevLoop w prev block) := by
  revert prev block
  apply printPrevLoop.fixpoint_induct (width := w) (motive := fun F => ∀ prev block,
    KAg (printLoopK .up w block) prev (fun r => r) (F prev block))
  · exact admissible_pi_apply _ fun _ => admissible_pi_apply _ fun _ => KAg.admissible _ _ _
  · intro F ih prev block
    rw [printLoopK.eq_def]
    obtain ⟨segs, col, eol, chunks⟩ := block
    cases chunks with
    | nil =>
      exact KAg.pure rfl
    | cons chunk chunks =>
      obtain ⟨cn, id⟩ := chunk
      cases cn with
      | empty => exact .panicking
      | textual t => exact KAg.bind .of fun b => ih _ _
      | choice a b =>
        refine KAg.bind .of fun c => KAg.bind (expandLastLoop_ag _ _ _ _) fun r => ih _ _
      | child i c => refine KAg.bind .of fun c => KAg.bind (expandLastLoop_ag _ _ _ _) fun r => ih _ _
      | endOfLine => exact ih _ _
      | focusMark => exact ih _ _
      | newline ind => exact .panicking
      | concat l r => exact .panicking

/-! ### The blocks left behind -/

/-- A block as `Block::new` makes it. -/
def Block.Fresh (b : Block P) : Prop :=
  b.prefixLen = segsWidth b.segments ∧ segsWidth b.segments ≤ maxWidth ∧ b.atEol = false

theorem Block.new_sat (ind : Indent P) (chunks : List (Chunk P)) :
    Sat (Block.new ind chunks) (fun b => b.Fresh ∧ b.chunks = chunks) (fun e => e = .overflow) := by
  unfold Block.new
  by_cases h : segsWidth ind.reverse ≤ maxWidth
  · simp only [h, if_true]
    exact ⟨⟨rfl, h, rfl⟩, rfl⟩
  · simp only [h, if_false]
    exact Sat.overflowing rfl

variable (Q : Pred P)

/-- A stack of good blocks with at most `n` units of work left in them. -/
structure Stack (dir : Dir) (n : Nat) (s : List (Block P)) (pv : List (BSpec P)) : Prop where
  rep : All2 BlockR s pv
  fail : PvFailIn Q pv
  size : pvSize pv ≤ n
  fresh : dir = .down → ∀ b ∈ s, b.Fresh

theorem Stack.push {dir n} {s : List (Block P)} {pv} (h : Stack Q dir n s pv) {b : Block P} {items m}
    (hc : ChunksR b.chunks items) (hf : AllFailIn Q items) (hm : n + sizes (trees items) + 1 ≤ m)
    (hfr : dir = .down → b.Fresh) :
    Stack Q dir m (b :: s) (⟨b.segments, ⟨b.prefixLen, b.atEol⟩, items⟩ :: pv) := by
  refine ⟨.cons ⟨rfl, rfl, rfl, hc⟩ h.rep, ?_, ?_, ?_⟩
  · intro p hp
    rcases List.mem_cons.1 hp with rfl | hp
    · exact hf
    · exact h.fail p hp
  · have := h.size
    simp only [pvSize, List.map_cons, List.sum_cons] at *
    omega
  · intro hd b' hb'
    rcases List.mem_cons.1 hb' with rfl | hb'
    · exact hfr hd
    · exact h.fresh hd b' hb'

/-- What is left when expanding: a stack and, if it succeeded, a block; with at most `m` units of work. -/
def ExpandPost (dir : Dir) (m : Nat) (r : Except (Fail P.Err) (Block P)) (s : List (Block P)) : Prop :=
  ∃ pv n, Stack Q dir n s pv ∧ match r with
    | .ok b => ∃ items, ChunksR b.chunks items ∧ AllFailIn Q items ∧ n + sizes (trees items) ≤ m
    | .error _ => n ≤ m

theorem expandFirstLoopK_sat (block : Block P) (stack : List (Chunk P)) :
    ∀ s pv n items xs m, Stack Q .down n s pv → ChunksR block.chunks items → AllFailIn Q items →
      All2 ChunkR stack xs → AllFailIn Q xs → n + sizes (trees items) + sizes (trees xs) ≤ m →
      KSat (expandFirstLoopK block stack) s (ExpandPost Q .down m) := by
  revert block stack
  apply expandFirstLoopK.fixpoint_induct (motive := fun F => ∀ block stack,
    ∀ s pv n items xs m, Stack Q .down n s pv → ChunksR block.chunks items → AllFailIn Q items →
      All2 ChunkR stack xs → AllFailIn Q xs → n + sizes (trees items) + sizes (trees xs) ≤ m →
      KSat (F block stack) s (ExpandPost Q .down m))
  · exact admissible_pi_apply _ fun _ => admissible_pi_apply _ fun _ =>
      admissible_pi _ fun _ => admissible_pi _ fun _ => admissible_pi _ fun _ =>
      admissible_pi _ fun _ => admissible_pi _ fun _ => admissible_pi _ fun _ =>
      admissible_pi _ fun _ => admissible_pi _ fun _ => admissible_pi _ fun _ =>
      admissible_pi _ fun _ => admissible_pi _ fun _ => admissible_pi _ fun _ => 
      KSat.admissible _ _
  · intro F ih block stack s pv n items xs m hs hc hf hst hxf hm
    cases hst with
    | nil => exact .pure ⟨pv, n, hs, items, hc, hf, by simp at hm; omega⟩
    | @cons chunk x stack xs hch hst =>
      obtain ⟨cn, id⟩ := chunk
      obtain ⟨id', t⟩ := x
      obtain ⟨hid, hcn⟩ := hch
      simp only at hid hcn
      subst hid
      simp only [trees_cons, sizes_cons] at hm
      have htl := hxf.tail
      have keep : t.Atomic → ChunkR ⟨cn, id⟩ (id, t) →
          KSat (F { block with chunks := ⟨cn, id⟩ :: block.chunks } stack) s (ExpandPost Q .down m) := by
        intro hat hch
        refine ih _ _ s pv n ((id, t) :: items) xs m hs (.cons ⟨hch, hat⟩ hc) (.cons hxf.head hf)
          hst htl ?_
        simp only [trees_cons, sizes_cons]; omega
      cases hcn with
      | empty =>
        exact ih _ _ s pv n items xs m hs hc hf hst htl (by omega)
      | eol => exact keep trivial ⟨rfl, .eol⟩
      | text => exact keep trivial ⟨rfl, .text⟩
      | mark => exact keep trivial ⟨rfl, .mark⟩
      | choice ha hb => exact keep trivial ⟨rfl, .choice ha hb⟩
      | child h => exact keep trivial ⟨rfl, .child h⟩
      | @newline ind =>
        simp only [NTree.size] at hm
        refine KSat.bind (.of (Block.new_sat _ _)) ?_ ?_
        · rintro b s' ⟨rfl, hb1, hb2⟩
          intro r s' hr
          rw [Keep.run_bind] at hr
          refine ih { block with chunks := [] } stack (b :: _) _ (n + sizes (trees items) + 1) [] xs m
            (hs.push Q (by rw [hb2]; exact hc) hf (Nat.le_refl _) fun _ => hb1) .nil
            (fun _ h => by simp at h) hst htl ?_ r s' hr
          simp; omega
        · rintro e s' ⟨rfl, _⟩
          exact ⟨pv, n, hs, by simp only; omega⟩
      | @concat a b ta tb ha hb =>
        simp only [NTree.size] at hm
        have hfl := hxf.head
        refine KSat.bind (.of (Chunk.new_sat_ok ha)) ?_ ?_
        · rintro l s' ⟨rfl, hl⟩
          refine KSat.bind (.of (Chunk.new_sat_ok hb)) ?_ ?_
          · rintro r s' ⟨rfl, hr⟩
            refine ih _ _ _ pv n items _ m hs hc hf (.cons hr (.cons hl hst)) (.cons hfl.2 (.cons hfl.1 htl)) ?_
            simp only [trees_cons, sizes_cons]; omega
          · rintro e s' ⟨rfl, _⟩
            exact ⟨pv, n, hs, by simp only; omega⟩
        · rintro e s' ⟨rfl, _⟩
          exact ⟨pv, n, hs, by simp only; omega⟩

theorem expandLastLoopK_sat (block : Block P) (chunks stack : List (Chunk P)) :
    ∀ s pv n items ys xs m, Stack Q .up n s pv → ChunksR block.chunks items → AllFailIn Q items →
      ChunksR chunks.reverse ys → AllFailIn Q ys →
      All2 ChunkR stack xs → AllFailIn Q xs →
      n + sizes (trees items) + sizes (trees ys) + sizes (trees xs) ≤ m →
      KSat (expandLastLoopK block chunks stack) s (ExpandPost Q .up m) := by
  revert block chunks stack
  apply expandLastLoopK.fixpoint_induct (motive := fun F => ∀ block chunks stack,
    ∀ s pv n items ys xs m, Stack Q .up n s pv → ChunksR block.chunks items → AllFailIn Q items →
      ChunksR chunks.reverse ys → AllFailIn Q ys →
      All2 ChunkR stack xs → AllFailIn Q xs →
      n + sizes (trees items) + sizes (trees ys) + sizes (trees xs) ≤ m →
      KSat (F block chunks stack) s (ExpandPost Q .up m))
  · exact admissible_pi_apply _ fun _ => admissible_pi_apply _ fun _ =>
      admissible_pi_apply _ fun _ => admissible_pi _ fun _ => admissible_pi _ fun _ =>
      admissible_pi _ fun _ => admissible_pi _ fun _ => admissible_pi _ fun _ =>
      admissible_pi _ fun _ => admissible_pi _ fun _ => admissible_pi _ fun _ =>
      admissible_pi _ fun _ => admissible_pi _ fun _ => admissible_pi _ fun _ =>
      admissible_pi _ fun _ => admissible_pi _ fun _ => admissible_pi _ fun _ =>
      admissible_pi _ fun _ => 
      KSat.admissible _ _
  · intro F ih block chunks stack s pv n items ys xs m hs hc hf hcy hfy hst hxf hm
    cases hst with
    | nil =>
      refine .pure ⟨pv, n, hs, ys ++ items, hcy.append hc, hfy.append hf, ?_⟩
      simp only [trees_append, sizes_append] at *; simp at hm; omega
    | @cons chunk x stack xs hch hst =>
      obtain ⟨cn, id⟩ := chunk
      obtain ⟨id', t⟩ := x
      obtain ⟨hid, hcn⟩ := hch
      simp only at hid hcn
      subst hid
      simp only [trees_cons, sizes_cons] at hm
      have htl := hxf.tail
      have keep : t.Atomic → ChunkR ⟨cn, id⟩ (id, t) →
          KSat (F block (⟨cn, id⟩ :: chunks) stack) s (ExpandPost Q .up m) := by
        intro hat hch
        refine ih _ _ _ s pv n items (ys ++ [(id, t)]) xs m hs hc hf ?_
          (hfy.append (.cons hxf.head (fun _ h => by simp at h))) hst htl ?_
        · rw [List.reverse_cons]; exact hcy.append (.cons ⟨hch, hat⟩ .nil)
        · simp only [trees_cons, sizes_cons, trees_append, sizes_append] at *; simp; omega
      cases hcn with
      | empty => exact ih _ _ _ s pv n items ys xs m hs hc hf hcy hfy hst htl (by omega)
      | eol => exact keep trivial ⟨rfl, .eol⟩
      | text => exact keep trivial ⟨rfl, .text⟩
      | mark => exact keep trivial ⟨rfl, .mark⟩
      | choice ha hb => exact keep trivial ⟨rfl, .choice ha hb⟩
      | child h => exact keep trivial ⟨rfl, .child h⟩
      | @newline ind =>
        simp only [NTree.size] at hm
        have hpush : Stack Q .up (n + sizes (trees ys) + 1) ({ block with chunks := chunks.reverse } :: s) _ :=
          hs.push Q (b := { block with chunks := chunks.reverse }) hcy hfy (Nat.le_refl _) (by simp)
        intro r s' hr
        rw [Keep.run_bind] at hr
        refine KSat.bind (s := ({ block with chunks := chunks.reverse } :: s))
          (f := fun b => F b [] stack) (post := ExpandPost Q .up m) (.of (Block.new_sat ind block.chunks)) ?_ ?_ r s' hr
        · rintro b s' ⟨rfl, hb1, hb2⟩
          refine ih b [] stack _ _ (n + sizes (trees ys) + 1) items [] xs m hpush (by rw [hb2]; exact hc) hf
            .nil (fun _ h => by simp at h) hst htl ?_
          simp; omega
        · rintro e s' ⟨rfl, _⟩
          exact ⟨_, _, hpush, by simp only; omega⟩
      | @concat a b ta tb ha hb =>
        simp only [NTree.size] at hm
        have hfl := hxf.head
        refine KSat.bind (.of (Chunk.new_sat_ok hb)) ?_ ?_
        · rintro r s' ⟨rfl, hr⟩
          refine KSat.bind (.of (Chunk.new_sat_ok ha)) ?_ ?_
          · rintro l s' ⟨rfl, hl⟩
            refine ih _ _ _ _ pv n items ys _ m hs hc hf hcy hfy (.cons hl (.cons hr hst))
              (.cons hfl.1 (.cons hfl.2 htl)) ?_
            simp only [trees_cons, sizes_cons]; omega
          · rintro e s' ⟨rfl, _⟩
            exact ⟨pv, n, hs, by simp only; omega⟩
        · rintro e s' ⟨rfl, _⟩
          exact ⟨pv, n, hs, by simp only; omega⟩

theorem expandK_sat (dir : Dir) {block : Block P} {chunk : Chunk P} {s pv n items x m}
    (hs : Stack Q dir n s pv) (hc : ChunksR block.chunks items) (hf : AllFailIn Q items)
    (hch : ChunkR chunk x) (hx : x.2.FailIn Q) (hm : n + sizes (trees items) + x.2.size ≤ m) :
    KSat (expandK dir block chunk) s (ExpandPost Q dir m) := by
  have hxs : AllFailIn Q [x] := .cons hx (fun _ h => by simp at h)
  cases dir with
  | down =>
    exact expandFirstLoopK_sat Q block [chunk] s pv n items [x] m hs hc hf (.cons hch .nil) hxs
      (by simp; omega)
  | up =>
    exact expandLastLoopK_sat Q block [] [chunk] s pv n items [] [x] m hs hc hf .nil
      (fun _ h => by simp at h) (.cons hch .nil) hxs (by simp; omega)

theorem printLoopK_sat (dir : Dir) (w : Nat) (block : Block P) :
    ∀ s pv n items m, Stack Q dir n s pv → ChunksR block.chunks items → AllFailIn Q items →
      n + sizes (trees items) ≤ m →
      KSat (printLoopK dir w block) s (fun _ s' => ∃ pv', Stack Q dir m s' pv') := by
  revert block
  apply printLoopK.fixpoint_induct (dir := dir) (width := w) (motive := fun F => ∀ block,
    ∀ s pv n items m, Stack Q dir n s pv → ChunksR block.chunks items → AllFailIn Q items →
      n + sizes (trees items) ≤ m →
      KSat (F block) s (fun _ s' => ∃ pv', Stack Q dir m s' pv'))
  · exact admissible_pi_apply _ fun _ => admissible_pi _ fun _ => admissible_pi _ fun _ =>
      admissible_pi _ fun _ => admissible_pi _ fun _ => admissible_pi _ fun _ =>
      admissible_pi _ fun _ => admissible_pi _ fun _ => admissible_pi _ fun _ =>
      admissible_pi _ fun _ => 
      KSat.admissible _ _
  · intro F ih block s pv n items m hs hc hf hm
    have up : ∀ {n' s' pv'}, Stack Q dir n' s' pv' → n' ≤ m → ∃ pv', Stack Q dir m s' pv' :=
      fun h hn => ⟨_, h.rep, h.fail, Nat.le_trans h.size hn, h.fresh⟩
    have pan : KSat (Keep.of panicking : Keep (List (Block P)) P.Err (Line P)) s
        (fun _ s' => ∃ pv', Stack Q dir m s' pv') := by
      refine (KSat.of (x := (panicking : Exec P.Err (Line P))) (ok := fun _ => True)
        (er := fun _ => True) (Sat.panicking trivial)).mono ?_
      rintro r s' ⟨rfl, _⟩
      exact up hs (by omega)
    obtain ⟨segs, col, eol, chunks⟩ := block
    simp only at hc
    cases hc with
    | nil => exact KSat.pure (up hs (by omega))
    | @cons chunk x chunks items hch hc =>
      obtain ⟨cn, id⟩ := chunk
      obtain ⟨id', t⟩ := x
      obtain ⟨⟨hid, hcn⟩, hat⟩ := hch
      simp only at hid hcn hat
      subst hid
      simp only [trees_cons, sizes_cons] at hm
      have htl := hf.tail
      have hbr : BlockR (⟨segs, col, eol, chunks⟩ : Block P) ⟨segs, ⟨col, eol⟩, items⟩ := ⟨rfl, rfl, rfl, hc⟩
      have expd : ∀ {c : Chunk P} {x : Item P}, ChunkR c x → x.2.FailIn Q → x.2.size < t.size →
          KSat (expandK dir ⟨segs, col, eol, chunks⟩ c >>= fun b => F b) s
            (fun _ s' => ∃ pv', Stack Q dir m s' pv') := by
        intro c x hc1 hx1 hsz
        refine KSat.bind (expandK_sat Q dir hs hc htl hc1 hx1 (Nat.le_refl _)) ?_ ?_
        · rintro b' s' ⟨pv', n', h1, items', h2, h3, h4⟩
          exact ih b' s' pv' n' items' m h1 h2 h3 (by omega)
        · rintro e s' ⟨pv', n', h1, h2⟩
          simp only at h2
          exact up h1 (by omega)
      cases hcn with
      | empty => exact hat.elim
      | newline => exact hat.elim
      | concat => exact hat.elim
      | mark => exact ih _ s pv n items m hs hc htl (by omega)
      | eol => exact ih _ s pv n items m hs hc htl (by omega)
      | @text t =>
        refine KSat.bind (.of (ok := fun b => b.chunks = chunks) (er := fun _ => True) ?_) ?_ ?_
        · unfold Block.pushText
          split
          · exact Sat.throwErr trivial
          · split
            · exact rfl
            · exact Sat.overflowing trivial
        · rintro b s' ⟨rfl, hb⟩
          exact ih b _ pv n items m hs (by rw [hb]; exact hc) htl (by omega)
        · rintro e s' ⟨rfl, _⟩
          exact up hs (by omega)
      | @child i note cd t hr =>
        refine KSat.bind (.of (Chunk.new_sat hr)) ?_ ?_
        · rintro c s' ⟨rfl, cd', rfl, hc1⟩
          exact expd hc1 hf.head.2 (by simp [NTree.size])
        · rintro e s' ⟨rfl, _⟩
          exact up hs (by omega)
      | @choice a b ta tb ha hb =>
        refine KSat.bind (.of (choose_sat Q (w := w) hbr ha hb hf.head htl)) ?_ ?_
        · rintro c s' ⟨rfl, r, _, _, hc1⟩
          exact expd hc1 (failIn_ite Q hf.head) (size_ite_lt r)
        · rintro e s' ⟨rfl, _⟩
          exact up hs (by omega)

end PPP
