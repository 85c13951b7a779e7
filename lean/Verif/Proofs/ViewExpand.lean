import Verif.Proofs.View
import Verif.Proofs.Expand
/-
What chunks, blocks and expansions show.
-/
namespace PPP
open Lean.Order
variable {P : PrettyDoc}

/-- Failures of the printer itself. -/
def OwnFail (f : Fail P.Err) : Prop :=
  f = .overflow ∨ f = .panic ∨ f = .err .textAfterEndOfLine ∨ f = .err .missingFocusMark ∨ f = .err .missingText ∨
    ∃ i, f = .err (.invalidPath i)

theorem OwnFail.overflow : OwnFail (P := P) .overflow := .inl rfl
theorem OwnFail.panic : OwnFail (P := P) .panic := .inr (.inl rfl)
theorem OwnFail.eol : OwnFail (P := P) (.err .textAfterEndOfLine) := .inr (.inr (.inl rfl))

theorem PSat.panicking {α : Type} {ok : α → Prop} {er : Fail P.Err → Prop} (h : ∀ f, OwnFail f → er f) :
    PSat PPP.panicking ok er := .error (h _ .panic)

/-- A block shows the line `done ++ items`, of which `done` has been printed. -/
structure BlockV (b : Block P) (done items : View P) : Prop where
  flat : Flatly done
  chunks : ChunksR b.chunks items
  cols : columns done ≤ b.prefixLen

theorem BlockV.oneLine {b : Block P} {done items} (h : BlockV b done items) : OneLine (done ++ items) :=
  h.flat.oneLine.append h.chunks.oneLine

/-- Blocks that follow the current line. -/
inductive NextV : List (Block P) → View P → Prop where
  | nil : NextV [] []
  | cons {b bs items V id ind} : ChunksR b.chunks items → NextV bs V →
      NextV (b :: bs) ((id, .newline ind) :: (items ++ V))

/-- Blocks before the current line, nearest first. -/
inductive PrevV : List (Block P) → View P → Prop where
  | nil : PrevV [] []
  | cons {b bs done items V id ind} : BlockV b done items → PrevV bs V →
      PrevV (b :: bs) (V ++ (done ++ items) ++ [(id, .newline ind)])

theorem NextV.starts {bs : List (Block P)} {V} (h : NextV bs V) : StartsLine V := by
  cases h with
  | nil => exact .inl rfl
  | cons _ _ => exact .inr ⟨_, _, rfl, _, rfl⟩

theorem PrevV.ends {bs : List (Block P)} {V} (h : PrevV bs V) : EndsLine V := by
  cases h with
  | nil => exact .inl rfl
  | cons _ _ => exact .inr ⟨_, _, rfl, _, rfl⟩

theorem stackView_append (xs ys : View P) : stackView (xs ++ ys) = stackView xs ++ stackView ys := by
  simp [stackView]
theorem stackView_single (x : P.Id × NTree P) : stackView [x] = shown x.1 x.2 := by simp [stackView]

theorem shown_atomic {id : P.Id} {t : NTree P} (h : t.Atomic) : shown id t = [(id, t)] := by
  cases t <;> first | rfl | exact h.elim

theorem stackView_atomic {cs : List (Chunk P)} {items : View P} (h : ChunksR cs items) : stackView items = items := by
  unfold ChunksR at h
  induction h with
  | nil => rfl
  | @cons c x cs xs h _ ih =>
    rw [← List.singleton_append, stackView_append, ih, stackView_single, shown_atomic h.2]

theorem partsFail_atomic {t : NTree P} (h : t.Atomic) {f} : ¬ PartsFail t f := by
  cases t <;> first | exact h.elim | simp [PartsFail, NTree.parts]

/-- The result of expanding towards the first block. -/
structure FirstV (r : List (Block P) × Block P) (block : Block P) (V : View P) : Prop where
  segs : r.2.segments = block.segments
  col : r.2.prefixLen = block.prefixLen
  split : ∃ items B, V = items ++ B ∧ ChunksR r.2.chunks items ∧ NextV r.1 B

theorem expandFirstLoop_view {er : Fail P.Err → Prop} (ho : er .overflow) :
    ∀ (next : List (Block P)) (block : Block P) (stack : List (Chunk P)) (xs items B : View P),
    All2 ChunkR stack xs → ChunksR block.chunks items → NextV next B →
    (∀ x ∈ xs, ∀ f, PartsFail x.2 f → er f) →
    PSat (expandFirstLoop next block stack) (fun r => FirstV r block (stackView xs.reverse ++ items ++ B)) er := by
  apply expandFirstLoop.fixpoint_induct (motive := fun ex => ∀ (next : List (Block P)) (block : Block P)
    (stack : List (Chunk P)) (xs items B : View P),
    All2 ChunkR stack xs → ChunksR block.chunks items → NextV next B →
    (∀ x ∈ xs, ∀ f, PartsFail x.2 f → er f) →
    PSat (ex next block stack) (fun r => FirstV r block (stackView xs.reverse ++ items ++ B)) er)
  · exact admissible_pi_apply _ fun _ => admissible_pi_apply _ fun _ => admissible_pi_apply _ fun _ =>
      admissible_pi _ fun _ => admissible_pi _ fun _ => admissible_pi _ fun _ => admissible_pi _ fun _ =>
      admissible_pi _ fun _ => admissible_pi _ fun _ => admissible_pi _ fun _ => PSat.admissible _ _
  intro ex ih next block stack xs items B hs hi hN hf
  cases hs with
  | nil => exact .pure ⟨rfl, rfl, items, B, by simp [stackView], hi, hN⟩
  | @cons c x stack xs hc hs =>
    obtain ⟨id, t⟩ := x
    obtain ⟨cn, cid⟩ := c
    obtain ⟨hid, hcn⟩ := hc
    simp only at hid hcn
    subst hid
    have hf' : ∀ y ∈ xs, ∀ f, PartsFail y.2 f → er f := fun y hy => hf y (by simp [hy])
    have keep : t.Atomic → ChunkR ⟨cn, cid⟩ (cid, t) →
        PSat (ex next { block with chunks := ⟨cn, cid⟩ :: block.chunks } stack)
          (fun r => FirstV r block (stackView ((cid, t) :: xs).reverse ++ items ++ B)) er := by
      intro hat hch
      refine (ih next { block with chunks := ⟨cn, cid⟩ :: block.chunks } stack xs ((cid, t) :: items) B hs
        (.cons ⟨hch, hat⟩ hi) hN hf').mono ?_ (fun _ h => h)
      rintro r ⟨h1, h2, h3⟩
      refine ⟨h1, h2, ?_⟩
      simpa [stackView_append, stackView_single, shown_atomic hat] using h3
    cases hcn with
    | empty =>
      refine (ih next block stack xs items B hs hi hN hf').mono ?_ (fun _ h => h)
      rintro r ⟨h1, h2, h3⟩
      refine ⟨h1, h2, ?_⟩
      simpa [stackView_append, stackView_single, shown_empty] using h3
    | eol => exact keep trivial ⟨rfl, .eol⟩
    | text => exact keep trivial ⟨rfl, .text⟩
    | mark => exact keep trivial ⟨rfl, .mark⟩
    | choice ha hb => exact keep trivial ⟨rfl, .choice ha hb⟩
    | child h => exact keep trivial ⟨rfl, .child h⟩
    | @newline ind =>
      dsimp only
      unfold Block.new
      simp only
      split
      · refine (ih (⟨ind.reverse, segsWidth ind.reverse, false, block.chunks⟩ :: next) { block with chunks := [] } stack
          xs [] _ hs .nil (.cons (id := cid) (ind := ind.reverse) hi hN) hf').mono
          ?_ (fun _ h => h)
        rintro r ⟨h1, h2, h3⟩
        refine ⟨h1, h2, ?_⟩
        simpa [stackView_append, stackView_single, shown, NTree.parts] using h3
      · exact .error ho
    | @concat a b ta tb ha hb =>
      have hab := hf (cid, .concat ta tb) (by simp)
      refine .bind (Chunk.new_sat_ok ha).psat ?_ ?_
      · intro l hl
        refine .bind (Chunk.new_sat_ok hb).psat ?_ ?_
        · intro r hr
          refine (ih next block (r :: l :: stack) ((cid, tb) :: (cid, ta) :: xs) items B (.cons hr (.cons hl hs)) hi hN
            ?_).mono ?_ (fun _ h => h)
          · intro y hy f hf
            simp only [List.mem_cons] at hy
            rcases hy with rfl | rfl | hy
            · exact hab f (partsFail_concat.2 (.inr hf))
            · exact hab f (partsFail_concat.2 (.inl hf))
            · exact hf' y hy f hf
          · rintro r ⟨h1, h2, h3⟩
            refine ⟨h1, h2, ?_⟩
            simpa [stackView, shown_concat] using h3
        · rintro f rfl
          exact hab f (partsFail_concat.2 (.inr (by simp [PartsFail, NTree.parts])))
      · rintro f rfl
        exact hab f (partsFail_concat.2 (.inl (by simp [PartsFail, NTree.parts])))

theorem expandFirst_view {er : Fail P.Err → Prop} (ho : er .overflow) {next : List (Block P)} {block : Block P} {chunk}
    {id : P.Id} {t items B} (hc : ChunkR chunk (id, t)) (hi : ChunksR block.chunks items) (hN : NextV next B)
    (hf : ∀ f, PartsFail t f → er f) :
    PSat (expandFirst next block chunk) (fun r => FirstV r block (shown id t ++ items ++ B)) er := by
  refine (expandFirstLoop_view ho next block [chunk] [(id, t)] items B (.cons hc .nil) hi hN ?_).mono ?_ fun _ h => h
  · intro x hx; simp only [List.mem_singleton] at hx; subst hx; exact hf
  · intro r hr; simpa [stackView_single] using hr

/-- The result of expanding towards the last block: what was printed is now on a previous line, or still on the current
    one. -/
structure LastV (r : List (Block P) × Block P) (U V after : View P) : Prop where
  split : ∃ A done items, U ++ V = A ++ done ++ items ∧ PrevV r.1 A ∧ BlockV r.2 done (items ++ after)

theorem expandLastLoop_view {er : Fail P.Err → Prop} (ho : er .overflow) :
    ∀ (prev : List (Block P)) (block : Block P) (chunks stack : List (Chunk P)) (A done cs xs after : View P),
    All2 ChunkR stack xs → PrevV prev A → ChunksR chunks cs.reverse → BlockV block done after →
    (∀ x ∈ xs, ∀ f, PartsFail x.2 f → er f) →
    PSat (expandLastLoop prev block chunks stack) (fun r => LastV r (A ++ done ++ cs) (stackView xs) after) er := by
  apply expandLastLoop.fixpoint_induct (motive := fun ex => ∀ (prev : List (Block P)) (block : Block P)
    (chunks stack : List (Chunk P)) (A done cs xs after : View P),
    All2 ChunkR stack xs → PrevV prev A → ChunksR chunks cs.reverse → BlockV block done after →
    (∀ x ∈ xs, ∀ f, PartsFail x.2 f → er f) →
    PSat (ex prev block chunks stack) (fun r => LastV r (A ++ done ++ cs) (stackView xs) after) er)
  · exact admissible_pi_apply _ fun _ => admissible_pi_apply _ fun _ => admissible_pi_apply _ fun _ =>
      admissible_pi_apply _ fun _ =>
      admissible_pi _ fun _ => admissible_pi _ fun _ => admissible_pi _ fun _ => admissible_pi _ fun _ =>
      admissible_pi _ fun _ => admissible_pi _ fun _ => admissible_pi _ fun _ => admissible_pi _ fun _ =>
      admissible_pi _ fun _ => admissible_pi _ fun _ => PSat.admissible _ _
  intro ex ih prev block chunks stack A done cs xs after hs hP hcs hB hf
  cases hs with
  | nil =>
    have h1 : ChunksR chunks.reverse cs := by simpa using All2.reverse hcs
    exact .pure ⟨A, done, cs, by simp [stackView], hP, hB.flat, All2.append h1 hB.chunks, hB.cols⟩
  | @cons c x stack xs hc hs =>
    obtain ⟨id, t⟩ := x
    obtain ⟨cn, cid⟩ := c
    obtain ⟨hid, hcn⟩ := hc
    simp only at hid hcn
    subst hid
    have hf' : ∀ y ∈ xs, ∀ f, PartsFail y.2 f → er f := fun y hy => hf y (by simp [hy])
    have keep : t.Atomic → ChunkR ⟨cn, cid⟩ (cid, t) →
        PSat (ex prev block (⟨cn, cid⟩ :: chunks) stack)
          (fun r => LastV r (A ++ done ++ cs) (stackView ((cid, t) :: xs)) after) er := by
      intro hat hch
      refine (ih prev block (⟨cn, cid⟩ :: chunks) stack A done (cs ++ [(cid, t)]) xs after hs hP ?_ hB hf').mono ?_
        (fun _ h => h)
      · simpa using All2.cons (R := fun c (x : P.Id × NTree P) => ChunkR c x ∧ x.2.Atomic) ⟨hch, hat⟩ hcs
      · rintro r ⟨h3⟩
        refine ⟨?_⟩
        rw [← List.singleton_append (l := xs), stackView_append, stackView_single, shown_atomic hat]
        simpa using h3
    cases hcn with
    | empty =>
      refine (ih prev block chunks stack A done cs xs after hs hP hcs hB hf').mono ?_ (fun _ h => h)
      rintro r ⟨h3⟩
      refine ⟨?_⟩
      rw [← List.singleton_append (l := xs), stackView_append, stackView_single, shown_empty]
      simpa using h3
    | eol => exact keep trivial ⟨rfl, .eol⟩
    | text => exact keep trivial ⟨rfl, .text⟩
    | mark => exact keep trivial ⟨rfl, .mark⟩
    | choice ha hb => exact keep trivial ⟨rfl, .choice ha hb⟩
    | child h => exact keep trivial ⟨rfl, .child h⟩
    | @newline ind =>
      dsimp only
      unfold Block.new
      simp only
      split
      · have h1 : ChunksR chunks.reverse cs := by simpa using All2.reverse hcs
        refine (ih (⟨block.segments, block.prefixLen, block.atEol, chunks.reverse⟩ :: prev)
          ⟨ind.reverse, segsWidth ind.reverse, false, block.chunks⟩ [] stack _ [] [] xs after hs
          (.cons (id := cid) (ind := ind.reverse) ⟨hB.flat, h1, hB.cols⟩ hP) .nil
          ⟨.nil, hB.chunks, Nat.zero_le _⟩ hf').mono ?_ (fun _ h => h)
        rintro r ⟨h3⟩
        refine ⟨?_⟩
        rw [← List.singleton_append (l := xs), stackView_append, stackView_single]
        simpa [shown, NTree.parts] using h3
      · exact .error ho
    | @concat a b ta tb ha hb =>
      have hab := hf (cid, .concat ta tb) (by simp)
      refine .bind (Chunk.new_sat_ok hb).psat ?_ ?_
      · intro l hl
        refine .bind (Chunk.new_sat_ok ha).psat ?_ ?_
        · intro r hr
          refine (ih prev block chunks (r :: l :: stack) A done cs ((cid, ta) :: (cid, tb) :: xs) after
            (.cons hr (.cons hl hs)) hP hcs hB ?_).mono ?_ (fun _ h => h)
          · intro y hy f hf
            simp only [List.mem_cons] at hy
            rcases hy with rfl | rfl | hy
            · exact hab f (partsFail_concat.2 (.inl hf))
            · exact hab f (partsFail_concat.2 (.inr hf))
            · exact hf' y hy f hf
          · rintro r ⟨h3⟩
            refine ⟨?_⟩
            simpa [stackView, shown_concat] using h3
        · rintro f rfl
          exact hab f (partsFail_concat.2 (.inl (by simp [PartsFail, NTree.parts])))
      · rintro f rfl
        exact hab f (partsFail_concat.2 (.inr (by simp [PartsFail, NTree.parts])))

theorem expandLast_view {er : Fail P.Err → Prop} (ho : er .overflow) {prev : List (Block P)} {block : Block P} {chunk}
    {id : P.Id} {t A done after} (hc : ChunkR chunk (id, t)) (hP : PrevV prev A) (hB : BlockV block done after)
    (hf : ∀ f, PartsFail t f → er f) :
    PSat (expandLast prev block chunk) (fun r => LastV r (A ++ done) (shown id t) after) er := by
  refine (expandLastLoop_view ho prev block [] [chunk] A done [] [(id, t)] after (.cons hc .nil) hP .nil hB ?_).mono ?_
    fun _ h => h
  · intro x hx; simp only [List.mem_singleton] at hx; subst hx; exact hf
  · intro r hr; simpa [stackView_single] using hr

theorem ChunksR.atomic {cs : List (Chunk P)} {items : View P} (h : ChunksR cs items) {x} (hx : x ∈ items) :
    x.2.Atomic := by
  unfold ChunksR at h
  induction h with
  | nil => cases hx
  | cons hy _ ih =>
    rcases List.mem_cons.1 hx with rfl | hx
    · exact hy.2
    · exact ih hx

/-- `choose` looks into one of the options; into the first only if its first line fits. -/
theorem choose_view {w : Nat} {block : Block P} {opt1 opt2 : DCN P} {id : P.Id} {a b done items}
    (ha : Rep opt1 (.ok id) a) (hb : Rep opt2 (.ok id) b) (hB : BlockV block done items) :
    PSat (choose w block opt1 opt2) (fun c => FitsIn w a ∧ ChunkR c (id, a) ∨ ChunkR c (id, b))
      (ReadFails w (done ++ (id, .choice a b) :: items)) := by
  have h1 : ∀ f, PartsFail a f → OpenFails (id, .choice a b) f := fun f hf => .inl hf
  have h2 : ∀ f, PartsFail b f → OpenFails (id, .choice a b) f := fun f hf => .inr hf
  have h0 : ∀ f, OpenFails (id, .choice a b) f → ReadFails w (done ++ (id, .choice a b) :: items) f := fun f hf =>
    ⟨done, _, items, hB.flat, hf, .inl rfl⟩
  have second : PSat (Chunk.new opt2) (fun c => FitsIn w a ∧ ChunkR c (id, a) ∨ ChunkR c (id, b))
      (ReadFails w (done ++ (id, .choice a b) :: items)) := by
    refine (Chunk.new_sat_ok hb).psat.mono (fun c hc => .inr hc) ?_
    rintro f rfl
    exact h0 _ (h2 _ (by simp [PartsFail, NTree.parts]))
  unfold choose
  refine .bind (Chunk.new_sat_ok ha).psat ?_ ?_
  · intro c hc
    split
    · rename_i hw
      refine .bind (mid := fun r => r = true → FitsIn w a) (er' := ReadFails w (done ++ (id, .choice a b) :: items))
        ?_ ?_ fun _ h => h
      · refine (fitsLoop_view (w := w) (L := done ++ shown id a ++ items) ?_ block.chunks _ [c.notn] block.atEol done
          [(id, a)] items (.cons ⟨_, hc.2⟩ .nil)
          hB.chunks.weaken hB.flat ?_ ?_ ?_ ?_).mono ?_ fun _ h => h
        · rintro f ⟨R, z, rest, k1, k2, k3, k4⟩
          exact ⟨R, z, rest, k1, k2, .inr ⟨done, id, a, b, items, hB.flat, rfl, k3, k4⟩⟩
        · have := hB.cols; omega
        · rw [stackView_single, stackView_atomic hB.chunks]
          exact .refl _
        · intro x hx f hf
          simp only [List.mem_singleton] at hx; subst hx
          exact h0 f (h1 f hf)
        · intro x hx f hf
          exact absurd hf (partsFail_atomic (hB.chunks.atomic hx))
        · intro r hr h
          have := hr h
          unfold FitsIn
          simp only [firstLines] at this
          split at this <;> (try dsimp only at this) <;> omega
      · intro fit hfit
        split
        · exact .pure (.inl ⟨hfit (by assumption), hc⟩)
        · exact second
    · exact second
  · rintro f rfl
    exact h0 _ (h1 _ (by simp [PartsFail, NTree.parts]))

end PPP
