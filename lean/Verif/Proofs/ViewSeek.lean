import Verif.Proofs.ViewPrint
/-
What is looked at when seeking.
-/
namespace PPP
open Lean.Order
variable {P : PrettyDoc}

/-! ### Finding a child -/

theorem containsRelevantChunk_view {pid : P.Id} {i : Nat} {block : Block P} {items : View P}
    (h : ChunksR block.chunks items) (hr : containsRelevantChunk pid i block = true) : ∃ y ∈ items, MayBeChild pid i y := by
  unfold containsRelevantChunk at hr
  generalize block.chunks = cs at h hr
  unfold ChunksR at h
  induction h with
  | nil => cases hr
  | @cons c x cs xs hc _ ih =>
    rw [List.any_cons, Bool.or_eq_true] at hr
    rcases hr with hr | hr
    · obtain ⟨id, t⟩ := x
      obtain ⟨cn, cid⟩ := c
      obtain ⟨⟨hid, hcn⟩, _⟩ := hc
      simp only at hid hcn hr
      subst hid
      refine ⟨(cid, t), by simp, ?_⟩
      cases hcn with
      | child _ =>
        simp only [Bool.and_eq_true, decide_eq_true_eq] at hr
        obtain ⟨rfl, rfl⟩ := hr
        exact ⟨rfl, .inl ⟨_, _, rfl⟩⟩
      | choice _ _ =>
        simp only [decide_eq_true_eq] at hr
        exact ⟨hr, .inr ⟨_, _, rfl⟩⟩
      | _ => cases hr
    · obtain ⟨y, hy, h⟩ := ih hr
      exact ⟨y, by simp [hy], h⟩

theorem skipBlocks_view {pid : P.Id} {i : Nat} : ∀ {next prev : List (Block P)} {block : Block P} {A done items B : View P},
    PrevV prev A → BlockV block done items → NextV next B →
    ∀ {prev' block' next'}, skipBlocks pid i prev (block :: next) = (prev', block' :: next') →
    ∃ A' done' items' B', PrevV prev' A' ∧ BlockV block' done' items' ∧ NextV next' B' ∧
      A ++ (done ++ items) ++ B = A' ++ (done' ++ items') ++ B' ∧ ∃ y ∈ items', MayBeChild pid i y := by
  intro next
  induction next with
  | nil =>
    intro prev block A done items B hA hb hB prev' block' next' h
    unfold skipBlocks at h
    split at h
    · rename_i hr
      cases h
      exact ⟨A, done, items, B, hA, hb, hB, rfl, containsRelevantChunk_view hb.chunks hr⟩
    · simp [skipBlocks] at h
  | cons b next ih =>
    intro prev block A done items B hA hb hB prev' block' next' h
    unfold skipBlocks at h
    split at h
    · rename_i hr
      cases h
      exact ⟨A, done, items, B, hA, hb, hB, rfl, containsRelevantChunk_view hb.chunks hr⟩
    · cases hB with
      | @cons _ _ items' V id ind hb' hB =>
        obtain ⟨A', done', items', B', h1, h2, h3, h4, h5⟩ :=
          ih (.cons (id := id) (ind := ind) hb hA) (done := []) ⟨.nil, hb', Nat.zero_le _⟩ hB h
        exact ⟨A', done', items', B', h1, h2, h3, by rw [← h4]; simp, h5⟩

/-- How step 2 of `seek_child` ends. -/
inductive Step2V (w : Nat) (pid : P.Id) (i : Nat) (done items B : View P) : Step2 P → Prop where
  | found {block next c done' items' cid tc} :
      done ++ items = done' ++ (pid, .child i (.ok cid) tc) :: items' → BlockV block done' items' → NextV next B →
      ChunkR c (cid, tc) → Step2V w pid i done items B (.found (block :: next) c)
  | again {block next done' items' B'} : Expands w (done ++ items ++ B) (done' ++ items' ++ B') →
      BlockV block done' items' → NextV next B' → Step2V w pid i done items B (.again (block :: next))

theorem seekChildStep2_view {w : Nat} {pid : P.Id} {i : Nat} : ∀ (next : List (Block P)) (block : Block P)
    (done items B : View P), BlockV block done items → NextV next B → (∃ y ∈ items, MayBeChild pid i y) →
    PSat (seekChildStep2 w pid i next block) (Step2V w pid i done items B)
      (fun f => OwnFail f ∨ ReadFails w (done ++ items) f) := by
  intro next
  suffices h : ∀ (block : Block P) (done items B : View P), BlockV block done items → NextV next B →
      (∃ y ∈ items, MayBeChild pid i y) → PSat (seekChildStep2 w pid i next block) (Step2V w pid i done items B)
      (fun f => OwnFail f ∨ ReadFails w (done ++ items) f) from h
  apply seekChildStep2.fixpoint_induct (width := w) (parentId := pid) (childIndex := i) (next := next)
    (motive := fun st => ∀ (block : Block P)
      (done items B : View P), BlockV block done items → NextV next B → (∃ y ∈ items, MayBeChild pid i y) →
      PSat (st block) (Step2V w pid i done items B)
        (fun f => OwnFail f ∨ ReadFails w (done ++ items) f))
  · exact admissible_pi_apply _ fun _ =>
      admissible_pi _ fun _ => admissible_pi _ fun _ => admissible_pi _ fun _ => admissible_pi _ fun _ =>
      admissible_pi _ fun _ => admissible_pi _ fun _ => PSat.admissible _ _
  intro st ih block done items B hB hN hy
  obtain ⟨segs, plen, eol, chunks⟩ := block
  have hch := hB.chunks
  match chunks, hch with
  | [], hch =>
    cases hch
    obtain ⟨y, hy, _⟩ := hy
    cases hy
  | chunk :: chunks, hch =>
    cases hch with
    | @cons _ x _ items hc hcs =>
    obtain ⟨id, t⟩ := x
    obtain ⟨cn, cid⟩ := chunk
    obtain ⟨⟨hid, hcn⟩, hat⟩ := hc
    simp only at hid hcn
    subst hid
    dsimp only
    have hrest : ∀ e, BlockV ⟨segs, plen, e, chunks⟩ done items :=
      fun e => ⟨hB.flat, hcs, hB.cols⟩
    have hy' : (¬ MayBeChild pid i (cid, t)) → ∃ y ∈ items, MayBeChild pid i y := by
      obtain ⟨y, hy, hm⟩ := hy
      intro hn
      rcases List.mem_cons.1 hy with rfl | hy
      · exact absurd hm hn
      · exact ⟨y, hy, hm⟩
    have go : ∀ {c x X}, ChunkR c x → LooksInto w (cid, t) (shown x.1 x.2) → X = shown x.1 x.2 →
        (∀ f, PartsFail x.2 f → OpenFails (cid, t) f) →
        PSat (do
            let (next, block) ← expandFirst next ⟨segs, plen, eol, chunks⟩ c
            pure (.again (block :: next)))
          (Step2V w pid i done ((cid, t) :: items) B)
          (fun f => OwnFail f ∨ ReadFails w (done ++ (cid, t) :: items) f) := by
      rintro c ⟨id', t'⟩ X hc ho rfl hfail
      have hE : Expands w (done ++ (cid, t) :: items ++ B) (done ++ (shown id' t' ++ items ++ B)) := by
        have := Expands.one ho done (items ++ B)
        simpa using this
      refine .bind (expandFirst_view (er := fun f => OwnFail f ∨ ReadFails w (done ++ (cid, t) :: items) f)
        (.inl .overflow) hc (items := items) hcs hN fun f hf => .inr (.first hB.flat (hfail f hf))) ?_ fun _ h => h
      rintro ⟨next', block'⟩ ⟨h1, h2, items', B', h3, h4, h5⟩
      have hE' : Expands w (done ++ (cid, t) :: items ++ B) (done ++ items' ++ B') := by
        rw [h3] at hE; simpa using hE
      exact .pure (.again hE' ⟨hB.flat, h4, h2 ▸ hB.cols⟩ h5)
    have re : ∀ {x st'}, Step2V w pid i (done ++ [x]) items B st' → Step2V w pid i done (x :: items) B st' := by
      intro x st' h
      cases h with
      | found h1 h2 h3 h4 => exact .found (by simpa using h1) h2 h3 h4
      | again h1 h2 h3 => exact .again (by simpa using h1) h2 h3
    cases hcn with
    | empty => exact hat.elim
    | newline => exact hat.elim
    | concat _ _ => exact hat.elim
    | mark =>
      refine (ih _ _ items B (hB.skip (.mark _) rfl rfl eol) hN (hy' ?_)).mono (fun _ h => re h) ?_
      · rintro ⟨_, ⟨_, _, h⟩ | ⟨_, _, h⟩⟩ <;> cases h
      · intro f hf; simpa using hf
    | eol =>
      refine (ih _ _ items B (hB.skip (.eol _) rfl rfl true) hN (hy' ?_)).mono (fun _ h => re h) ?_
      · rintro ⟨_, ⟨_, _, h⟩ | ⟨_, _, h⟩⟩ <;> cases h
      · intro f hf; simpa using hf
    | @text tx =>
      refine .bind (pushText_view cid (hrest eol)) ?_ fun _ h => .inl h
      intro b hb
      refine (ih b _ items B hb hN (hy' ?_)).mono (fun _ h => re h) ?_
      · rintro ⟨_, ⟨_, _, h⟩ | ⟨_, _, h⟩⟩ <;> cases h
      · intro f hf; simpa using hf
    | @child j c rid tc hc =>
      have herr : ∀ f, (rid = .error f ∨ tc = .fail f) →
          OwnFail f ∨ ReadFails w (done ++ (cid, .child j rid tc) :: items) f := by
        intro f hf
        refine .inr (.first hB.flat ?_)
        rcases hf with rfl | rfl
        · exact .inl rfl
        · exact .inr (by simp [NTree.parts])
      dsimp only
      split
      · rename_i hij
        obtain ⟨rfl, rfl⟩ := hij
        refine .bind (Chunk.new_sat hc).psat ?_ herr
        rintro ch ⟨id', rfl, hck⟩
        exact .pure (.found rfl (hrest eol) hN hck)
      · refine .bind (Chunk.new_sat hc).psat ?_ herr
        rintro ch ⟨id', rfl, hck⟩
        exact go hck .child rfl fun f hf => .inr hf
    | @choice a b ta tb ha hb =>
      refine .bind (choose_view ha hb (hrest eol)) ?_ fun f hf => .inr hf
      rintro ch (⟨hfit, hck⟩ | hck)
      · exact go hck (.first hfit) rfl fun f hf => .inl hf
      · exact go hck .second rfl fun f hf => .inr hf

/-- Searching for a child fails. -/
def ChildFails (w : Nat) (pid : P.Id) (i : Nat) (U : View P) (f : Fail P.Err) : Prop :=
  OwnFail f ∨ ∃ V L V' y, Expands w U (V ++ L ++ V') ∧ EndsLine V ∧ OneLine L ∧ StartsLine V' ∧
    y ∈ L ∧ MayBeChild pid i y ∧ ReadFails w L f

/-- A printer and the chunk it is focused on: the node `x` between `A` and `B`. -/
def AtChunk (prev next : List (Block P)) (chunk : Chunk P) (A : View P) (x : P.Id × NTree P) (B : View P) : Prop :=
  ∃ block next' A' done items B', next = block :: next' ∧ PrevV prev A' ∧ BlockV block done items ∧ NextV next' B' ∧
    A = A' ++ done ∧ B = items ++ B' ∧ ChunkR chunk x

theorem seekChildLoop_view {w : Nat} {pid : P.Id} {i : Nat} : ∀ (prev next : List (Block P)) (block : Block P)
    (A done items B : View P), PrevV prev A → BlockV block done items → NextV next B →
    PSat (seekChildLoop w pid i prev (block :: next))
      (fun r => ∃ A' cid tc B', AtChunk r.1 r.2.1 r.2.2 A' (cid, tc) B' ∧
        Expands w (A ++ (done ++ items) ++ B) (A' ++ (pid, .child i (.ok cid) tc) :: B'))
      (ChildFails w pid i (A ++ (done ++ items) ++ B)) := by
  suffices h : ∀ (prev next0 : List (Block P)) (next : List (Block P)) (block : Block P)
      (A done items B : View P), next0 = block :: next → PrevV prev A → BlockV block done items → NextV next B →
      PSat (seekChildLoop w pid i prev next0)
        (fun r => ∃ A' cid tc B', AtChunk r.1 r.2.1 r.2.2 A' (cid, tc) B' ∧
          Expands w (A ++ (done ++ items) ++ B) (A' ++ (pid, .child i (.ok cid) tc) :: B'))
        (ChildFails w pid i (A ++ (done ++ items) ++ B)) from
    fun prev next block A done items B => h prev _ next block A done items B rfl
  apply seekChildLoop.fixpoint_induct (width := w) (parentId := pid) (childIndex := i)
    (motive := fun lp => ∀ (prev next0 : List (Block P)) (next : List (Block P)) (block : Block P)
      (A done items B : View P), next0 = block :: next → PrevV prev A → BlockV block done items → NextV next B →
      PSat (lp prev next0)
        (fun r => ∃ A' cid tc B', AtChunk r.1 r.2.1 r.2.2 A' (cid, tc) B' ∧
          Expands w (A ++ (done ++ items) ++ B) (A' ++ (pid, .child i (.ok cid) tc) :: B'))
        (ChildFails w pid i (A ++ (done ++ items) ++ B)))
  · exact admissible_pi_apply _ fun _ => admissible_pi_apply _ fun _ =>
      admissible_pi _ fun _ => admissible_pi _ fun _ => admissible_pi _ fun _ => admissible_pi _ fun _ =>
      admissible_pi _ fun _ => admissible_pi _ fun _ => admissible_pi _ fun _ => admissible_pi _ fun _ =>
      admissible_pi _ fun _ => admissible_pi _ fun _ => PSat.admissible _ _
  rintro lp ih prev _ next block A done items B rfl hA hb hB
  obtain ⟨s, hs⟩ : ∃ s, skipBlocks pid i prev (block :: next) = s := ⟨_, rfl⟩
  dsimp only
  rw [hs]
  match s with
  | (prev', []) => exact PSat.error (Or.inl (.inr (.inr (.inr (.inr (.inr ⟨i, rfl⟩))))))
  | (prev', block' :: next') =>
    obtain ⟨A', done', items', B', h1, h2, h3, h4, y, hy, hm⟩ := skipBlocks_view hA hb hB hs
    dsimp only
    rw [h4]
    refine .bind (seekChildStep2_view next' block' done' items' B' h2 h3 ⟨y, hy, hm⟩) ?_ ?_
    · intro st hst
      cases hst with
      | @found b n c done2 items2 cid tc k1 k2 k3 k4 =>
        refine .pure ⟨A' ++ done2, cid, tc, items2 ++ B', ⟨b, n, A', done2, items2, B', rfl, h1, k2, k3, rfl, rfl, k4⟩, ?_⟩
        rw [k1]
        simpa using .refl _
      | @again b n done2 items2 B2 k1 k2 k3 =>
        have hE : Expands w (A' ++ (done' ++ items') ++ B') (A' ++ (done2 ++ items2) ++ B2) := by
          simpa using k1.right A'
        refine (ih prev' (b :: n) n b A' done2 items2 B2 rfl h1 k2 k3).mono ?_ ?_
        · rintro r ⟨A3, cid, tc, B3, g1, g2⟩
          exact ⟨A3, cid, tc, B3, g1, hE.trans g2⟩
        · rintro f (hf | ⟨V, L, V', y, g1, g2⟩)
          · exact .inl hf
          · exact .inr ⟨V, L, V', y, hE.trans g1, g2⟩
    · rintro f (hf | hf)
      · exact .inl hf
      · exact .inr ⟨A', _, B', y, .refl _, h1.ends, h2.oneLine, h3.starts, by simp [hy], hm, hf⟩

theorem seekChild_view {p : Printer P} {chunk : Chunk P} {i : Nat} {A pid tp B}
    (h : AtChunk p.prev p.next chunk A (pid, tp) B) {er : Fail P.Err → Prop} (he : ∀ f, PartsFail tp f → er f)
    (he' : ∀ f, ChildFails p.width pid i (A ++ shown pid tp ++ B) f → er f) :
    PSat (p.seekChild chunk i)
      (fun r => r.1.width = p.width ∧ ∃ A' cid tc B', AtChunk r.1.prev r.1.next r.2 A' (cid, tc) B' ∧
        Expands p.width (A ++ shown pid tp ++ B) (A' ++ (pid, .child i (.ok cid) tc) :: B')) er := by
  obtain ⟨block, next, A', done, items, B', hn, h1, h2, h3, rfl, rfl, h4⟩ := h
  unfold Printer.seekChild
  rw [hn]
  dsimp only
  refine .bind (expandFirst_view (he' _ (.inl .overflow)) h4 h2.chunks h3 he) ?_ fun _ h => h
  rintro ⟨next1, block1⟩ ⟨g1, g2, items1, B1, g3, g4, g5⟩
  have hv : A' ++ done ++ shown pid tp ++ (items ++ B') = A' ++ (done ++ items1) ++ B1 := by
    simp only [List.append_assoc] at g3 ⊢
    rw [g3]
  rw [hv] at he' ⊢
  have hid : chunk.id = pid := h4.1
  rw [hid]
  refine .bind (seekChildLoop_view p.prev next1 block1 A' done items1 B1 h1 ⟨h2.flat, g4, g2 ▸ h2.cols⟩ g5) ?_ he'
  rintro ⟨prev2, next2, chunk2⟩ hr
  exact .pure ⟨rfl, hr⟩

theorem seekPath_view {w : Nat} {id : P.Id} {t : NTree P} {er : Fail P.Err → Prop} {full : List Nat}
    (ho : ∀ f, OwnFail f → er f) (he : ∀ f, PathFails w id t full f → er f) :
    ∀ (path q : List Nat) (p : Printer P) (chunk : Chunk P) (A x B),
      full = q ++ path → p.width = w → Zoom w id t q A x B → AtChunk p.prev p.next chunk A x B →
      PSat (p.seekPath chunk path)
        (fun r => r.1.width = w ∧ ∃ A x B, Zoom w id t full A x B ∧ AtChunk r.1.prev r.1.next r.2 A x B) er := by
  intro path
  induction path with
  | nil =>
    intro q p chunk A x B hfull hw hz hc
    rw [List.append_nil] at hfull
    subst hfull
    exact .pure ⟨hw, A, x, B, hz, hc⟩
  | cons i path ih =>
    rintro q p chunk A ⟨pid, tp⟩ B hfull hw hz hc
    unfold Printer.seekPath
    refine .bind (seekChild_view (er := er) hc ?_ ?_) ?_ fun _ h => h
    · exact fun f hf => he f (.inl ⟨q, i :: path, A, _, B, hfull, hz, hf⟩)
    · rintro f (hf | ⟨V, L, V', y, g1, g2, g3, g4, g5, g6, g7⟩)
      · exact ho f hf
      · exact he f (.inr ⟨q, i, path, A, pid, tp, B, V, L, V', y, hfull, hz, hw ▸ g1, g2, g3, g4, g5, g6, hw ▸ g7⟩)
    · rintro ⟨p', c'⟩ ⟨hw', A', cid, tc, B', g1, g2⟩
      exact ih (q ++ [i]) p' c' A' (cid, tc) B' (by simp [hfull]) (hw'.trans hw) (.child hz (hw ▸ g2)) g1

end PPP
