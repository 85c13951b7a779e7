import Verif.Proofs.ViewExpand
/-
What is looked at when printing lines downwards and upwards.
-/
namespace PPP
open Lean.Order
variable {P : PrettyDoc}

theorem pushText_view {block : Block P} {t : Textual P} {done items : View P} (id : P.Id) (hB : BlockV block done items) :
    PSat (block.pushText t) (fun b => BlockV b (done ++ [(id, .text t)]) items) OwnFail := by
  unfold Block.pushText
  split
  · exact .error .eol
  · split
    · refine .pure ⟨hB.flat.append (.text _ _), hB.chunks, ?_⟩
      have := hB.cols
      simp only [columns_append, columns]
      omega
    · exact .error .overflow

theorem ReadFails.first {w : Nat} {done items : View P} {z} {f} (hd : Flatly done) (hz : OpenFails z f) :
    ReadFails w (done ++ z :: items) f := ⟨done, z, items, hd, hz, .inl rfl⟩

/-- Reading the first line of `U` fails. -/
def FirstLineFails (w : Nat) (U : View P) (f : Fail P.Err) : Prop :=
  OwnFail f ∨ ∃ L V, Expands w U (L ++ V) ∧ OneLine L ∧ StartsLine V ∧ ReadFails w L f

theorem FirstLineFails.of {w : Nat} {U U' : View P} (h : Expands w U U') {f} (hf : FirstLineFails w U' f) :
    FirstLineFails w U f := by
  rcases hf with hf | ⟨L, V, h1, h2⟩
  · exact .inl hf
  · exact .inr ⟨L, V, h.trans h1, h2⟩

/-- The state after printing the first line of `U`. -/
def AfterLine (w : Nat) (U : View P) (next : List (Block P)) : Prop :=
  ∃ R V, Expands w U (R ++ V) ∧ Flatly R ∧ NextV next V

theorem BlockV.skip {block : Block P} {done items : View P} {c cs x} (hf : Flatly [x]) (h0 : columns [x] = 0)
    (hB : BlockV block done (x :: items)) (hc : block.chunks = c :: cs) (e : Bool) :
    BlockV { block with chunks := cs, atEol := e } (done ++ [x]) items := by
  refine ⟨hB.flat.append hf, ?_, ?_⟩
  · have := hB.chunks
    rw [hc] at this
    cases this
    assumption
  · have := hB.cols
    rw [columns_append, h0]
    exact this

theorem printNextLoop_view {w : Nat} : ∀ (next : List (Block P)) (block : Block P) (done items B : View P),
    BlockV block done items → NextV next B →
    PSat (printNextLoop w next block) (fun r => AfterLine w (done ++ items ++ B) r.2)
      (FirstLineFails w (done ++ items ++ B)) := by
  apply printNextLoop.fixpoint_induct (width := w) (motive := fun pr => ∀ (next : List (Block P)) (block : Block P)
    (done items B : View P), BlockV block done items → NextV next B →
    PSat (pr next block) (fun r => AfterLine w (done ++ items ++ B) r.2) (FirstLineFails w (done ++ items ++ B)))
  · exact admissible_pi_apply _ fun _ => admissible_pi_apply _ fun _ =>
      admissible_pi _ fun _ => admissible_pi _ fun _ => admissible_pi _ fun _ => admissible_pi _ fun _ =>
      admissible_pi _ fun _ => PSat.admissible _ _
  intro pr ih next block done items B hB hN
  obtain ⟨segs, plen, eol, chunks⟩ := block
  have hch := hB.chunks
  match chunks, hch with
  | [], hch =>
    cases hch
    dsimp only
    unfold Block.print
    exact .pure ⟨done, B, by simpa using .refl _, hB.flat, hN⟩
  | chunk :: chunks, hch =>
    cases hch with
    | @cons _ x _ items hc hcs =>
    obtain ⟨id, t⟩ := x
    obtain ⟨cn, cid⟩ := chunk
    obtain ⟨⟨hid, hcn⟩, hat⟩ := hc
    simp only at hid hcn
    subst hid
    dsimp only
    have hrest : ∀ e, BlockV ⟨segs, plen, e, chunks⟩ done items :=
      fun e => ⟨hB.flat, hcs, hB.cols⟩
    have line : ∀ f, ReadFails w (done ++ (cid, t) :: items) f →
        FirstLineFails w (done ++ (cid, t) :: items ++ B) f := fun f hf =>
      .inr ⟨_, B, .refl _, hB.oneLine, hN.starts, hf⟩
    -- looking into the item
    have go : ∀ {c x X}, ChunkR c x → LooksInto w (cid, t) (shown x.1 x.2) → X = shown x.1 x.2 →
        (∀ f, PartsFail x.2 f → OpenFails (cid, t) f) →
        PSat (do let (next, block) ← expandFirst next ⟨segs, plen, eol, chunks⟩ c; pr next block)
          (fun r => AfterLine w (done ++ (cid, t) :: items ++ B) r.2)
          (FirstLineFails w (done ++ (cid, t) :: items ++ B)) := by
      rintro c ⟨id', t'⟩ X hc ho rfl hfail
      have hE : Expands w (done ++ (cid, t) :: items ++ B) (done ++ (shown id' t' ++ items ++ B)) := by
        have := Expands.one ho done (items ++ B)
        simpa using this
      refine .bind (expandFirst_view (er := FirstLineFails w (done ++ (cid, t) :: items ++ B)) (.inl .overflow) hc
        (items := items) hcs hN fun f hf => line f (.first hB.flat (hfail f hf))) ?_ fun _ h => h
      rintro ⟨next', block'⟩ ⟨h1, h2, items', B', h3, h4, h5⟩
      have hB' : BlockV block' done items' := ⟨hB.flat, h4, h2 ▸ hB.cols⟩
      have hE' : Expands w (done ++ (cid, t) :: items ++ B) (done ++ items' ++ B') := by
        rw [h3] at hE; simpa using hE
      refine (ih next' block' done items' B' hB' h5).mono ?_ fun f hf => hf.of hE'
      rintro r ⟨R, V, k1, k2⟩
      exact ⟨R, V, hE'.trans k1, k2⟩
    cases hcn with
    | empty => exact hat.elim
    | newline => exact hat.elim
    | concat _ _ => exact hat.elim
    | mark =>
      have := ih next _ _ items B (hB.skip (.mark _) rfl rfl eol) hN
      simpa using this
    | eol =>
      have := ih next _ _ items B (hB.skip (.eol _) rfl rfl true) hN
      simpa using this
    | @text tx =>
      refine .bind (pushText_view cid (hrest eol)) ?_ fun _ h => .inl h
      intro b hb
      have := ih next b _ items B hb hN
      simpa using this
    | @child i c rid tc hc =>
      refine .bind (Chunk.new_sat hc).psat ?_ ?_
      · rintro ch ⟨id', rfl, hck⟩
        exact go hck .child rfl fun f hf => .inr hf
      · intro f hf
        refine line f (.first hB.flat ?_)
        rcases hf with rfl | rfl
        · exact .inl rfl
        · exact .inr (by simp [NTree.parts])
    | @choice a b ta tb ha hb =>
      refine .bind (choose_view ha hb (hrest eol)) ?_ fun f hf => line f hf
      rintro ch (⟨hfit, hck⟩ | hck)
      · exact go hck (.first hfit) rfl fun f hf => .inl hf
      · exact go hck .second rfl fun f hf => .inr hf

/-- Reading the last line of `U` fails. -/
def LastLineFails (w : Nat) (U : View P) (f : Fail P.Err) : Prop :=
  OwnFail f ∨ ∃ V L, Expands w U (V ++ L) ∧ EndsLine V ∧ OneLine L ∧ ReadFails w L f

theorem LastLineFails.of {w : Nat} {U U' : View P} (h : Expands w U U') {f} (hf : LastLineFails w U' f) :
    LastLineFails w U f := by
  rcases hf with hf | ⟨L, V, h1, h2⟩
  · exact .inl hf
  · exact .inr ⟨L, V, h.trans h1, h2⟩

/-- The state after printing the last line of `U`. -/
def BeforeLine (w : Nat) (U : View P) (prev : List (Block P)) : Prop :=
  ∃ V R, Expands w U (V ++ R) ∧ Flatly R ∧ PrevV prev V

theorem printPrevLoop_view {w : Nat} : ∀ (prev : List (Block P)) (block : Block P) (A done items : View P),
    BlockV block done items → PrevV prev A →
    PSat (printPrevLoop w prev block) (fun r => BeforeLine w (A ++ done ++ items) r.2)
      (LastLineFails w (A ++ done ++ items)) := by
  apply printPrevLoop.fixpoint_induct (width := w) (motive := fun pr => ∀ (prev : List (Block P)) (block : Block P)
    (A done items : View P), BlockV block done items → PrevV prev A →
    PSat (pr prev block) (fun r => BeforeLine w (A ++ done ++ items) r.2) (LastLineFails w (A ++ done ++ items)))
  · exact admissible_pi_apply _ fun _ => admissible_pi_apply _ fun _ =>
      admissible_pi _ fun _ => admissible_pi _ fun _ => admissible_pi _ fun _ => admissible_pi _ fun _ =>
      admissible_pi _ fun _ => PSat.admissible _ _
  intro pr ih prev block A done items hB hP
  obtain ⟨segs, plen, eol, chunks⟩ := block
  have hch := hB.chunks
  match chunks, hch with
  | [], hch =>
    cases hch
    dsimp only
    unfold Block.print
    exact .pure ⟨A, done, by simpa using .refl _, hB.flat, hP⟩
  | chunk :: chunks, hch =>
    cases hch with
    | @cons _ x _ items hc hcs =>
    obtain ⟨id, t⟩ := x
    obtain ⟨cn, cid⟩ := chunk
    obtain ⟨⟨hid, hcn⟩, hat⟩ := hc
    simp only at hid hcn
    subst hid
    dsimp only
    have hrest : ∀ e, BlockV ⟨segs, plen, e, chunks⟩ done items :=
      fun e => ⟨hB.flat, hcs, hB.cols⟩
    have line : ∀ f, ReadFails w (done ++ (cid, t) :: items) f →
        LastLineFails w (A ++ done ++ (cid, t) :: items) f := fun f hf =>
      .inr ⟨A, _, by simpa using .refl _, hP.ends, hB.oneLine, hf⟩
    -- looking into the item
    have go : ∀ {c x X}, ChunkR c x → LooksInto w (cid, t) (shown x.1 x.2) → X = shown x.1 x.2 →
        (∀ f, PartsFail x.2 f → OpenFails (cid, t) f) →
        PSat (do let (prev, block) ← expandLast prev ⟨segs, plen, eol, chunks⟩ c; pr prev block)
          (fun r => BeforeLine w (A ++ done ++ (cid, t) :: items) r.2)
          (LastLineFails w (A ++ done ++ (cid, t) :: items)) := by
      rintro c ⟨id', t'⟩ X hc ho rfl hfail
      have hE : Expands w (A ++ done ++ (cid, t) :: items) (A ++ done ++ shown id' t' ++ items) := Expands.one ho _ _
      refine .bind (expandLast_view (er := LastLineFails w (A ++ done ++ (cid, t) :: items)) (.inl .overflow) hc hP
        (hrest eol) fun f hf => line f (.first hB.flat (hfail f hf))) ?_ fun _ h => h
      rintro ⟨prev', block'⟩ ⟨A', done', items', h3, h4, h5⟩
      have hE' : Expands w (A ++ done ++ (cid, t) :: items) (A' ++ done' ++ (items' ++ items)) := by
        rw [h3] at hE; simpa using hE
      refine (ih prev' block' A' done' _ h5 h4).mono ?_ fun f hf => hf.of hE'
      rintro r ⟨R, V, k1, k2⟩
      exact ⟨R, V, hE'.trans k1, k2⟩
    cases hcn with
    | empty => exact hat.elim
    | newline => exact hat.elim
    | concat _ _ => exact hat.elim
    | mark =>
      have := ih prev _ A _ items (hB.skip (.mark _) rfl rfl eol) hP
      simpa using this
    | eol =>
      have := ih prev _ A _ items (hB.skip (.eol _) rfl rfl true) hP
      simpa using this
    | @text tx =>
      refine .bind (pushText_view cid (hrest eol)) ?_ fun _ h => .inl h
      intro b hb
      have := ih prev b A _ items hb hP
      simpa using this
    | @child i c rid tc hc =>
      refine .bind (Chunk.new_sat hc).psat ?_ ?_
      · rintro ch ⟨id', rfl, hck⟩
        exact go hck .child rfl fun f hf => .inr hf
      · intro f hf
        refine line f (.first hB.flat ?_)
        rcases hf with rfl | rfl
        · exact .inl rfl
        · exact .inr (by simp [NTree.parts])
    | @choice a b ta tb ha hb =>
      refine .bind (choose_view ha hb (hrest eol)) ?_ fun f hf => line f hf
      rintro ch (⟨hfit, hck⟩ | hck)
      · exact go hck (.first hfit) rfl fun f hf => .inl hf
      · exact go hck .second rfl fun f hf => .inr hf

end PPP
