import Verif.Proofs.ViewSeek
/-
What is looked at when finding the focus within a node.
-/
namespace PPP
open Lean.Order
variable {P : PrettyDoc}

/-- The printer's focus is between the views `left` and `right`. -/
def FocusV (w : Nat) (p : Printer P) (left right : View P) : Prop :=
  ∃ block next A done items B, p.next = block :: next ∧ PrevV p.prev A ∧ BlockV block done items ∧ NextV next B ∧
    Expands w left (A ++ done) ∧ Expands w right (items ++ B)

theorem seekStart_view {p : Printer P} {chunk : Chunk P} {A : View P} {id t B} {er : Fail P.Err → Prop}
    (h : AtChunk p.prev p.next chunk A (id, t) B) (ho : er .overflow) (he : ∀ f, PartsFail t f → er f) :
    PSat (p.seekStart chunk) (fun r => r.width = p.width ∧ FocusV p.width r A (shown id t ++ B)) er := by
  obtain ⟨block, next, A', done, items, B', hn, h1, h2, h3, rfl, rfl, h4⟩ := h
  unfold Printer.seekStart
  rw [hn]
  dsimp only
  refine .bind (expandFirst_view ho h4 h2.chunks h3 he) ?_ fun _ h => h
  rintro ⟨next1, block1⟩ ⟨g1, g2, items1, B1, g3, g4, g5⟩
  refine .pure ⟨rfl, block1, next1, A', done, items1, B1, rfl, h1, ⟨h2.flat, g4, g2 ▸ h2.cols⟩, g5, .refl _, ?_⟩
  rw [← g3]
  simpa using .refl _

/-! ### `End` -/

/-- Reading the line on which the node ends fails. -/
def EndFails (w : Nat) (U after : View P) (f : Fail P.Err) : Prop :=
  OwnFail f ∨ ∃ V L, Expands w U (V ++ L) ∧ EndsLine V ∧ OneLine (L ++ after) ∧ ReadFails w (L ++ after) f

theorem EndFails.of {w : Nat} {U U' after : View P} (h : Expands w U U') {f} (hf : EndFails w U' after f) :
    EndFails w U after f := by
  rcases hf with hf | ⟨L, V, h1, h2⟩
  · exact .inl hf
  · exact .inr ⟨L, V, h.trans h1, h2⟩

theorem ChunksR.length {cs : List (Chunk P)} {items : View P} (h : ChunksR cs items) : cs.length = items.length := by
  unfold ChunksR at h
  induction h with
  | nil => rfl
  | cons _ _ ih => simp [ih]

theorem seekEndLoop_view {w : Nat} {after : View P} : ∀ (prev : List (Block P)) (block : Block P)
    (A done front : View P), BlockV block done (front ++ after) → PrevV prev A →
    PSat (seekEndLoop w after.length prev block)
      (fun r => ∃ A' done', PrevV r.1 A' ∧ BlockV r.2 done' after ∧ Expands w (A ++ done ++ front) (A' ++ done'))
      (EndFails w (A ++ done ++ front) after) := by
  apply seekEndLoop.fixpoint_induct (width := w) (numChunksAfter := after.length)
    (motive := fun lp => ∀ (prev : List (Block P)) (block : Block P)
    (A done front : View P), BlockV block done (front ++ after) → PrevV prev A →
    PSat (lp prev block)
      (fun r => ∃ A' done', PrevV r.1 A' ∧ BlockV r.2 done' after ∧ Expands w (A ++ done ++ front) (A' ++ done'))
      (EndFails w (A ++ done ++ front) after))
  · exact admissible_pi_apply _ fun _ => admissible_pi_apply _ fun _ =>
      admissible_pi _ fun _ => admissible_pi _ fun _ => admissible_pi _ fun _ => admissible_pi _ fun _ =>
      admissible_pi _ fun _ => PSat.admissible _ _
  intro lp ih prev block A done front hB hP
  obtain ⟨segs, plen, eol, chunks⟩ := block
  have hlen := hB.chunks.length
  simp only [List.length_append] at hlen
  match front with
  | [] =>
    dsimp only
    rw [if_neg (by simp at hlen; omega)]
    exact .pure ⟨A, done, hP, hB, by simpa using .refl _⟩
  | (id, t) :: front =>
    have hch := hB.chunks
    dsimp only
    rw [if_pos (by simp at hlen; omega)]
    match chunks, hch with
    | [], hch => cases hch
    | chunk :: chunks, hch =>
    cases hch with
    | @cons _ _ _ _ hc hcs =>
    obtain ⟨cn, cid⟩ := chunk
    obtain ⟨⟨hid, hcn⟩, hat⟩ := hc
    simp only at hid hcn
    subst hid
    dsimp only
    have hcs : ChunksR chunks (front ++ after) := hcs
    have hrest : ∀ e, BlockV ⟨segs, plen, e, chunks⟩ done (front ++ after) :=
      fun e => ⟨hB.flat, hcs, hB.cols⟩
    have line : ∀ f, ReadFails w (done ++ (cid, t) :: (front ++ after)) f →
        EndFails w (A ++ done ++ (cid, t) :: front) after f := fun f hf =>
      .inr ⟨A, done ++ (cid, t) :: front, by simpa using .refl _, hP.ends, by simpa using hB.oneLine,
        by simpa using hf⟩
    have go : ∀ {c x X}, ChunkR c x → LooksInto w (cid, t) (shown x.1 x.2) → X = shown x.1 x.2 →
        (∀ f, PartsFail x.2 f → OpenFails (cid, t) f) →
        PSat (do let (prev, block) ← expandLast prev ⟨segs, plen, eol, chunks⟩ c; lp prev block)
          (fun r => ∃ A' done', PrevV r.1 A' ∧ BlockV r.2 done' after ∧
            Expands w (A ++ done ++ (cid, t) :: front) (A' ++ done'))
          (EndFails w (A ++ done ++ (cid, t) :: front) after) := by
      rintro c ⟨id', t'⟩ X hc ho rfl hfail
      have hE : Expands w (A ++ done ++ (cid, t) :: front) (A ++ done ++ shown id' t' ++ front) := Expands.one ho _ _
      refine .bind (expandLast_view (er := EndFails w (A ++ done ++ (cid, t) :: front) after) (.inl .overflow) hc hP
        (hrest eol) fun f hf => line f (.first hB.flat (hfail f hf))) ?_ fun _ h => h
      rintro ⟨prev', block'⟩ ⟨A', done', items', h3, h4, h5⟩
      have hE' : Expands w (A ++ done ++ (cid, t) :: front) (A' ++ done' ++ (items' ++ front)) := by
        rw [h3] at hE; simpa using hE
      refine (ih prev' block' A' done' (items' ++ front) (by simpa using h5) h4).mono ?_ fun f hf => hf.of hE'
      rintro r ⟨A2, done2, k1, k2, k3⟩
      exact ⟨A2, done2, k1, k2, hE'.trans k3⟩
    cases hcn with
    | empty => exact hat.elim
    | newline => exact hat.elim
    | concat _ _ => exact hat.elim
    | mark =>
      have := ih prev _ A _ front (hB.skip (.mark _) rfl rfl eol) hP
      simpa using this
    | eol =>
      have := ih prev _ A _ front (hB.skip (.eol _) rfl rfl true) hP
      simpa using this
    | @text tx =>
      refine .bind (pushText_view cid (hrest eol)) ?_ fun _ h => .inl h
      intro b hb
      have := ih prev b A _ front hb hP
      simpa using this
    | @child i c rid tc hc =>
      refine .bind (Chunk.new_sat hc).psat ?_ ?_
      · rintro ch ⟨id', rfl, hck⟩
        exact go hck .child rfl fun f hf => .inr hf
      · intro f hf
        refine line f (.first hB.flat ?_)
        rcases hf with rfl | rfl
        · exact .inl rfl
        · exact .inr (by simp [NTree.parts])
    | @choice a b ta tb ha hb =>
      refine .bind (choose_view ha hb (hrest eol)) ?_ fun f hf => line f hf
      rintro ch (⟨hfit, hck⟩ | hck)
      · exact go hck (.first hfit) rfl fun f hf => .inl hf
      · exact go hck .second rfl fun f hf => .inr hf

theorem seekEnd_view {p : Printer P} {chunk : Chunk P} {A : View P} {id t B} {er : Fail P.Err → Prop}
    (h : AtChunk p.prev p.next chunk A (id, t) B) (ho : ∀ f, OwnFail f → er f) (he : ∀ f, PartsFail t f → er f)
    (he' : ∀ f, FocusFails p.width .end A (id, t) B f → er f) :
    PSat (p.seekEnd chunk) (fun r => r.width = p.width ∧ FocusV p.width r (A ++ shown id t) B) er := by
  obtain ⟨block, next, A', done, items, B', hn, h1, h2, h3, rfl, rfl, h4⟩ := h
  unfold Printer.seekEnd
  rw [hn]
  dsimp only
  refine .bind (expandLast_view (ho _ .overflow) h4 h1 h2 he) ?_ fun _ h => h
  rintro ⟨prev1, block1⟩ ⟨A1, done1, items1, g1, g2, g3⟩
  rw [h2.chunks.length]
  refine .bind (seekEndLoop_view prev1 block1 A1 done1 items1 g3 g2) ?_ ?_
  · rintro ⟨prev2, block2⟩ ⟨A2, done2, k1, k2, k3⟩
    exact .pure ⟨rfl, block2, next, A2, done2, items, B', rfl, k1, k2, h3, g1 ▸ k3, .refl _⟩
  · rintro f (hf | ⟨V, L, k1, k2, k3, k4⟩)
    · exact ho f hf
    · exact he' f (.end (g1 ▸ k1) k2 k3 h3.starts k4)

/-! ### `Mark` and `Text` -/

/-- Scanning `U`, which comes after `A0`, for something; `good` holds of the items scanned. The current line is that
    of `block`. -/
def ScanV (w : Nat) (good : P.Id × NTree P → Prop) (A0 U : View P) (prev next : List (Block P)) (block : Block P)
    (line rest : View P) : Prop :=
  ∃ A pre R0 B, PrevV prev A ∧ BlockV block (pre ++ line) rest ∧ NextV next B ∧ Expands w U (R0 ++ (line ++ rest) ++ B) ∧
    EndsLine R0 ∧ (∀ x ∈ R0 ++ line, good x) ∧ A ++ pre = A0 ++ R0

/-- Scanning fails. -/
def ScanFails (w : Nat) (good : P.Id × NTree P → Prop) (U : View P) (f : Fail P.Err) : Prop :=
  OwnFail f ∨ ∃ R L V, Expands w U (R ++ L ++ V) ∧ EndsLine R ∧ OneLine L ∧ StartsLine V ∧
    (∀ x ∈ R, good x) ∧ ReadFails w L f

section
variable {good : P.Id × NTree P → Prop} {A0 U : View P} {prev next : List (Block P)} {block : Block P}
  {line rest : View P}

theorem ScanV.blockV (h : ScanV w good A0 U prev next block line rest) : BlockV block line rest := by
  obtain ⟨A, pre, R0, B, h1, h2, h3, h4, h5, h6, h7⟩ := h
  refine ⟨fun x hx => h2.flat x (by simp [hx]), h2.chunks, ?_⟩
  have := h2.cols
  rw [columns_append] at this
  omega

theorem ScanV.fail {w : Nat} (h : ScanV w good A0 U prev next block line rest) {f} (hf : ReadFails w (line ++ rest) f) :
    ScanFails w good U f := by
  have hb := h.blockV
  obtain ⟨A, pre, R0, B, h1, h2, h3, h4, h5, h6, h7⟩ := h
  exact .inr ⟨R0, _, B, h4, h5, hb.oneLine, h3.starts, fun x hx => h6 x (by simp [hx]), hf⟩

theorem ScanV.skip {c cs x} (hf : Flatly [x]) (h0 : columns [x] = 0) (hg : good x)
    (h : ScanV w good A0 U prev next block line (x :: rest)) (hc : block.chunks = c :: cs) (e : Bool) :
    ScanV w good A0 U prev next { block with chunks := cs, atEol := e } (line ++ [x]) rest := by
  obtain ⟨A, pre, R0, B, h1, h2, h3, h4, h5, h6, h7⟩ := h
  refine ⟨A, pre, R0, B, h1, ?_, h3, by simpa using h4, h5, ?_, h7⟩
  · rw [← List.append_assoc]; exact h2.skip hf h0 hc e
  · intro y hy
    rw [← List.append_assoc] at hy
    rcases List.mem_append.1 hy with hy | hy
    · exact h6 y hy
    · simp only [List.mem_singleton] at hy; subst hy; exact hg

theorem ScanV.text {c cs cid tx} (hg : good (cid, .text tx))
    (h : ScanV w good A0 U prev next block line ((cid, .text tx) :: rest)) (hc : block.chunks = c :: cs) :
    PSat ({ block with chunks := cs }.pushText tx)
      (fun b => ScanV w good A0 U prev next b (line ++ [(cid, .text tx)]) rest) OwnFail := by
  obtain ⟨A, pre, R0, B, h1, h2, h3, h4, h5, h6, h7⟩ := h
  have hr : BlockV { block with chunks := cs } (pre ++ line) rest := by
    have := h2.chunks
    rw [hc] at this
    cases this with
    | cons _ hcs => exact ⟨h2.flat, hcs, h2.cols⟩
  refine (pushText_view cid hr).mono ?_ fun _ h => h
  intro b hb
  refine ⟨A, pre, R0, B, h1, by simpa using hb, h3, by simpa using h4, h5, ?_, h7⟩
  intro y hy
  rw [← List.append_assoc] at hy
  rcases List.mem_append.1 hy with hy | hy
  · exact h6 y hy
  · simp only [List.mem_singleton] at hy; subst hy; exact hg

theorem ScanV.open {w : Nat} {c cs x ch id' t'} (h : ScanV w good A0 U prev next block line (x :: rest))
    (hc : block.chunks = c :: cs) (hck : ChunkR ch (id', t')) (ho : LooksInto w x (shown id' t'))
    (hfail : ∀ f, PartsFail t' f → OpenFails x f) :
    PSat (expandFirst next { block with chunks := cs } ch)
      (fun r => ∃ rest', ScanV w good A0 U prev r.1 r.2 line rest') (ScanFails w good U) := by
  have hfails : ∀ f, PartsFail t' f → ScanFails w good U f := fun f hf =>
    h.fail (.first h.blockV.flat (hfail f hf))
  obtain ⟨A, pre, R0, B, h1, h2, h3, h4, h5, h6, h7⟩ := h
  have hcs : ChunksR cs rest := by
    have := h2.chunks
    rw [hc] at this
    cases this with
    | cons _ hcs => exact hcs
  refine (expandFirst_view (.inl .overflow) (block := { block with chunks := cs }) hck (items := rest) hcs h3 hfails).mono
    ?_ fun _ h => h
  rintro ⟨next', block'⟩ ⟨g1, g2, items', B', g3, g4, g5⟩
  refine ⟨items', A, pre, R0, B', h1, ⟨h2.flat, g4, g2 ▸ h2.cols⟩, g5, h4.trans ?_, h5, h6, h7⟩
  have hE := Expands.one ho (R0 ++ line) (rest ++ B)
  have e : R0 ++ line ++ shown id' t' ++ (rest ++ B) = R0 ++ (line ++ items') ++ B' := by
    simp only [List.append_assoc] at g3 ⊢
    rw [g3]
  rw [e] at hE
  simpa using hE

theorem ScanV.nextLine (h : ScanV w good A0 U prev next block line rest) (hc : block.chunks = [])
    (hg : ∀ id ind, good (id, .newline ind)) :
    next = [] ∨ ∃ b n rest', next = b :: n ∧ ScanV w good A0 U (block :: prev) n b [] rest' := by
  obtain ⟨A, pre, R0, B, h1, h2, h3, h4, h5, h6, h7⟩ := h
  have hr : rest = [] := by
    have := h2.chunks
    rw [hc] at this
    cases this; rfl
  subst hr
  cases h3 with
  | nil => exact .inl rfl
  | @cons b n items V id ind hb hB =>
    refine .inr ⟨b, n, items, rfl, _, [], R0 ++ line ++ [(id, .newline ind)], V, .cons (id := id) (ind := ind) h2 h1,
      ⟨.nil, hb, Nat.zero_le _⟩, hB, by simpa using h4, .inr ⟨_, _, rfl, _, rfl⟩, ?_, ?_⟩
    · intro x hx
      simp only [List.append_nil] at hx
      rcases List.mem_append.1 hx with hx | hx
      · exact h6 x hx
      · simp only [List.mem_singleton] at hx; subst hx; exact hg _ _
    · simp only [List.append_nil, ← List.append_assoc, h7]

end

/-- Where scanning is: in a block, or between blocks. -/
def ScanAt (w : Nat) (good : P.Id × NTree P → Prop) (A0 U : View P) (prev next : List (Block P)) : Option (Block P) → Prop
  | some block => ∃ line rest, ScanV w good A0 U prev next block line rest
  | none => next = [] ∨ ∃ b n line rest, next = b :: n ∧ ScanV w good A0 U prev n b line rest

/-- The mark has been found. -/
def FoundMark (w : Nat) (id : P.Id) (good : P.Id × NTree P → Prop) (A0 U : View P) (r : List (Block P) × List (Block P)) : Prop :=
  ∃ (R : View P) (B' : View P) (block : Block P) (next : List (Block P))
    (A done items B : View P), r.2 = block :: next ∧ PrevV r.1 A ∧ BlockV block done items ∧
    NextV next B ∧ Expands w U (R ++ (id, .mark) :: B') ∧ (∀ x ∈ R, good x) ∧ A ++ done = A0 ++ R ∧ B' = items ++ B

theorem seekMarkLoop_view {w : Nat} {id : P.Id} {good : P.Id × NTree P → Prop} {A0 U : View P}
    (hgood : ∀ x, good x ↔ Plain x ∧ x ≠ (id, .mark)) :
    ∀ (prev next : List (Block P)) (cur : Option (Block P)), ScanAt w good A0 U prev next cur →
    PSat (seekMarkLoop w id prev next cur)
      (FoundMark w id good A0 U)
      (ScanFails w good U) := by
  apply seekMarkLoop.fixpoint_induct (width := w) (id := id) (motive := fun lp => ∀ (prev next : List (Block P))
    (cur : Option (Block P)), ScanAt w good A0 U prev next cur →
    PSat (lp prev next cur)
      (FoundMark w id good A0 U)
      (ScanFails w good U))
  · exact admissible_pi_apply _ fun _ => admissible_pi_apply _ fun _ => admissible_pi_apply _ fun _ =>
      admissible_pi _ fun _ => PSat.admissible _ _
  intro lp ih prev next cur hs
  match cur, hs with
  | none, .inl h =>
    subst h
    exact PSat.error (Or.inl (.inr (.inr (.inr (.inl rfl)))))
  | none, .inr ⟨b, n, line, rest, h, hv⟩ =>
    subst h
    exact ih _ _ _ ⟨line, rest, hv⟩
  | some block, ⟨line, rest, hv⟩ =>
    obtain ⟨segs, plen, eol, chunks⟩ := block
    have hch := hv.blockV.chunks
    match chunks, hch with
    | [], hch =>
      refine ih _ _ _ ?_
      rcases hv.nextLine rfl (fun _ _ => (hgood _).2 ⟨trivial, by rintro ⟨⟩⟩) with h | ⟨b, n, rest', h, h'⟩
      · exact .inl h
      · exact .inr ⟨b, n, [], rest', h, h'⟩
    | chunk :: chunks, hch =>
    cases hch with
    | @cons _ x _ rest hc hcs =>
    obtain ⟨iid, t⟩ := x
    obtain ⟨cn, cid⟩ := chunk
    obtain ⟨⟨hid, hcn⟩, hat⟩ := hc
    simp only at hid hcn
    subst hid
    dsimp only
    have go : ∀ {c x X}, ChunkR c x → LooksInto w (cid, t) (shown x.1 x.2) → X = shown x.1 x.2 →
        (∀ f, PartsFail x.2 f → OpenFails (cid, t) f) →
        PSat (do let (next, block) ← expandFirst next ⟨segs, plen, eol, chunks⟩ c; lp prev next (some block)) (FoundMark w id good A0 U)
          (ScanFails w good U) := by
      rintro c ⟨id', t'⟩ X hc ho rfl hfail
      refine .bind (hv.open rfl hc ho hfail) ?_ fun _ h => h
      rintro ⟨next', block'⟩ ⟨rest', h⟩
      exact ih _ _ _ ⟨line, rest', h⟩
    cases hcn with
    | empty => exact hat.elim
    | newline => exact hat.elim
    | concat _ _ => exact hat.elim
    | mark =>
      dsimp only
      split
      · rename_i hid
        obtain ⟨A, pre, R0, B, h1, h2, h3, h4, h5, h6, h7⟩ := hv
        refine .pure ⟨R0 ++ line, rest ++ B, _, next, A, pre ++ line, rest, B, rfl, h1, ⟨h2.flat, hcs, h2.cols⟩, h3, ?_,
          h6, ?_, rfl⟩
        · subst hid; simpa using h4
        · rw [← List.append_assoc, h7, List.append_assoc]
      · rename_i hid
        exact ih _ _ _ ⟨_, rest, hv.skip (.mark _) rfl ((hgood _).2 ⟨trivial, by rintro ⟨⟩; exact hid rfl⟩) rfl eol⟩
    | eol => exact ih _ _ _ ⟨_, rest, hv.skip (.eol _) rfl ((hgood _).2 ⟨trivial, by rintro ⟨⟩⟩) rfl true⟩
    | @text tx =>
      refine .bind (hv.text (block := ⟨segs, plen, eol, _⟩) ((hgood _).2 ⟨trivial, by rintro ⟨⟩⟩) rfl) ?_ fun _ h => .inl h
      intro b hb
      exact ih _ _ _ ⟨_, rest, hb⟩
    | @child i c rid tc hc =>
      refine .bind (Chunk.new_sat hc).psat ?_ ?_
      · rintro ch ⟨id', rfl, hck⟩
        exact go hck .child rfl fun f hf => .inr hf
      · intro f hf
        refine hv.fail (.first hv.blockV.flat ?_)
        rcases hf with rfl | rfl
        · exact .inl rfl
        · exact .inr (by simp [NTree.parts])
    | @choice a b ta tb ha hb =>
      have hb0 : BlockV ⟨segs, plen, eol, chunks⟩ line rest := ⟨hv.blockV.flat, hcs, hv.blockV.cols⟩
      refine .bind (choose_view ha hb hb0) ?_ fun f hf => hv.fail hf
      rintro ch (⟨hfit, hck⟩ | hck)
      · exact go hck (.first hfit) rfl fun f hf => .inl hf
      · exact go hck .second rfl fun f hf => .inr hf

/-- A text has been found. -/
def FoundText (w : Nat) (n : Nat) (good : P.Id × NTree P → Prop) (A0 U : View P) (r : List (Block P) × List (Block P)) : Prop :=
  ∃ (R : View P) (cid : P.Id) (tx : Textual P) (B' : View P) (block : Block P) (next : List (Block P))
    (A done items B : View P), r.2 = block :: next ∧ PrevV r.1 A ∧ BlockV block done items ∧
    NextV next B ∧ Expands w U (R ++ (cid, .text tx) :: B') ∧ tx.isFromText = true ∧ (∀ x ∈ R, good x) ∧
    A ++ done = A0 ++ R ++ [(cid, .text (tx.splitAt n).1)] ∧ (cid, .text (tx.splitAt n).2) :: B' = items ++ B

theorem seekTextLoop_view {w n : Nat} {good : P.Id × NTree P → Prop} {A0 U : View P}
    (hgood : ∀ x, good x ↔ Plain x ∧ ∀ t', x.2 = .text t' → t'.isFromText = false) :
    ∀ (prev next : List (Block P)) (cur : Option (Block P)), ScanAt w good A0 U prev next cur →
    PSat (seekTextLoop w n prev next cur)
      (FoundText w n good A0 U)
      (ScanFails w good U) := by
  apply seekTextLoop.fixpoint_induct (width := w) (textPos := n) (motive := fun lp => ∀ (prev next : List (Block P))
    (cur : Option (Block P)), ScanAt w good A0 U prev next cur →
    PSat (lp prev next cur)
      (FoundText w n good A0 U)
      (ScanFails w good U))
  · exact admissible_pi_apply _ fun _ => admissible_pi_apply _ fun _ => admissible_pi_apply _ fun _ =>
      admissible_pi _ fun _ => PSat.admissible _ _
  intro lp ih prev next cur hs
  match cur, hs with
  | none, .inl h =>
    subst h
    exact PSat.error (Or.inl (.inr (.inr (.inr (.inr (.inl rfl))))))
  | none, .inr ⟨b, n, line, rest, h, hv⟩ =>
    subst h
    exact ih _ _ _ ⟨line, rest, hv⟩
  | some block, ⟨line, rest, hv⟩ =>
    obtain ⟨segs, plen, eol, chunks⟩ := block
    have hch := hv.blockV.chunks
    match chunks, hch with
    | [], hch =>
      refine ih _ _ _ ?_
      rcases hv.nextLine rfl (fun _ _ => (hgood _).2 ⟨trivial, by rintro _ ⟨⟩⟩) with h | ⟨b, n, rest', h, h'⟩
      · exact .inl h
      · exact .inr ⟨b, n, [], rest', h, h'⟩
    | chunk :: chunks, hch =>
    cases hch with
    | @cons _ x _ rest hc hcs =>
    obtain ⟨iid, t⟩ := x
    obtain ⟨cn, cid⟩ := chunk
    obtain ⟨⟨hid, hcn⟩, hat⟩ := hc
    simp only at hid hcn
    subst hid
    dsimp only
    have go : ∀ {c x X}, ChunkR c x → LooksInto w (cid, t) (shown x.1 x.2) → X = shown x.1 x.2 →
        (∀ f, PartsFail x.2 f → OpenFails (cid, t) f) →
        PSat (do let (next, block) ← expandFirst next ⟨segs, plen, eol, chunks⟩ c; lp prev next (some block)) (FoundText w n good A0 U)
          (ScanFails w good U) := by
      rintro c ⟨id', t'⟩ X hc ho rfl hfail
      refine .bind (hv.open rfl hc ho hfail) ?_ fun _ h => h
      rintro ⟨next', block'⟩ ⟨rest', h⟩
      exact ih _ _ _ ⟨line, rest', h⟩
    cases hcn with
    | empty => exact hat.elim
    | newline => exact hat.elim
    | concat _ _ => exact hat.elim
    | mark => exact ih _ _ _ ⟨_, rest, hv.skip (.mark _) rfl ((hgood _).2 ⟨trivial, by rintro _ ⟨⟩⟩) rfl eol⟩
    | eol => exact ih _ _ _ ⟨_, rest, hv.skip (.eol _) rfl ((hgood _).2 ⟨trivial, by rintro _ ⟨⟩⟩) rfl true⟩
    | @text tx =>
      dsimp only
      split
      · rename_i htx
        obtain ⟨A, pre, R0, B, h1, h2, h3, h4, h5, h6, h7⟩ := hv
        have hr : BlockV ⟨segs, plen, eol, chunks⟩ (pre ++ line) rest := ⟨h2.flat, hcs, h2.cols⟩
        refine .bind (pushText_view cid hr) ?_ fun _ h => .inl h
        intro b hb
        refine .pure ⟨R0 ++ line, cid, tx, rest ++ B, _, next, A, _, (cid, .text (tx.splitAt n).2) :: rest, B, rfl, h1,
          ⟨hb.flat, .cons ⟨⟨rfl, .text⟩, trivial⟩ hb.chunks, hb.cols⟩, h3, by simpa using h4, htx, h6, ?_, rfl⟩
        rw [← List.append_assoc A0, ← h7]
        simp
      · rename_i htx
        refine .bind (hv.text (block := ⟨segs, plen, eol, _⟩)
          ((hgood _).2 ⟨trivial, by rintro _ ⟨⟩; simpa using htx⟩) rfl) ?_ fun _ h => .inl h
        intro b hb
        exact ih _ _ _ ⟨_, rest, hb⟩
    | @child i c rid tc hc =>
      refine .bind (Chunk.new_sat hc).psat ?_ ?_
      · rintro ch ⟨id', rfl, hck⟩
        exact go hck .child rfl fun f hf => .inr hf
      · intro f hf
        refine hv.fail (.first hv.blockV.flat ?_)
        rcases hf with rfl | rfl
        · exact .inl rfl
        · exact .inr (by simp [NTree.parts])
    | @choice a b ta tb ha hb =>
      have hb0 : BlockV ⟨segs, plen, eol, chunks⟩ line rest := ⟨hv.blockV.flat, hcs, hv.blockV.cols⟩
      refine .bind (choose_view ha hb hb0) ?_ fun f hf => hv.fail hf
      rintro ch (⟨hfit, hck⟩ | hck)
      · exact go hck (.first hfit) rfl fun f hf => .inl hf
      · exact go hck .second rfl fun f hf => .inr hf

/-- The start of scanning. -/
theorem scanV_start {good : P.Id × NTree P → Prop} {A done items B : View P} {prev next : List (Block P)}
    {block : Block P} (h1 : PrevV prev A) (h2 : BlockV block done items) (h3 : NextV next B) :
    ScanV w good (A ++ done) (items ++ B) prev next block [] items :=
  ⟨A, done, [], B, h1, by simpa using h2, h3, by simpa using .refl _, .inl rfl, by simp, by simp⟩

theorem seekMark_view {p : Printer P} {chunk : Chunk P} {A : View P} {id t B} {er : Fail P.Err → Prop}
    (h : AtChunk p.prev p.next chunk A (id, t) B) (ho : ∀ f, OwnFail f → er f) (he : ∀ f, PartsFail t f → er f)
    (he' : ∀ f, FocusFails p.width .mark A (id, t) B f → er f) :
    PSat (p.seekMark chunk) (fun r => r.width = p.width ∧
      ∃ left right, FocusAt p.width .mark A (id, t) B left right ∧ FocusV p.width r left right) er := by
  obtain ⟨block, next, A', done, items, B', hn, h1, h2, h3, rfl, rfl, h4⟩ := h
  have hid : chunk.id = id := h4.1
  unfold Printer.seekMark
  rw [hn, hid]
  dsimp only
  refine .bind (expandFirst_view (ho _ .overflow) h4 h2.chunks h3 he) ?_ fun _ h => h
  rintro ⟨next1, block1⟩ ⟨g1, g2, items1, B1, g3, g4, g5⟩
  have hb1 : BlockV block1 done items1 := ⟨h2.flat, g4, g2 ▸ h2.cols⟩
  have e : shown id t ++ (items ++ B') = items1 ++ B1 := by rw [← List.append_assoc, g3]
  refine .bind (seekMarkLoop_view (good := fun x => Plain x ∧ x ≠ (id, .mark)) (fun _ => Iff.rfl) p.prev
    (block1 :: next1) none (A0 := A' ++ done) (.inr ⟨block1, next1, [], items1, rfl, scanV_start h1 hb1 g5⟩)) ?_ ?_
  · rintro ⟨prev2, next2⟩ ⟨R, B2, b2, n2, A2, done2, items2, B3, k1, k2, k3, k4, k5, k6, k7, k8⟩
    refine .pure ⟨rfl, A' ++ done ++ R, B2, .mark (by rw [e]; exact k5) k6, b2, n2, A2, done2, items2, B3, k1, k2, k3, k4, ?_, ?_⟩
    · rw [k7]; exact .refl _
    · rw [k8]; exact .refl _
  · rintro f (hf | ⟨R, L, V, k1, k2, k3, k4, k5, k6⟩)
    · exact ho f hf
    · exact he' f (.mark (by rw [e]; exact k1) k2 k3 k4 k5 k6)

theorem seekText_view {p : Printer P} {chunk : Chunk P} {n : Nat} {A : View P} {id t B} {er : Fail P.Err → Prop}
    (h : AtChunk p.prev p.next chunk A (id, t) B) (ho : ∀ f, OwnFail f → er f) (he : ∀ f, PartsFail t f → er f)
    (he' : ∀ f, FocusFails p.width (.text n) A (id, t) B f → er f) :
    PSat (p.seekText chunk n) (fun r => r.width = p.width ∧
      ∃ left right, FocusAt p.width (.text n) A (id, t) B left right ∧ FocusV p.width r left right) er := by
  obtain ⟨block, next, A', done, items, B', hn, h1, h2, h3, rfl, rfl, h4⟩ := h
  unfold Printer.seekText
  rw [hn]
  dsimp only
  refine .bind (expandFirst_view (ho _ .overflow) h4 h2.chunks h3 he) ?_ fun _ h => h
  rintro ⟨next1, block1⟩ ⟨g1, g2, items1, B1, g3, g4, g5⟩
  have hb1 : BlockV block1 done items1 := ⟨h2.flat, g4, g2 ▸ h2.cols⟩
  have e : shown id t ++ (items ++ B') = items1 ++ B1 := by rw [← List.append_assoc, g3]
  refine .bind (seekTextLoop_view (n := n)
    (good := fun x => Plain x ∧ ∀ t', x.2 = .text t' → t'.isFromText = false) (fun _ => Iff.rfl) p.prev
    (block1 :: next1) none (A0 := A' ++ done) (.inr ⟨block1, next1, [], items1, rfl, scanV_start h1 hb1 g5⟩)) ?_ ?_
  · rintro ⟨prev2, next2⟩ ⟨R, cid, tx, B2, b2, n2, A2, done2, items2, B3, k1, k2, k3, k4, k5, k5', k6, k7, k8⟩
    refine .pure ⟨rfl, _, _, .text (by rw [e]; exact k5) k5' k6, b2, n2, A2, done2, items2, B3, k1, k2, k3, k4, ?_, ?_⟩
    · rw [k7]; exact .refl _
    · rw [k8]; exact .refl _
  · rintro f (hf | ⟨R, L, V, k1, k2, k3, k4, k5, k6⟩)
    · exact ho f hf
    · exact he' f (.text (by rw [e]; exact k1) k2 k3 k4 k5 k6)

end PPP
