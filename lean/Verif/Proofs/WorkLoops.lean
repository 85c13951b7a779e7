import Verif.Proofs.WorkPays
/-
The loops of the printer are paid for (see Proofs/WorkPays.lean).
-/
namespace PPP
variable {P : PrettyDoc}
open Counted

theorem pushText_pays {m : Nat} (b : Block P) (t : Textual P) (B : Nat) :
    Pays m (b.pushText t).free B (fun b' φ => b'.chunks = b.chunks ∧ φ = B) := by
  unfold Block.pushText
  split
  · exact Pays.throw
  · split
    · exact Pays.free (r := .ok _) rfl fun b' hb => by cases hb; exact ⟨rfl, rfl⟩
    · exact Pays.free (r := .error _) rfl fun b' hb => by cases hb

/-- What `expand_focusing_first_block` and `expand_focusing_last_block` have in common. -/
def ExpandsP (w β : Nat) (ex : List (Block P) → Block P → Chunk P → Counted P.Err (List (Block P) × Block P)) :
    Prop :=
  ∀ {bs block c ks s φ}, BlocksP w β bs φ → Chunks block.chunks ks → CNShape c.notn s →
    Pays 1 (ex bs block c) (φ + lpot w 8 ks nil + (12 * s.work w (aheadL ks nil) - 6) + 1) (ExpandP w β)

theorem expandFirst_expands (w : Nat) {β} (hβ : β ≤ 4) : ExpandsP (P := P) w β expandFirstC :=
  fun h1 h2 h3 => expandFirstC_pays hβ h1 h2 h3

theorem expandLast_expands (w : Nat) {β} (hβ : β ≤ 4) : ExpandsP (P := P) w β expandLastC :=
  fun h1 h2 h3 => expandLastC_pays hβ h1 h2 h3

/-- Opening a child. -/
theorem child_pays {w β : Nat} {ex} (hex : ExpandsP (P := P) w β ex) {bs : List (Block P)} {block : Block P}
    {d : DCN P} {ks t φ B k} {α : Type} {f : List (Block P) × Block P → Counted P.Err α} {R : α → Nat → Prop}
    (hbs : BlocksP w β bs φ) (hks : Chunks block.chunks ks) (hd : ShapeRep d t)
    (hB : φ + lpot w 8 ks nil + (12 * (Shape.child t).work w (aheadL ks nil) - 8) - 1 + k ≤ B)
    (hf : ∀ x ψ, ExpandP w β x ψ → ψ + 1 + k ≤ B → Pays 1 (f x) (ψ + 1 + k) R) :
    Pays 1 (Chunk.newC d >>= fun c => ex bs block c >>= f) B R := by
  have e1 := t.work_core w (aheadL ks nil)
  have p1 := t.steps_pos
  have p2 := t.core.work_pos w (aheadL ks nil)
  simp only [Shape.work] at hB
  refine Pays.bind (k := B - (1 + 5 * t.steps)) (Chunk.newC_pays hd) (by omega) ?_
  rintro c ψ ⟨hc, rfl⟩ -
  refine Pays.bind (k := 1 + k) (hex hbs hks hc) (by omega) ?_
  intro x ψ hx hψ
  exact (hf x ψ hx (by omega)).mono (by omega) (fun _ _ h => h)

/-- Deciding a choice. -/
theorem choice_pays {w β : Nat} {ex} (hex : ExpandsP (P := P) w β ex) {bs : List (Block P)} {block : Block P}
    {d1 d2 : DCN P} {ks s1 s2 φ B k} {α : Type} {f : List (Block P) × Block P → Counted P.Err α}
    {R : α → Nat → Prop}
    (hbs : BlocksP w β bs φ) (hks : Chunks block.chunks ks) (h1 : ShapeRep d1 s1) (h2 : ShapeRep d2 s2)
    (hB : φ + lpot w 8 ks nil + (12 * (Shape.choice s1 s2).work w (aheadL ks nil) - 8) - 1 + k ≤ B)
    (hf : ∀ x ψ, ExpandP w β x ψ → ψ + 1 + k ≤ B → Pays 1 (f x) (ψ + 1 + k) R) :
    Pays 1 (chooseC w block d1 d2 >>= fun c => ex bs block c >>= f) B R := by
  simp only [Shape.work] at hB
  refine Pays.bind (k := φ + lpot w 8 ks nil + k) (chooseC_pays h1 h2 hks) (by omega) ?_
  rintro c ψ ⟨s, hc, hψ⟩ hψ'
  refine Pays.bind (k := 1 + k) (hex hbs hks hc) (by omega) ?_
  intro x ψ hx hψ
  exact (hf x ψ hx (by omega)).mono (by omega) (fun _ _ h => h)

theorem Chunks.cons_inv {c : Chunk P} {cs ks} (h : Chunks (c :: cs) ks) :
    ∃ s ks', ks = s :: ks' ∧ CNShape c.notn s ∧ Chunks cs ks' := by
  cases h with
  | cons h1 h2 => exact ⟨_, _, rfl, h1, h2⟩

/-- What an evaluated notation looks like, by its shape. -/
theorem CNShape.inv {c : CN P} {s} (h : CNShape c s) : match c with
    | .choice a b => ∃ sa sb, s = .choice sa sb ∧ ShapeRep a sa ∧ ShapeRep b sb
    | .child _ d => ∃ t, s = .child t ∧ ShapeRep d t
    | _ => True := by
  cases h with
  | leaf hl => rcases hl with rfl | rfl | rfl <;> trivial
  | newline => trivial
  | text => trivial
  | concat => trivial
  | choice ha hb => exact ⟨_, _, rfl, ha, hb⟩
  | child hc => exact ⟨_, rfl, hc⟩

/-! ### Printing lines -/

theorem printNextLoopC_pays {w : Nat} (B : Nat) : ∀ (next : List (Block P)) (block : Block P) (ks φ),
    BlocksP w 2 next φ → Chunks block.chunks ks → φ + lpot w 8 ks nil + 1 ≤ B →
    Pays 1 (printNextLoopC w next block) B (fun r ψ => BlocksP w 2 r.2 ψ) := by
  induction B using Nat.strongRecOn with
  | _ B ih =>
    intro next block ks φ hnext hks hB
    rw [printNextLoopC.eq_def]
    refine Pays.tick1 (by omega) ?_
    obtain ⟨segs, pl, eol, cs⟩ := block
    cases cs with
    | nil =>
      cases hks with
      | nil =>
        refine Pays.bind (B0 := 0) (k := B - 1) (Pays.free (r := .ok _) rfl fun l hl => rfl) (by omega)
          (Q := fun _ φ => φ = 0) ?_
        rintro l _ rfl -
        exact Pays.pure (hnext.weaken (Nat.le_refl _) (by omega))
    | cons c cs =>
      obtain ⟨s, ks', rfl, hc, hks'⟩ := hks.cons_inv
      have hpos := s.work_pos w (aheadL ks' nil)
      simp only [lpot] at hB
      have rest : ∀ segs pl eol, Pays 1 (printNextLoopC w next ⟨segs, pl, eol, cs⟩) (B - 1)
          (fun r ψ => BlocksP w 2 r.2 ψ) := fun segs pl eol =>
        ih (B - 1) (by omega) next ⟨segs, pl, eol, cs⟩ ks' φ hnext hks' (by omega)
      have again : ∀ (x : List (Block P) × Block P) ψ, ExpandP w 2 x ψ → ψ + 1 + 0 ≤ B - 1 →
          Pays 1 (printNextLoopC w x.1 x.2) (ψ + 1 + 0) (fun r ψ => BlocksP w 2 r.2 ψ) := by
        rintro ⟨next', block'⟩ ψ ⟨φ1, φ2, g1, ⟨ks2, g2, g3⟩, g4⟩ hψ
        exact ih _ (by omega) next' block' ks2 φ1 g1 g2 (by omega)
      have hi := hc.inv
      obtain ⟨cn, id⟩ := c
      cases cn <;> dsimp only at hi ⊢
      case empty => exact Pays.panic
      case newline => exact Pays.panic
      case concat => exact Pays.panic
      case focusMark => exact rest _ _ _
      case endOfLine => exact rest _ _ _
      case textual t =>
        refine Pays.bind (k := 0) (pushText_pays _ t _) (Nat.le_refl _) ?_
        rintro ⟨segs', pl', eol', cs'⟩ ψ ⟨hb, rfl⟩ -
        dsimp only at hb
        subst hb
        exact rest _ _ _
      case child i d =>
        obtain ⟨t, rfl, hd⟩ := hi
        exact child_pays (expandFirst_expands w (by omega)) hnext hks' hd (k := 0) (by omega) again
      case choice d1 d2 =>
        obtain ⟨s1, s2, rfl, h1, h2⟩ := hi
        exact choice_pays (expandFirst_expands w (by omega)) hnext hks' h1 h2 (k := 0) (by omega) again

theorem printPrevLoopC_pays {w : Nat} (B : Nat) : ∀ (prev : List (Block P)) (block : Block P) (ks φ),
    BlocksP w 2 prev φ → Chunks block.chunks ks → φ + lpot w 8 ks nil + 1 ≤ B →
    Pays 1 (printPrevLoopC w prev block) B (fun r ψ => BlocksP w 2 r.2 ψ) := by
  induction B using Nat.strongRecOn with
  | _ B ih =>
    intro prev block ks φ hprev hks hB
    rw [printPrevLoopC.eq_def]
    refine Pays.tick1 (by omega) ?_
    obtain ⟨segs, pl, eol, cs⟩ := block
    cases cs with
    | nil =>
      cases hks with
      | nil =>
        refine Pays.bind (B0 := 0) (k := B - 1) (Pays.free (r := .ok _) rfl fun l hl => rfl) (by omega)
          (Q := fun _ φ => φ = 0) ?_
        rintro l _ rfl -
        exact Pays.pure (hprev.weaken (Nat.le_refl _) (by omega))
    | cons c cs =>
      obtain ⟨s, ks', rfl, hc, hks'⟩ := hks.cons_inv
      have hpos := s.work_pos w (aheadL ks' nil)
      simp only [lpot] at hB
      have rest : ∀ segs pl eol, Pays 1 (printPrevLoopC w prev ⟨segs, pl, eol, cs⟩) (B - 1)
          (fun r ψ => BlocksP w 2 r.2 ψ) := fun segs pl eol =>
        ih (B - 1) (by omega) prev ⟨segs, pl, eol, cs⟩ ks' φ hprev hks' (by omega)
      have again : ∀ (x : List (Block P) × Block P) ψ, ExpandP w 2 x ψ → ψ + 1 + 0 ≤ B - 1 →
          Pays 1 (printPrevLoopC w x.1 x.2) (ψ + 1 + 0) (fun r ψ => BlocksP w 2 r.2 ψ) := by
        rintro ⟨next', block'⟩ ψ ⟨φ1, φ2, g1, ⟨ks2, g2, g3⟩, g4⟩ hψ
        exact ih _ (by omega) next' block' ks2 φ1 g1 g2 (by omega)
      have hi := hc.inv
      obtain ⟨cn, id⟩ := c
      cases cn <;> dsimp only at hi ⊢
      case empty => exact Pays.panic
      case newline => exact Pays.panic
      case concat => exact Pays.panic
      case focusMark => exact rest _ _ _
      case endOfLine => exact rest _ _ _
      case textual t =>
        refine Pays.bind (k := 0) (pushText_pays _ t _) (Nat.le_refl _) ?_
        rintro ⟨segs', pl', eol', cs'⟩ ψ ⟨hb, rfl⟩ -
        dsimp only at hb
        subst hb
        exact rest _ _ _
      case child i d =>
        obtain ⟨t, rfl, hd⟩ := hi
        exact child_pays (expandLast_expands w (by omega)) hprev hks' hd (k := 0) (by omega) again
      case choice d1 d2 =>
        obtain ⟨s1, s2, rfl, h1, h2⟩ := hi
        exact choice_pays (expandLast_expands w (by omega)) hprev hks' h1 h2 (k := 0) (by omega) again

/-- Both sides of a printer are paid for. -/
def PrinterP (w : Nat) (p : Printer P) (φ : Nat) : Prop :=
  p.width = w ∧ ∃ φ1 φ2, BlocksP w 2 p.prev φ1 ∧ BlocksP w 2 p.next φ2 ∧ φ1 + φ2 ≤ φ

/-- Printing a line is paid for, except that finding out that there are no more lines takes a step. -/
theorem printNextLineC_pays {w : Nat} {p : Printer P} {φ} (h : PrinterP w p φ) :
    Pays 1 p.printNextLineC (φ + 1) (fun r ψ => PrinterP w r.2 ψ) := by
  obtain ⟨rfl, φ1, φ2, h1, h2, h3⟩ := h
  obtain ⟨w, prev, next⟩ := p
  unfold Printer.printNextLineC
  refine Pays.tick1 (by omega) ?_
  cases next with
  | nil => exact Pays.pure ⟨rfl, φ1, φ2, h1, h2, by omega⟩
  | cons b bs =>
    obtain ⟨ψ1, ψ2, ⟨ks, g1, g2⟩, g3, g4⟩ := h2
    dsimp only at g2
    refine Pays.bind (B0 := ψ2 + lpot w 8 ks nil + 1) (k := φ1)
      (printNextLoopC_pays _ bs b ks ψ2 g3 g1 (Nat.le_refl _)) (by omega) ?_
    rintro ⟨l, next'⟩ ψ hψ -
    exact Pays.pure ⟨rfl, φ1, ψ, h1, hψ, by omega⟩

theorem printPrevLineC_pays {w : Nat} {p : Printer P} {φ} (h : PrinterP w p φ) :
    Pays 1 p.printPrevLineC (φ + 1) (fun r ψ => PrinterP w r.2 ψ) := by
  obtain ⟨rfl, φ1, φ2, h1, h2, h3⟩ := h
  obtain ⟨w, prev, next⟩ := p
  unfold Printer.printPrevLineC
  refine Pays.tick1 (by omega) ?_
  cases prev with
  | nil => exact Pays.pure ⟨rfl, φ1, φ2, h1, h2, by omega⟩
  | cons b bs =>
    obtain ⟨ψ1, ψ2, ⟨ks, g1, g2⟩, g3, g4⟩ := h1
    dsimp only at g2
    refine Pays.bind (B0 := ψ2 + lpot w 8 ks nil + 1) (k := φ2)
      (printPrevLoopC_pays _ bs b ks ψ2 g3 g1 (Nat.le_refl _)) (by omega) ?_
    rintro ⟨l, prev'⟩ ψ hψ -
    exact Pays.pure ⟨rfl, ψ, φ2, hψ, h2, by omega⟩

/-- A line is paid for if there is one. -/
theorem printNextLineC_pays' {w : Nat} {p : Printer P} {φ} (h : PrinterP w p φ) (hne : p.next ≠ []) :
    Pays 1 p.printNextLineC φ (fun r ψ => PrinterP w r.2 ψ) := by
  obtain ⟨rfl, φ1, φ2, h1, h2, h3⟩ := h
  obtain ⟨w, prev, next⟩ := p
  unfold Printer.printNextLineC
  cases next with
  | nil => exact absurd rfl hne
  | cons b bs =>
    obtain ⟨ψ1, ψ2, ⟨ks, g1, g2⟩, g3, g4⟩ := h2
    dsimp only at g2
    refine Pays.tick1 (by omega) ?_
    refine Pays.bind (B0 := ψ2 + lpot w 8 ks nil + 1) (k := φ1)
      (printNextLoopC_pays _ bs b ks ψ2 g3 g1 (Nat.le_refl _)) (by omega) ?_
    rintro ⟨l, next'⟩ ψ hψ -
    exact Pays.pure ⟨rfl, φ1, ψ, h1, hψ, by omega⟩

/-! ### Seeking -/

theorem seekEndLoopC_pays {w num : Nat} (B : Nat) : ∀ (prev : List (Block P)) (block : Block P) (ks φ),
    BlocksP w 2 prev φ → Chunks block.chunks ks → φ + lpot w 8 ks nil + 1 ≤ B →
    Pays 1 (seekEndLoopC w num prev block) B (ExpandP w 2) := by
  induction B using Nat.strongRecOn with
  | _ B ih =>
    intro prev block ks φ hprev hks hB
    rw [seekEndLoopC.eq_def]
    refine Pays.tick1 (by omega) ?_
    split
    · rename_i hgt
      clear hgt
      obtain ⟨segs, pl, eol, cs⟩ := block
      cases cs with
      | nil => exact Pays.panic
      | cons c cs =>
        obtain ⟨s, ks', rfl, hc, hks'⟩ := hks.cons_inv
        have hpos := s.work_pos w (aheadL ks' nil)
        simp only [lpot] at hB
        have rest : ∀ segs pl eol, Pays 1 (seekEndLoopC w num prev ⟨segs, pl, eol, cs⟩) (B - 1)
            (ExpandP w 2) := fun segs pl eol =>
          ih (B - 1) (by omega) prev ⟨segs, pl, eol, cs⟩ ks' φ hprev hks' (by omega)
        have again : ∀ (x : List (Block P) × Block P) ψ, ExpandP w 2 x ψ → ψ + 1 + 0 ≤ B - 1 →
            Pays 1 (seekEndLoopC w num x.1 x.2) (ψ + 1 + 0) (ExpandP w 2) := by
          rintro ⟨next', block'⟩ ψ ⟨φ1, φ2, g1, ⟨ks2, g2, g3⟩, g4⟩ hψ
          exact ih _ (by omega) next' block' ks2 φ1 g1 g2 (by omega)
        have hi := hc.inv
        obtain ⟨cn, id⟩ := c
        cases cn <;> dsimp only at hi ⊢
        case empty => exact Pays.panic
        case newline => exact Pays.panic
        case concat => exact Pays.panic
        case focusMark => exact rest _ _ _
        case endOfLine => exact rest _ _ _
        case textual t =>
          refine Pays.bind (k := 0) (pushText_pays _ t _) (Nat.le_refl _) ?_
          rintro ⟨segs', pl', eol', cs'⟩ ψ ⟨hb, rfl⟩ -
          dsimp only at hb
          subst hb
          exact rest _ _ _
        case child i d =>
          obtain ⟨t, rfl, hd⟩ := hi
          exact child_pays (expandLast_expands w (by omega)) hprev hks' hd (k := 0) (by omega) again
        case choice d1 d2 =>
          obtain ⟨s1, s2, rfl, h1, h2⟩ := hi
          exact choice_pays (expandLast_expands w (by omega)) hprev hks' h1 h2 (k := 0) (by omega) again
    · exact Pays.pure ⟨φ, lpot w 8 ks nil, hprev, ⟨ks, hks, Nat.le_refl _⟩, by omega⟩

/-- The block that `seek_mark` and `seek_text` are looking at. -/
def CurP (w : Nat) : Option (Block P) → Nat → Prop
  | none, _ => True
  | some b, φ => ∃ ks, Chunks b.chunks ks ∧ lpot w 8 ks nil + 3 ≤ φ

/-- What is left over after a seek: both sides are paid for. -/
def BothP (w : Nat) (r : List (Block P) × List (Block P)) (φ : Nat) : Prop :=
  r.2 ≠ [] ∧ ∃ φ1 φ2, BlocksP w 2 r.1 φ1 ∧ BlocksP w 2 r.2 φ2 ∧ φ1 + φ2 ≤ φ

theorem seekMarkLoopC_pays {w : Nat} {id : P.Id} (B : Nat) : ∀ (prev next : List (Block P))
    (cur : Option (Block P)) (φ1 φ2 φ3), BlocksP w 2 prev φ1 → BlocksP w 4 next φ2 → CurP w cur φ3 →
    φ1 + φ2 + φ3 + 1 ≤ B → Pays 1 (seekMarkLoopC w id prev next cur) B (BothP w) := by
  induction B using Nat.strongRecOn with
  | _ B ih =>
    intro prev next cur φ1 φ2 φ3 hprev hnext hcur hB
    rw [seekMarkLoopC.eq_def]
    refine Pays.tick1 (by omega) ?_
    cases cur with
    | none =>
      cases next with
      | nil => exact Pays.throw
      | cons b bs =>
        obtain ⟨ψ1, ψ2, ⟨ks, g1, g2⟩, g3, g4⟩ := hnext
        exact ih (B - 1) (by omega) prev bs (some b) φ1 ψ2 (ψ1 + 3) hprev g3 ⟨ks, g1, by omega⟩ (by omega)
    | some block =>
      obtain ⟨ks, hks, hφ3⟩ := hcur
      obtain ⟨segs, pl, eol, cs⟩ := block
      cases cs with
      | nil =>
        cases hks with
        | nil =>
          exact ih (B - 1) (by omega) _ next none (0 + 2 + φ1) φ2 0
            ⟨0, φ1, ⟨[], .nil, Nat.le_refl _⟩, hprev, Nat.le_refl _⟩ hnext trivial (by omega)
      | cons c cs =>
        obtain ⟨s, ks', rfl, hc, hks'⟩ := hks.cons_inv
        have hpos := s.work_pos w (aheadL ks' nil)
        simp only [lpot] at hφ3
        have rest : ∀ segs pl eol, Pays 1 (seekMarkLoopC w id prev next (some ⟨segs, pl, eol, cs⟩)) (B - 1)
            (BothP w) := fun segs pl eol =>
          ih (B - 1) (by omega) prev next (some ⟨segs, pl, eol, cs⟩) φ1 φ2 (lpot w 8 ks' nil + 3) hprev hnext
            ⟨ks', hks', Nat.le_refl _⟩ (by omega)
        have again : ∀ (x : List (Block P) × Block P) ψ, ExpandP w 4 x ψ → ψ + 1 + (φ1 + 3) ≤ B - 1 →
            Pays 1 (seekMarkLoopC w id prev x.1 (some x.2)) (ψ + 1 + (φ1 + 3)) (BothP w) := by
          rintro ⟨next', block'⟩ ψ ⟨ψ1, ψ2, g1, ⟨ks2, g2, g3⟩, g4⟩ hψ
          exact ih _ (by omega) prev next' (some block') φ1 ψ1 (ψ2 + 3) hprev g1 ⟨ks2, g2, by omega⟩ (by omega)
        have hi := hc.inv
        obtain ⟨cn, id'⟩ := c
        cases cn <;> dsimp only at hi ⊢
        case empty => exact Pays.panic
        case newline => exact Pays.panic
        case concat => exact Pays.panic
        case focusMark =>
          split
          · refine Pays.pure ⟨by simp, φ1, lpot w 8 ks' nil + 2 + φ2, hprev,
              ⟨_, _, ⟨ks', hks', Nat.le_refl _⟩, hnext.weaken (by omega) (Nat.le_refl _), Nat.le_refl _⟩, ?_⟩
            omega
          · exact rest _ _ _
        case endOfLine => exact rest _ _ _
        case textual t =>
          refine Pays.bind (k := 0) (pushText_pays _ t _) (Nat.le_refl _) ?_
          rintro ⟨segs', pl', eol', cs'⟩ ψ ⟨hb, rfl⟩ -
          dsimp only at hb
          subst hb
          exact rest _ _ _
        case child i d =>
          obtain ⟨t, rfl, hd⟩ := hi
          exact child_pays (expandFirst_expands w (by omega)) hnext hks' hd (k := φ1 + 3) (by omega) again
        case choice d1 d2 =>
          obtain ⟨s1, s2, rfl, h1, h2⟩ := hi
          exact choice_pays (expandFirst_expands w (by omega)) hnext hks' h1 h2 (k := φ1 + 3) (by omega) again

theorem seekTextLoopC_pays {w pos : Nat} (B : Nat) : ∀ (prev next : List (Block P))
    (cur : Option (Block P)) (φ1 φ2 φ3), BlocksP w 2 prev φ1 → BlocksP w 4 next φ2 → CurP w cur φ3 →
    φ1 + φ2 + φ3 + 1 ≤ B → Pays 1 (seekTextLoopC w pos prev next cur) B (BothP w) := by
  induction B using Nat.strongRecOn with
  | _ B ih =>
    intro prev next cur φ1 φ2 φ3 hprev hnext hcur hB
    rw [seekTextLoopC.eq_def]
    refine Pays.tick1 (by omega) ?_
    cases cur with
    | none =>
      cases next with
      | nil => exact Pays.throw
      | cons b bs =>
        obtain ⟨ψ1, ψ2, ⟨ks, g1, g2⟩, g3, g4⟩ := hnext
        exact ih (B - 1) (by omega) prev bs (some b) φ1 ψ2 (ψ1 + 3) hprev g3 ⟨ks, g1, by omega⟩ (by omega)
    | some block =>
      obtain ⟨ks, hks, hφ3⟩ := hcur
      obtain ⟨segs, pl, eol, cs⟩ := block
      cases cs with
      | nil =>
        cases hks with
        | nil =>
          exact ih (B - 1) (by omega) _ next none (0 + 2 + φ1) φ2 0
            ⟨0, φ1, ⟨[], .nil, Nat.le_refl _⟩, hprev, Nat.le_refl _⟩ hnext trivial (by omega)
      | cons c cs =>
        obtain ⟨s, ks', rfl, hc, hks'⟩ := hks.cons_inv
        have hpos := s.work_pos w (aheadL ks' nil)
        simp only [lpot] at hφ3
        have rest : ∀ segs pl eol, Pays 1 (seekTextLoopC w pos prev next (some ⟨segs, pl, eol, cs⟩)) (B - 1)
            (BothP w) := fun segs pl eol =>
          ih (B - 1) (by omega) prev next (some ⟨segs, pl, eol, cs⟩) φ1 φ2 (lpot w 8 ks' nil + 3) hprev hnext
            ⟨ks', hks', Nat.le_refl _⟩ (by omega)
        have again : ∀ (x : List (Block P) × Block P) ψ, ExpandP w 4 x ψ → ψ + 1 + (φ1 + 3) ≤ B - 1 →
            Pays 1 (seekTextLoopC w pos prev x.1 (some x.2)) (ψ + 1 + (φ1 + 3)) (BothP w) := by
          rintro ⟨next', block'⟩ ψ ⟨ψ1, ψ2, g1, ⟨ks2, g2, g3⟩, g4⟩ hψ
          exact ih _ (by omega) prev next' (some block') φ1 ψ1 (ψ2 + 3) hprev g1 ⟨ks2, g2, by omega⟩ (by omega)
        have hi := hc.inv
        obtain ⟨cn, id'⟩ := c
        cases cn <;> dsimp only at hi ⊢
        case empty => exact Pays.panic
        case newline => exact Pays.panic
        case concat => exact Pays.panic
        case focusMark => exact rest _ _ _
        case endOfLine => exact rest _ _ _
        case textual t =>
          split
          · refine Pays.bind (k := 0) (pushText_pays _ _ (B - 1)) (Nat.le_refl _) ?_
            rintro ⟨segs', pl', eol', cs'⟩ ψ ⟨hb, rfl⟩ -
            dsimp only at hb
            subst hb
            refine Pays.pure ⟨by simp, φ1, 4 + lpot w 8 ks' nil + 2 + φ2, hprev,
              ⟨_, _, ⟨_ :: ks', .cons .text hks', ?_⟩, hnext.weaken (by omega) (Nat.le_refl _),
                Nat.le_refl _⟩, ?_⟩
            · simp only [lpot, Shape.work]
              omega
            · omega
          · refine Pays.bind (k := 0) (pushText_pays _ t _) (Nat.le_refl _) ?_
            rintro ⟨segs', pl', eol', cs'⟩ ψ ⟨hb, rfl⟩ -
            dsimp only at hb
            subst hb
            exact rest _ _ _
        case child i d =>
          obtain ⟨t, rfl, hd⟩ := hi
          exact child_pays (expandFirst_expands w (by omega)) hnext hks' hd (k := φ1 + 3) (by omega) again
        case choice d1 d2 =>
          obtain ⟨s1, s2, rfl, h1, h2⟩ := hi
          exact choice_pays (expandFirst_expands w (by omega)) hnext hks' h1 h2 (k := φ1 + 3) (by omega) again

/-! ### `seek_child` -/

/-- The chunk in focus, and what comes after it, is paid for. -/
def FocusP (w : Nat) (next : List (Block P)) (chunk : Chunk P) (φ : Nat) : Prop :=
  ∃ block rest ks s φ2, next = block :: rest ∧ Chunks block.chunks ks ∧ BlocksP w 4 rest φ2 ∧
    CNShape chunk.notn s ∧
    lpot w 8 ks nil + 4 + φ2 + (12 * s.work w (aheadL ks nil) - 6) ≤ φ

/-- What is left over after step 2. -/
def Step2P (w : Nat) : Step2 P → Nat → Prop
  | .again next, φ => ∃ φ', BlocksP w 4 next φ' ∧ φ' + 1 ≤ φ
  | .found next chunk, φ => ∃ φ', FocusP w next chunk φ' ∧ φ' + 3 ≤ φ

theorem seekChildStep2C_pays {w : Nat} {id : P.Id} {index : Nat} (B : Nat) : ∀ (next : List (Block P))
    (block : Block P) (ks φ), BlocksP w 4 next φ → Chunks block.chunks ks → φ + lpot w 8 ks nil + 4 ≤ B →
    Pays 1 (seekChildStep2C w id index next block) B (Step2P w) := by
  induction B using Nat.strongRecOn with
  | _ B ih =>
    intro next block ks φ hnext hks hB
    rw [seekChildStep2C.eq_def]
    refine Pays.tick1 (by omega) ?_
    obtain ⟨segs, pl, eol, cs⟩ := block
    cases cs with
    | nil => exact Pays.pure ⟨φ, hnext, by omega⟩
    | cons c cs =>
      obtain ⟨s, ks', rfl, hc, hks'⟩ := hks.cons_inv
      have hpos := s.work_pos w (aheadL ks' nil)
      simp only [lpot] at hB
      have rest : ∀ segs pl eol, Pays 1 (seekChildStep2C w id index next ⟨segs, pl, eol, cs⟩) (B - 1)
          (Step2P w) := fun segs pl eol =>
        ih (B - 1) (by omega) next ⟨segs, pl, eol, cs⟩ ks' φ hnext hks' (by omega)
      have again : ∀ (x : List (Block P) × Block P) ψ, ExpandP w 4 x ψ → ψ + 1 + 4 ≤ B - 1 →
          Pays 1 (pure (.again (x.2 :: x.1)) : Counted P.Err (Step2 P)) (ψ + 1 + 4) (Step2P w) := by
        rintro ⟨next', block'⟩ ψ ⟨φ1, φ2, g1, g2, g4⟩ hψ
        exact Pays.pure ⟨φ2 + 4 + φ1, ⟨φ2, φ1, g2, g1, Nat.le_refl _⟩, by omega⟩
      have hi := hc.inv
      obtain ⟨cn, id'⟩ := c
      cases cn <;> dsimp only at hi ⊢
      case empty => exact Pays.panic
      case newline => exact Pays.panic
      case concat => exact Pays.panic
      case focusMark => exact rest _ _ _
      case endOfLine => exact rest _ _ _
      case textual t =>
        refine Pays.bind (k := 0) (pushText_pays _ t _) (Nat.le_refl _) ?_
        rintro ⟨segs', pl', eol', cs'⟩ ψ ⟨hb, rfl⟩ -
        dsimp only at hb
        subst hb
        exact rest _ _ _
      case child i d =>
        obtain ⟨t, rfl, hd⟩ := hi
        split
        · have e1 := t.work_core w (aheadL ks' nil)
          have p1 := t.steps_pos
          have p2 := t.core.work_pos w (aheadL ks' nil)
          simp only [Shape.work] at hB
          refine Pays.bind (k := B - 1 - (1 + 5 * t.steps)) (Chunk.newC_pays hd) (by omega) ?_
          rintro c ψ ⟨hc', rfl⟩ -
          exact Pays.pure ⟨_, ⟨_, _, ks', t.core, φ, rfl, hks', hnext, hc', Nat.le_refl _⟩, by omega⟩
        · exact child_pays (expandFirst_expands w (by omega)) hnext hks' hd (k := 4) (by omega) again
      case choice d1 d2 =>
        obtain ⟨s1, s2, rfl, h1, h2⟩ := hi
        exact choice_pays (expandFirst_expands w (by omega)) hnext hks' h1 h2 (k := 4) (by omega) again

theorem scanned_le (id : P.Id) (index : Nat) (cs : List (Chunk P)) : scanned id index cs ≤ cs.length := by
  induction cs with
  | nil => simp [scanned]
  | cons c cs ih =>
    simp only [scanned, List.length_cons]
    split <;> omega

/-- Step 1: blocks are moved to the other side, and the chunks looked at are paid for if `m` is large. -/
theorem skip_pays {w scan M m : Nat} (hm : 1 + scan * M ≤ m) (id : P.Id) (index : Nat)
    (next : List (Block P)) : ∀ (prev : List (Block P)) (φ1 φ2), BlocksP w 2 prev φ1 → BlocksP w 4 next φ2 →
    φ2 ≤ M → ∃ k φ1' φ2', skipSteps scan id index next ≤ m * k ∧ 1 ≤ k ∧
      BlocksP w 2 (skipBlocks id index prev next).1 φ1' ∧ BlocksP w 4 (skipBlocks id index prev next).2 φ2' ∧
      φ2' ≤ φ2 ∧ k + φ1' + φ2' ≤ φ1 + φ2 + 1 := by
  induction next with
  | nil =>
    intro prev φ1 φ2 h1 h2 _
    refine ⟨1, φ1, 0, ?_, Nat.le_refl _, h1, trivial, by omega, by omega⟩
    simp only [skipSteps]
    omega
  | cons b bs ih =>
    intro prev φ1 φ2 h1 h2 hM
    obtain ⟨ψ1, ψ2, hb, hbs, h3⟩ := h2
    obtain ⟨ks, g1, g2⟩ := hb
    have hlen : scanned id index b.chunks ≤ M := by
      have := scanned_le id index b.chunks
      have := g1.length
      have := length_le_lpot w ks nil
      omega
    have hscan := Nat.mul_le_mul_left scan hlen
    simp only [skipSteps, skipBlocks]
    split
    · exact ⟨1, φ1, φ2, by omega, Nat.le_refl _, h1, ⟨ψ1, ψ2, ⟨ks, g1, g2⟩, hbs, h3⟩, Nat.le_refl _, by omega⟩
    · obtain ⟨k, φ1', φ2', e1, e2, e3, e4, e5, e6⟩ := ih (b :: prev) (ψ1 + 2 + φ1) ψ2
        ⟨ψ1, φ1, ⟨ks, g1, g2⟩, h1, Nat.le_refl _⟩ hbs (by omega)
      refine ⟨k + 1, φ1', φ2', ?_, by omega, e3, e4, by omega, by omega⟩
      rw [Nat.mul_add, Nat.mul_one]
      omega

theorem seekChildLoopC_pays {w scan M m : Nat} (hm : 1 + scan * M ≤ m) {id : P.Id} {index : Nat} (B : Nat) :
    ∀ (prev next : List (Block P)) (φ1 φ2), BlocksP w 2 prev φ1 → BlocksP w 4 next φ2 → φ1 + φ2 + 1 ≤ B →
    φ2 ≤ M → Pays m (seekChildLoopC scan w id index prev next) B
      (fun r ψ => ∃ φ1 φ2, BlocksP w 2 r.1 φ1 ∧ FocusP w r.2.1 r.2.2 φ2 ∧ φ1 + φ2 + 3 ≤ ψ) := by
  induction B using Nat.strongRecOn with
  | _ B ih =>
    intro prev next φ1 φ2 hprev hnext hB hM
    rw [seekChildLoopC.eq_def]
    obtain ⟨k, φ1', φ2', e1, e2, e3, e4, e5, e6⟩ := skip_pays hm id index next prev φ1 φ2 hprev hnext hM
    refine Pays.tick e1 (by omega) ?_
    generalize skipBlocks id index prev next = sk at e3 e4
    obtain ⟨prev', next'⟩ := sk
    cases next' with
    | nil => exact Pays.throw
    | cons b bs =>
      obtain ⟨ψ1, ψ2, ⟨ks, g1, g2⟩, hbs, h3⟩ := e4
      dsimp only at e3 ⊢
      refine Pays.bind (k := φ1') (Pays.scale (seekChildStep2C_pays (ψ2 + lpot w 8 ks nil + 4) bs b ks ψ2 hbs g1
        (Nat.le_refl _)) (by omega)) (by omega) ?_ (by omega)
      intro r ψ hr hψ
      cases r with
      | found next chunk =>
        obtain ⟨φ', hf, hφ⟩ := hr
        exact Pays.pure ⟨φ1', φ', e3, hf, by omega⟩
      | again next =>
        obtain ⟨φ', hf, hφ⟩ := hr
        exact ih _ (by omega) prev' next φ1' φ' e3 hf (by omega) (by omega)

/-- The state of `seek`. -/
def SeekP (w : Nat) (p : Printer P) (chunk : Chunk P) (φ : Nat) : Prop :=
  p.width = w ∧ ∃ φ1 φ2, BlocksP w 2 p.prev φ1 ∧ FocusP w p.next chunk φ2 ∧ φ1 + φ2 ≤ φ

theorem seekChildC_pays {w scan M m : Nat} (hm : 1 + scan * M ≤ m) {p : Printer P} {chunk : Chunk P} {φ}
    (h : SeekP w p chunk φ) (hM : φ + 1 ≤ M) (index : Nat) :
    Pays m (p.seekChildC scan chunk index) (φ + 2) (fun r ψ => ∃ φ', SeekP w r.1 r.2 φ' ∧ φ' + 3 ≤ ψ) := by
  obtain ⟨rfl, φ1, φ2, h1, ⟨block, rest, ks, s, φ3, h2, h3, h4, h5, h6⟩, h7⟩ := h
  obtain ⟨w, prev, next⟩ := p
  dsimp only at h1 h2 h4 h6
  subst h2
  unfold Printer.seekChildC
  dsimp only
  refine Pays.bind (k := φ1 + 4 + 1) (Pays.scale (expandFirstC_pays (Nat.le_refl 4) h4 h3 h5) (by omega)) (by omega) ?_
    (by omega)
  rintro ⟨next', block'⟩ ψ ⟨ψ1, ψ2, g1, g2, g3⟩ hψ
  dsimp only at g1 g2 ⊢
  refine Pays.bind (k := 0) (seekChildLoopC_pays hm (φ1 + (ψ2 + 4 + ψ1) + 1) prev (block' :: next') φ1 (ψ2 + 4 + ψ1) h1
    ⟨ψ2, ψ1, g2, g1, Nat.le_refl _⟩ (Nat.le_refl _) (by omega)) (by omega) ?_ (by omega)
  rintro ⟨prev', next'', chunk'⟩ ψ' ⟨φ1', φ2', f1, f2, f3⟩ -
  exact Pays.pure ⟨φ1' + φ2', ⟨rfl, φ1', φ2', f1, f2, Nat.le_refl _⟩, by omega⟩

theorem seekPathC_pays {w scan M m : Nat} (hm : 1 + scan * M ≤ m) (path : List Nat) : ∀ {p : Printer P}
    {chunk : Chunk P} {φ}, SeekP w p chunk φ → φ + 1 ≤ M →
    Pays m (p.seekPathC scan chunk path) (φ + 3) (fun r ψ => ∃ φ', SeekP w r.1 r.2 φ' ∧ φ' + 3 ≤ ψ) := by
  induction path with
  | nil =>
    intro p chunk φ h _
    exact Pays.pure ⟨φ, h, Nat.le_refl _⟩
  | cons i path ih =>
    intro p chunk φ h hM
    unfold Printer.seekPathC
    refine Pays.tick (k := 1) (by omega) (by omega) ?_
    refine Pays.bind (k := 0) (seekChildC_pays hm h hM i) (by omega) ?_ (by omega)
    rintro ⟨p', chunk'⟩ ψ ⟨φ', g1, g2⟩ hψ
    exact (ih g1 (by omega)).mono (by omega) (fun _ _ h => h)

end PPP
