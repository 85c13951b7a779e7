import Verif.Proofs.ResumeFrame
import Verif.Proofs.Extend
import Verif.Proofs.View
import Verif.Spec.Resume
/-
Printing a document that consists of two parts, one above the other.
-/
namespace PPP
variable {P : PrettyDoc}
open Lean.Order

theorem Le.refl {E α : Type} (x : Exec E α) : Le (fun _ => False) (fun a : α => a) x x :=
  ⟨fun _ h => h, fun _ _ h => h⟩

theorem Le.ok {E α β : Type} {K : E → Prop} {c : α → β} {x : Exec E α} {y : Exec E β} (h : Le K c x y) {a : α}
    (hx : x = Exec.ofRes (.ok a)) : y = Exec.ofRes (.ok (c a)) := h.1 a (by rw [hx]; rfl)

/-! ### Frames for the plain model -/

theorem expandFirstLoop_frame (t next : List (Block P)) (block : Block P) (stack : List (Chunk P)) :
    Le (fun _ => False) (fun r : List (Block P) × Block P => (r.1 ++ t, r.2)) (expandFirstLoop next block stack)
      (expandFirstLoop (next ++ t) block stack) := by
  revert next block stack
  apply expandFirstLoop.fixpoint_induct (motive := fun F => ∀ next block stack,
    Le (fun _ => False) (fun r : List (Block P) × Block P => (r.1 ++ t, r.2)) (F next block stack)
      (expandFirstLoop (next ++ t) block stack))
  · exact Le.adm3 _ _
  · intro F ih next block stack
    rw [expandFirstLoop.eq_def (next ++ t)]
    cases stack with
    | nil => exact .pure rfl
    | cons chunk stack =>
      obtain ⟨cn, id⟩ := chunk
      cases cn with
      | empty => exact ih _ _ _
      | textual t => exact ih _ _ _
      | choice a b => exact ih _ _ _
      | child i c => exact ih _ _ _
      | endOfLine => exact ih _ _ _
      | focusMark => exact ih _ _ _
      | newline ind => exact .bind (.refl _) fun b => ih _ _ _
      | concat l r => exact .bind (.refl _) fun a => .bind (.refl _) fun b => ih _ _ _

theorem expandLastLoop_frame (t prev : List (Block P)) (block : Block P) (chunks stack : List (Chunk P)) :
    Le (fun _ => False) (fun r : List (Block P) × Block P => (r.1 ++ t, r.2)) (expandLastLoop prev block chunks stack)
      (expandLastLoop (prev ++ t) block chunks stack) := by
  revert prev block chunks stack
  apply expandLastLoop.fixpoint_induct (motive := fun F => ∀ prev block chunks stack,
    Le (fun _ => False) (fun r : List (Block P) × Block P => (r.1 ++ t, r.2)) (F prev block chunks stack)
      (expandLastLoop (prev ++ t) block chunks stack))
  · exact Le.adm4 _ _
  · intro F ih prev block chunks stack
    rw [expandLastLoop.eq_def (prev ++ t)]
    cases stack with
    | nil => exact .pure rfl
    | cons chunk stack =>
      obtain ⟨cn, id⟩ := chunk
      cases cn with
      | empty => exact ih _ _ _ _
      | textual t => exact ih _ _ _ _
      | choice a b => exact ih _ _ _ _
      | child i c => exact ih _ _ _ _
      | endOfLine => exact ih _ _ _ _
      | focusMark => exact ih _ _ _ _
      | newline ind => exact .bind (.refl _) fun b => ih _ _ _ _
      | concat l r => exact .bind (.refl _) fun a => .bind (.refl _) fun b => ih _ _ _ _

theorem printNextLoop_frame (w : Nat) (t next : List (Block P)) (block : Block P) :
    Le (fun _ => False) (fun r : Line P × List (Block P) => (r.1, r.2 ++ t)) (printNextLoop w next block)
      (printNextLoop w (next ++ t) block) := by
  revert next block
  apply printNextLoop.fixpoint_induct (width := w) (motive := fun F => ∀ next block,
    Le (fun _ => False) (fun r : Line P × List (Block P) => (r.1, r.2 ++ t)) (F next block)
      (printNextLoop w (next ++ t) block))
  · exact Le.adm2 _ _
  · intro F ih next block
    rw [printNextLoop.eq_def w (next ++ t)]
    obtain ⟨segs, col, eol, chunks⟩ := block
    cases chunks with
    | nil => exact .pure rfl
    | cons chunk chunks =>
      obtain ⟨cn, id⟩ := chunk
      cases cn with
      | empty => exact .panicking _
      | textual t => exact .bind (.refl _) fun b => ih _ _
      | choice a b =>
        exact .bind (.refl _) fun c => .bind (expandFirstLoop_frame t _ _ _) fun b => ih _ _
      | child i c =>
        exact .bind (.refl _) fun c => .bind (expandFirstLoop_frame t _ _ _) fun b => ih _ _
      | endOfLine => exact ih _ _
      | focusMark => exact ih _ _
      | newline ind => exact .panicking _
      | concat l r => exact .panicking _

theorem seekEndLoop_frame (w m : Nat) (t prev : List (Block P)) (block : Block P) :
    Le (fun _ => False) (fun r : List (Block P) × Block P => (r.1 ++ t, r.2)) (seekEndLoop w m prev block)
      (seekEndLoop w m (prev ++ t) block) := by
  revert prev block
  apply seekEndLoop.fixpoint_induct (width := w) (numChunksAfter := m) (motive := fun F => ∀ prev block,
    Le (fun _ => False) (fun r : List (Block P) × Block P => (r.1 ++ t, r.2)) (F prev block)
      (seekEndLoop w m (prev ++ t) block))
  · exact Le.adm2 _ _
  · intro F ih prev block
    rw [seekEndLoop.eq_def w m (prev ++ t)]
    obtain ⟨segs, col, eol, chunks⟩ := block
    by_cases hl : chunks.length > m
    · simp only [if_pos hl]
      cases chunks with
      | nil => exact .panicking _
      | cons chunk chunks =>
        obtain ⟨cn, id⟩ := chunk
        cases cn with
        | empty => exact .panicking _
        | textual t => exact .bind (.refl _) fun b => ih _ _
        | choice a b =>
          exact .bind (.refl _) fun c => .bind (expandLastLoop_frame t _ _ _ _) fun b => ih _ _
        | child i c =>
          exact .bind (.refl _) fun c => .bind (expandLastLoop_frame t _ _ _ _) fun b => ih _ _
        | endOfLine => exact ih _ _
        | focusMark => exact ih _ _
        | newline ind => exact .panicking _
        | concat l r => exact .panicking _
    · simp only [if_neg hl]
      exact .pure rfl

/-- Seeking to the end of a block is printing its last line, upwards. -/
theorem seekEndLoop_prints (w : Nat) (prev : List (Block P)) (block : Block P) :
    Le (fun _ => False) (fun r : List (Block P) × Block P => ((⟨r.2.segments⟩ : Line P), r.1))
      (seekEndLoop w 0 prev block) (printPrevLoop w prev block) := by
  revert prev block
  apply seekEndLoop.fixpoint_induct (width := w) (numChunksAfter := 0) (motive := fun F => ∀ prev block,
    Le (fun _ => False) (fun r : List (Block P) × Block P => ((⟨r.2.segments⟩ : Line P), r.1)) (F prev block)
      (printPrevLoop w prev block))
  · exact Le.adm2 _ _
  · intro F ih prev block
    rw [printPrevLoop.eq_def w prev]
    obtain ⟨segs, col, eol, chunks⟩ := block
    cases chunks with
    | nil => exact .pure rfl
    | cons chunk chunks =>
      simp only [List.length_cons, gt_iff_lt, Nat.zero_lt_succ, if_true]
      obtain ⟨cn, id⟩ := chunk
      cases cn with
      | empty => exact .panicking _
      | textual t => exact .bind (.refl _) fun b => ih _ _
      | choice a b => exact .bind (.refl _) fun c => .bind (.refl _) fun b => ih _ _
      | child i c => exact .bind (.refl _) fun c => .bind (.refl _) fun b => ih _ _
      | endOfLine => exact ih _ _
      | focusMark => exact ih _ _
      | newline ind => exact .panicking _
      | concat l r => exact .panicking _

/-- Seeking to the end leaves no chunks. -/
theorem seekEndLoop_done (w : Nat) (prev : List (Block P)) (block : Block P) :
    PSat (seekEndLoop w 0 prev block) (fun r => r.2.chunks = []) (fun _ => True) := by
  revert prev block
  apply seekEndLoop.fixpoint_induct (width := w) (numChunksAfter := 0) (motive := fun F => ∀ prev block,
    PSat (F prev block) (fun r => r.2.chunks = []) (fun _ => True))
  · exact admissible_pi_apply _ fun _ => admissible_pi_apply _ fun _ => PSat.admissible _ _
  · intro F ih prev block
    obtain ⟨segs, col, eol, chunks⟩ := block
    cases chunks with
    | nil => exact .pure rfl
    | cons chunk chunks =>
      simp only [List.length_cons, gt_iff_lt, Nat.zero_lt_succ, if_true]
      have tt : ∀ {α : Type} (x : Exec P.Err α), PSat x (fun _ => True) (fun _ => True) :=
        fun x r _ => by cases r <;> trivial
      obtain ⟨cn, id⟩ := chunk
      cases cn with
      | empty => exact .error trivial
      | textual t => exact .bind (tt _) (fun b _ => ih _ _) (fun _ h => h)
      | choice a b =>
        exact .bind (tt _) (fun c _ => .bind (tt _) (fun b _ => ih _ _) (fun _ h => h)) (fun _ h => h)
      | child i c =>
        exact .bind (tt _) (fun c _ => .bind (tt _) (fun b _ => ih _ _) (fun _ h => h)) (fun _ h => h)
      | endOfLine => exact ih _ _
      | focusMark => exact ih _ _
      | newline ind => exact .error trivial
      | concat l r => exact .error trivial

/-- Expanding towards the first block does not touch the resolved text. -/
theorem expandFirstLoop_segments (next : List (Block P)) (block : Block P) (stack : List (Chunk P)) :
    PSat (expandFirstLoop next block stack) (fun r => r.2.segments = block.segments) (fun _ => True) := by
  revert next block stack
  apply expandFirstLoop.fixpoint_induct (motive := fun F => ∀ next block stack,
    PSat (F next block stack) (fun r => r.2.segments = block.segments) (fun _ => True))
  · exact admissible_pi_apply _ fun _ => admissible_pi_apply _ fun _ => admissible_pi_apply _ fun _ =>
      PSat.admissible _ _
  · intro F ih next block stack
    have tt : ∀ {α : Type} (x : Exec P.Err α), PSat x (fun _ => True) (fun _ => True) :=
      fun x r _ => by cases r <;> trivial
    cases stack with
    | nil => exact .pure rfl
    | cons chunk stack =>
      obtain ⟨cn, id⟩ := chunk
      cases cn with
      | empty => exact ih _ _ _
      | textual t => exact ih _ _ _
      | choice a b => exact ih _ _ _
      | child i c => exact ih _ _ _
      | endOfLine => exact ih _ _ _
      | focusMark => exact ih _ _ _
      | newline ind => exact .bind (tt _) (fun b _ => ih _ _ _) (fun _ h => h)
      | concat l r =>
        exact .bind (tt _) (fun c _ => .bind (tt _) (fun b _ => ih _ _ _) (fun _ h => h)) (fun _ h => h)

/-! ### Printing a whole document, from its start and from its end -/

/-- The block a printer starts with. -/
def emptyBlock (P : PrettyDoc) : Block P := ⟨[], 0, false, []⟩

theorem Exec.bind_ok_inv {E α β : Type} {x : Exec E α} {f : α → Exec E β} {b : β}
    (h : (x >>= f) = Exec.ofRes (.ok b)) : ∃ a, x = Exec.ofRes (.ok a) ∧ f a = Exec.ofRes (.ok b) := by
  have h' : (x >>= f).run = some (.ok b) := by rw [h]; rfl
  rw [Exec.run_bind] at h'
  match hx : x.run with
  | none => rw [hx] at h'; cases h'
  | some (.ok a) => rw [hx] at h'; exact ⟨a, hx, h'⟩
  | some (.error e) => rw [hx] at h'; cases h'

theorem start_inv {doc : P.Node} {w style r}
    (h : prettyPrint doc w [] .start style = Exec.ofRes (.ok r)) :
    ∃ d c next block line next', DCN.withOptionalStyle doc style = Exec.ofRes (.ok d) ∧
      Chunk.new d = Exec.ofRes (.ok c) ∧
      expandFirst [] (emptyBlock P) c = Exec.ofRes (.ok (next, block)) ∧
      printNextLoop w next block = Exec.ofRes (.ok (line, next')) ∧
      r = ⟨⟨w, [], []⟩, ⟨[], line.segments⟩, ⟨w, [], next'⟩⟩ := by
  unfold prettyPrint at h
  have hnew : Printer.new (P := P) w = Exec.ofRes (.ok ⟨w, [], [emptyBlock P]⟩) := by
    simp [Printer.new, Block.new, segsWidth, Exec.pure_eq, emptyBlock]
  rw [hnew] at h
  simp only [Exec.ofRes_ok_bind] at h
  obtain ⟨p, h1, h⟩ := Exec.bind_ok_inv h
  unfold Printer.seek at h1
  obtain ⟨d, hd, h1⟩ := Exec.bind_ok_inv h1
  obtain ⟨c, hc, h1⟩ := Exec.bind_ok_inv h1
  simp only [Printer.seekPath, Exec.pure_bind', Printer.seekStart] at h1
  obtain ⟨⟨next, block⟩, he, h1⟩ := Exec.bind_ok_inv h1
  have h1 := Exec.ofRes_inj h1
  simp only [Except.ok.injEq] at h1
  subst h1
  simp only [Printer.printNextLine] at h
  obtain ⟨⟨o, p'⟩, hp, h⟩ := Exec.bind_ok_inv h
  obtain ⟨⟨line, next'⟩, hl, hp⟩ := Exec.bind_ok_inv hp
  have hp := Exec.ofRes_inj hp
  simp only [Except.ok.injEq, Prod.mk.injEq] at hp
  obtain ⟨rfl, rfl⟩ := hp
  have hseg : block.segments = [] := expandFirstLoop_segments [] (emptyBlock P) [c] (.ok (next, block))
    (by unfold expandFirst at he; rw [he]; rfl)
  simp only [hseg, List.length_nil, Nat.not_lt_zero, gt_iff_lt, if_false] at h
  have h := Exec.ofRes_inj h
  simp only [Except.ok.injEq] at h
  exact ⟨d, c, next, block, line, next', hd, hc, he, hl, by rw [← h]; simp⟩

theorem start_of {doc : P.Node} {w style d c next block line next'}
    (hd : DCN.withOptionalStyle doc style = Exec.ofRes (.ok d))
    (hc : Chunk.new d = Exec.ofRes (.ok c))
    (he : expandFirst [] (emptyBlock P) c = Exec.ofRes (.ok (next, block)))
    (hl : printNextLoop w next block = Exec.ofRes (.ok (line, next'))) :
    prettyPrint doc w [] .start style =
      Exec.ofRes (.ok ⟨⟨w, [], []⟩, ⟨[], line.segments⟩, ⟨w, [], next'⟩⟩) := by
  have hseg : block.segments = [] := expandFirstLoop_segments [] (emptyBlock P) [c] (.ok (next, block))
    (by unfold expandFirst at he; rw [he]; rfl)
  unfold prettyPrint
  have hnew : Printer.new (P := P) w = Exec.ofRes (.ok ⟨w, [], [emptyBlock P]⟩) := by
    simp [Printer.new, Block.new, segsWidth, Exec.pure_eq, emptyBlock]
  rw [hnew]
  simp only [Exec.ofRes_ok_bind, Printer.seek, hd, hc, Printer.seekPath, Exec.pure_bind',
    Printer.seekStart, he, Printer.printNextLine, hl, hseg, List.length_nil, Nat.not_lt_zero, gt_iff_lt,
    if_false]
  simp [Exec.pure_eq]

theorem end_inv {doc : P.Node} {w style r}
    (h : prettyPrint doc w [] .end style = Exec.ofRes (.ok r)) :
    ∃ d c prev block prev' block', DCN.withOptionalStyle doc style = Exec.ofRes (.ok d) ∧
      Chunk.new d = Exec.ofRes (.ok c) ∧
      expandLast [] (emptyBlock P) c = Exec.ofRes (.ok (prev, block)) ∧
      seekEndLoop w 0 prev block = Exec.ofRes (.ok (prev', block')) ∧
      r = ⟨⟨w, prev', []⟩, ⟨block'.segments, []⟩, ⟨w, [], []⟩⟩ := by
  unfold prettyPrint at h
  have hnew : Printer.new (P := P) w = Exec.ofRes (.ok ⟨w, [], [emptyBlock P]⟩) := by
    simp [Printer.new, Block.new, segsWidth, Exec.pure_eq, emptyBlock]
  rw [hnew] at h
  simp only [Exec.ofRes_ok_bind] at h
  obtain ⟨p, h1, h⟩ := Exec.bind_ok_inv h
  unfold Printer.seek at h1
  obtain ⟨d, hd, h1⟩ := Exec.bind_ok_inv h1
  obtain ⟨c, hc, h1⟩ := Exec.bind_ok_inv h1
  simp only [Printer.seekPath, Exec.pure_bind', Printer.seekEnd] at h1
  obtain ⟨⟨prev, block⟩, he, h1⟩ := Exec.bind_ok_inv h1
  obtain ⟨⟨prev', block'⟩, hl, h1⟩ := Exec.bind_ok_inv h1
  have h1 := Exec.ofRes_inj h1
  simp only [Except.ok.injEq] at h1
  subst h1
  have hl' : seekEndLoop w 0 prev block = Exec.ofRes (.ok (prev', block')) := hl
  have hch : block'.chunks = [] := seekEndLoop_done w prev block (.ok (prev', block')) (by rw [hl']; rfl)
  obtain ⟨segs, col, eol, chunks⟩ := block'
  simp only at hch
  subst hch
  simp only [Printer.printNextLine] at h
  rw [printNextLoop.eq_def] at h
  simp only [Block.print, Exec.pure_bind', Exec.pure_eq] at h
  simp only [Exec.ofRes_ok_bind, gt_iff_lt, Nat.lt_irrefl, if_false] at h
  have h := Exec.ofRes_inj h
  simp only [Except.ok.injEq] at h
  exact ⟨d, c, prev, block, prev', _, hd, hc, he, hl', by rw [← h]; simp⟩

theorem end_of {doc : P.Node} {w style d c prev block prev' block'}
    (hd : DCN.withOptionalStyle doc style = Exec.ofRes (.ok d))
    (hc : Chunk.new d = Exec.ofRes (.ok c))
    (he : expandLast [] (emptyBlock P) c = Exec.ofRes (.ok (prev, block)))
    (hl : seekEndLoop w 0 prev block = Exec.ofRes (.ok (prev', block'))) :
    prettyPrint doc w [] .end style =
      Exec.ofRes (.ok ⟨⟨w, prev', []⟩, ⟨block'.segments, []⟩, ⟨w, [], []⟩⟩) := by
  have hch : block'.chunks = [] := seekEndLoop_done w prev block (.ok (prev', block')) (by rw [hl]; rfl)
  unfold prettyPrint
  have hnew : Printer.new (P := P) w = Exec.ofRes (.ok ⟨w, [], [emptyBlock P]⟩) := by
    simp [Printer.new, Block.new, segsWidth, Exec.pure_eq, emptyBlock]
  rw [hnew]
  have hl0 : seekEndLoop w (emptyBlock P).chunks.length prev block = Exec.ofRes (.ok (prev', block')) := hl
  simp only [Exec.ofRes_ok_bind, Printer.seek, hd, hc, Printer.seekPath, Exec.pure_bind',
    Printer.seekEnd, he, hl0, Printer.printNextLine]
  rw [printNextLoop.eq_def]
  simp only [hch, Block.print, Exec.pure_bind', gt_iff_lt, Nat.lt_irrefl, if_false]
  simp [Exec.pure_eq]

end PPP
