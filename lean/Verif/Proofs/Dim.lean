import Verif.Spec.Dim
import Verif.Proofs.ExtendC
/-
Printing a dimmed document, unless it fails because a dark node is looked into, gives the same result as printing the
document itself, and takes the same number of steps.  (The proofs are those of Proofs/ExtendC.lean.)
-/
namespace PPP
open Lean.Order

variable {P : PrettyDoc} {o : P.Node → Bool}

local notation "Dm" => PrettyDoc.dimmed P o

/-! ### Undoing the dimming -/

/-- The notation of the node. -/
def PrettyDoc.notnOf (P : PrettyDoc) (n : P.Node) : Notation P.Label P.Cond :=
  match P.notn n with
  | .ok a => a
  | .error _ => .empty

/-- The notation itself, instead of the one of the dimmed document. -/
def unlit : Notation (P.Label ⊕ P.Node) P.Cond → Notation P.Label P.Cond
  | .empty => .empty
  | .newline => .newline
  | .endOfLine => .endOfLine
  | .literal s => .literal s
  | .text => .text
  | .flat n => .flat (unlit n)
  | .indent s none n => .indent s none (unlit n)
  | .indent s (some (.inl l)) n => .indent s (some l) (unlit n)
  | .indent _ (some (.inr p)) _ => P.notnOf p
  | .concat a b => .concat (unlit a) (unlit b)
  | .choice a b => .choice (unlit a) (unlit b)
  | .check c pos a b => .check c pos (unlit a) (unlit b)
  | .child i => .child i
  | .style (.inl l) n => .style l (unlit n)
  | .style (.inr p) _ => P.notnOf p
  | .focusMark => .focusMark
  | .count zero one many => .count (unlit zero) (unlit one) (unlit many)
  | .fold first join => .fold (unlit first) (unlit join)
  | .left => .left
  | .right => .right

theorem unlit_rename (a : Notation P.Label P.Cond) : unlit (a.rename .inl (fun c => c)) = a := by
  induction a with
  | indent s l n ih => cases l <;> simp only [Notation.rename, Option.map, unlit, ih]
  | _ => simp_all [Notation.rename, unlit]

theorem unlit_notn {n : P.Node} {a : Notation P.Label P.Cond} (h : P.notn n = .ok a) :
    unlit (if o n then a.rename .inl (fun c => c) else .style (.inr n) .empty) = a := by
  split
  · exact unlit_rename a
  · unfold unlit PrettyDoc.notnOf
    rw [h]

def Segment.lit (s : Segment Dm) : Segment P :=
  ⟨s.str, s.width, s.style⟩
def Textual.lit (t : Textual Dm) : Textual P :=
  ⟨t.str, t.width, t.style, t.isFromText⟩
def JoinPos.lit (j : JoinPos Dm) : JoinPos P :=
  ⟨j.parent, j.child, j.index, unlit j.first, unlit j.join⟩
def DCN.lit (d : DCN Dm) : DCN P :=
  ⟨unlit d.notn, d.doc, d.flat, d.indent.map Segment.lit, d.style, d.joinPos.map JoinPos.lit⟩
def CN.lit : CN Dm → CN P
  | .empty => .empty
  | .endOfLine => .endOfLine
  | .newline ind => .newline (ind.map Segment.lit)
  | .textual t => .textual t.lit
  | .concat a b => .concat a.lit b.lit
  | .choice a b => .choice a.lit b.lit
  | .child i c => .child i c.lit
  | .focusMark => .focusMark
def Chunk.lit (c : Chunk Dm) : Chunk P :=
  ⟨c.notn.lit, c.id⟩
def Block.lit (b : Block Dm) : Block P :=
  ⟨b.segments.map Segment.lit, b.prefixLen, b.atEol, b.chunks.map Chunk.lit⟩
def Line.lit (l : Line Dm) : Line P :=
  ⟨l.segments.map Segment.lit⟩
def FocusedLine.lit (l : FocusedLine Dm) :
    FocusedLine P :=
  ⟨l.leftSegments.map Segment.lit, l.rightSegments.map Segment.lit⟩
def Printer.lit (p : Printer Dm) : Printer P :=
  ⟨p.width, p.prev.map Block.lit, p.next.map Block.lit⟩
def Printed.lit (p : Printed Dm) : Printed P :=
  ⟨p.up.lit, p.focused.lit, p.down.lit⟩

def litPair (r : List (Block Dm) × Block Dm) :
    List (Block P) × Block P := (r.1.map Block.lit, r.2.lit)

def litLine (r : Line Dm × List (Block Dm)) :
    Line P × List (Block P) := (r.1.lit, r.2.map Block.lit)

def litNext (r : Option (Line Dm) × Printer Dm) :
    Option (Line P) × Printer P := (r.1.map Line.lit, r.2.lit)

def litBlocks (r : List (Block Dm) × List (Block Dm)) :
    List (Block P) × List (Block P) := (r.1.map Block.lit, r.2.map Block.lit)

def Step2.lit : Step2 Dm → Step2 P
  | .found next c => .found (next.map Block.lit) c.lit
  | .again next => .again (next.map Block.lit)

def litFound (r : List (Block Dm) × List (Block Dm) × Chunk Dm) :
    List (Block P) × List (Block P) × Chunk P :=
  (r.1.map Block.lit, r.2.1.map Block.lit, r.2.2.lit)

def litChild (r : Printer Dm × Chunk Dm) :
    Printer P × Chunk P := (r.1.lit, r.2.lit)

theorem segsWidth_lit (segs : List (Segment Dm)) : segsWidth (segs.map Segment.lit) = segsWidth segs := by
  unfold segsWidth
  rw [List.map_map]; rfl

theorem containsRelevantChunk_lit (id : P.Id) (i : Nat) (b : Block Dm) :
    containsRelevantChunk (P := P) id i b.lit = containsRelevantChunk (P := Dm) id i b := by
  unfold containsRelevantChunk
  simp only [Block.lit, List.any_map]
  congr 1
  funext c
  rcases c with ⟨n, j⟩
  cases n <;> rfl

theorem skipBlocks_lit (id : P.Id) (i : Nat) (prev next : List (Block Dm)) :
    skipBlocks (P := P) id i (prev.map Block.lit) (next.map Block.lit) =
      litBlocks (skipBlocks (P := Dm) id i prev next) := by
  induction next generalizing prev with
  | nil => rfl
  | cons b next ih =>
    rw [List.map_cons, skipBlocks, skipBlocks, containsRelevantChunk_lit]
    split
    · rfl
    · exact ih (b :: prev)

/-! ### Steps -/

theorem PrintingError.rename_some_inj {E : Type} {e f : PrintingError E} (h : e.rename some = f.rename some) :
    e = f := by
  cases e <;> cases f <;> simp_all [PrintingError.rename]

theorem Fail.rename_some_inj {E : Type} {e f : Fail E} (h : e.rename some = f.rename some) : e = f := by
  cases e <;> cases f <;> simp_all [Fail.rename]
  exact PrintingError.rename_some_inj h

/-- If `x` succeeds, so does `y`, with the corresponding value and in the same number of steps.  If `x` fails,
    but neither with a panic nor because of a dark node, `y` fails in the same way, after the same number of
    steps. -/
def LeD {E α β : Type} (c : α → β) (x : Counted (Option E) α) (y : Counted E β) : Prop :=
  (∀ n a, x = some (n, .ok a) → y = some (n, .ok (c a))) ∧
  ∀ n f, f ≠ .panic → x = some (n, .error (f.rename some)) → y = some (n, .error f)

theorem LeD.pure {E α β : Type} {c : α → β} {a : α} {b : β} (h : b = c a) :
    LeD c (Pure.pure a : Counted (Option E) α) (Pure.pure b : Counted E β) := by
  subst h
  refine ⟨fun n a' h' => ?_, fun n f _ h' => by cases h'⟩
  cases h'
  rfl

theorem LeD.errorAt {E α β : Type} {c : α → β} {f : Fail (Option E)} {g : Fail E} (m : Nat) (h : f = g.rename some) :
    LeD c (some (m, .error f) : Counted (Option E) α) (some (m, .error g) : Counted E β) := by
  refine ⟨fun n a h' => (by cases h'), fun n f' _ h' => ?_⟩
  have h2 := Option.some.inj h'
  simp only [Prod.mk.injEq, Except.error.injEq] at h2
  obtain ⟨rfl, h2⟩ := h2
  rw [h] at h2
  cases Fail.rename_some_inj h2
  rfl

theorem LeD.panicAt {E α β : Type} {c : α → β} (m : Nat) (y : Counted E β) :
    LeD c (some (m, .error .panic) : Counted (Option E) α) y := by
  refine ⟨fun n a h => (by cases h), fun n f hf h => ?_⟩
  have h := Option.some.inj h
  simp only [Prod.mk.injEq, Except.error.injEq] at h
  cases f with
  | panic => exact absurd rfl hf
  | _ => simp [Fail.rename] at h

theorem LeD.error {E α β : Type} {c : α → β} {f : Fail (Option E)} {g : Fail E} (h : f = g.rename some) :
    LeD c (Exec.ofRes (.error f) : Exec (Option E) α).free (Exec.ofRes (.error g) : Exec E β).free := .errorAt 0 h

theorem LeD.throwErr {E α β : Type} {c : α → β} {f : PrintingError (Option E)} {g : PrintingError E}
    (h : f = g.rename some) :
    LeD c (PPP.throwErr f : Exec (Option E) α).free (PPP.throwErr g : Exec E β).free :=
  .error (by rw [h]; rfl)

theorem LeD.overflowing {E α β : Type} {c : α → β} :
    LeD c (PPP.overflowing : Exec (Option E) α).free (PPP.overflowing : Exec E β).free := .error rfl

theorem LeD.panicking {E α β : Type} {c : α → β} (y : Counted E β) :
    LeD c (PPP.panicking : Exec (Option E) α).free y := .panicAt 0 y

theorem LeD.dark {E α β : Type} {c : α → β} (y : Counted E β) :
    LeD c (callC (.error (.err none)) : Counted (Option E) α) y := by
  refine ⟨fun n a h => (by cases h), fun n f hf h => ?_⟩
  have h : some (1, (Except.error (.err (.prettyDoc none)) : Res (Option E) α)) =
    some (n, .error (f.rename some)) := h
  simp only [Option.some.injEq, Prod.mk.injEq, Except.error.injEq] at h
  rcases f with e | _ | _
  · cases e <;> simp [Fail.rename, PrintingError.rename] at h
  · simp [Fail.rename] at h
  · simp [Fail.rename] at h

theorem LeD.bind {E α β γ δ : Type} {c : α → β} {d : γ → δ} {x : Counted (Option E) α} {y : Counted E β}
    {f : α → Counted (Option E) γ} {g : β → Counted E δ} (h : LeD c x y) (hf : ∀ a, LeD d (f a) (g (c a))) :
    LeD d (x >>= f) (y >>= g) := by
  rw [Counted.bind_eq, Counted.bind_eq]
  match x, h with
  | none, h => exact ⟨fun n a h => (by cases h), fun n f _ h => (by cases h)⟩
  | some (n, .error e), h =>
    refine ⟨fun n a h => (by cases h), fun n' f hf' h' => ?_⟩
    have h' : some (n, (Except.error e : Res (Option E) γ)) = some (n', .error (f.rename some)) := h'
    have h' := Option.some.inj h'
    simp only [Prod.mk.injEq, Except.error.injEq] at h'
    obtain ⟨rfl, rfl⟩ := h'
    rw [h.2 _ _ hf' rfl]
    rfl
  | some (n, .ok a), h =>
    rw [h.1 _ _ rfl]
    simp only [Counted.andThen]
    have ha := hf a
    match hfa : f a, ha with
    | none, ha => exact ⟨fun n a h => (by cases h), fun n f _ h => (by cases h)⟩
    | some (m, r), ha =>
      refine ⟨fun n' b h' => ?_, fun n' e he h' => ?_⟩
      · cases h'
        rw [ha.1 _ _ rfl]
      · have h' := Option.some.inj h'
        simp only [Prod.mk.injEq] at h'
        obtain ⟨rfl, rfl⟩ := h'
        rw [ha.2 _ _ he rfl]

theorem LeD.darkBind {E α β γ : Type} {c : α → β} (f : γ → Counted (Option E) α) (y : Counted E β) :
    LeD c ((callC (.error (.err none)) : Counted (Option E) γ) >>= f) y :=
  ⟨fun n a h => (LeD.dark (c := c) y).1 n a (by rw [Counted.bind_eq] at h; exact h),
    fun n g hg h => (LeD.dark (c := c) y).2 n g hg (by rw [Counted.bind_eq] at h; exact h)⟩

theorem LeD.tick {E α β : Type} {c : α → β} {n : Nat} {x : Unit → Counted (Option E) α} {y : Unit → Counted E β}
    (h : LeD c (x ()) (y ())) : LeD c (Counted.tick n >>= x) (Counted.tick n >>= y) :=
  LeD.bind (c := fun u : Unit => u)
    ⟨fun m a h => (by cases h; rfl), fun m f _ h => (by cases h)⟩ fun _ => h

theorem LeD.callAs {E α β : Type} {g : β → α} {c : α → β} (x : Call E β) (h : ∀ b, x = .ok b → c (g b) = b) :
    LeD c (callC (x.rename some g)) (callC x) := by
  match x, h with
  | .ok b, h =>
    refine ⟨fun n a h' => ?_, fun n f _ h' => by cases h'⟩
    have h' : some (1, (Except.ok (g b) : Res (Option E) α)) = some (n, .ok a) := h'
    simp only [Option.some.injEq, Prod.mk.injEq, Except.ok.injEq] at h'
    obtain ⟨rfl, rfl⟩ := h'
    rw [h b rfl]
    rfl
  | .error (.err e), h => exact LeD.errorAt (f := .err (.prettyDoc (some e))) (g := .err (.prettyDoc e)) 1 rfl
  | .error .panic, h => exact LeD.panicAt 1 _

theorem LeD.call {E α : Type} (x : Call E α) :
    LeD (fun a : α => a) (callC (x.rename some fun a => a)) (callC x) := .callAs x fun _ _ => rfl

theorem LeD.notn (n : P.Node) : LeD unlit (callC (PrettyDoc.notn Dm n)) (callC (P.notn n)) :=
  .callAs (P.notn n) fun _ h => unlit_notn h

theorem LeD.admissible {E α β : Type} (c : α → β) (y : Counted E β) :
    Lean.Order.admissible fun x : Counted (Option E) α => LeD c x y := by
  apply admissible_and
  · apply admissible_pi
    intro n
    apply admissible_pi
    intro a
    exact Option.admissible_eq_some _ _
  · apply admissible_pi
    intro n
    apply admissible_pi
    intro f
    apply admissible_pi
    intro _
    exact Option.admissible_eq_some _ _

theorem LeD.adm1 {A E α β : Type} (c : α → β) (y : A → Counted E β) :
    Lean.Order.admissible fun f : A → Counted (Option E) α => ∀ a, LeD c (f a) (y a) :=
  admissible_pi_apply (fun a (x : Counted (Option E) α) => LeD c x (y a)) fun _ => LeD.admissible _ _
theorem LeD.adm2 {A B E α β : Type} (c : α → β) (y : A → B → Counted E β) :
    Lean.Order.admissible fun f : A → B → Counted (Option E) α => ∀ a b, LeD c (f a b) (y a b) :=
  admissible_pi_apply (fun a (x : B → Counted (Option E) α) => ∀ b, LeD c (x b) (y a b)) fun _ => LeD.adm1 _ _
theorem LeD.adm3 {A B C E α β : Type} (c : α → β) (y : A → B → C → Counted E β) :
    Lean.Order.admissible fun f : A → B → C → Counted (Option E) α => ∀ a b d, LeD c (f a b d) (y a b d) :=
  admissible_pi_apply (fun a (x : B → C → Counted (Option E) α) => ∀ b d, LeD c (x b d) (y a b d)) fun _ =>
    LeD.adm2 _ _
theorem LeD.adm4 {A B C D E α β : Type} (c : α → β) (y : A → B → C → D → Counted E β) :
    Lean.Order.admissible fun f : A → B → C → D → Counted (Option E) α => ∀ a b d e, LeD c (f a b d e) (y a b d e) :=
  admissible_pi_apply (fun a (x : B → C → D → Counted (Option E) α) => ∀ b d e, LeD c (x b d e) (y a b d e)) fun _ =>
    LeD.adm3 _ _

theorem blockNew_led (ind : Indent Dm) (chunks : List (Chunk Dm)) :
    LeD Block.lit (Block.new ind chunks).free (Block.new (ind.map Segment.lit) (chunks.map Chunk.lit)).free := by
  simp only [Block.new]
  rw [← List.map_reverse, segsWidth_lit]
  split
  · exact .pure rfl
  · exact .overflowing

theorem pushText_led (b : Block Dm) (t : Textual Dm) :
    LeD Block.lit (b.pushText t).free (b.lit.pushText t.lit).free := by
  unfold Block.pushText
  rcases b with ⟨segs, pre, _ | _, chunks⟩
  · by_cases hw : pre + t.width ≤ maxWidth
    · simp only [Block.lit, Textual.lit, hw, if_true]
      exact .pure (by simp [Block.lit, Segment.lit])
    · simp only [Block.lit, Textual.lit, hw, if_false, Bool.false_eq_true]
      exact .overflowing
  · exact .throwErr rfl

theorem blockPrint_led (b : Block Dm) : LeD Line.lit b.print.free b.lit.print.free := by
  unfold Block.print
  rcases b with ⟨segs, pre, e, _ | ⟨c, cs⟩⟩
  · exact .pure rfl
  · exact .panicking _

theorem blockNewC_led (ind : Indent Dm) (chunks : List (Chunk Dm)) :
    LeD Block.lit (Block.newC ind chunks) (Block.newC (ind.map Segment.lit) (chunks.map Chunk.lit)) := by
  unfold Block.newC
  rw [List.length_map]
  exact .tick (blockNew_led ind chunks)

theorem pushTextC_led (b : Block Dm) (t : Textual Dm) :
    LeD Block.lit (b.pushText t).free (b.lit.pushText t.lit).free := pushText_led b t

theorem blockPrintC_led (b : Block Dm) : LeD Line.lit b.print.free b.lit.print.free := blockPrint_led b

/-! ### Evaluation -/

theorem docToInspectC_led (d : DCN Dm) (pos : CheckPos) :
    LeD (fun a : P.Node => a) (d.docToInspectC pos) (d.lit.docToInspectC pos) := by
  unfold DCN.docToInspectC
  cases pos with
  | here => exact .pure rfl
  | child i =>
    refine .bind (LeD.call _) fun n => ?_
    cases n with
    | none => exact .throwErr rfl
    | some n =>
      dsimp only
      cases normalizeChildIndex i n with
      | none => exact .throwErr rfl
      | some j => exact LeD.call _
  | rightChild =>
    rcases d with ⟨_, _, _, _, _, _ | jp⟩
    · exact .panicking _
    · exact .pure rfl
  | leftChild =>
    rcases d with ⟨_, _, _, _, _, _ | ⟨p, c, _ | k, _, _⟩⟩
    · exact .panicking _
    · exact .panicking _
    · exact LeD.call _

theorem withOptionalStyleC_led (doc : P.Node) (style : Option P.Style) :
    LeD DCN.lit (DCN.withOptionalStyleC (P := Dm) doc style)
      (DCN.withOptionalStyleC (P := P) doc style) := by
  unfold DCN.withOptionalStyleC
  refine .bind (LeD.notn _) fun a => .bind (LeD.call _) fun s => ?_
  cases style <;> exact .pure rfl

theorem evalC_led (d : DCN Dm) : LeD CN.lit d.evalC d.lit.evalC := by
  revert d
  apply DCN.evalC.fixpoint_induct (motive := fun f => ∀ d, LeD CN.lit (f d) d.lit.evalC)
  · exact LeD.adm1 _ _
  intro evalC ih d
  rw [DCN.evalC.eq_def d.lit]
  refine .tick ?_
  rcases d with ⟨notn, doc, flat, indent, style, jp⟩
  cases notn with
  | empty => exact .pure rfl
  | endOfLine => exact .pure rfl
  | newline => exact .pure rfl
  | literal s => exact .pure rfl
  | text =>
    refine .bind (LeD.call _) fun n => ?_
    cases n with
    | some n => exact .throwErr rfl
    | none => exact .bind (LeD.call _) fun t => .pure rfl
  | flat n => exact ih _
  | indent pre label n =>
    cases label with
    | none => exact .bind (c := fun s : P.Style => s) (.pure rfl) fun s => ih _
    | some l =>
      rcases l with l | p
      · exact .bind (LeD.call (P.lookupStyle doc l)) fun s => .bind (c := fun s : P.Style => s) (.pure rfl) fun s =>
          ih ⟨n, doc, flat, _, style, jp⟩
      · exact LeD.darkBind _ _
  | concat a b => exact .pure rfl
  | choice a b =>
    cases flat with
    | true => exact ih _
    | false => exact .pure rfl
  | check cond pos a b =>
    refine .bind (docToInspectC_led ⟨.check cond pos a b, doc, flat, indent, style, jp⟩ pos) fun n => .bind (LeD.call _) fun b => ?_
    cases b
    · exact ih _
    · exact ih _
  | child i =>
    refine .bind (LeD.call _) fun n => ?_
    cases n with
    | none => exact .throwErr rfl
    | some n =>
      dsimp only
      cases normalizeChildIndex i n with
      | none => exact .throwErr rfl
      | some j =>
        exact .bind (LeD.call _) fun c => .bind (LeD.notn _) fun a =>
          .bind (LeD.call _) fun s => .pure rfl
  | style l n =>
    rcases l with l | p
    · exact .bind (LeD.call (P.lookupStyle doc l)) fun s => ih ⟨n, doc, flat, indent, _, jp⟩
    · exact LeD.darkBind _ _
  | focusMark => exact .pure rfl
  | count zero one many =>
    refine .bind (LeD.call _) fun n => ?_
    match n with
    | none => exact .throwErr rfl
    | some 0 => exact ih _
    | some 1 => exact ih _
    | some (n + 2) => exact ih _
  | fold first join =>
    refine .bind (LeD.call _) fun n => ?_
    match n with
    | none => exact .throwErr rfl
    | some 0 => exact .pure rfl
    | some 1 => exact ih _
    | some (n + 2) => exact .bind (LeD.call _) fun c => ih _
  | left =>
    rcases jp with _ | ⟨p, c, i, f, j⟩
    · exact .panicking _
    · match i with
      | 0 => exact .panicking _
      | 1 => exact ih _
      | k + 2 => exact .bind (LeD.call _) fun c => ih _
  | right =>
    rcases jp with _ | ⟨p, c, i, f, j⟩
    · exact .panicking _
    · exact .bind (LeD.notn _) fun a => .bind (LeD.call _) fun s => .pure rfl

/-! ### The printer -/

theorem chunkNewC_led (d : DCN Dm) : LeD Chunk.lit (Chunk.newC d) (Chunk.newC d.lit) := by
  exact .bind (LeD.call _) fun i => .bind (evalC_led _) fun n => .pure rfl

theorem fitsLoopC_led (next : List (Chunk Dm)) (rem : Nat) (ns : List (CN Dm)) (eol : Bool) :
    LeD (fun b : Bool => b) (fitsLoopC next rem ns eol)
      (fitsLoopC (P := P) (next.map Chunk.lit) rem (ns.map CN.lit) eol) := by
  revert next rem ns eol
  apply fitsLoopC.fixpoint_induct (P := Dm) (motive := fun f => ∀ (next : List (Chunk Dm)) rem (ns : List (CN Dm)) eol, LeD (fun b : Bool => b) (f next rem ns eol)
    (fitsLoopC (P := P) (next.map Chunk.lit) rem (ns.map CN.lit) eol))
  · exact LeD.adm4 _ _
  intro f ih next rem ns eol
  rw [fitsLoopC.eq_def (next.map Chunk.lit)]
  refine .tick ?_
  match ns with
  | [] =>
    match next with
    | [] => exact .pure rfl
    | c :: more => exact ih _ _ [c.notn] _
  | n :: ns =>
    cases n with
    | empty => exact ih _ _ _ _
    | focusMark => exact ih _ _ _ _
    | textual t =>
      cases eol
      · simp only [List.map_cons, CN.lit, Textual.lit, Bool.false_eq_true, if_false]
        split
        · exact ih _ _ _ _
        · exact .pure rfl
      · exact .pure rfl
    | endOfLine => exact ih _ _ _ _
    | newline i => exact .pure rfl
    | child i c => exact .bind (evalC_led _) fun n => ih _ _ (n :: ns) _
    | concat a b =>
      exact .bind (evalC_led _) fun n2 => .bind (evalC_led _) fun n1 => ih _ _ (n1 :: n2 :: ns) _
    | choice a b => exact .bind (evalC_led _) fun n => ih _ _ (n :: ns) _

theorem chooseC_led (w : Nat) (b : Block Dm) (o1 o2 : DCN Dm) :
    LeD Chunk.lit (chooseC w b o1 o2) (chooseC w b.lit o1.lit o2.lit) := by
  unfold chooseC
  refine .bind (chunkNewC_led _) fun c1 => ?_
  rw [show b.lit.prefixLen = b.prefixLen from rfl]
  split
  · refine .bind (fitsLoopC_led b.chunks _ [c1.notn] _) fun f => ?_
    cases f
    · exact chunkNewC_led _
    · exact .pure rfl
  · exact chunkNewC_led _

theorem expandFirstC_led (next : List (Block Dm)) (b : Block Dm) (c : Chunk Dm) :
    LeD (litPair) (expandFirstC next b c) (expandFirstC (next.map Block.lit) b.lit c.lit) := by
  suffices H : ∀ (next : List (Block Dm)) (b : Block Dm) (st : List (Chunk Dm)),
      LeD (litPair) (expandFirstLoopC next b st)
        (expandFirstLoopC (next.map Block.lit) b.lit (st.map Chunk.lit)) from H next b [c]
  apply expandFirstLoopC.fixpoint_induct (motive := fun f => ∀ next b st, LeD (litPair) (f next b st)
    (expandFirstLoopC (next.map Block.lit) b.lit (st.map Chunk.lit)))
  · exact LeD.adm3 _ _
  intro f ih next b st
  rw [expandFirstLoopC.eq_def (next.map Block.lit)]
  refine .tick ?_
  match st with
  | [] => exact .pure rfl
  | ⟨n, i⟩ :: st =>
    cases n with
    | empty => exact ih _ _ _
    | focusMark => exact ih _ { b with chunks := _ :: b.chunks } _
    | textual t => exact ih _ { b with chunks := _ :: b.chunks } _
    | endOfLine => exact ih _ { b with chunks := _ :: b.chunks } _
    | newline ind => exact .bind (blockNewC_led _ _) fun nb => ih (nb :: next) { b with chunks := [] } _
    | child j c => exact ih _ { b with chunks := _ :: b.chunks } _
    | concat x y =>
      exact .bind (chunkNewC_led _) fun l => .bind (chunkNewC_led _) fun r => ih _ _ (r :: l :: st)
    | choice x y => exact ih _ { b with chunks := _ :: b.chunks } _

theorem expandLastC_led (prev : List (Block Dm)) (b : Block Dm) (c : Chunk Dm) :
    LeD (litPair) (expandLastC prev b c) (expandLastC (prev.map Block.lit) b.lit c.lit) := by
  suffices H : ∀ (prev : List (Block Dm)) (b : Block Dm) (cs st : List (Chunk Dm)),
      LeD (litPair) (expandLastLoopC prev b cs st)
        (expandLastLoopC (prev.map Block.lit) b.lit (cs.map Chunk.lit) (st.map Chunk.lit)) from
    H prev b [] [c]
  apply expandLastLoopC.fixpoint_induct (motive := fun f => ∀ prev b cs st, LeD (litPair) (f prev b cs st)
    (expandLastLoopC (prev.map Block.lit) b.lit (cs.map Chunk.lit) (st.map Chunk.lit)))
  · exact LeD.adm4 _ _
  intro f ih prev b cs st
  rw [expandLastLoopC.eq_def (prev.map Block.lit)]
  refine .tick ?_
  match st with
  | [] =>
    dsimp only [List.map_nil]
    rw [List.length_map]
    exact .tick (.pure (by simp [litPair, Block.lit]))
  | ⟨n, i⟩ :: st =>
    cases n with
    | empty => exact ih _ _ _ _
    | focusMark => exact ih _ _ (_ :: cs) _
    | textual t => exact ih _ _ (_ :: cs) _
    | endOfLine => exact ih _ _ (_ :: cs) _
    | newline ind =>
      dsimp only [List.map_cons, Chunk.lit, CN.lit]
      rw [List.length_map]
      refine .tick (.bind (blockNewC_led ind b.chunks) fun nb => ?_)
      have := ih (⟨b.segments, b.prefixLen, b.atEol, cs.reverse⟩ :: prev) nb [] st
      simpa only [List.map_cons, List.map_nil, Block.lit, List.map_reverse] using this
    | child j c => exact ih _ _ (_ :: cs) _
    | concat x y =>
      exact .bind (chunkNewC_led _) fun l => .bind (chunkNewC_led _) fun r => ih _ _ _ (r :: l :: st)
    | choice x y => exact ih _ _ (_ :: cs) _

theorem printNextLoopC_led (w : Nat) (next : List (Block Dm)) (b : Block Dm) :
    LeD (litLine) (printNextLoopC w next b) (printNextLoopC w (next.map Block.lit) b.lit) := by
  revert next b
  apply printNextLoopC.fixpoint_induct (motive := fun f => ∀ next b, LeD (litLine) (f next b)
    (printNextLoopC w (next.map Block.lit) b.lit))
  · exact LeD.adm2 _ _
  intro f ih next b
  rw [printNextLoopC.eq_def w (next.map Block.lit)]
  refine .tick ?_
  rcases b with ⟨segs, pre, e, _ | ⟨⟨n, i⟩, cs⟩⟩
  · exact .bind (blockPrintC_led _) fun l => .pure rfl
  cases n with
  | empty => exact .panicking _
  | focusMark => exact ih _ ⟨segs, pre, e, cs⟩
  | textual t => exact .bind (pushTextC_led ⟨segs, pre, e, cs⟩ t) fun b => ih _ _
  | endOfLine => exact ih _ ⟨segs, pre, true, cs⟩
  | newline ind => exact .panicking _
  | child j c =>
    exact .bind (chunkNewC_led _) fun c => .bind (expandFirstC_led _ ⟨segs, pre, e, cs⟩ _) fun r => ih _ _
  | concat x y => exact .panicking _
  | choice x y =>
    exact .bind (chooseC_led w ⟨segs, pre, e, cs⟩ _ _) fun c =>
      .bind (expandFirstC_led _ ⟨segs, pre, e, cs⟩ _) fun r => ih _ _

theorem printPrevLoopC_led (w : Nat) (prev : List (Block Dm)) (b : Block Dm) :
    LeD (litLine) (printPrevLoopC w prev b) (printPrevLoopC w (prev.map Block.lit) b.lit) := by
  revert prev b
  apply printPrevLoopC.fixpoint_induct (motive := fun f => ∀ prev b, LeD (litLine) (f prev b)
    (printPrevLoopC w (prev.map Block.lit) b.lit))
  · exact LeD.adm2 _ _
  intro f ih prev b
  rw [printPrevLoopC.eq_def w (prev.map Block.lit)]
  refine .tick ?_
  rcases b with ⟨segs, pre, e, _ | ⟨⟨n, i⟩, cs⟩⟩
  · exact .bind (blockPrintC_led _) fun l => .pure rfl
  cases n with
  | empty => exact .panicking _
  | focusMark => exact ih _ ⟨segs, pre, e, cs⟩
  | textual t => exact .bind (pushTextC_led ⟨segs, pre, e, cs⟩ t) fun b => ih _ _
  | endOfLine => exact ih _ ⟨segs, pre, true, cs⟩
  | newline ind => exact .panicking _
  | child j c =>
    exact .bind (chunkNewC_led _) fun c => .bind (expandLastC_led _ ⟨segs, pre, e, cs⟩ _) fun r => ih _ _
  | concat x y => exact .panicking _
  | choice x y =>
    exact .bind (chooseC_led w ⟨segs, pre, e, cs⟩ _ _) fun c =>
      .bind (expandLastC_led _ ⟨segs, pre, e, cs⟩ _) fun r => ih _ _

theorem printNextLineC_led (p : Printer Dm) :
    LeD (litNext) p.printNextLineC p.lit.printNextLineC := by
  unfold Printer.printNextLineC
  refine .tick ?_
  rcases p with ⟨w, prev, _ | ⟨b, next⟩⟩
  · exact .pure rfl
  · exact .bind (printNextLoopC_led w next b) fun r => .pure rfl

theorem printPrevLineC_led (p : Printer Dm) :
    LeD (litNext) p.printPrevLineC p.lit.printPrevLineC := by
  unfold Printer.printPrevLineC
  refine .tick ?_
  rcases p with ⟨w, _ | ⟨b, prev⟩, next⟩
  · exact .pure rfl
  · exact .bind (printPrevLoopC_led w prev b) fun r => .pure rfl

/-! ### Seeking -/

theorem seekEndC_led (p : Printer Dm) (c : Chunk Dm) :
    LeD Printer.lit (p.seekEndC c) (p.lit.seekEndC c.lit) := by
  have H : ∀ (w k : Nat) (prev : List (Block Dm)) (b : Block Dm),
      LeD (litPair) (seekEndLoopC w k prev b) (seekEndLoopC w k (prev.map Block.lit) b.lit) := by
    intro w k
    apply seekEndLoopC.fixpoint_induct (motive := fun f => ∀ prev b, LeD (litPair) (f prev b)
      (seekEndLoopC w k (prev.map Block.lit) b.lit))
    · exact LeD.adm2 _ _
    intro f ih prev b
    rw [seekEndLoopC.eq_def w k (prev.map Block.lit)]
    refine .tick ?_
    rw [show b.lit.chunks.length = b.chunks.length from List.length_map _]
    by_cases hk : b.chunks.length > k
    rotate_left
    · simp only [hk, if_false]
      exact .pure rfl
    simp only [hk, if_true]
    rcases b with ⟨segs, pre, e, _ | ⟨⟨n, i⟩, cs⟩⟩
    · exact .panicking _
    cases n with
    | empty => exact .panicking _
    | focusMark => exact ih _ ⟨segs, pre, e, cs⟩
    | textual t => exact .bind (pushTextC_led ⟨segs, pre, e, cs⟩ t) fun b => ih _ _
    | endOfLine => exact ih _ ⟨segs, pre, true, cs⟩
    | newline ind => exact .panicking _
    | child j c =>
      exact .bind (chunkNewC_led _) fun c => .bind (expandLastC_led _ ⟨segs, pre, e, cs⟩ _) fun r => ih _ _
    | concat x y => exact .panicking _
    | choice x y =>
      exact .bind (chooseC_led w ⟨segs, pre, e, cs⟩ _ _) fun c =>
        .bind (expandLastC_led _ ⟨segs, pre, e, cs⟩ _) fun r => ih _ _
  unfold Printer.seekEndC
  rcases p with ⟨w, prev, _ | ⟨b, next⟩⟩
  · exact .panicking _
  · refine .bind (expandLastC_led _ _ _) fun r => ?_
    refine .bind (c := litPair) ?_ fun r => .pure rfl
    have := H w b.chunks.length r.1 r.2
    rw [show b.chunks.length = b.lit.chunks.length from (List.length_map _).symm] at this ⊢
    exact this

theorem seekStartC_led (p : Printer Dm) (c : Chunk Dm) :
    LeD Printer.lit (p.seekStartC c) (p.lit.seekStartC c.lit) := by
  unfold Printer.seekStartC
  rcases p with ⟨w, prev, _ | ⟨b, next⟩⟩
  · exact .panicking _
  · exact .bind (expandFirstC_led _ _ _) fun r => .pure rfl

theorem seekMarkC_led (p : Printer Dm) (c : Chunk Dm) :
    LeD Printer.lit (p.seekMarkC c) (p.lit.seekMarkC c.lit) := by
  have H : ∀ (w : Nat) (id : P.Id) (prev next : List (Block Dm)) (cur : Option (Block Dm)),
      LeD (litBlocks) (seekMarkLoopC (P := Dm) w id prev next cur)
        (seekMarkLoopC (P := P) w id (prev.map Block.lit) (next.map Block.lit)
          (cur.map Block.lit)) := by
    intro w id
    apply seekMarkLoopC.fixpoint_induct (motive := fun f => ∀ prev next cur, LeD (litBlocks) (f prev next cur)
      (seekMarkLoopC (P := P) w id (prev.map Block.lit) (next.map Block.lit)
          (cur.map Block.lit)))
    · exact LeD.adm3 _ _
    intro f ih prev next cur
    rw [seekMarkLoopC.eq_def (P := P)]
    refine .tick ?_
    match cur with
    | none =>
      match next with
      | [] => exact .throwErr rfl
      | b :: next => exact ih _ _ (some b)
    | some ⟨segs, pre, e, []⟩ => exact ih (⟨segs, pre, e, []⟩ :: prev) next none
    | some ⟨segs, pre, e, ⟨n, i⟩ :: cs⟩ =>
      cases n with
      | empty => exact .panicking _
      | focusMark =>
        by_cases hi : i = id
        · subst hi
          simp only [if_true, Option.map_some, Block.lit, List.map_cons, Chunk.lit, CN.lit]
          exact .pure rfl
        · simp only [hi, if_false, Option.map_some, Block.lit, List.map_cons, Chunk.lit, CN.lit]
          exact ih _ _ (some ⟨segs, pre, e, cs⟩)
      | textual t => exact .bind (pushTextC_led ⟨segs, pre, e, cs⟩ t) fun b => ih _ _ (some b)
      | endOfLine => exact ih _ _ (some ⟨segs, pre, true, cs⟩)
      | newline ind => exact .panicking _
      | child j c =>
        exact .bind (chunkNewC_led _) fun c => .bind (expandFirstC_led _ ⟨segs, pre, e, cs⟩ _) fun r =>
          ih _ _ (some r.2)
      | concat x y => exact .panicking _
      | choice x y =>
        exact .bind (chooseC_led w ⟨segs, pre, e, cs⟩ _ _) fun c =>
          .bind (expandFirstC_led _ ⟨segs, pre, e, cs⟩ _) fun r => ih _ _ (some r.2)
  unfold Printer.seekMarkC
  rcases p with ⟨w, prev, _ | ⟨b, next⟩⟩
  · exact .panicking _
  · exact .bind (expandFirstC_led _ _ _) fun r => .bind (H w c.id prev (r.2 :: r.1) none) fun r => .pure rfl

theorem seekTextC_led (p : Printer Dm) (c : Chunk Dm) (pos : Nat) :
    LeD Printer.lit (p.seekTextC c pos) (p.lit.seekTextC c.lit pos) := by
  have H : ∀ (w : Nat) (prev next : List (Block Dm)) (cur : Option (Block Dm)),
      LeD (litBlocks) (seekTextLoopC w pos prev next cur)
        (seekTextLoopC (P := P) w pos (prev.map Block.lit) (next.map Block.lit)
          (cur.map Block.lit)) := by
    intro w
    apply seekTextLoopC.fixpoint_induct (motive := fun f => ∀ prev next cur, LeD (litBlocks) (f prev next cur)
      (seekTextLoopC (P := P) w pos (prev.map Block.lit) (next.map Block.lit)
          (cur.map Block.lit)))
    · exact LeD.adm3 _ _
    intro f ih prev next cur
    rw [seekTextLoopC.eq_def (P := P)]
    refine .tick ?_
    match cur with
    | none =>
      match next with
      | [] => exact .throwErr rfl
      | b :: next => exact ih _ _ (some b)
    | some ⟨segs, pre, e, []⟩ => exact ih (⟨segs, pre, e, []⟩ :: prev) next none
    | some ⟨segs, pre, e, ⟨n, i⟩ :: cs⟩ =>
      cases n with
      | empty => exact .panicking _
      | focusMark => exact ih _ _ (some ⟨segs, pre, e, cs⟩)
      | textual t =>
        rcases t with ⟨str, tw, st, _ | _⟩
        · exact .bind (pushTextC_led ⟨segs, pre, e, cs⟩ ⟨str, tw, st, false⟩) fun b => ih _ _ (some b)
        · exact .bind (pushTextC_led ⟨segs, pre, e, cs⟩ (Textual.splitAt ⟨str, tw, st, true⟩ pos).1) fun b =>
            .pure rfl
      | endOfLine => exact ih _ _ (some ⟨segs, pre, true, cs⟩)
      | newline ind => exact .panicking _
      | child j c =>
        exact .bind (chunkNewC_led _) fun c => .bind (expandFirstC_led _ ⟨segs, pre, e, cs⟩ _) fun r =>
          ih _ _ (some r.2)
      | concat x y => exact .panicking _
      | choice x y =>
        exact .bind (chooseC_led w ⟨segs, pre, e, cs⟩ _ _) fun c =>
          .bind (expandFirstC_led _ ⟨segs, pre, e, cs⟩ _) fun r => ih _ _ (some r.2)
  unfold Printer.seekTextC
  rcases p with ⟨w, prev, _ | ⟨b, next⟩⟩
  · exact .panicking _
  · exact .bind (expandFirstC_led _ _ _) fun r => .bind (H w prev (r.2 :: r.1) none) fun r => .pure rfl

theorem seekChildStep2C_led (w : Nat) (id : P.Id) (j : Nat) (next : List (Block Dm)) (b : Block Dm) :
    LeD Step2.lit (seekChildStep2C (P := Dm) w id j next b)
      (seekChildStep2C (P := P) w id j (next.map Block.lit) b.lit) := by
  revert b
  apply seekChildStep2C.fixpoint_induct (motive := fun f => ∀ b, LeD Step2.lit (f b)
    (seekChildStep2C (P := P) w id j (next.map Block.lit) b.lit))
  · exact LeD.adm1 _ _
  intro f ih b
  rw [seekChildStep2C.eq_def (P := P)]
  refine .tick ?_
  rcases b with ⟨segs, pre, e, _ | ⟨⟨n, i⟩, cs⟩⟩
  · exact .pure rfl
  cases n with
  | empty => exact .panicking _
  | focusMark => exact ih ⟨segs, pre, e, cs⟩
  | textual t => exact .bind (pushTextC_led ⟨segs, pre, e, cs⟩ t) fun b => ih _
  | endOfLine => exact ih ⟨segs, pre, true, cs⟩
  | newline ind => exact .panicking _
  | child k c =>
    by_cases hi : i = id ∧ k = j
    · simp only [hi, and_self, if_true, Block.lit, List.map_cons, Chunk.lit, CN.lit]
      exact .bind (chunkNewC_led _) fun c => .pure rfl
    · simp only [hi, if_false, Block.lit, List.map_cons, Chunk.lit, CN.lit]
      exact .bind (chunkNewC_led _) fun c => .bind (expandFirstC_led _ ⟨segs, pre, e, cs⟩ _) fun r => .pure rfl
  | concat x y => exact .panicking _
  | choice x y =>
    exact .bind (chooseC_led w ⟨segs, pre, e, cs⟩ _ _) fun c =>
      .bind (expandFirstC_led _ ⟨segs, pre, e, cs⟩ _) fun r => .pure rfl

theorem scanned_lit (id : P.Id) (j : Nat) (cs : List (Chunk Dm)) :
    scanned (P := P) id j (cs.map Chunk.lit) = scanned (P := Dm) id j cs := by
  induction cs with
  | nil => rfl
  | cons c cs ih =>
    have := containsRelevantChunk_lit id j ⟨[], 0, false, [c]⟩
    simp only [List.map_cons, scanned, ih]
    rw [← this]
    rfl

theorem skipSteps_lit (scan : Nat) (id : P.Id) (j : Nat) (next : List (Block Dm)) :
    skipSteps (P := P) scan id j (next.map Block.lit) = skipSteps (P := Dm) scan id j next := by
  induction next with
  | nil => rfl
  | cons b next ih =>
    simp only [List.map_cons, skipSteps, ih, containsRelevantChunk_lit]
    rw [show b.lit.chunks = b.chunks.map Chunk.lit from rfl, scanned_lit]

theorem seekChildLoopC_led (scan : Nat) (w : Nat) (id : P.Id) (j : Nat) (prev next : List (Block Dm)) :
    LeD (litFound) (seekChildLoopC (P := Dm) scan w id j prev next)
      (seekChildLoopC (P := P) scan w id j (prev.map Block.lit) (next.map Block.lit)) := by
  revert prev next
  apply seekChildLoopC.fixpoint_induct (motive := fun f => ∀ prev next, LeD (litFound) (f prev next)
    (seekChildLoopC (P := P) scan w id j (prev.map Block.lit) (next.map Block.lit)))
  · exact LeD.adm2 _ _
  intro f ih prev next
  rw [seekChildLoopC.eq_def (P := P), skipBlocks_lit, skipSteps_lit]
  refine .tick ?_
  dsimp only
  match skipBlocks (P := Dm) id j prev next with
  | (_, []) => exact .throwErr rfl
  | (prev, b :: next) =>
    refine .bind (seekChildStep2C_led w id j next b) fun r => ?_
    cases r with
    | found next c => exact .pure rfl
    | again next => exact ih _ _

theorem seekChildC_led (scan : Nat) (p : Printer Dm) (c : Chunk Dm) (j : Nat) :
    LeD (litChild) (p.seekChildC scan c j) (p.lit.seekChildC scan c.lit j) := by
  unfold Printer.seekChildC
  rcases p with ⟨w, prev, _ | ⟨b, next⟩⟩
  · exact .panicking _
  · exact .bind (expandFirstC_led _ _ _) fun r => .bind (seekChildLoopC_led (P := P) scan w c.id j prev (r.2 :: r.1)) fun r =>
      .pure rfl

theorem seekPathC_led (scan : Nat) (p : Printer Dm) (c : Chunk Dm) (path : List Nat) :
    LeD (litChild) (p.seekPathC scan c path) (p.lit.seekPathC scan c.lit path) := by
  induction path generalizing p c with
  | nil => exact .pure rfl
  | cons j path ih => exact .tick (.bind (seekChildC_led scan p c j) fun r => ih r.1 r.2)

theorem seekC_led (scan : Nat) (p : Printer Dm) (doc : P.Node) (path : List Nat) (target : FocusTarget)
    (rs : Option P.Style) :
    LeD Printer.lit (p.seekC scan doc path target rs) (p.lit.seekC (P := P) scan doc path target rs) := by
  refine .bind (withOptionalStyleC_led doc rs) fun d => .bind (chunkNewC_led d) fun c =>
    .bind (seekPathC_led scan p c path) fun r => ?_
  cases target with
  | start => exact seekStartC_led _ _
  | «end» => exact seekEndC_led _ _
  | text pos => exact seekTextC_led _ _ pos
  | mark => exact seekMarkC_led _ _

theorem prettyPrintC_led (scan : Nat) (doc : P.Node) (w : Nat) (path : List Nat) (target : FocusTarget)
    (rs : Option P.Style) :
    LeD Printed.lit (prettyPrintC (P := Dm) scan doc w path target rs)
      (prettyPrintC (P := P) scan doc w path target rs) := by
  unfold prettyPrintC
  refine .bind (c := Printer.lit) ?_ fun p => .bind (seekC_led scan p doc path target rs) fun p => ?_
  · exact .bind (blockNewC_led [] []) fun b => .pure rfl
  rcases p with ⟨w, prev, _ | ⟨b, next⟩⟩
  · exact .panicking _
  refine .bind (printNextLineC_led _) fun r => ?_
  rcases r with ⟨_ | l, p⟩
  · exact .panicking _
  · simp only [litNext, Option.map_some, Line.lit, Printer.lit, Block.lit, List.map_cons, List.length_map]
    split
    · exact .panicking _
    · exact .pure (by simp [Printed.lit, Printer.lit, FocusedLine.lit, List.map_take, List.map_drop])

theorem toStringLoopC_led (s : String) (p : Printer Dm) :
    LeD (fun s : String => s) (toStringLoopC s p) (toStringLoopC (P := P) s p.lit) := by
  revert s p
  apply toStringLoopC.fixpoint_induct (P := Dm) (motive := fun f => ∀ s (p : Printer Dm), LeD (fun s : String => s) (f s p)
    (toStringLoopC (P := P) s p.lit))
  · exact LeD.adm2 _ _
  intro f ih s p
  rw [toStringLoopC.eq_def s p.lit]
  refine .bind (printNextLineC_led p) fun r => ?_
  rcases r with ⟨_ | l, p⟩
  · exact .pure rfl
  · have : l.lit.toString = l.toString := by
      simp [Line.toString, Line.lit, segsString, List.foldl_map, Segment.lit]
    simp only [litNext, Option.map_some, this]
    exact ih _ _

theorem prettyPrintToStringC_led (scan : Nat) (doc : P.Node) (w : Nat) :
    LeD (fun s : String => s) (prettyPrintToStringC (P := Dm) scan doc w) (prettyPrintToStringC (P := P) scan doc w) := by
  refine .bind (prettyPrintC_led scan doc w [] .start none) fun r => ?_
  have : (r.focused.lit).toString = r.focused.toString := by
    simp [FocusedLine.toString, FocusedLine.lit, segsString, List.foldl_map, Segment.lit]
  simp only [Printed.lit, this]
  exact toStringLoopC_led _ _

theorem browseC_led (asks : List Ask) (up down : Printer Dm) :
    LeD (List.map (Option.map Line.lit)) (browseC asks up down)
      (browseC asks up.lit down.lit) := by
  induction asks generalizing up down with
  | nil => exact .pure rfl
  | cons a asks ih =>
    cases a
    · exact .bind (printPrevLineC_led up) fun r => .bind (ih r.2 down) fun ls => .pure rfl
    · exact .bind (printNextLineC_led down) fun r => .bind (ih up r.2) fun ls => .pure rfl

/-- Corresponding results of sessions. -/
def litSession
    (r : FocusedLine Dm × List (Option (Line Dm))) :
    FocusedLine P × List (Option (Line P)) :=
  (r.1.lit, r.2.map (Option.map Line.lit))

theorem sessionC_led (scan : Nat) (doc : P.Node) (w : Nat) (path : List Nat)
    (target : FocusTarget) (rs : Option P.Style) (asks : List Ask) :
    LeD (litSession) (sessionC (P := Dm) scan doc w path target rs asks)
      (sessionC (P := P) scan doc w path target rs asks) := by
  exact .bind (prettyPrintC_led scan doc w path target rs) fun r => .bind (browseC_led asks r.up r.down) fun ls =>
    .pure rfl

end PPP
