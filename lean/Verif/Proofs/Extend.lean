import Verif.Spec.Extend
import Verif.Proofs.Exec
/-
Printing a document of which more is available gives the same result.
-/
namespace PPP
open Lean.Order

variable {P : PrettyDoc} {M : Methods P.Node P.Id P.Style P.Label P.Cond P.Err} {K : P.Err → Prop}

/-! ### The same value for another implementation -/

def Segment.re (M : Methods P.Node P.Id P.Style P.Label P.Cond P.Err) (s : Segment P) : Segment (P.withMethods M) :=
  ⟨s.str, s.width, s.style⟩
def Textual.re (M : Methods P.Node P.Id P.Style P.Label P.Cond P.Err) (t : Textual P) : Textual (P.withMethods M) :=
  ⟨t.str, t.width, t.style, t.isFromText⟩
def JoinPos.re (M : Methods P.Node P.Id P.Style P.Label P.Cond P.Err) (j : JoinPos P) : JoinPos (P.withMethods M) :=
  ⟨j.parent, j.child, j.index, j.first, j.join⟩
def DCN.re (M : Methods P.Node P.Id P.Style P.Label P.Cond P.Err) (d : DCN P) : DCN (P.withMethods M) :=
  ⟨d.notn, d.doc, d.flat, d.indent.map (Segment.re M), d.style, d.joinPos.map (JoinPos.re M)⟩
def CN.re (M : Methods P.Node P.Id P.Style P.Label P.Cond P.Err) : CN P → CN (P.withMethods M)
  | .empty => .empty
  | .endOfLine => .endOfLine
  | .newline ind => .newline (ind.map (Segment.re M))
  | .textual t => .textual (t.re M)
  | .concat a b => .concat (a.re M) (b.re M)
  | .choice a b => .choice (a.re M) (b.re M)
  | .child i c => .child i (c.re M)
  | .focusMark => .focusMark
def Chunk.re (M : Methods P.Node P.Id P.Style P.Label P.Cond P.Err) (c : Chunk P) : Chunk (P.withMethods M) :=
  ⟨c.notn.re M, c.id⟩
def Block.re (M : Methods P.Node P.Id P.Style P.Label P.Cond P.Err) (b : Block P) : Block (P.withMethods M) :=
  ⟨b.segments.map (Segment.re M), b.prefixLen, b.atEol, b.chunks.map (Chunk.re M)⟩
def Line.re (M : Methods P.Node P.Id P.Style P.Label P.Cond P.Err) (l : Line P) : Line (P.withMethods M) :=
  ⟨l.segments.map (Segment.re M)⟩
def FocusedLine.re (M : Methods P.Node P.Id P.Style P.Label P.Cond P.Err) (l : FocusedLine P) :
    FocusedLine (P.withMethods M) :=
  ⟨l.leftSegments.map (Segment.re M), l.rightSegments.map (Segment.re M)⟩
def Printer.re (M : Methods P.Node P.Id P.Style P.Label P.Cond P.Err) (p : Printer P) : Printer (P.withMethods M) :=
  ⟨p.width, p.prev.map (Block.re M), p.next.map (Block.re M)⟩
def Printed.re (M : Methods P.Node P.Id P.Style P.Label P.Cond P.Err) (p : Printed P) : Printed (P.withMethods M) :=
  ⟨p.up.re M, p.focused.re M, p.down.re M⟩

/-! ### Success is preserved -/

/-- If `x` succeeds, so does `y`, with the corresponding value.  If `x` fails, but not because of a method of the
    document, `y` fails in the same way. -/
def Le {E α β : Type} (K : E → Prop) (c : α → β) (x : Exec E α) (y : Exec E β) : Prop :=
  (∀ a, x.run = some (.ok a) → y.run = some (.ok (c a))) ∧
  ∀ f, f.KeptBy K → x.run = some (.error f) → y.run = some (.error f)

theorem Le.pure {E α β : Type} {K : E → Prop} {c : α → β} {a : α} {b : β} (h : b = c a) :
    Le K c (Pure.pure a : Exec E α) (Pure.pure b : Exec E β) := by
  refine ⟨?_, ?_⟩
  · intro a' h'
    subst h
    have : a = a' := by
      have h' : (some (.ok a) : Option (Except (Fail E) α)) = some (.ok a') := h'
      injection h' with h'; injection h'
    subst this; rfl
  · intro f _ h'
    have h' : (some (.ok a) : Option (Except (Fail E) α)) = some (.error f) := h'
    injection h' with h'; injection h'

theorem Le.error {E α β : Type} {K : E → Prop} {c : α → β} (f : Fail E) : Le K c (Exec.ofRes (.error f)) (Exec.ofRes (.error f)) := by
  refine ⟨?_, ?_⟩
  · intro a h
    have h : (some (.error f) : Option (Except (Fail E) α)) = some (.ok a) := h
    injection h with h; injection h
  · intro g _ h
    have h : (some (.error f) : Option (Except (Fail E) α)) = some (.error g) := h
    injection h with h; injection h with h; subst h; rfl

theorem Le.ofDoc {E α β : Type} {K : E → Prop} {c : α → β} {f : Fail E} (hf : ¬ f.KeptBy K) (y : Exec E β) :
    Le K c (Exec.ofRes (.error f)) y := by
  refine ⟨?_, ?_⟩
  · intro a h
    have h : (some (.error f) : Option (Except (Fail E) α)) = some (.ok a) := h
    injection h with h; injection h
  · intro g hg h
    have h : (some (.error f) : Option (Except (Fail E) α)) = some (.error g) := h
    injection h with h; injection h with h; subst h; exact absurd hg hf

theorem Le.throwErr {E α β : Type} {K : E → Prop} {c : α → β} (f : PrintingError E) :
    Le K c (PPP.throwErr f) (PPP.throwErr f) := .error _
theorem Le.panicking {E α β : Type} {K : E → Prop} {c : α → β} (y : Exec E β) :
    Le K c (PPP.panicking : Exec E α) y := .ofDoc (fun h => h.1 rfl) _
theorem Le.overflowing {E α β : Type} {K : E → Prop} {c : α → β} :
    Le K c (PPP.overflowing : Exec E α) (PPP.overflowing) := .error _

theorem Le.bind {E α β γ δ : Type} {K : E → Prop} {c : α → β} {d : γ → δ} {x : Exec E α} {y : Exec E β}
    {f : α → Exec E γ} {g : β → Exec E δ} (h : Le K c x y) (hf : ∀ a, Le K d (f a) (g (c a))) :
    Le K d (x >>= f) (y >>= g) := by
  refine ⟨?_, ?_⟩
  · intro r hr
    rw [Exec.run_bind] at hr ⊢
    match hx : x.run with
    | none => rw [hx] at hr; exact absurd hr (by simp)
    | some (.error e) => rw [hx] at hr; exact absurd hr (by simp)
    | some (.ok a) =>
      rw [h.1 a hx]
      exact (hf a).1 r (by rw [hx] at hr; exact hr)
  · intro e he hr
    rw [Exec.run_bind] at hr ⊢
    match hx : x.run with
    | none => rw [hx] at hr; exact absurd hr (by simp)
    | some (.error e') =>
      rw [hx] at hr
      cases hr
      rw [h.2 e he hx]
    | some (.ok a) =>
      rw [h.1 a hx]
      exact (hf a).2 e he (by rw [hx] at hr; exact hr)

theorem Le.call {E α : Type} {K : E → Prop} {x y : Call E α} (h : Call.Keeps K x y) :
    Le K (fun a : α => a) (PPP.call x) (PPP.call y) := by
  match x with
  | .ok b => rw [h.1 b rfl]; exact .pure (a := b) rfl
  | .error .panic => exact .ofDoc (fun h => h.1 rfl) _
  | .error (.err e) =>
    by_cases hk : K e
    · rw [h.2 e hk rfl]; exact .error _
    · exact .ofDoc (fun h => hk (h.2 _ rfl)) _

theorem Le.admissible {E α β : Type} {K : E → Prop} (c : α → β) (y : Exec E β) :
    Lean.Order.admissible fun x : Exec E α => Le K c x y := by
  apply admissible_and
  · apply admissible_pi
    intro a
    exact Option.admissible_eq_some _ _
  · apply admissible_pi
    intro f
    apply admissible_pi
    intro _
    exact Option.admissible_eq_some _ _

theorem Le.adm1 {A E α β : Type} {K : E → Prop} (c : α → β) (y : A → Exec E β) :
    Lean.Order.admissible fun f : A → Exec E α => ∀ a, Le K c (f a) (y a) :=
  admissible_pi_apply (fun a (x : Exec E α) => Le K c x (y a)) fun _ => Le.admissible _ _
theorem Le.adm2 {A B E α β : Type} {K : E → Prop} (c : α → β) (y : A → B → Exec E β) :
    Lean.Order.admissible fun f : A → B → Exec E α => ∀ a b, Le K c (f a b) (y a b) :=
  admissible_pi_apply (fun a (x : B → Exec E α) => ∀ b, Le K c (x b) (y a b)) fun _ => Le.adm1 _ _
theorem Le.adm3 {A B C E α β : Type} {K : E → Prop} (c : α → β) (y : A → B → C → Exec E β) :
    Lean.Order.admissible fun f : A → B → C → Exec E α => ∀ a b d, Le K c (f a b d) (y a b d) :=
  admissible_pi_apply (fun a (x : B → C → Exec E α) => ∀ b d, Le K c (x b d) (y a b d)) fun _ => Le.adm2 _ _
theorem Le.adm4 {A B C D E α β : Type} {K : E → Prop} (c : α → β) (y : A → B → C → D → Exec E β) :
    Lean.Order.admissible fun f : A → B → C → D → Exec E α => ∀ a b d e, Le K c (f a b d e) (y a b d e) :=
  admissible_pi_apply (fun a (x : B → C → D → Exec E α) => ∀ b d e, Le K c (x b d e) (y a b d e)) fun _ =>
    Le.adm3 _ _

theorem Methods.Extends.keeping (h : M.Extends) : M.ExtendsKeeping (fun _ => False) where
  id n := ⟨h.id n, fun _ hk => hk.elim⟩
  notn n := ⟨h.notn n, fun _ hk => hk.elim⟩
  condition n c := ⟨h.condition n c, fun _ hk => hk.elim⟩
  lookupStyle n l := ⟨h.lookupStyle n l, fun _ hk => hk.elim⟩
  nodeStyle n := ⟨h.nodeStyle n, fun _ hk => hk.elim⟩
  numChildren n := ⟨h.numChildren n, fun _ hk => hk.elim⟩
  unwrapText n := ⟨h.unwrapText n, fun _ hk => hk.elim⟩
  unwrapChild n i := ⟨h.unwrapChild n i, fun _ hk => hk.elim⟩
  unwrapLastChild n := ⟨h.unwrapLastChild n, fun _ hk => hk.elim⟩
  unwrapPrevSibling n p i := ⟨h.unwrapPrevSibling n p i, fun _ hk => hk.elim⟩

theorem Fail.NotFromDoc.keptBy {E : Type} {K : E → Prop} {f : Fail E} (h : f.NotFromDoc) : f.KeptBy K :=
  ⟨h.1, fun e he => absurd he (h.2 e)⟩

/-! ### Evaluation -/

theorem docToInspect_le (h : M.ExtendsKeeping K) (d : DCN P) (pos : CheckPos) :
    Le K (fun a : P.Node => a) (d.docToInspect pos) ((d.re M).docToInspect pos) := by
  unfold DCN.docToInspect
  cases pos with
  | here => exact .pure rfl
  | child i =>
    refine .bind (.call (h.numChildren _)) fun n => ?_
    cases n with
    | none => exact .throwErr _
    | some n =>
      dsimp only
      cases normalizeChildIndex i n with
      | none => exact .throwErr _
      | some j => exact .call (h.unwrapChild _ _)
  | rightChild =>
    rcases d with ⟨_, _, _, _, _, _ | jp⟩
    · exact .panicking _
    · exact .pure rfl
  | leftChild =>
    rcases d with ⟨_, _, _, _, _, _ | ⟨p, c, _ | k, _, _⟩⟩
    · exact .panicking _
    · exact .panicking _
    · exact .call (h.unwrapPrevSibling _ _ _)

theorem withOptionalStyle_le (h : M.ExtendsKeeping K) (doc : P.Node) (style : Option P.Style) :
    Le K (DCN.re M) (DCN.withOptionalStyle doc style)
      (DCN.withOptionalStyle (P := P.withMethods M) doc style) := by
  unfold DCN.withOptionalStyle
  refine .bind (.call (h.notn _)) fun a => .bind (.call (h.nodeStyle _)) fun s => ?_
  cases style <;> exact .pure rfl

theorem eval_le (h : M.ExtendsKeeping K) (d : DCN P) : Le K (CN.re M) d.eval (d.re M).eval := by
  revert d
  apply DCN.eval.fixpoint_induct (motive := fun f => ∀ d, Le K (CN.re M) (f d) (d.re M).eval)
  · exact Le.adm1 _ _
  intro eval ih d
  rw [DCN.eval.eq_def (d.re M)]
  rcases d with ⟨notn, doc, flat, indent, style, jp⟩
  cases notn with
  | empty => exact .pure rfl
  | endOfLine => exact .pure rfl
  | newline => exact .pure rfl
  | literal s => exact .pure rfl
  | text =>
    refine .bind (.call (h.numChildren _)) fun n => ?_
    cases n with
    | some n => exact .throwErr _
    | none => exact .bind (.call (h.unwrapText _)) fun t => .pure rfl
  | flat n => exact ih _
  | indent pre label n =>
    cases label with
    | none => exact ih _
    | some l => exact .bind (.call (h.lookupStyle _ _)) fun s => ih _
  | concat a b => exact .pure rfl
  | choice a b =>
    cases flat with
    | true => exact ih _
    | false => exact .pure rfl
  | check cond pos a b =>
    refine .bind (docToInspect_le h _ _) fun n => .bind (.call (h.condition _ _)) fun b => ?_
    cases b
    · exact ih _
    · exact ih _
  | child i =>
    refine .bind (.call (h.numChildren _)) fun n => ?_
    cases n with
    | none => exact .throwErr _
    | some n =>
      dsimp only
      cases normalizeChildIndex i n with
      | none => exact .throwErr _
      | some j =>
        exact .bind (.call (h.unwrapChild _ _)) fun c => .bind (.call (h.notn _)) fun a =>
          .bind (.call (h.nodeStyle _)) fun s => .pure rfl
  | style l n => exact .bind (.call (h.lookupStyle _ _)) fun s => ih _
  | focusMark => exact .pure rfl
  | count zero one many =>
    refine .bind (.call (h.numChildren _)) fun n => ?_
    match n with
    | none => exact .throwErr _
    | some 0 => exact ih _
    | some 1 => exact ih _
    | some (n + 2) => exact ih _
  | fold first join =>
    refine .bind (.call (h.numChildren _)) fun n => ?_
    match n with
    | none => exact .throwErr _
    | some 0 => exact .pure rfl
    | some 1 => exact ih _
    | some (n + 2) => exact .bind (.call (h.unwrapLastChild _)) fun c => ih _
  | left =>
    rcases jp with _ | ⟨p, c, i, f, j⟩
    · exact .panicking _
    · match i with
      | 0 => exact .panicking _
      | 1 => exact ih _
      | k + 2 => exact .bind (.call (h.unwrapPrevSibling _ _ _)) fun c => ih _
  | right =>
    rcases jp with _ | ⟨p, c, i, f, j⟩
    · exact .panicking _
    · exact .bind (.call (h.notn _)) fun a => .bind (.call (h.nodeStyle _)) fun s => .pure rfl

/-! ### The printer -/

theorem chunkNew_le (h : M.ExtendsKeeping K) (d : DCN P) : Le K (Chunk.re M) (Chunk.new d) (Chunk.new (d.re M)) := by
  exact .bind (.call (h.id _)) fun i => .bind (eval_le h _) fun n => .pure rfl

theorem segsWidth_re (segs : List (Segment P)) : segsWidth (segs.map (Segment.re M)) = segsWidth segs := by
  unfold segsWidth
  rw [List.map_map]; rfl

theorem blockNew_le (ind : Indent P) (chunks : List (Chunk P)) :
    Le K (Block.re M) (Block.new ind chunks) (Block.new (ind.map (Segment.re M)) (chunks.map (Chunk.re M))) := by
  unfold Block.new
  dsimp only
  rw [← List.map_reverse, segsWidth_re]
  split
  · exact .pure rfl
  · exact .overflowing

theorem pushText_le (b : Block P) (t : Textual P) :
    Le K (Block.re M) (b.pushText t) ((b.re M).pushText (t.re M)) := by
  unfold Block.pushText
  rcases b with ⟨segs, pre, _ | _, chunks⟩
  · by_cases hw : pre + t.width ≤ maxWidth
    · simp only [Block.re, Textual.re, hw, if_true]
      exact .pure (by simp [Block.re, Segment.re])
    · simp only [Block.re, Textual.re, hw, if_false, Bool.false_eq_true]
      exact .overflowing
  · exact .throwErr _

theorem blockPrint_le (b : Block P) : Le K (Line.re M) b.print (b.re M).print := by
  unfold Block.print
  rcases b with ⟨segs, pre, e, _ | ⟨c, cs⟩⟩
  · exact .pure rfl
  · exact .panicking _

theorem fitsLoop_le (h : M.ExtendsKeeping K) (next : List (Chunk P)) (rem : Nat) (ns : List (CN P)) (eol : Bool) :
    Le K (fun b : Bool => b) (fitsLoop next rem ns eol)
      (fitsLoop (P := P.withMethods M) (next.map (Chunk.re M)) rem (ns.map (CN.re M)) eol) := by
  revert next rem ns eol
  apply fitsLoop.fixpoint_induct (P := P) (motive := fun f => ∀ (next : List (Chunk P)) rem (ns : List (CN P)) eol, Le K (fun b : Bool => b) (f next rem ns eol)
    (fitsLoop (P := P.withMethods M) (next.map (Chunk.re M)) rem (ns.map (CN.re M)) eol))
  · exact Le.adm4 _ _
  intro f ih next rem ns eol
  rw [fitsLoop.eq_def (next.map (Chunk.re M))]
  match ns with
  | [] =>
    match next with
    | [] => exact .pure rfl
    | c :: more => exact ih _ _ [c.notn] _
  | n :: ns =>
    cases n with
    | empty => exact ih _ _ _ _
    | focusMark => exact ih _ _ _ _
    | textual t =>
      cases eol
      · simp only [List.map_cons, CN.re, Textual.re, Bool.false_eq_true, if_false]
        split
        · exact ih _ _ _ _
        · exact .pure rfl
      · exact .pure rfl
    | endOfLine => exact ih _ _ _ _
    | newline i => exact .pure rfl
    | child i c => exact .bind (eval_le h _) fun n => ih _ _ (n :: ns) _
    | concat a b =>
      exact .bind (eval_le h _) fun n2 => .bind (eval_le h _) fun n1 => ih _ _ (n1 :: n2 :: ns) _
    | choice a b => exact .bind (eval_le h _) fun n => ih _ _ (n :: ns) _

theorem choose_le (h : M.ExtendsKeeping K) (w : Nat) (b : Block P) (o1 o2 : DCN P) :
    Le K (Chunk.re M) (choose w b o1 o2) (choose w (b.re M) (o1.re M) (o2.re M)) := by
  unfold choose
  refine .bind (chunkNew_le h _) fun c1 => ?_
  simp only [Block.re]
  split
  · refine .bind (fitsLoop_le h b.chunks _ [c1.notn] _) fun f => ?_
    cases f
    · exact chunkNew_le h _
    · exact .pure rfl
  · exact chunkNew_le h _

/-- Corresponding pairs of blocks and a block. -/
def rePair (M : Methods P.Node P.Id P.Style P.Label P.Cond P.Err) (r : List (Block P) × Block P) :
    List (Block (P.withMethods M)) × Block (P.withMethods M) := (r.1.map (Block.re M), r.2.re M)

theorem expandFirst_le (h : M.ExtendsKeeping K) (next : List (Block P)) (b : Block P) (c : Chunk P) :
    Le K (rePair M) (expandFirst next b c) (expandFirst (next.map (Block.re M)) (b.re M) (c.re M)) := by
  suffices H : ∀ (next : List (Block P)) (b : Block P) (st : List (Chunk P)),
      Le K (rePair M) (expandFirstLoop next b st)
        (expandFirstLoop (next.map (Block.re M)) (b.re M) (st.map (Chunk.re M))) from H next b [c]
  apply expandFirstLoop.fixpoint_induct (motive := fun f => ∀ next b st, Le K (rePair M) (f next b st)
    (expandFirstLoop (next.map (Block.re M)) (b.re M) (st.map (Chunk.re M))))
  · exact Le.adm3 _ _
  intro f ih next b st
  rw [expandFirstLoop.eq_def (next.map (Block.re M))]
  match st with
  | [] => exact .pure rfl
  | ⟨n, i⟩ :: st =>
    cases n with
    | empty => exact ih _ _ _
    | focusMark => exact ih _ { b with chunks := _ :: b.chunks } _
    | textual t => exact ih _ { b with chunks := _ :: b.chunks } _
    | endOfLine => exact ih _ { b with chunks := _ :: b.chunks } _
    | newline ind => exact .bind (blockNew_le _ _) fun nb => ih (nb :: next) { b with chunks := [] } _
    | child j c => exact ih _ { b with chunks := _ :: b.chunks } _
    | concat x y =>
      exact .bind (chunkNew_le h _) fun l => .bind (chunkNew_le h _) fun r => ih _ _ (r :: l :: st)
    | choice x y => exact ih _ { b with chunks := _ :: b.chunks } _

theorem expandLast_le (h : M.ExtendsKeeping K) (prev : List (Block P)) (b : Block P) (c : Chunk P) :
    Le K (rePair M) (expandLast prev b c) (expandLast (prev.map (Block.re M)) (b.re M) (c.re M)) := by
  suffices H : ∀ (prev : List (Block P)) (b : Block P) (cs st : List (Chunk P)),
      Le K (rePair M) (expandLastLoop prev b cs st)
        (expandLastLoop (prev.map (Block.re M)) (b.re M) (cs.map (Chunk.re M)) (st.map (Chunk.re M))) from
    H prev b [] [c]
  apply expandLastLoop.fixpoint_induct (motive := fun f => ∀ prev b cs st, Le K (rePair M) (f prev b cs st)
    (expandLastLoop (prev.map (Block.re M)) (b.re M) (cs.map (Chunk.re M)) (st.map (Chunk.re M))))
  · exact Le.adm4 _ _
  intro f ih prev b cs st
  rw [expandLastLoop.eq_def (prev.map (Block.re M))]
  match st with
  | [] => exact .pure (by simp [rePair, Block.re])
  | ⟨n, i⟩ :: st =>
    cases n with
    | empty => exact ih _ _ _ _
    | focusMark => exact ih _ _ (_ :: cs) _
    | textual t => exact ih _ _ (_ :: cs) _
    | endOfLine => exact ih _ _ (_ :: cs) _
    | newline ind =>
      refine .bind (blockNew_le ind b.chunks) fun nb => ?_
      have := ih (⟨b.segments, b.prefixLen, b.atEol, cs.reverse⟩ :: prev) nb [] st
      simpa only [List.map_cons, List.map_nil, Block.re, List.map_reverse] using this
    | child j c => exact ih _ _ (_ :: cs) _
    | concat x y =>
      exact .bind (chunkNew_le h _) fun l => .bind (chunkNew_le h _) fun r => ih _ _ _ (r :: l :: st)
    | choice x y => exact ih _ _ (_ :: cs) _

/-- Corresponding lines and blocks. -/
def reLine (M : Methods P.Node P.Id P.Style P.Label P.Cond P.Err) (r : Line P × List (Block P)) :
    Line (P.withMethods M) × List (Block (P.withMethods M)) := (r.1.re M, r.2.map (Block.re M))

theorem printNextLoop_le (h : M.ExtendsKeeping K) (w : Nat) (next : List (Block P)) (b : Block P) :
    Le K (reLine M) (printNextLoop w next b) (printNextLoop w (next.map (Block.re M)) (b.re M)) := by
  revert next b
  apply printNextLoop.fixpoint_induct (motive := fun f => ∀ next b, Le K (reLine M) (f next b)
    (printNextLoop w (next.map (Block.re M)) (b.re M)))
  · exact Le.adm2 _ _
  intro f ih next b
  rw [printNextLoop.eq_def w (next.map (Block.re M))]
  rcases b with ⟨segs, pre, e, _ | ⟨⟨n, i⟩, cs⟩⟩
  · exact .bind (blockPrint_le _) fun l => .pure rfl
  cases n with
  | empty => exact .panicking _
  | focusMark => exact ih _ ⟨segs, pre, e, cs⟩
  | textual t => exact .bind (pushText_le ⟨segs, pre, e, cs⟩ t) fun b => ih _ _
  | endOfLine => exact ih _ ⟨segs, pre, true, cs⟩
  | newline ind => exact .panicking _
  | child j c =>
    exact .bind (chunkNew_le h _) fun c => .bind (expandFirst_le h _ ⟨segs, pre, e, cs⟩ _) fun r => ih _ _
  | concat x y => exact .panicking _
  | choice x y =>
    exact .bind (choose_le h w ⟨segs, pre, e, cs⟩ _ _) fun c =>
      .bind (expandFirst_le h _ ⟨segs, pre, e, cs⟩ _) fun r => ih _ _

theorem printPrevLoop_le (h : M.ExtendsKeeping K) (w : Nat) (prev : List (Block P)) (b : Block P) :
    Le K (reLine M) (printPrevLoop w prev b) (printPrevLoop w (prev.map (Block.re M)) (b.re M)) := by
  revert prev b
  apply printPrevLoop.fixpoint_induct (motive := fun f => ∀ prev b, Le K (reLine M) (f prev b)
    (printPrevLoop w (prev.map (Block.re M)) (b.re M)))
  · exact Le.adm2 _ _
  intro f ih prev b
  rw [printPrevLoop.eq_def w (prev.map (Block.re M))]
  rcases b with ⟨segs, pre, e, _ | ⟨⟨n, i⟩, cs⟩⟩
  · exact .bind (blockPrint_le _) fun l => .pure rfl
  cases n with
  | empty => exact .panicking _
  | focusMark => exact ih _ ⟨segs, pre, e, cs⟩
  | textual t => exact .bind (pushText_le ⟨segs, pre, e, cs⟩ t) fun b => ih _ _
  | endOfLine => exact ih _ ⟨segs, pre, true, cs⟩
  | newline ind => exact .panicking _
  | child j c =>
    exact .bind (chunkNew_le h _) fun c => .bind (expandLast_le h _ ⟨segs, pre, e, cs⟩ _) fun r => ih _ _
  | concat x y => exact .panicking _
  | choice x y =>
    exact .bind (choose_le h w ⟨segs, pre, e, cs⟩ _ _) fun c =>
      .bind (expandLast_le h _ ⟨segs, pre, e, cs⟩ _) fun r => ih _ _

/-- Corresponding results of an iterator. -/
def reNext (M : Methods P.Node P.Id P.Style P.Label P.Cond P.Err) (r : Option (Line P) × Printer P) :
    Option (Line (P.withMethods M)) × Printer (P.withMethods M) := (r.1.map (Line.re M), r.2.re M)

theorem printNextLine_le (h : M.ExtendsKeeping K) (p : Printer P) :
    Le K (reNext M) p.printNextLine (p.re M).printNextLine := by
  unfold Printer.printNextLine
  rcases p with ⟨w, prev, _ | ⟨b, next⟩⟩
  · exact .pure rfl
  · exact .bind (printNextLoop_le h w next b) fun r => .pure rfl

theorem printPrevLine_le (h : M.ExtendsKeeping K) (p : Printer P) :
    Le K (reNext M) p.printPrevLine (p.re M).printPrevLine := by
  unfold Printer.printPrevLine
  rcases p with ⟨w, _ | ⟨b, prev⟩, next⟩
  · exact .pure rfl
  · exact .bind (printPrevLoop_le h w prev b) fun r => .pure rfl

/-! ### Seeking -/

theorem seekEnd_le (h : M.ExtendsKeeping K) (p : Printer P) (c : Chunk P) :
    Le K (Printer.re M) (p.seekEnd c) ((p.re M).seekEnd (c.re M)) := by
  have H : ∀ (w k : Nat) (prev : List (Block P)) (b : Block P),
      Le K (rePair M) (seekEndLoop w k prev b) (seekEndLoop w k (prev.map (Block.re M)) (b.re M)) := by
    intro w k
    apply seekEndLoop.fixpoint_induct (motive := fun f => ∀ prev b, Le K (rePair M) (f prev b)
      (seekEndLoop w k (prev.map (Block.re M)) (b.re M)))
    · exact Le.adm2 _ _
    intro f ih prev b
    rw [seekEndLoop.eq_def w k (prev.map (Block.re M))]
    rw [show (b.re M).chunks.length = b.chunks.length from List.length_map _]
    by_cases hk : b.chunks.length > k
    rotate_left
    · simp only [hk, if_false]
      exact .pure rfl
    simp only [hk, if_true]
    rcases b with ⟨segs, pre, e, _ | ⟨⟨n, i⟩, cs⟩⟩
    · exact .panicking _
    cases n with
    | empty => exact .panicking _
    | focusMark => exact ih _ ⟨segs, pre, e, cs⟩
    | textual t => exact .bind (pushText_le ⟨segs, pre, e, cs⟩ t) fun b => ih _ _
    | endOfLine => exact ih _ ⟨segs, pre, true, cs⟩
    | newline ind => exact .panicking _
    | child j c =>
      exact .bind (chunkNew_le h _) fun c => .bind (expandLast_le h _ ⟨segs, pre, e, cs⟩ _) fun r => ih _ _
    | concat x y => exact .panicking _
    | choice x y =>
      exact .bind (choose_le h w ⟨segs, pre, e, cs⟩ _ _) fun c =>
        .bind (expandLast_le h _ ⟨segs, pre, e, cs⟩ _) fun r => ih _ _
  unfold Printer.seekEnd
  rcases p with ⟨w, prev, _ | ⟨b, next⟩⟩
  · exact .panicking _
  · refine .bind (expandLast_le h _ _ _) fun r => ?_
    refine .bind (c := rePair M) ?_ fun r => .pure rfl
    have := H w b.chunks.length r.1 r.2
    rw [show b.chunks.length = (b.re M).chunks.length from (List.length_map _).symm] at this ⊢
    exact this

theorem seekStart_le (h : M.ExtendsKeeping K) (p : Printer P) (c : Chunk P) :
    Le K (Printer.re M) (p.seekStart c) ((p.re M).seekStart (c.re M)) := by
  unfold Printer.seekStart
  rcases p with ⟨w, prev, _ | ⟨b, next⟩⟩
  · exact .panicking _
  · exact .bind (expandFirst_le h _ _ _) fun r => .pure rfl

/-- Corresponding lists of blocks. -/
def reBlocks (M : Methods P.Node P.Id P.Style P.Label P.Cond P.Err) (r : List (Block P) × List (Block P)) :
    List (Block (P.withMethods M)) × List (Block (P.withMethods M)) := (r.1.map (Block.re M), r.2.map (Block.re M))

theorem seekMark_le (h : M.ExtendsKeeping K) (p : Printer P) (c : Chunk P) :
    Le K (Printer.re M) (p.seekMark c) ((p.re M).seekMark (c.re M)) := by
  have H : ∀ (w : Nat) (id : P.Id) (prev next : List (Block P)) (cur : Option (Block P)),
      Le K (reBlocks M) (seekMarkLoop w id prev next cur)
        (seekMarkLoop (P := P.withMethods M) w id (prev.map (Block.re M)) (next.map (Block.re M))
          (cur.map (Block.re M))) := by
    intro w id
    apply seekMarkLoop.fixpoint_induct (motive := fun f => ∀ prev next cur, Le K (reBlocks M) (f prev next cur)
      (seekMarkLoop (P := P.withMethods M) w id (prev.map (Block.re M)) (next.map (Block.re M))
          (cur.map (Block.re M))))
    · exact Le.adm3 _ _
    intro f ih prev next cur
    rw [seekMarkLoop.eq_def (P := P.withMethods M)]
    match cur with
    | none =>
      match next with
      | [] => exact .throwErr _
      | b :: next => exact ih _ _ (some b)
    | some ⟨segs, pre, e, []⟩ => exact ih (⟨segs, pre, e, []⟩ :: prev) next none
    | some ⟨segs, pre, e, ⟨n, i⟩ :: cs⟩ =>
      cases n with
      | empty => exact .panicking _
      | focusMark =>
        by_cases hi : i = id
        · subst hi
          simp only [if_true, Option.map_some, Block.re, List.map_cons, Chunk.re, CN.re]
          exact .pure rfl
        · simp only [hi, if_false, Option.map_some, Block.re, List.map_cons, Chunk.re, CN.re]
          exact ih _ _ (some ⟨segs, pre, e, cs⟩)
      | textual t => exact .bind (pushText_le ⟨segs, pre, e, cs⟩ t) fun b => ih _ _ (some b)
      | endOfLine => exact ih _ _ (some ⟨segs, pre, true, cs⟩)
      | newline ind => exact .panicking _
      | child j c =>
        exact .bind (chunkNew_le h _) fun c => .bind (expandFirst_le h _ ⟨segs, pre, e, cs⟩ _) fun r =>
          ih _ _ (some r.2)
      | concat x y => exact .panicking _
      | choice x y =>
        exact .bind (choose_le h w ⟨segs, pre, e, cs⟩ _ _) fun c =>
          .bind (expandFirst_le h _ ⟨segs, pre, e, cs⟩ _) fun r => ih _ _ (some r.2)
  unfold Printer.seekMark
  rcases p with ⟨w, prev, _ | ⟨b, next⟩⟩
  · exact .panicking _
  · exact .bind (expandFirst_le h _ _ _) fun r => .bind (H w c.id prev (r.2 :: r.1) none) fun r => .pure rfl

theorem splitAt_re (t : Textual P) (n : Nat) :
    (t.re M).splitAt n = ((t.splitAt n).1.re M, (t.splitAt n).2.re M) := rfl

theorem seekText_le (h : M.ExtendsKeeping K) (p : Printer P) (c : Chunk P) (pos : Nat) :
    Le K (Printer.re M) (p.seekText c pos) ((p.re M).seekText (c.re M) pos) := by
  have H : ∀ (w : Nat) (prev next : List (Block P)) (cur : Option (Block P)),
      Le K (reBlocks M) (seekTextLoop w pos prev next cur)
        (seekTextLoop (P := P.withMethods M) w pos (prev.map (Block.re M)) (next.map (Block.re M))
          (cur.map (Block.re M))) := by
    intro w
    apply seekTextLoop.fixpoint_induct (motive := fun f => ∀ prev next cur, Le K (reBlocks M) (f prev next cur)
      (seekTextLoop (P := P.withMethods M) w pos (prev.map (Block.re M)) (next.map (Block.re M))
          (cur.map (Block.re M))))
    · exact Le.adm3 _ _
    intro f ih prev next cur
    rw [seekTextLoop.eq_def (P := P.withMethods M)]
    match cur with
    | none =>
      match next with
      | [] => exact .throwErr _
      | b :: next => exact ih _ _ (some b)
    | some ⟨segs, pre, e, []⟩ => exact ih (⟨segs, pre, e, []⟩ :: prev) next none
    | some ⟨segs, pre, e, ⟨n, i⟩ :: cs⟩ =>
      cases n with
      | empty => exact .panicking _
      | focusMark => exact ih _ _ (some ⟨segs, pre, e, cs⟩)
      | textual t =>
        rcases t with ⟨str, tw, st, _ | _⟩
        · exact .bind (pushText_le ⟨segs, pre, e, cs⟩ ⟨str, tw, st, false⟩) fun b => ih _ _ (some b)
        · exact .bind (pushText_le ⟨segs, pre, e, cs⟩ (Textual.splitAt ⟨str, tw, st, true⟩ pos).1) fun b =>
            .pure rfl
      | endOfLine => exact ih _ _ (some ⟨segs, pre, true, cs⟩)
      | newline ind => exact .panicking _
      | child j c =>
        exact .bind (chunkNew_le h _) fun c => .bind (expandFirst_le h _ ⟨segs, pre, e, cs⟩ _) fun r =>
          ih _ _ (some r.2)
      | concat x y => exact .panicking _
      | choice x y =>
        exact .bind (choose_le h w ⟨segs, pre, e, cs⟩ _ _) fun c =>
          .bind (expandFirst_le h _ ⟨segs, pre, e, cs⟩ _) fun r => ih _ _ (some r.2)
  unfold Printer.seekText
  rcases p with ⟨w, prev, _ | ⟨b, next⟩⟩
  · exact .panicking _
  · exact .bind (expandFirst_le h _ _ _) fun r => .bind (H w prev (r.2 :: r.1) none) fun r => .pure rfl

theorem containsRelevantChunk_re (id : P.Id) (i : Nat) (b : Block P) :
    containsRelevantChunk (P := P.withMethods M) id i (b.re M) = containsRelevantChunk id i b := by
  unfold containsRelevantChunk
  simp only [Block.re, List.any_map]
  congr 1
  funext c
  rcases c with ⟨n, j⟩
  cases n <;> rfl

theorem skipBlocks_re (id : P.Id) (i : Nat) (prev next : List (Block P)) :
    skipBlocks (P := P.withMethods M) id i (prev.map (Block.re M)) (next.map (Block.re M)) =
      reBlocks M (skipBlocks id i prev next) := by
  induction next generalizing prev with
  | nil => rfl
  | cons b next ih =>
    rw [List.map_cons, skipBlocks, skipBlocks, containsRelevantChunk_re]
    split
    · rfl
    · exact ih (b :: prev)

/-- Corresponding ends of step 2. -/
def Step2.re (M : Methods P.Node P.Id P.Style P.Label P.Cond P.Err) : Step2 P → Step2 (P.withMethods M)
  | .found next c => .found (next.map (Block.re M)) (c.re M)
  | .again next => .again (next.map (Block.re M))

theorem seekChildStep2_le (h : M.ExtendsKeeping K) (w : Nat) (id : P.Id) (j : Nat) (next : List (Block P)) (b : Block P) :
    Le K (Step2.re M) (seekChildStep2 w id j next b)
      (seekChildStep2 (P := P.withMethods M) w id j (next.map (Block.re M)) (b.re M)) := by
  revert b
  apply seekChildStep2.fixpoint_induct (motive := fun f => ∀ b, Le K (Step2.re M) (f b)
    (seekChildStep2 (P := P.withMethods M) w id j (next.map (Block.re M)) (b.re M)))
  · exact Le.adm1 _ _
  intro f ih b
  rw [seekChildStep2.eq_def (P := P.withMethods M)]
  rcases b with ⟨segs, pre, e, _ | ⟨⟨n, i⟩, cs⟩⟩
  · exact .pure rfl
  cases n with
  | empty => exact .panicking _
  | focusMark => exact ih ⟨segs, pre, e, cs⟩
  | textual t => exact .bind (pushText_le ⟨segs, pre, e, cs⟩ t) fun b => ih _
  | endOfLine => exact ih ⟨segs, pre, true, cs⟩
  | newline ind => exact .panicking _
  | child k c =>
    by_cases hi : i = id ∧ k = j
    · simp only [hi, and_self, if_true, Block.re, List.map_cons, Chunk.re, CN.re]
      exact .bind (chunkNew_le h _) fun c => .pure rfl
    · simp only [hi, if_false, Block.re, List.map_cons, Chunk.re, CN.re]
      exact .bind (chunkNew_le h _) fun c => .bind (expandFirst_le h _ ⟨segs, pre, e, cs⟩ _) fun r => .pure rfl
  | concat x y => exact .panicking _
  | choice x y =>
    exact .bind (choose_le h w ⟨segs, pre, e, cs⟩ _ _) fun c =>
      .bind (expandFirst_le h _ ⟨segs, pre, e, cs⟩ _) fun r => .pure rfl

/-- Corresponding results of `seekChildLoop`. -/
def reFound (M : Methods P.Node P.Id P.Style P.Label P.Cond P.Err) (r : List (Block P) × List (Block P) × Chunk P) :
    List (Block (P.withMethods M)) × List (Block (P.withMethods M)) × Chunk (P.withMethods M) :=
  (r.1.map (Block.re M), r.2.1.map (Block.re M), r.2.2.re M)

theorem seekChildLoop_le (h : M.ExtendsKeeping K) (w : Nat) (id : P.Id) (j : Nat) (prev next : List (Block P)) :
    Le K (reFound M) (seekChildLoop w id j prev next)
      (seekChildLoop (P := P.withMethods M) w id j (prev.map (Block.re M)) (next.map (Block.re M))) := by
  revert prev next
  apply seekChildLoop.fixpoint_induct (motive := fun f => ∀ prev next, Le K (reFound M) (f prev next)
    (seekChildLoop (P := P.withMethods M) w id j (prev.map (Block.re M)) (next.map (Block.re M))))
  · exact Le.adm2 _ _
  intro f ih prev next
  rw [seekChildLoop.eq_def (P := P.withMethods M), skipBlocks_re]
  dsimp only
  match skipBlocks id j prev next with
  | (_, []) => exact .throwErr _
  | (prev, b :: next) =>
    refine .bind (seekChildStep2_le h w id j next b) fun r => ?_
    cases r with
    | found next c => exact .pure rfl
    | again next => exact ih _ _

/-- Corresponding results of `seek_child`. -/
def reChild (M : Methods P.Node P.Id P.Style P.Label P.Cond P.Err) (r : Printer P × Chunk P) :
    Printer (P.withMethods M) × Chunk (P.withMethods M) := (r.1.re M, r.2.re M)

theorem seekChild_le (h : M.ExtendsKeeping K) (p : Printer P) (c : Chunk P) (j : Nat) :
    Le K (reChild M) (p.seekChild c j) ((p.re M).seekChild (c.re M) j) := by
  unfold Printer.seekChild
  rcases p with ⟨w, prev, _ | ⟨b, next⟩⟩
  · exact .panicking _
  · exact .bind (expandFirst_le h _ _ _) fun r => .bind (seekChildLoop_le h w c.id j prev (r.2 :: r.1)) fun r =>
      .pure rfl

theorem seekPath_le (h : M.ExtendsKeeping K) (p : Printer P) (c : Chunk P) (path : List Nat) :
    Le K (reChild M) (p.seekPath c path) ((p.re M).seekPath (c.re M) path) := by
  induction path generalizing p c with
  | nil => exact .pure rfl
  | cons j path ih => exact .bind (seekChild_le h p c j) fun r => ih r.1 r.2

theorem seek_le (h : M.ExtendsKeeping K) (p : Printer P) (doc : P.Node) (path : List Nat) (target : FocusTarget)
    (rs : Option P.Style) :
    Le K (Printer.re M) (p.seek doc path target rs) ((p.re M).seek (P := P.withMethods M) doc path target rs) := by
  refine .bind (withOptionalStyle_le h doc rs) fun d => .bind (chunkNew_le h d) fun c =>
    .bind (seekPath_le h p c path) fun r => ?_
  cases target with
  | start => exact seekStart_le h _ _
  | «end» => exact seekEnd_le h _ _
  | text pos => exact seekText_le h _ _ pos
  | mark => exact seekMark_le h _ _

theorem prettyPrint_le (h : M.ExtendsKeeping K) (doc : P.Node) (w : Nat) (path : List Nat) (target : FocusTarget)
    (rs : Option P.Style) :
    Le K (Printed.re M) (prettyPrint doc w path target rs)
      (prettyPrint (P := P.withMethods M) doc w path target rs) := by
  unfold prettyPrint
  refine .bind (c := Printer.re M) ?_ fun p => .bind (seek_le h p doc path target rs) fun p => ?_
  · exact .bind (blockNew_le [] []) fun b => .pure rfl
  rcases p with ⟨w, prev, _ | ⟨b, next⟩⟩
  · exact .panicking _
  refine .bind (printNextLine_le h _) fun r => ?_
  rcases r with ⟨_ | l, p⟩
  · exact .panicking _
  · simp only [reNext, Option.map_some, Line.re, Printer.re, Block.re, List.map_cons, List.length_map]
    split
    · exact .panicking _
    · exact .pure (by simp [Printed.re, Printer.re, FocusedLine.re, List.map_take, List.map_drop])

/-- Corresponding results of taking lines. -/
def reTaken (M : Methods P.Node P.Id P.Style P.Label P.Cond P.Err) (r : List (Option (Line P)) × Printer P) :
    List (Option (Line (P.withMethods M))) × Printer (P.withMethods M) :=
  (r.1.map (Option.map (Line.re M)), r.2.re M)

theorem takeLines_down_le (h : M.ExtendsKeeping K) (n : Nat) (p : Printer P) :
    Le K (reTaken M) (takeLines Printer.nextDown n p) (takeLines Printer.nextDown n (p.re M)) := by
  induction n generalizing p with
  | zero => exact .pure rfl
  | succ n ih => exact .bind (printNextLine_le h p) fun r => .bind (ih r.2) fun r => .pure rfl

theorem takeLines_up_le (h : M.ExtendsKeeping K) (n : Nat) (p : Printer P) :
    Le K (reTaken M) (takeLines Printer.nextUp n p) (takeLines Printer.nextUp n (p.re M)) := by
  induction n generalizing p with
  | zero => exact .pure rfl
  | succ n ih => exact .bind (printPrevLine_le h p) fun r => .bind (ih r.2) fun r => .pure rfl

theorem toStringLoop_le (h : M.ExtendsKeeping K) (s : String) (p : Printer P) :
    Le K (fun s : String => s) (toStringLoop s p) (toStringLoop (P := P.withMethods M) s (p.re M)) := by
  revert s p
  apply toStringLoop.fixpoint_induct (P := P) (motive := fun f => ∀ s (p : Printer P), Le K (fun s : String => s) (f s p)
    (toStringLoop (P := P.withMethods M) s (p.re M)))
  · exact Le.adm2 _ _
  intro f ih s p
  rw [toStringLoop.eq_def s (p.re M)]
  refine .bind (printNextLine_le h p) fun r => ?_
  rcases r with ⟨_ | l, p⟩
  · exact .pure rfl
  · have : (l.re M).toString = l.toString := by
      simp [Line.toString, Line.re, segsString, List.foldl_map, Segment.re]
    simp only [reNext, Option.map_some, this]
    exact ih _ _

theorem prettyPrintToString_le (h : M.ExtendsKeeping K) (doc : P.Node) (w : Nat) :
    Le K (fun s : String => s) (prettyPrintToString doc w) (prettyPrintToString (P := P.withMethods M) doc w) := by
  refine .bind (prettyPrint_le h doc w [] .start none) fun r => ?_
  have : (r.focused.re M).toString = r.focused.toString := by
    simp [FocusedLine.toString, FocusedLine.re, segsString, List.foldl_map, Segment.re]
  simp only [Printed.re, this]
  exact toStringLoop_le h _ _

end PPP
