import Verif.Spec.Morph
import Verif.Proofs.Exec
/-
Printing a renamed document gives the renamed result.
-/
namespace PPP
open Lean.Order

variable {P Q : PrettyDoc} {m : Renaming P Q}

/-! ### Renaming the values of the printer -/

def Textual.rename (m : Renaming P Q) (t : Textual P) : Textual Q :=
  ⟨t.str, t.width, m.style t.style, t.isFromText⟩
def JoinPos.rename (m : Renaming P Q) (j : JoinPos P) : JoinPos Q :=
  ⟨m.node j.parent, m.node j.child, j.index, j.first.rename m.label m.cond, j.join.rename m.label m.cond⟩
def DCN.rename (m : Renaming P Q) (d : DCN P) : DCN Q :=
  ⟨d.notn.rename m.label m.cond, m.node d.doc, d.flat, d.indent.map (Segment.rename m), m.style d.style,
    d.joinPos.map (JoinPos.rename m)⟩
def CN.rename (m : Renaming P Q) : CN P → CN Q
  | .empty => .empty
  | .endOfLine => .endOfLine
  | .newline ind => .newline (ind.map (Segment.rename m))
  | .textual t => .textual (t.rename m)
  | .concat a b => .concat (a.rename m) (b.rename m)
  | .choice a b => .choice (a.rename m) (b.rename m)
  | .child i c => .child i (c.rename m)
  | .focusMark => .focusMark
def Chunk.rename (m : Renaming P Q) (c : Chunk P) : Chunk Q :=
  ⟨c.notn.rename m, m.id c.id⟩
def Block.rename (m : Renaming P Q) (b : Block P) : Block Q :=
  ⟨b.segments.map (Segment.rename m), b.prefixLen, b.atEol, b.chunks.map (Chunk.rename m)⟩
def Printer.rename (m : Renaming P Q) (p : Printer P) : Printer Q :=
  ⟨p.width, p.prev.map (Block.rename m), p.next.map (Block.rename m)⟩
def Printed.rename (m : Renaming P Q) (p : Printed P) : Printed Q :=
  ⟨p.up.rename m, p.focused.rename m, p.down.rename m⟩

/-! ### Renamed results -/

/-- If `x` succeeds, so does `y`, with the corresponding value.  If `x` fails, so does `y`, with the
    corresponding failure. -/
def Rn {α β : Type} (m : Renaming P Q) (c : α → β) (x : Exec P.Err α) (y : Exec Q.Err β) : Prop :=
  (∀ a, x.run = some (.ok a) → y.run = some (.ok (c a))) ∧
  ∀ f, x.run = some (.error f) → y.run = some (.error (f.rename m.err))

theorem Rn.pure {α β : Type} {c : α → β} {a : α} {b : β} (h : b = c a) :
    Rn m c (Pure.pure a : Exec P.Err α) (Pure.pure b : Exec Q.Err β) := by
  refine ⟨?_, ?_⟩
  · intro a' h'
    subst h
    have : a = a' := by
      have h' : (some (.ok a) : Option (Except (Fail P.Err) α)) = some (.ok a') := h'
      injection h' with h'; injection h'
    subst this; rfl
  · intro f h'
    have h' : (some (.ok a) : Option (Except (Fail P.Err) α)) = some (.error f) := h'
    injection h' with h'; injection h'

theorem Rn.error {α β : Type} {c : α → β} {f : Fail P.Err} {g : Fail Q.Err} (h : g = f.rename m.err) :
    Rn m c (Exec.ofRes (.error f)) (Exec.ofRes (.error g)) := by
  subst h
  refine ⟨?_, ?_⟩
  · intro a h
    have h : (some (.error f) : Option (Except (Fail P.Err) α)) = some (.ok a) := h
    injection h with h; injection h
  · intro g h
    have h : (some (.error f) : Option (Except (Fail P.Err) α)) = some (.error g) := h
    injection h with h; injection h with h; subst h; rfl

theorem Rn.throwErr {α β : Type} {c : α → β} {f : PrintingError P.Err} {g : PrintingError Q.Err}
    (h : g = f.rename m.err) : Rn m c (PPP.throwErr f) (PPP.throwErr g) := .error (by rw [h]; rfl)
theorem Rn.panicking {α β : Type} {c : α → β} :
    Rn m c (PPP.panicking : Exec P.Err α) (PPP.panicking : Exec Q.Err β) := .error rfl
theorem Rn.overflowing {α β : Type} {c : α → β} :
    Rn m c (PPP.overflowing : Exec P.Err α) (PPP.overflowing : Exec Q.Err β) := .error rfl

theorem Rn.bind {α β γ δ : Type} {c : α → β} {d : γ → δ} {x : Exec P.Err α} {y : Exec Q.Err β}
    {f : α → Exec P.Err γ} {g : β → Exec Q.Err δ} (h : Rn m c x y) (hf : ∀ a, Rn m d (f a) (g (c a))) :
    Rn m d (x >>= f) (y >>= g) := by
  refine ⟨?_, ?_⟩
  · intro r hr
    rw [Exec.run_bind] at hr ⊢
    match hx : x.run with
    | none => rw [hx] at hr; exact absurd hr (by simp)
    | some (.error e) => rw [hx] at hr; exact absurd hr (by simp)
    | some (.ok a) =>
      rw [h.1 a hx]
      exact (hf a).1 r (by rw [hx] at hr; exact hr)
  · intro e hr
    rw [Exec.run_bind] at hr ⊢
    match hx : x.run with
    | none => rw [hx] at hr; exact absurd hr (by simp)
    | some (.error e') =>
      rw [hx] at hr
      cases hr
      rw [h.2 e hx]
    | some (.ok a) =>
      rw [h.1 a hx]
      exact (hf a).2 e (by rw [hx] at hr; exact hr)

theorem Rn.call {α β : Type} {c : α → β} {x : Call P.Err α} {y : Call Q.Err β} (h : y = x.rename m.err c) :
    Rn m c (PPP.call x) (PPP.call y) := by
  subst h
  match x with
  | .ok b => exact .pure (a := b) rfl
  | .error (.err e) => exact .error rfl
  | .error .panic => exact .error rfl

theorem Rn.admissible {α β : Type} (c : α → β) (y : Exec Q.Err β) :
    Lean.Order.admissible fun x : Exec P.Err α => Rn m c x y := by
  apply admissible_and
  · apply admissible_pi
    intro a
    exact Option.admissible_eq_some _ _
  · apply admissible_pi
    intro f
    exact Option.admissible_eq_some _ _

theorem Rn.adm1 {A α β : Type} (c : α → β) (y : A → Exec Q.Err β) :
    Lean.Order.admissible fun f : A → Exec P.Err α => ∀ a, Rn m c (f a) (y a) :=
  admissible_pi_apply (fun a (x : Exec P.Err α) => Rn m c x (y a)) fun _ => Rn.admissible _ _
theorem Rn.adm2 {A B α β : Type} (c : α → β) (y : A → B → Exec Q.Err β) :
    Lean.Order.admissible fun f : A → B → Exec P.Err α => ∀ a b, Rn m c (f a b) (y a b) :=
  admissible_pi_apply (fun a (x : B → Exec P.Err α) => ∀ b, Rn m c (x b) (y a b)) fun _ => Rn.adm1 _ _
theorem Rn.adm3 {A B C α β : Type} (c : α → β) (y : A → B → C → Exec Q.Err β) :
    Lean.Order.admissible fun f : A → B → C → Exec P.Err α => ∀ a b d, Rn m c (f a b d) (y a b d) :=
  admissible_pi_apply (fun a (x : B → C → Exec P.Err α) => ∀ b d, Rn m c (x b d) (y a b d)) fun _ => Rn.adm2 _ _
theorem Rn.adm4 {A B C D α β : Type} (c : α → β) (y : A → B → C → D → Exec Q.Err β) :
    Lean.Order.admissible fun f : A → B → C → D → Exec P.Err α => ∀ a b d e, Rn m c (f a b d e) (y a b d e) :=
  admissible_pi_apply (fun a (x : B → C → D → Exec P.Err α) => ∀ b d e, Rn m c (x b d e) (y a b d e)) fun _ =>
    Rn.adm3 _ _

/-! ### Evaluation -/

instance : Coe m.Respected m.Respects := ⟨fun h => h.toRespects⟩

theorem docToInspect_rn (h : m.Respects) (d : DCN P) (pos : CheckPos) :
    Rn m m.node (d.docToInspect pos) ((d.rename m).docToInspect pos) := by
  unfold DCN.docToInspect
  cases pos with
  | here => exact .pure rfl
  | child i =>
    refine .bind (.call (h.numChildren _)) fun n => ?_
    cases n with
    | none => exact .throwErr rfl
    | some n =>
      dsimp only
      cases normalizeChildIndex i n with
      | none => exact .throwErr rfl
      | some j => exact .call (h.unwrapChild _ _)
  | rightChild =>
    rcases d with ⟨_, _, _, _, _, _ | jp⟩
    · exact .panicking
    · exact .pure rfl
  | leftChild =>
    rcases d with ⟨_, _, _, _, _, _ | ⟨p, c, _ | k, _, _⟩⟩
    · exact .panicking
    · exact .panicking
    · exact .call (h.unwrapPrevSibling _ _ _)

theorem withOptionalStyle_rn (h : m.Respects) (doc : P.Node) (style : Option P.Style) :
    Rn m (DCN.rename m) (DCN.withOptionalStyle doc style)
      (DCN.withOptionalStyle (m.node doc) (style.map m.style)) := by
  unfold DCN.withOptionalStyle
  refine .bind (.call (h.notn _)) fun a => .bind (.call (h.nodeStyle _)) fun s => ?_
  cases style <;> exact .pure (by simp [DCN.rename, h.combine])

theorem eval_rn (h : m.Respects) (d : DCN P) : Rn m (CN.rename m) d.eval (d.rename m).eval := by
  revert d
  apply DCN.eval.fixpoint_induct (motive := fun f => ∀ d, Rn m (CN.rename m) (f d) (d.rename m).eval)
  · exact Rn.adm1 _ _
  intro eval ih d
  rw [DCN.eval.eq_def (d.rename m)]
  have ih' : ∀ d d', d' = d.rename m → Rn m (CN.rename m) (eval d) d'.eval := by
    rintro d _ rfl; exact ih d
  rcases d with ⟨notn, doc, flat, indent, style, jp⟩
  cases notn with
  | empty => exact .pure rfl
  | endOfLine => exact .pure rfl
  | newline => exact .pure rfl
  | literal s => exact .pure (by simp [DCN.rename, JoinPos.rename, CN.rename, Textual.rename, Segment.rename, h.combine, h.strWidth])
  | text =>
    refine .bind (.call (h.numChildren _)) fun n => ?_
    cases n with
    | some n => exact .throwErr rfl
    | none => exact .bind (.call (h.unwrapText _)) fun t => .pure (by simp [DCN.rename, JoinPos.rename, CN.rename, Textual.rename, Segment.rename, h.combine, h.strWidth])
  | flat n => exact ih' _ _ rfl
  | indent pre label n =>
    cases label with
    | none => exact ih' _ _ (by simp [DCN.rename, JoinPos.rename, CN.rename, Textual.rename, Segment.rename, h.combine, h.strWidth])
    | some l => exact .bind (.call (h.lookupStyle _ _)) fun s => ih' _ _ (by simp [DCN.rename, JoinPos.rename, CN.rename, Textual.rename, Segment.rename, h.combine, h.strWidth])
  | concat a b => exact .pure rfl
  | choice a b =>
    cases flat with
    | true => exact ih' _ _ rfl
    | false => exact .pure rfl
  | check cond pos a b =>
    refine .bind (docToInspect_rn h _ _) fun n => .bind (.call (h.condition _ _)) fun b => ?_
    cases b
    · exact ih' _ _ rfl
    · exact ih' _ _ rfl
  | child i =>
    refine .bind (.call (h.numChildren _)) fun n => ?_
    cases n with
    | none => exact .throwErr rfl
    | some n =>
      dsimp only
      cases normalizeChildIndex i n with
      | none => exact .throwErr rfl
      | some j =>
        exact .bind (.call (h.unwrapChild _ _)) fun c => .bind (.call (h.notn _)) fun a =>
          .bind (.call (h.nodeStyle _)) fun s => .pure
            (by simp [DCN.rename, JoinPos.rename, CN.rename, Textual.rename, Segment.rename, h.combine, h.strWidth])
  | style l n => exact .bind (.call (h.lookupStyle _ _)) fun s => ih' _ _ (by simp [DCN.rename, JoinPos.rename, CN.rename, Textual.rename, Segment.rename, h.combine, h.strWidth])
  | focusMark => exact .pure rfl
  | count zero one many =>
    refine .bind (.call (h.numChildren _)) fun n => ?_
    match n with
    | none => exact .throwErr rfl
    | some 0 => exact ih' _ _ rfl
    | some 1 => exact ih' _ _ rfl
    | some (n + 2) => exact ih' _ _ rfl
  | fold first join =>
    refine .bind (.call (h.numChildren _)) fun n => ?_
    match n with
    | none => exact .throwErr rfl
    | some 0 => exact .pure rfl
    | some 1 => exact ih' _ _ rfl
    | some (n + 2) => exact .bind (.call (h.unwrapLastChild _)) fun c => ih' _ _ rfl
  | left =>
    rcases jp with _ | ⟨p, c, i, f, j⟩
    · exact .panicking
    · match i with
      | 0 => exact .panicking
      | 1 => exact ih' _ _ rfl
      | k + 2 => exact .bind (.call (h.unwrapPrevSibling _ _ _)) fun c => ih' _ _ rfl
  | right =>
    rcases jp with _ | ⟨p, c, i, f, j⟩
    · exact .panicking
    · exact .bind (.call (h.notn _)) fun a => .bind (.call (h.nodeStyle _)) fun s => .pure
            (by simp [DCN.rename, JoinPos.rename, CN.rename, Textual.rename, Segment.rename, h.combine, h.strWidth])

/-! ### The printer -/

theorem chunkNew_rn (h : m.Respects) (d : DCN P) : Rn m (Chunk.rename m) (Chunk.new d) (Chunk.new (d.rename m)) := by
  exact .bind (.call (h.id _)) fun i => .bind (eval_rn h _) fun n => .pure rfl

theorem segsWidth_rn (segs : List (Segment P)) : segsWidth (segs.map (Segment.rename m)) = segsWidth segs := by
  unfold segsWidth
  rw [List.map_map]; rfl

theorem blockNew_rn (ind : Indent P) (chunks : List (Chunk P)) :
    Rn m (Block.rename m) (Block.new ind chunks) (Block.new (ind.map (Segment.rename m)) (chunks.map (Chunk.rename m))) := by
  unfold Block.new
  dsimp only
  rw [← List.map_reverse, segsWidth_rn]
  split
  · exact .pure rfl
  · exact .overflowing

theorem pushText_rn (b : Block P) (t : Textual P) :
    Rn m (Block.rename m) (b.pushText t) ((b.rename m).pushText (t.rename m)) := by
  unfold Block.pushText
  rcases b with ⟨segs, pre, _ | _, chunks⟩
  · by_cases hw : pre + t.width ≤ maxWidth
    · simp only [Block.rename, Textual.rename, hw, if_true]
      exact .pure (by simp [Block.rename, Segment.rename])
    · simp only [Block.rename, Textual.rename, hw, if_false, Bool.false_eq_true]
      exact .overflowing
  · exact .throwErr rfl

theorem blockPrint_rn (b : Block P) : Rn m (Line.rename m) b.print (b.rename m).print := by
  unfold Block.print
  rcases b with ⟨segs, pre, e, _ | ⟨c, cs⟩⟩
  · exact .pure rfl
  · exact .panicking

theorem fitsLoop_rn (h : m.Respects) (next : List (Chunk P)) (rem : Nat) (ns : List (CN P)) (eol : Bool) :
    Rn m (fun b : Bool => b) (fitsLoop next rem ns eol)
      (fitsLoop (next.map (Chunk.rename m)) rem (ns.map (CN.rename m)) eol) := by
  revert next rem ns eol
  apply fitsLoop.fixpoint_induct (P := P) (motive := fun f => ∀ (next : List (Chunk P)) rem (ns : List (CN P)) eol, Rn m (fun b : Bool => b) (f next rem ns eol)
    (fitsLoop (next.map (Chunk.rename m)) rem (ns.map (CN.rename m)) eol))
  · exact Rn.adm4 _ _
  intro f ih next rem ns eol
  rw [fitsLoop.eq_def (next.map (Chunk.rename m))]
  match ns with
  | [] =>
    match next with
    | [] => exact .pure rfl
    | c :: more => exact ih _ _ [c.notn] _
  | n :: ns =>
    cases n with
    | empty => exact ih _ _ _ _
    | focusMark => exact ih _ _ _ _
    | textual t =>
      cases eol
      · simp only [List.map_cons, CN.rename, Textual.rename, Bool.false_eq_true, if_false]
        split
        · exact ih _ _ _ _
        · exact .pure rfl
      · exact .pure rfl
    | endOfLine => exact ih _ _ _ _
    | newline i => exact .pure rfl
    | child i c => exact .bind (eval_rn h _) fun n => ih _ _ (n :: ns) _
    | concat a b =>
      exact .bind (eval_rn h _) fun n2 => .bind (eval_rn h _) fun n1 => ih _ _ (n1 :: n2 :: ns) _
    | choice a b => exact .bind (eval_rn h _) fun n => ih _ _ (n :: ns) _

theorem choose_rn (h : m.Respects) (w : Nat) (b : Block P) (o1 o2 : DCN P) :
    Rn m (Chunk.rename m) (choose w b o1 o2) (choose w (b.rename m) (o1.rename m) (o2.rename m)) := by
  unfold choose
  refine .bind (chunkNew_rn h _) fun c1 => ?_
  by_cases hw : w ≥ b.prefixLen
  · rw [if_pos hw, if_pos (show w ≥ (b.rename m).prefixLen from hw)]
    refine .bind (fitsLoop_rn h b.chunks _ [c1.notn] _) fun f => ?_
    cases f
    · exact chunkNew_rn h _
    · exact .pure rfl
  · rw [if_neg hw, if_neg (show ¬ w ≥ (b.rename m).prefixLen from hw)]
    exact chunkNew_rn h _

/-- Corresponding pairs of blocks and a block. -/
def rnPair (m : Renaming P Q) (r : List (Block P) × Block P) :
    List (Block Q) × Block Q := (r.1.map (Block.rename m), r.2.rename m)

theorem expandFirst_rn (h : m.Respects) (next : List (Block P)) (b : Block P) (c : Chunk P) :
    Rn m (rnPair m) (expandFirst next b c) (expandFirst (next.map (Block.rename m)) (b.rename m) (c.rename m)) := by
  suffices H : ∀ (next : List (Block P)) (b : Block P) (st : List (Chunk P)),
      Rn m (rnPair m) (expandFirstLoop next b st)
        (expandFirstLoop (next.map (Block.rename m)) (b.rename m) (st.map (Chunk.rename m))) from H next b [c]
  apply expandFirstLoop.fixpoint_induct (motive := fun f => ∀ next b st, Rn m (rnPair m) (f next b st)
    (expandFirstLoop (next.map (Block.rename m)) (b.rename m) (st.map (Chunk.rename m))))
  · exact Rn.adm3 _ _
  intro f ih next b st
  rw [expandFirstLoop.eq_def (next.map (Block.rename m))]
  match st with
  | [] => exact .pure rfl
  | ⟨n, i⟩ :: st =>
    cases n with
    | empty => exact ih _ _ _
    | focusMark => exact ih _ { b with chunks := _ :: b.chunks } _
    | textual t => exact ih _ { b with chunks := _ :: b.chunks } _
    | endOfLine => exact ih _ { b with chunks := _ :: b.chunks } _
    | newline ind => exact .bind (blockNew_rn _ _) fun nb => ih (nb :: next) { b with chunks := [] } _
    | child j c => exact ih _ { b with chunks := _ :: b.chunks } _
    | concat x y =>
      exact .bind (chunkNew_rn h _) fun l => .bind (chunkNew_rn h _) fun r => ih _ _ (r :: l :: st)
    | choice x y => exact ih _ { b with chunks := _ :: b.chunks } _

theorem expandLast_rn (h : m.Respects) (prev : List (Block P)) (b : Block P) (c : Chunk P) :
    Rn m (rnPair m) (expandLast prev b c) (expandLast (prev.map (Block.rename m)) (b.rename m) (c.rename m)) := by
  suffices H : ∀ (prev : List (Block P)) (b : Block P) (cs st : List (Chunk P)),
      Rn m (rnPair m) (expandLastLoop prev b cs st)
        (expandLastLoop (prev.map (Block.rename m)) (b.rename m) (cs.map (Chunk.rename m)) (st.map (Chunk.rename m))) from
    H prev b [] [c]
  apply expandLastLoop.fixpoint_induct (motive := fun f => ∀ prev b cs st, Rn m (rnPair m) (f prev b cs st)
    (expandLastLoop (prev.map (Block.rename m)) (b.rename m) (cs.map (Chunk.rename m)) (st.map (Chunk.rename m))))
  · exact Rn.adm4 _ _
  intro f ih prev b cs st
  rw [expandLastLoop.eq_def (prev.map (Block.rename m))]
  match st with
  | [] => exact .pure (by simp [rnPair, Block.rename])
  | ⟨n, i⟩ :: st =>
    cases n with
    | empty => exact ih _ _ _ _
    | focusMark => exact ih _ _ (_ :: cs) _
    | textual t => exact ih _ _ (_ :: cs) _
    | endOfLine => exact ih _ _ (_ :: cs) _
    | newline ind =>
      refine .bind (blockNew_rn ind b.chunks) fun nb => ?_
      have := ih (⟨b.segments, b.prefixLen, b.atEol, cs.reverse⟩ :: prev) nb [] st
      simpa only [List.map_cons, List.map_nil, Block.rename, List.map_reverse] using this
    | child j c => exact ih _ _ (_ :: cs) _
    | concat x y =>
      exact .bind (chunkNew_rn h _) fun l => .bind (chunkNew_rn h _) fun r => ih _ _ _ (r :: l :: st)
    | choice x y => exact ih _ _ (_ :: cs) _

/-- Corresponding lines and blocks. -/
def rnLine (m : Renaming P Q) (r : Line P × List (Block P)) :
    Line Q × List (Block Q) := (r.1.rename m, r.2.map (Block.rename m))

theorem printNextLoop_rn (h : m.Respects) (w : Nat) (next : List (Block P)) (b : Block P) :
    Rn m (rnLine m) (printNextLoop w next b) (printNextLoop w (next.map (Block.rename m)) (b.rename m)) := by
  revert next b
  apply printNextLoop.fixpoint_induct (motive := fun f => ∀ next b, Rn m (rnLine m) (f next b)
    (printNextLoop w (next.map (Block.rename m)) (b.rename m)))
  · exact Rn.adm2 _ _
  intro f ih next b
  rw [printNextLoop.eq_def w (next.map (Block.rename m))]
  rcases b with ⟨segs, pre, e, _ | ⟨⟨n, i⟩, cs⟩⟩
  · exact .bind (blockPrint_rn _) fun l => .pure rfl
  cases n with
  | empty => exact .panicking
  | focusMark => exact ih _ ⟨segs, pre, e, cs⟩
  | textual t => exact .bind (pushText_rn ⟨segs, pre, e, cs⟩ t) fun b => ih _ _
  | endOfLine => exact ih _ ⟨segs, pre, true, cs⟩
  | newline ind => exact .panicking
  | child j c =>
    exact .bind (chunkNew_rn h _) fun c => .bind (expandFirst_rn h _ ⟨segs, pre, e, cs⟩ _) fun r => ih _ _
  | concat x y => exact .panicking
  | choice x y =>
    exact .bind (choose_rn h w ⟨segs, pre, e, cs⟩ _ _) fun c =>
      .bind (expandFirst_rn h _ ⟨segs, pre, e, cs⟩ _) fun r => ih _ _

theorem printPrevLoop_rn (h : m.Respects) (w : Nat) (prev : List (Block P)) (b : Block P) :
    Rn m (rnLine m) (printPrevLoop w prev b) (printPrevLoop w (prev.map (Block.rename m)) (b.rename m)) := by
  revert prev b
  apply printPrevLoop.fixpoint_induct (motive := fun f => ∀ prev b, Rn m (rnLine m) (f prev b)
    (printPrevLoop w (prev.map (Block.rename m)) (b.rename m)))
  · exact Rn.adm2 _ _
  intro f ih prev b
  rw [printPrevLoop.eq_def w (prev.map (Block.rename m))]
  rcases b with ⟨segs, pre, e, _ | ⟨⟨n, i⟩, cs⟩⟩
  · exact .bind (blockPrint_rn _) fun l => .pure rfl
  cases n with
  | empty => exact .panicking
  | focusMark => exact ih _ ⟨segs, pre, e, cs⟩
  | textual t => exact .bind (pushText_rn ⟨segs, pre, e, cs⟩ t) fun b => ih _ _
  | endOfLine => exact ih _ ⟨segs, pre, true, cs⟩
  | newline ind => exact .panicking
  | child j c =>
    exact .bind (chunkNew_rn h _) fun c => .bind (expandLast_rn h _ ⟨segs, pre, e, cs⟩ _) fun r => ih _ _
  | concat x y => exact .panicking
  | choice x y =>
    exact .bind (choose_rn h w ⟨segs, pre, e, cs⟩ _ _) fun c =>
      .bind (expandLast_rn h _ ⟨segs, pre, e, cs⟩ _) fun r => ih _ _

/-- Corresponding results of an iterator. -/
def rnNext (m : Renaming P Q) (r : Option (Line P) × Printer P) :
    Option (Line Q) × Printer Q := (r.1.map (Line.rename m), r.2.rename m)

theorem printNextLine_rn (h : m.Respects) (p : Printer P) :
    Rn m (rnNext m) p.printNextLine (p.rename m).printNextLine := by
  unfold Printer.printNextLine
  rcases p with ⟨w, prev, _ | ⟨b, next⟩⟩
  · exact .pure rfl
  · exact .bind (printNextLoop_rn h w next b) fun r => .pure rfl

theorem printPrevLine_rn (h : m.Respects) (p : Printer P) :
    Rn m (rnNext m) p.printPrevLine (p.rename m).printPrevLine := by
  unfold Printer.printPrevLine
  rcases p with ⟨w, _ | ⟨b, prev⟩, next⟩
  · exact .pure rfl
  · exact .bind (printPrevLoop_rn h w prev b) fun r => .pure rfl

/-! ### Seeking -/

theorem seekEnd_rn (h : m.Respects) (p : Printer P) (c : Chunk P) :
    Rn m (Printer.rename m) (p.seekEnd c) ((p.rename m).seekEnd (c.rename m)) := by
  have H : ∀ (w k : Nat) (prev : List (Block P)) (b : Block P),
      Rn m (rnPair m) (seekEndLoop w k prev b) (seekEndLoop w k (prev.map (Block.rename m)) (b.rename m)) := by
    intro w k
    apply seekEndLoop.fixpoint_induct (motive := fun f => ∀ prev b, Rn m (rnPair m) (f prev b)
      (seekEndLoop w k (prev.map (Block.rename m)) (b.rename m)))
    · exact Rn.adm2 _ _
    intro f ih prev b
    rw [seekEndLoop.eq_def w k (prev.map (Block.rename m))]
    rw [show (b.rename m).chunks.length = b.chunks.length from List.length_map _]
    by_cases hk : b.chunks.length > k
    rotate_left
    · simp only [hk, if_false]
      exact .pure rfl
    simp only [hk, if_true]
    rcases b with ⟨segs, pre, e, _ | ⟨⟨n, i⟩, cs⟩⟩
    · exact .panicking
    cases n with
    | empty => exact .panicking
    | focusMark => exact ih _ ⟨segs, pre, e, cs⟩
    | textual t => exact .bind (pushText_rn ⟨segs, pre, e, cs⟩ t) fun b => ih _ _
    | endOfLine => exact ih _ ⟨segs, pre, true, cs⟩
    | newline ind => exact .panicking
    | child j c =>
      exact .bind (chunkNew_rn h _) fun c => .bind (expandLast_rn h _ ⟨segs, pre, e, cs⟩ _) fun r => ih _ _
    | concat x y => exact .panicking
    | choice x y =>
      exact .bind (choose_rn h w ⟨segs, pre, e, cs⟩ _ _) fun c =>
        .bind (expandLast_rn h _ ⟨segs, pre, e, cs⟩ _) fun r => ih _ _
  unfold Printer.seekEnd
  rcases p with ⟨w, prev, _ | ⟨b, next⟩⟩
  · exact .panicking
  · refine .bind (expandLast_rn h _ _ _) fun r => ?_
    refine .bind (c := rnPair m) ?_ fun r => .pure rfl
    have := H w b.chunks.length r.1 r.2
    rw [show b.chunks.length = (b.rename m).chunks.length from (List.length_map _).symm] at this ⊢
    exact this

theorem seekStart_rn (h : m.Respects) (p : Printer P) (c : Chunk P) :
    Rn m (Printer.rename m) (p.seekStart c) ((p.rename m).seekStart (c.rename m)) := by
  unfold Printer.seekStart
  rcases p with ⟨w, prev, _ | ⟨b, next⟩⟩
  · exact .panicking
  · exact .bind (expandFirst_rn h _ _ _) fun r => .pure rfl

/-- Corresponding lists of blocks. -/
def rnBlocks (m : Renaming P Q) (r : List (Block P) × List (Block P)) :
    List (Block Q) × List (Block Q) := (r.1.map (Block.rename m), r.2.map (Block.rename m))

theorem seekMark_rn (h : m.Respected) (p : Printer P) (c : Chunk P) :
    Rn m (Printer.rename m) (p.seekMark c) ((p.rename m).seekMark (c.rename m)) := by
  have H : ∀ (w : Nat) (id : P.Id) (prev next : List (Block P)) (cur : Option (Block P)),
      Rn m (rnBlocks m) (seekMarkLoop w id prev next cur)
        (seekMarkLoop (P := Q) w (m.id id) (prev.map (Block.rename m)) (next.map (Block.rename m))
          (cur.map (Block.rename m))) := by
    intro w id
    apply seekMarkLoop.fixpoint_induct (motive := fun f => ∀ prev next cur, Rn m (rnBlocks m) (f prev next cur)
      (seekMarkLoop (P := Q) w (m.id id) (prev.map (Block.rename m)) (next.map (Block.rename m))
          (cur.map (Block.rename m))))
    · exact Rn.adm3 _ _
    intro f ih prev next cur
    rw [seekMarkLoop.eq_def (P := Q)]
    match cur with
    | none =>
      match next with
      | [] => exact .throwErr rfl
      | b :: next => exact ih _ _ (some b)
    | some ⟨segs, pre, e, []⟩ => exact ih (⟨segs, pre, e, []⟩ :: prev) next none
    | some ⟨segs, pre, e, ⟨n, i⟩ :: cs⟩ =>
      cases n with
      | empty => exact .panicking
      | focusMark =>
        by_cases hi : i = id
        · subst hi
          simp only [if_true, Option.map_some, Block.rename, List.map_cons, Chunk.rename, CN.rename]
          exact .pure rfl
        · have hi' : ¬ m.id i = m.id id := fun h' => hi (h.id_injective _ _ h')
          simp only [hi, hi', if_false, Option.map_some, Block.rename, List.map_cons, Chunk.rename, CN.rename]
          exact ih _ _ (some ⟨segs, pre, e, cs⟩)
      | textual t => exact .bind (pushText_rn ⟨segs, pre, e, cs⟩ t) fun b => ih _ _ (some b)
      | endOfLine => exact ih _ _ (some ⟨segs, pre, true, cs⟩)
      | newline ind => exact .panicking
      | child j c =>
        exact .bind (chunkNew_rn h _) fun c => .bind (expandFirst_rn h _ ⟨segs, pre, e, cs⟩ _) fun r =>
          ih _ _ (some r.2)
      | concat x y => exact .panicking
      | choice x y =>
        exact .bind (choose_rn h w ⟨segs, pre, e, cs⟩ _ _) fun c =>
          .bind (expandFirst_rn h _ ⟨segs, pre, e, cs⟩ _) fun r => ih _ _ (some r.2)
  unfold Printer.seekMark
  rcases p with ⟨w, prev, _ | ⟨b, next⟩⟩
  · exact .panicking
  · exact .bind (expandFirst_rn h _ _ _) fun r => .bind (H w c.id prev (r.2 :: r.1) none) fun r => .pure rfl

theorem splitAt_rn (h : m.Respects) (t : Textual P) (n : Nat) :
    (t.rename m).splitAt n = ((t.splitAt n).1.rename m, (t.splitAt n).2.rename m) := by
  simp only [Textual.splitAt, Textual.rename, h.strWidth]

theorem seekText_rn (h : m.Respects) (p : Printer P) (c : Chunk P) (pos : Nat) :
    Rn m (Printer.rename m) (p.seekText c pos) ((p.rename m).seekText (c.rename m) pos) := by
  have H : ∀ (w : Nat) (prev next : List (Block P)) (cur : Option (Block P)),
      Rn m (rnBlocks m) (seekTextLoop w pos prev next cur)
        (seekTextLoop (P := Q) w pos (prev.map (Block.rename m)) (next.map (Block.rename m))
          (cur.map (Block.rename m))) := by
    intro w
    apply seekTextLoop.fixpoint_induct (motive := fun f => ∀ prev next cur, Rn m (rnBlocks m) (f prev next cur)
      (seekTextLoop (P := Q) w pos (prev.map (Block.rename m)) (next.map (Block.rename m))
          (cur.map (Block.rename m))))
    · exact Rn.adm3 _ _
    intro f ih prev next cur
    rw [seekTextLoop.eq_def (P := Q)]
    match cur with
    | none =>
      match next with
      | [] => exact .throwErr rfl
      | b :: next => exact ih _ _ (some b)
    | some ⟨segs, pre, e, []⟩ => exact ih (⟨segs, pre, e, []⟩ :: prev) next none
    | some ⟨segs, pre, e, ⟨n, i⟩ :: cs⟩ =>
      cases n with
      | empty => exact .panicking
      | focusMark => exact ih _ _ (some ⟨segs, pre, e, cs⟩)
      | textual t =>
        rcases t with ⟨str, tw, st, _ | _⟩
        · exact .bind (pushText_rn ⟨segs, pre, e, cs⟩ ⟨str, tw, st, false⟩) fun b => ih _ _ (some b)
        · have hs := splitAt_rn h ⟨str, tw, st, true⟩ pos
          simp only [Option.map_some, Block.rename, List.map_cons, Chunk.rename, CN.rename]
          rw [hs]
          exact .bind (pushText_rn ⟨segs, pre, e, cs⟩ (Textual.splitAt ⟨str, tw, st, true⟩ pos).1) fun b =>
            .pure rfl
      | endOfLine => exact ih _ _ (some ⟨segs, pre, true, cs⟩)
      | newline ind => exact .panicking
      | child j c =>
        exact .bind (chunkNew_rn h _) fun c => .bind (expandFirst_rn h _ ⟨segs, pre, e, cs⟩ _) fun r =>
          ih _ _ (some r.2)
      | concat x y => exact .panicking
      | choice x y =>
        exact .bind (choose_rn h w ⟨segs, pre, e, cs⟩ _ _) fun c =>
          .bind (expandFirst_rn h _ ⟨segs, pre, e, cs⟩ _) fun r => ih _ _ (some r.2)
  unfold Printer.seekText
  rcases p with ⟨w, prev, _ | ⟨b, next⟩⟩
  · exact .panicking
  · exact .bind (expandFirst_rn h _ _ _) fun r => .bind (H w prev (r.2 :: r.1) none) fun r => .pure rfl

theorem id_rn (h : m.Respected) (i j : P.Id) : (m.id i = m.id j) = (i = j) :=
  propext ⟨h.id_injective i j, fun e => by rw [e]⟩

theorem containsRelevantChunk_rn (h : m.Respected) (id : P.Id) (i : Nat) (b : Block P) :
    containsRelevantChunk (P := Q) (m.id id) i (b.rename m) = containsRelevantChunk id i b := by
  unfold containsRelevantChunk
  simp only [Block.rename, List.any_map]
  congr 1
  funext c
  rcases c with ⟨n, j⟩
  cases n <;> simp [Chunk.rename, CN.rename, id_rn h]

theorem skipBlocks_rn (h : m.Respected) (id : P.Id) (i : Nat) (prev next : List (Block P)) :
    skipBlocks (P := Q) (m.id id) i (prev.map (Block.rename m)) (next.map (Block.rename m)) =
      rnBlocks m (skipBlocks id i prev next) := by
  induction next generalizing prev with
  | nil => rfl
  | cons b next ih =>
    rw [List.map_cons, skipBlocks, skipBlocks, containsRelevantChunk_rn h]
    split
    · rfl
    · exact ih (b :: prev)

/-- Corresponding ends of step 2. -/
def Step2.rename (m : Renaming P Q) : Step2 P → Step2 Q
  | .found next c => .found (next.map (Block.rename m)) (c.rename m)
  | .again next => .again (next.map (Block.rename m))

theorem seekChildStep2_rn (h : m.Respected) (w : Nat) (id : P.Id) (j : Nat) (next : List (Block P)) (b : Block P) :
    Rn m (Step2.rename m) (seekChildStep2 w id j next b)
      (seekChildStep2 (P := Q) w (m.id id) j (next.map (Block.rename m)) (b.rename m)) := by
  revert b
  apply seekChildStep2.fixpoint_induct (motive := fun f => ∀ b, Rn m (Step2.rename m) (f b)
    (seekChildStep2 (P := Q) w (m.id id) j (next.map (Block.rename m)) (b.rename m)))
  · exact Rn.adm1 _ _
  intro f ih b
  rw [seekChildStep2.eq_def (P := Q)]
  rcases b with ⟨segs, pre, e, _ | ⟨⟨n, i⟩, cs⟩⟩
  · exact .pure rfl
  cases n with
  | empty => exact .panicking
  | focusMark => exact ih ⟨segs, pre, e, cs⟩
  | textual t => exact .bind (pushText_rn ⟨segs, pre, e, cs⟩ t) fun b => ih _
  | endOfLine => exact ih ⟨segs, pre, true, cs⟩
  | newline ind => exact .panicking
  | child k c =>
    by_cases hi : i = id ∧ k = j
    · simp only [hi, and_self, if_true, Block.rename, List.map_cons, Chunk.rename, CN.rename]
      exact .bind (chunkNew_rn h _) fun c => .pure rfl
    · simp only [id_rn h, hi, if_false, Block.rename, List.map_cons, Chunk.rename, CN.rename]
      exact .bind (chunkNew_rn h _) fun c => .bind (expandFirst_rn h _ ⟨segs, pre, e, cs⟩ _) fun r => .pure rfl
  | concat x y => exact .panicking
  | choice x y =>
    exact .bind (choose_rn h w ⟨segs, pre, e, cs⟩ _ _) fun c =>
      .bind (expandFirst_rn h _ ⟨segs, pre, e, cs⟩ _) fun r => .pure rfl

/-- Corresponding results of `seekChildLoop`. -/
def rnFound (m : Renaming P Q) (r : List (Block P) × List (Block P) × Chunk P) :
    List (Block Q) × List (Block Q) × Chunk Q :=
  (r.1.map (Block.rename m), r.2.1.map (Block.rename m), r.2.2.rename m)

theorem seekChildLoop_rn (h : m.Respected) (w : Nat) (id : P.Id) (j : Nat) (prev next : List (Block P)) :
    Rn m (rnFound m) (seekChildLoop w id j prev next)
      (seekChildLoop (P := Q) w (m.id id) j (prev.map (Block.rename m)) (next.map (Block.rename m))) := by
  revert prev next
  apply seekChildLoop.fixpoint_induct (motive := fun f => ∀ prev next, Rn m (rnFound m) (f prev next)
    (seekChildLoop (P := Q) w (m.id id) j (prev.map (Block.rename m)) (next.map (Block.rename m))))
  · exact Rn.adm2 _ _
  intro f ih prev next
  rw [seekChildLoop.eq_def (P := Q), skipBlocks_rn h]
  dsimp only
  match skipBlocks id j prev next with
  | (_, []) => exact .throwErr rfl
  | (prev, b :: next) =>
    refine .bind (seekChildStep2_rn h w id j next b) fun r => ?_
    cases r with
    | found next c => exact .pure rfl
    | again next => exact ih _ _

/-- Corresponding results of `seek_child`. -/
def rnChild (m : Renaming P Q) (r : Printer P × Chunk P) :
    Printer Q × Chunk Q := (r.1.rename m, r.2.rename m)

theorem seekChild_rn (h : m.Respected) (p : Printer P) (c : Chunk P) (j : Nat) :
    Rn m (rnChild m) (p.seekChild c j) ((p.rename m).seekChild (c.rename m) j) := by
  unfold Printer.seekChild
  rcases p with ⟨w, prev, _ | ⟨b, next⟩⟩
  · exact .panicking
  · exact .bind (expandFirst_rn h _ _ _) fun r => .bind (seekChildLoop_rn h w c.id j prev (r.2 :: r.1)) fun r =>
      .pure rfl

theorem seekPath_rn (h : m.Respected) (p : Printer P) (c : Chunk P) (path : List Nat) :
    Rn m (rnChild m) (p.seekPath c path) ((p.rename m).seekPath (c.rename m) path) := by
  induction path generalizing p c with
  | nil => exact .pure rfl
  | cons j path ih => exact .bind (seekChild_rn h p c j) fun r => ih r.1 r.2

/-- Ids only matter when a path is followed, or a mark is looked for. -/
def Renaming.KeepsIds (m : Renaming P Q) (path : List Nat) (target : FocusTarget) : Prop :=
  (path = [] ∧ target ≠ .mark) ∨ ∀ i j, m.id i = m.id j → i = j

theorem seek_rn (h : m.Respects) (p : Printer P) (doc : P.Node) (path : List Nat) (target : FocusTarget)
    (hk : m.KeepsIds path target) (rs : Option P.Style) :
    Rn m (Printer.rename m) (p.seek doc path target rs) ((p.rename m).seek (P := Q) (m.node doc) path target (rs.map m.style)) := by
  refine .bind (withOptionalStyle_rn h doc rs) fun d => .bind (chunkNew_rn h d) fun c =>
    .bind (c := rnChild m) ?_ fun r => ?_
  · rcases hk with ⟨rfl, _⟩ | hi
    · exact .pure rfl
    · exact seekPath_rn ⟨h, hi⟩ p c path
  cases target with
  | start => exact seekStart_rn h _ _
  | «end» => exact seekEnd_rn h _ _
  | text pos => exact seekText_rn h _ _ pos
  | mark => exact seekMark_rn ⟨h, hk.resolve_left fun h => h.2 rfl⟩ _ _

theorem prettyPrint_rn (h : m.Respects) (doc : P.Node) (w : Nat) (path : List Nat) (target : FocusTarget)
    (hk : m.KeepsIds path target) (rs : Option P.Style) :
    Rn m (Printed.rename m) (prettyPrint doc w path target rs)
      (prettyPrint (P := Q) (m.node doc) w path target (rs.map m.style)) := by
  unfold prettyPrint
  refine .bind (c := Printer.rename m) ?_ fun p => .bind (seek_rn h p doc path target hk rs) fun p => ?_
  · exact .bind (blockNew_rn [] []) fun b => .pure rfl
  rcases p with ⟨w, prev, _ | ⟨b, next⟩⟩
  · exact .panicking
  refine .bind (printNextLine_rn h _) fun r => ?_
  rcases r with ⟨_ | l, p⟩
  · exact .panicking
  · simp only [rnNext, Option.map_some, Line.rename, Printer.rename, Block.rename, List.map_cons, List.length_map]
    split
    · exact .panicking
    · exact .pure (by simp [Printed.rename, Printer.rename, FocusedLine.rename, List.map_take, List.map_drop])

/-- Corresponding results of taking lines. -/
def rnTaken (m : Renaming P Q) (r : List (Option (Line P)) × Printer P) :
    List (Option (Line Q)) × Printer Q :=
  (r.1.map (Option.map (Line.rename m)), r.2.rename m)

theorem takeLines_down_rn (h : m.Respects) (n : Nat) (p : Printer P) :
    Rn m (rnTaken m) (takeLines Printer.nextDown n p) (takeLines Printer.nextDown n (p.rename m)) := by
  induction n generalizing p with
  | zero => exact .pure rfl
  | succ n ih => exact .bind (printNextLine_rn h p) fun r => .bind (ih r.2) fun r => .pure rfl

theorem takeLines_up_rn (h : m.Respects) (n : Nat) (p : Printer P) :
    Rn m (rnTaken m) (takeLines Printer.nextUp n p) (takeLines Printer.nextUp n (p.rename m)) := by
  induction n generalizing p with
  | zero => exact .pure rfl
  | succ n ih => exact .bind (printPrevLine_rn h p) fun r => .bind (ih r.2) fun r => .pure rfl

theorem toStringLoop_rn (h : m.Respects) (s : String) (p : Printer P) :
    Rn m (fun s : String => s) (toStringLoop s p) (toStringLoop (P := Q) s (p.rename m)) := by
  revert s p
  apply toStringLoop.fixpoint_induct (P := P) (motive := fun f => ∀ s (p : Printer P), Rn m (fun s : String => s) (f s p)
    (toStringLoop (P := Q) s (p.rename m)))
  · exact Rn.adm2 _ _
  intro f ih s p
  rw [toStringLoop.eq_def s (p.rename m)]
  refine .bind (printNextLine_rn h p) fun r => ?_
  rcases r with ⟨_ | l, p⟩
  · exact .pure rfl
  · have : (l.rename m).toString = l.toString := by
      simp [Line.toString, Line.rename, segsString, List.foldl_map, Segment.rename]
    simp only [rnNext, Option.map_some, this]
    exact ih _ _

theorem prettyPrintToString_rn (h : m.Respects) (doc : P.Node) (w : Nat) :
    Rn m (fun s : String => s) (prettyPrintToString doc w) (prettyPrintToString (P := Q) (m.node doc) w) := by
  refine .bind (prettyPrint_rn h doc w [] .start (.inl ⟨rfl, nofun⟩) none) fun r => ?_
  have : (r.focused.rename m).toString = r.focused.toString := by
    simp [FocusedLine.toString, FocusedLine.rename, segsString, List.foldl_map, Segment.rename]
  simp only [Printed.rename, this]
  exact toStringLoop_rn h _ _

end PPP
