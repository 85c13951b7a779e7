import Verif.Proofs.Extend
import Verif.Proofs.Erase
import Verif.Proofs.WorkShape
import Verif.Spec.Session
/-
Printing a document of which more is available takes the same number of steps.  (The proofs are those of
Proofs/Extend.lean.)
-/
namespace PPP
open Lean.Order

variable {P : PrettyDoc} {M : Methods P.Node P.Id P.Style P.Label P.Cond P.Err} {K : P.Err → Prop}

/-- If `x` succeeds, so does `y`, with the corresponding value and in the same number of steps.  If `x` fails,
    but not because of a method of the document, `y` fails in the same way, after the same number of steps. -/
def LeC {E α β : Type} (K : E → Prop) (c : α → β) (x : Counted E α) (y : Counted E β) : Prop :=
  (∀ n a, x = some (n, .ok a) → y = some (n, .ok (c a))) ∧
  ∀ n f, f.KeptBy K → x = some (n, .error f) → y = some (n, .error f)

theorem LeC.free {E α β : Type} {K : E → Prop} {c : α → β} {x : Exec E α} {y : Exec E β} (h : Le K c x y) :
    LeC K c x.free y.free := by
  unfold Exec.free
  refine ⟨fun n a hx => ?_, fun n f hf hx => ?_⟩
  · match hr : x.run with
    | none => rw [hr] at hx; cases hx
    | some r =>
      rw [hr] at hx
      cases hx
      rw [h.1 a hr]
      rfl
  · match hr : x.run with
    | none => rw [hr] at hx; cases hx
    | some r =>
      rw [hr] at hx
      cases hx
      rw [h.2 f hf hr]
      rfl

theorem LeC.pure {E α β : Type} {K : E → Prop} {c : α → β} {a : α} {b : β} (h : b = c a) :
    LeC K c (Pure.pure a : Counted E α) (Pure.pure b : Counted E β) := by
  subst h
  refine ⟨fun n a' h' => ?_, fun n f _ h' => by cases h'⟩
  cases h'
  rfl

theorem LeC.throwErr {E α β : Type} {K : E → Prop} {c : α → β} (f : PrintingError E) :
    LeC K c (PPP.throwErr f : Exec E α).free (PPP.throwErr f : Exec E β).free := .free (.throwErr f)

theorem LeC.panicking {E α β : Type} {K : E → Prop} {c : α → β} (y : Counted E β) :
    LeC K c (PPP.panicking : Exec E α).free y := by
  refine ⟨fun n a h => (by cases h), fun n f hf h => ?_⟩
  cases h
  exact absurd rfl hf.1

theorem LeC.bind {E α β γ δ : Type} {K : E → Prop} {c : α → β} {d : γ → δ} {x : Counted E α} {y : Counted E β}
    {f : α → Counted E γ} {g : β → Counted E δ} (h : LeC K c x y) (hf : ∀ a, LeC K d (f a) (g (c a))) :
    LeC K d (x >>= f) (y >>= g) := by
  rw [Counted.bind_eq, Counted.bind_eq]
  match x, h with
  | none, h => exact ⟨fun n a h => (by cases h), fun n f _ h => (by cases h)⟩
  | some (n, .error e), h =>
    refine ⟨fun n a h => (by cases h), fun n' f hf' h' => ?_⟩
    cases h'
    rw [h.2 _ _ hf' rfl]
    rfl
  | some (n, .ok a), h =>
    rw [h.1 _ _ rfl]
    simp only [Counted.andThen]
    have ha := hf a
    match hfa : f a, ha with
    | none, ha => exact ⟨fun n a h => (by cases h), fun n f _ h => (by cases h)⟩
    | some (m, r), ha =>
      refine ⟨fun n' b h' => ?_, fun n' e he h' => ?_⟩
      · cases h'
        rw [ha.1 _ _ rfl]
      · cases h'
        rw [ha.2 _ _ he rfl]

theorem LeC.tick {E α β : Type} {K : E → Prop} {c : α → β} {n : Nat} {x : Unit → Counted E α} {y : Unit → Counted E β}
    (h : LeC K c (x ()) (y ())) : LeC K c (Counted.tick n >>= x) (Counted.tick n >>= y) :=
  LeC.bind (c := fun u : Unit => u)
    ⟨fun m a h => (by cases h; rfl), fun m f _ h => (by cases h)⟩ fun _ => h

theorem LeC.call {E α : Type} {K : E → Prop} {x y : Call E α} (h : Call.Keeps K x y) :
    LeC K (fun a : α => a) (callC x) (callC y) := by
  match x with
  | .ok b =>
    rw [h.1 b rfl]
    exact ⟨fun n a h => h, fun n f _ h => h⟩
  | .error (.err e) =>
    refine ⟨fun n a h => (by cases h), fun n f hf hx => ?_⟩
    cases hx
    rw [h.2 e (hf.2 e rfl) rfl]
    rfl
  | .error .panic =>
    refine ⟨fun n a h => (by cases h), fun n f hf h => ?_⟩
    cases h
    exact absurd rfl hf.1

theorem LeC.admissible {E α β : Type} {K : E → Prop} (c : α → β) (y : Counted E β) :
    Lean.Order.admissible fun x : Counted E α => LeC K c x y := by
  apply admissible_and
  · apply admissible_pi
    intro n
    apply admissible_pi
    intro a
    exact Option.admissible_eq_some _ _
  · apply admissible_pi
    intro n
    apply admissible_pi
    intro f
    apply admissible_pi
    intro _
    exact Option.admissible_eq_some _ _

theorem LeC.adm1 {A E α β : Type} {K : E → Prop} (c : α → β) (y : A → Counted E β) :
    Lean.Order.admissible fun f : A → Counted E α => ∀ a, LeC K c (f a) (y a) :=
  admissible_pi_apply (fun a (x : Counted E α) => LeC K c x (y a)) fun _ => LeC.admissible _ _
theorem LeC.adm2 {A B E α β : Type} {K : E → Prop} (c : α → β) (y : A → B → Counted E β) :
    Lean.Order.admissible fun f : A → B → Counted E α => ∀ a b, LeC K c (f a b) (y a b) :=
  admissible_pi_apply (fun a (x : B → Counted E α) => ∀ b, LeC K c (x b) (y a b)) fun _ => LeC.adm1 _ _
theorem LeC.adm3 {A B C E α β : Type} {K : E → Prop} (c : α → β) (y : A → B → C → Counted E β) :
    Lean.Order.admissible fun f : A → B → C → Counted E α => ∀ a b d, LeC K c (f a b d) (y a b d) :=
  admissible_pi_apply (fun a (x : B → C → Counted E α) => ∀ b d, LeC K c (x b d) (y a b d)) fun _ => LeC.adm2 _ _
theorem LeC.adm4 {A B C D E α β : Type} {K : E → Prop} (c : α → β) (y : A → B → C → D → Counted E β) :
    Lean.Order.admissible fun f : A → B → C → D → Counted E α => ∀ a b d e, LeC K c (f a b d e) (y a b d e) :=
  admissible_pi_apply (fun a (x : B → C → D → Counted E α) => ∀ b d e, LeC K c (x b d e) (y a b d e)) fun _ =>
    LeC.adm3 _ _

theorem blockNewC_le (ind : Indent P) (chunks : List (Chunk P)) :
    LeC K (Block.re M) (Block.newC ind chunks) (Block.newC (ind.map (Segment.re M)) (chunks.map (Chunk.re M))) := by
  unfold Block.newC
  rw [List.length_map]
  exact .tick (.free (blockNew_le ind chunks))

theorem pushTextC_le (b : Block P) (t : Textual P) :
    LeC K (Block.re M) (b.pushText t).free ((b.re M).pushText (t.re M)).free := .free (pushText_le b t)

theorem blockPrintC_le (b : Block P) : LeC K (Line.re M) b.print.free (b.re M).print.free := .free (blockPrint_le b)

/-! ### Evaluation -/

theorem docToInspectC_le (h : M.ExtendsKeeping K) (d : DCN P) (pos : CheckPos) :
    LeC K (fun a : P.Node => a) (d.docToInspectC pos) ((d.re M).docToInspectC pos) := by
  unfold DCN.docToInspectC
  cases pos with
  | here => exact .pure rfl
  | child i =>
    refine .bind (.call (h.numChildren _)) fun n => ?_
    cases n with
    | none => exact .throwErr _
    | some n =>
      dsimp only
      cases normalizeChildIndex i n with
      | none => exact .throwErr _
      | some j => exact .call (h.unwrapChild _ _)
  | rightChild =>
    rcases d with ⟨_, _, _, _, _, _ | jp⟩
    · exact .panicking _
    · exact .pure rfl
  | leftChild =>
    rcases d with ⟨_, _, _, _, _, _ | ⟨p, c, _ | k, _, _⟩⟩
    · exact .panicking _
    · exact .panicking _
    · exact .call (h.unwrapPrevSibling _ _ _)

theorem withOptionalStyleC_le (h : M.ExtendsKeeping K) (doc : P.Node) (style : Option P.Style) :
    LeC K (DCN.re M) (DCN.withOptionalStyleC doc style)
      (DCN.withOptionalStyleC (P := P.withMethods M) doc style) := by
  unfold DCN.withOptionalStyleC
  refine .bind (.call (h.notn _)) fun a => .bind (.call (h.nodeStyle _)) fun s => ?_
  cases style <;> exact .pure rfl

theorem evalC_le (h : M.ExtendsKeeping K) (d : DCN P) : LeC K (CN.re M) d.evalC (d.re M).evalC := by
  revert d
  apply DCN.evalC.fixpoint_induct (motive := fun f => ∀ d, LeC K (CN.re M) (f d) (d.re M).evalC)
  · exact LeC.adm1 _ _
  intro evalC ih d
  rw [DCN.evalC.eq_def (d.re M)]
  refine .tick ?_
  rcases d with ⟨notn, doc, flat, indent, style, jp⟩
  cases notn with
  | empty => exact .pure rfl
  | endOfLine => exact .pure rfl
  | newline => exact .pure rfl
  | literal s => exact .pure rfl
  | text =>
    refine .bind (.call (h.numChildren _)) fun n => ?_
    cases n with
    | some n => exact .throwErr _
    | none => exact .bind (.call (h.unwrapText _)) fun t => .pure rfl
  | flat n => exact ih _
  | indent pre label n =>
    cases label with
    | none => exact .bind (c := fun s : P.Style => s) (.pure rfl) fun s => ih _
    | some l =>
      exact .bind (.call (h.lookupStyle _ _)) fun s => .bind (c := fun s : P.Style => s) (.pure rfl) fun s => ih _
  | concat a b => exact .pure rfl
  | choice a b =>
    cases flat with
    | true => exact ih _
    | false => exact .pure rfl
  | check cond pos a b =>
    refine .bind (docToInspectC_le h _ _) fun n => .bind (.call (h.condition _ _)) fun b => ?_
    cases b
    · exact ih _
    · exact ih _
  | child i =>
    refine .bind (.call (h.numChildren _)) fun n => ?_
    cases n with
    | none => exact .throwErr _
    | some n =>
      dsimp only
      cases normalizeChildIndex i n with
      | none => exact .throwErr _
      | some j =>
        exact .bind (.call (h.unwrapChild _ _)) fun c => .bind (.call (h.notn _)) fun a =>
          .bind (.call (h.nodeStyle _)) fun s => .pure rfl
  | style l n => exact .bind (.call (h.lookupStyle _ _)) fun s => ih _
  | focusMark => exact .pure rfl
  | count zero one many =>
    refine .bind (.call (h.numChildren _)) fun n => ?_
    match n with
    | none => exact .throwErr _
    | some 0 => exact ih _
    | some 1 => exact ih _
    | some (n + 2) => exact ih _
  | fold first join =>
    refine .bind (.call (h.numChildren _)) fun n => ?_
    match n with
    | none => exact .throwErr _
    | some 0 => exact .pure rfl
    | some 1 => exact ih _
    | some (n + 2) => exact .bind (.call (h.unwrapLastChild _)) fun c => ih _
  | left =>
    rcases jp with _ | ⟨p, c, i, f, j⟩
    · exact .panicking _
    · match i with
      | 0 => exact .panicking _
      | 1 => exact ih _
      | k + 2 => exact .bind (.call (h.unwrapPrevSibling _ _ _)) fun c => ih _
  | right =>
    rcases jp with _ | ⟨p, c, i, f, j⟩
    · exact .panicking _
    · exact .bind (.call (h.notn _)) fun a => .bind (.call (h.nodeStyle _)) fun s => .pure rfl

/-! ### The printer -/

theorem chunkNewC_le (h : M.ExtendsKeeping K) (d : DCN P) : LeC K (Chunk.re M) (Chunk.newC d) (Chunk.newC (d.re M)) := by
  exact .bind (.call (h.id _)) fun i => .bind (evalC_le h _) fun n => .pure rfl

theorem fitsLoopC_le (h : M.ExtendsKeeping K) (next : List (Chunk P)) (rem : Nat) (ns : List (CN P)) (eol : Bool) :
    LeC K (fun b : Bool => b) (fitsLoopC next rem ns eol)
      (fitsLoopC (P := P.withMethods M) (next.map (Chunk.re M)) rem (ns.map (CN.re M)) eol) := by
  revert next rem ns eol
  apply fitsLoopC.fixpoint_induct (P := P) (motive := fun f => ∀ (next : List (Chunk P)) rem (ns : List (CN P)) eol, LeC K (fun b : Bool => b) (f next rem ns eol)
    (fitsLoopC (P := P.withMethods M) (next.map (Chunk.re M)) rem (ns.map (CN.re M)) eol))
  · exact LeC.adm4 _ _
  intro f ih next rem ns eol
  rw [fitsLoopC.eq_def (next.map (Chunk.re M))]
  refine .tick ?_
  match ns with
  | [] =>
    match next with
    | [] => exact .pure rfl
    | c :: more => exact ih _ _ [c.notn] _
  | n :: ns =>
    cases n with
    | empty => exact ih _ _ _ _
    | focusMark => exact ih _ _ _ _
    | textual t =>
      cases eol
      · simp only [List.map_cons, CN.re, Textual.re, Bool.false_eq_true, if_false]
        split
        · exact ih _ _ _ _
        · exact .pure rfl
      · exact .pure rfl
    | endOfLine => exact ih _ _ _ _
    | newline i => exact .pure rfl
    | child i c => exact .bind (evalC_le h _) fun n => ih _ _ (n :: ns) _
    | concat a b =>
      exact .bind (evalC_le h _) fun n2 => .bind (evalC_le h _) fun n1 => ih _ _ (n1 :: n2 :: ns) _
    | choice a b => exact .bind (evalC_le h _) fun n => ih _ _ (n :: ns) _

theorem chooseC_le (h : M.ExtendsKeeping K) (w : Nat) (b : Block P) (o1 o2 : DCN P) :
    LeC K (Chunk.re M) (chooseC w b o1 o2) (chooseC w (b.re M) (o1.re M) (o2.re M)) := by
  unfold chooseC
  refine .bind (chunkNewC_le h _) fun c1 => ?_
  simp only [Block.re]
  split
  · refine .bind (fitsLoopC_le h b.chunks _ [c1.notn] _) fun f => ?_
    cases f
    · exact chunkNewC_le h _
    · exact .pure rfl
  · exact chunkNewC_le h _

theorem expandFirstC_le (h : M.ExtendsKeeping K) (next : List (Block P)) (b : Block P) (c : Chunk P) :
    LeC K (rePair M) (expandFirstC next b c) (expandFirstC (next.map (Block.re M)) (b.re M) (c.re M)) := by
  suffices H : ∀ (next : List (Block P)) (b : Block P) (st : List (Chunk P)),
      LeC K (rePair M) (expandFirstLoopC next b st)
        (expandFirstLoopC (next.map (Block.re M)) (b.re M) (st.map (Chunk.re M))) from H next b [c]
  apply expandFirstLoopC.fixpoint_induct (motive := fun f => ∀ next b st, LeC K (rePair M) (f next b st)
    (expandFirstLoopC (next.map (Block.re M)) (b.re M) (st.map (Chunk.re M))))
  · exact LeC.adm3 _ _
  intro f ih next b st
  rw [expandFirstLoopC.eq_def (next.map (Block.re M))]
  refine .tick ?_
  match st with
  | [] => exact .pure rfl
  | ⟨n, i⟩ :: st =>
    cases n with
    | empty => exact ih _ _ _
    | focusMark => exact ih _ { b with chunks := _ :: b.chunks } _
    | textual t => exact ih _ { b with chunks := _ :: b.chunks } _
    | endOfLine => exact ih _ { b with chunks := _ :: b.chunks } _
    | newline ind => exact .bind (blockNewC_le _ _) fun nb => ih (nb :: next) { b with chunks := [] } _
    | child j c => exact ih _ { b with chunks := _ :: b.chunks } _
    | concat x y =>
      exact .bind (chunkNewC_le h _) fun l => .bind (chunkNewC_le h _) fun r => ih _ _ (r :: l :: st)
    | choice x y => exact ih _ { b with chunks := _ :: b.chunks } _

theorem expandLastC_le (h : M.ExtendsKeeping K) (prev : List (Block P)) (b : Block P) (c : Chunk P) :
    LeC K (rePair M) (expandLastC prev b c) (expandLastC (prev.map (Block.re M)) (b.re M) (c.re M)) := by
  suffices H : ∀ (prev : List (Block P)) (b : Block P) (cs st : List (Chunk P)),
      LeC K (rePair M) (expandLastLoopC prev b cs st)
        (expandLastLoopC (prev.map (Block.re M)) (b.re M) (cs.map (Chunk.re M)) (st.map (Chunk.re M))) from
    H prev b [] [c]
  apply expandLastLoopC.fixpoint_induct (motive := fun f => ∀ prev b cs st, LeC K (rePair M) (f prev b cs st)
    (expandLastLoopC (prev.map (Block.re M)) (b.re M) (cs.map (Chunk.re M)) (st.map (Chunk.re M))))
  · exact LeC.adm4 _ _
  intro f ih prev b cs st
  rw [expandLastLoopC.eq_def (prev.map (Block.re M))]
  refine .tick ?_
  match st with
  | [] =>
    dsimp only [List.map_nil]
    rw [List.length_map]
    exact .tick (.pure (by simp [rePair, Block.re]))
  | ⟨n, i⟩ :: st =>
    cases n with
    | empty => exact ih _ _ _ _
    | focusMark => exact ih _ _ (_ :: cs) _
    | textual t => exact ih _ _ (_ :: cs) _
    | endOfLine => exact ih _ _ (_ :: cs) _
    | newline ind =>
      dsimp only [List.map_cons, Chunk.re, CN.re]
      rw [List.length_map]
      refine .tick (.bind (blockNewC_le ind b.chunks) fun nb => ?_)
      have := ih (⟨b.segments, b.prefixLen, b.atEol, cs.reverse⟩ :: prev) nb [] st
      simpa only [List.map_cons, List.map_nil, Block.re, List.map_reverse] using this
    | child j c => exact ih _ _ (_ :: cs) _
    | concat x y =>
      exact .bind (chunkNewC_le h _) fun l => .bind (chunkNewC_le h _) fun r => ih _ _ _ (r :: l :: st)
    | choice x y => exact ih _ _ (_ :: cs) _

theorem printNextLoopC_le (h : M.ExtendsKeeping K) (w : Nat) (next : List (Block P)) (b : Block P) :
    LeC K (reLine M) (printNextLoopC w next b) (printNextLoopC w (next.map (Block.re M)) (b.re M)) := by
  revert next b
  apply printNextLoopC.fixpoint_induct (motive := fun f => ∀ next b, LeC K (reLine M) (f next b)
    (printNextLoopC w (next.map (Block.re M)) (b.re M)))
  · exact LeC.adm2 _ _
  intro f ih next b
  rw [printNextLoopC.eq_def w (next.map (Block.re M))]
  refine .tick ?_
  rcases b with ⟨segs, pre, e, _ | ⟨⟨n, i⟩, cs⟩⟩
  · exact .bind (blockPrintC_le _) fun l => .pure rfl
  cases n with
  | empty => exact .panicking _
  | focusMark => exact ih _ ⟨segs, pre, e, cs⟩
  | textual t => exact .bind (pushTextC_le ⟨segs, pre, e, cs⟩ t) fun b => ih _ _
  | endOfLine => exact ih _ ⟨segs, pre, true, cs⟩
  | newline ind => exact .panicking _
  | child j c =>
    exact .bind (chunkNewC_le h _) fun c => .bind (expandFirstC_le h _ ⟨segs, pre, e, cs⟩ _) fun r => ih _ _
  | concat x y => exact .panicking _
  | choice x y =>
    exact .bind (chooseC_le h w ⟨segs, pre, e, cs⟩ _ _) fun c =>
      .bind (expandFirstC_le h _ ⟨segs, pre, e, cs⟩ _) fun r => ih _ _

theorem printPrevLoopC_le (h : M.ExtendsKeeping K) (w : Nat) (prev : List (Block P)) (b : Block P) :
    LeC K (reLine M) (printPrevLoopC w prev b) (printPrevLoopC w (prev.map (Block.re M)) (b.re M)) := by
  revert prev b
  apply printPrevLoopC.fixpoint_induct (motive := fun f => ∀ prev b, LeC K (reLine M) (f prev b)
    (printPrevLoopC w (prev.map (Block.re M)) (b.re M)))
  · exact LeC.adm2 _ _
  intro f ih prev b
  rw [printPrevLoopC.eq_def w (prev.map (Block.re M))]
  refine .tick ?_
  rcases b with ⟨segs, pre, e, _ | ⟨⟨n, i⟩, cs⟩⟩
  · exact .bind (blockPrintC_le _) fun l => .pure rfl
  cases n with
  | empty => exact .panicking _
  | focusMark => exact ih _ ⟨segs, pre, e, cs⟩
  | textual t => exact .bind (pushTextC_le ⟨segs, pre, e, cs⟩ t) fun b => ih _ _
  | endOfLine => exact ih _ ⟨segs, pre, true, cs⟩
  | newline ind => exact .panicking _
  | child j c =>
    exact .bind (chunkNewC_le h _) fun c => .bind (expandLastC_le h _ ⟨segs, pre, e, cs⟩ _) fun r => ih _ _
  | concat x y => exact .panicking _
  | choice x y =>
    exact .bind (chooseC_le h w ⟨segs, pre, e, cs⟩ _ _) fun c =>
      .bind (expandLastC_le h _ ⟨segs, pre, e, cs⟩ _) fun r => ih _ _

theorem printNextLineC_le (h : M.ExtendsKeeping K) (p : Printer P) :
    LeC K (reNext M) p.printNextLineC (p.re M).printNextLineC := by
  unfold Printer.printNextLineC
  refine .tick ?_
  rcases p with ⟨w, prev, _ | ⟨b, next⟩⟩
  · exact .pure rfl
  · exact .bind (printNextLoopC_le h w next b) fun r => .pure rfl

theorem printPrevLineC_le (h : M.ExtendsKeeping K) (p : Printer P) :
    LeC K (reNext M) p.printPrevLineC (p.re M).printPrevLineC := by
  unfold Printer.printPrevLineC
  refine .tick ?_
  rcases p with ⟨w, _ | ⟨b, prev⟩, next⟩
  · exact .pure rfl
  · exact .bind (printPrevLoopC_le h w prev b) fun r => .pure rfl

/-! ### Seeking -/

theorem seekEndC_le (h : M.ExtendsKeeping K) (p : Printer P) (c : Chunk P) :
    LeC K (Printer.re M) (p.seekEndC c) ((p.re M).seekEndC (c.re M)) := by
  have H : ∀ (w k : Nat) (prev : List (Block P)) (b : Block P),
      LeC K (rePair M) (seekEndLoopC w k prev b) (seekEndLoopC w k (prev.map (Block.re M)) (b.re M)) := by
    intro w k
    apply seekEndLoopC.fixpoint_induct (motive := fun f => ∀ prev b, LeC K (rePair M) (f prev b)
      (seekEndLoopC w k (prev.map (Block.re M)) (b.re M)))
    · exact LeC.adm2 _ _
    intro f ih prev b
    rw [seekEndLoopC.eq_def w k (prev.map (Block.re M))]
    refine .tick ?_
    rw [show (b.re M).chunks.length = b.chunks.length from List.length_map _]
    by_cases hk : b.chunks.length > k
    rotate_left
    · simp only [hk, if_false]
      exact .pure rfl
    simp only [hk, if_true]
    rcases b with ⟨segs, pre, e, _ | ⟨⟨n, i⟩, cs⟩⟩
    · exact .panicking _
    cases n with
    | empty => exact .panicking _
    | focusMark => exact ih _ ⟨segs, pre, e, cs⟩
    | textual t => exact .bind (pushTextC_le ⟨segs, pre, e, cs⟩ t) fun b => ih _ _
    | endOfLine => exact ih _ ⟨segs, pre, true, cs⟩
    | newline ind => exact .panicking _
    | child j c =>
      exact .bind (chunkNewC_le h _) fun c => .bind (expandLastC_le h _ ⟨segs, pre, e, cs⟩ _) fun r => ih _ _
    | concat x y => exact .panicking _
    | choice x y =>
      exact .bind (chooseC_le h w ⟨segs, pre, e, cs⟩ _ _) fun c =>
        .bind (expandLastC_le h _ ⟨segs, pre, e, cs⟩ _) fun r => ih _ _
  unfold Printer.seekEndC
  rcases p with ⟨w, prev, _ | ⟨b, next⟩⟩
  · exact .panicking _
  · refine .bind (expandLastC_le h _ _ _) fun r => ?_
    refine .bind (c := rePair M) ?_ fun r => .pure rfl
    have := H w b.chunks.length r.1 r.2
    rw [show b.chunks.length = (b.re M).chunks.length from (List.length_map _).symm] at this ⊢
    exact this

theorem seekStartC_le (h : M.ExtendsKeeping K) (p : Printer P) (c : Chunk P) :
    LeC K (Printer.re M) (p.seekStartC c) ((p.re M).seekStartC (c.re M)) := by
  unfold Printer.seekStartC
  rcases p with ⟨w, prev, _ | ⟨b, next⟩⟩
  · exact .panicking _
  · exact .bind (expandFirstC_le h _ _ _) fun r => .pure rfl

theorem seekMarkC_le (h : M.ExtendsKeeping K) (p : Printer P) (c : Chunk P) :
    LeC K (Printer.re M) (p.seekMarkC c) ((p.re M).seekMarkC (c.re M)) := by
  have H : ∀ (w : Nat) (id : P.Id) (prev next : List (Block P)) (cur : Option (Block P)),
      LeC K (reBlocks M) (seekMarkLoopC w id prev next cur)
        (seekMarkLoopC (P := P.withMethods M) w id (prev.map (Block.re M)) (next.map (Block.re M))
          (cur.map (Block.re M))) := by
    intro w id
    apply seekMarkLoopC.fixpoint_induct (motive := fun f => ∀ prev next cur, LeC K (reBlocks M) (f prev next cur)
      (seekMarkLoopC (P := P.withMethods M) w id (prev.map (Block.re M)) (next.map (Block.re M))
          (cur.map (Block.re M))))
    · exact LeC.adm3 _ _
    intro f ih prev next cur
    rw [seekMarkLoopC.eq_def (P := P.withMethods M)]
    refine .tick ?_
    match cur with
    | none =>
      match next with
      | [] => exact .throwErr _
      | b :: next => exact ih _ _ (some b)
    | some ⟨segs, pre, e, []⟩ => exact ih (⟨segs, pre, e, []⟩ :: prev) next none
    | some ⟨segs, pre, e, ⟨n, i⟩ :: cs⟩ =>
      cases n with
      | empty => exact .panicking _
      | focusMark =>
        by_cases hi : i = id
        · subst hi
          simp only [if_true, Option.map_some, Block.re, List.map_cons, Chunk.re, CN.re]
          exact .pure rfl
        · simp only [hi, if_false, Option.map_some, Block.re, List.map_cons, Chunk.re, CN.re]
          exact ih _ _ (some ⟨segs, pre, e, cs⟩)
      | textual t => exact .bind (pushTextC_le ⟨segs, pre, e, cs⟩ t) fun b => ih _ _ (some b)
      | endOfLine => exact ih _ _ (some ⟨segs, pre, true, cs⟩)
      | newline ind => exact .panicking _
      | child j c =>
        exact .bind (chunkNewC_le h _) fun c => .bind (expandFirstC_le h _ ⟨segs, pre, e, cs⟩ _) fun r =>
          ih _ _ (some r.2)
      | concat x y => exact .panicking _
      | choice x y =>
        exact .bind (chooseC_le h w ⟨segs, pre, e, cs⟩ _ _) fun c =>
          .bind (expandFirstC_le h _ ⟨segs, pre, e, cs⟩ _) fun r => ih _ _ (some r.2)
  unfold Printer.seekMarkC
  rcases p with ⟨w, prev, _ | ⟨b, next⟩⟩
  · exact .panicking _
  · exact .bind (expandFirstC_le h _ _ _) fun r => .bind (H w c.id prev (r.2 :: r.1) none) fun r => .pure rfl

theorem seekTextC_le (h : M.ExtendsKeeping K) (p : Printer P) (c : Chunk P) (pos : Nat) :
    LeC K (Printer.re M) (p.seekTextC c pos) ((p.re M).seekTextC (c.re M) pos) := by
  have H : ∀ (w : Nat) (prev next : List (Block P)) (cur : Option (Block P)),
      LeC K (reBlocks M) (seekTextLoopC w pos prev next cur)
        (seekTextLoopC (P := P.withMethods M) w pos (prev.map (Block.re M)) (next.map (Block.re M))
          (cur.map (Block.re M))) := by
    intro w
    apply seekTextLoopC.fixpoint_induct (motive := fun f => ∀ prev next cur, LeC K (reBlocks M) (f prev next cur)
      (seekTextLoopC (P := P.withMethods M) w pos (prev.map (Block.re M)) (next.map (Block.re M))
          (cur.map (Block.re M))))
    · exact LeC.adm3 _ _
    intro f ih prev next cur
    rw [seekTextLoopC.eq_def (P := P.withMethods M)]
    refine .tick ?_
    match cur with
    | none =>
      match next with
      | [] => exact .throwErr _
      | b :: next => exact ih _ _ (some b)
    | some ⟨segs, pre, e, []⟩ => exact ih (⟨segs, pre, e, []⟩ :: prev) next none
    | some ⟨segs, pre, e, ⟨n, i⟩ :: cs⟩ =>
      cases n with
      | empty => exact .panicking _
      | focusMark => exact ih _ _ (some ⟨segs, pre, e, cs⟩)
      | textual t =>
        rcases t with ⟨str, tw, st, _ | _⟩
        · exact .bind (pushTextC_le ⟨segs, pre, e, cs⟩ ⟨str, tw, st, false⟩) fun b => ih _ _ (some b)
        · exact .bind (pushTextC_le ⟨segs, pre, e, cs⟩ (Textual.splitAt ⟨str, tw, st, true⟩ pos).1) fun b =>
            .pure rfl
      | endOfLine => exact ih _ _ (some ⟨segs, pre, true, cs⟩)
      | newline ind => exact .panicking _
      | child j c =>
        exact .bind (chunkNewC_le h _) fun c => .bind (expandFirstC_le h _ ⟨segs, pre, e, cs⟩ _) fun r =>
          ih _ _ (some r.2)
      | concat x y => exact .panicking _
      | choice x y =>
        exact .bind (chooseC_le h w ⟨segs, pre, e, cs⟩ _ _) fun c =>
          .bind (expandFirstC_le h _ ⟨segs, pre, e, cs⟩ _) fun r => ih _ _ (some r.2)
  unfold Printer.seekTextC
  rcases p with ⟨w, prev, _ | ⟨b, next⟩⟩
  · exact .panicking _
  · exact .bind (expandFirstC_le h _ _ _) fun r => .bind (H w prev (r.2 :: r.1) none) fun r => .pure rfl

theorem seekChildStep2C_le (h : M.ExtendsKeeping K) (w : Nat) (id : P.Id) (j : Nat) (next : List (Block P)) (b : Block P) :
    LeC K (Step2.re M) (seekChildStep2C w id j next b)
      (seekChildStep2C (P := P.withMethods M) w id j (next.map (Block.re M)) (b.re M)) := by
  revert b
  apply seekChildStep2C.fixpoint_induct (motive := fun f => ∀ b, LeC K (Step2.re M) (f b)
    (seekChildStep2C (P := P.withMethods M) w id j (next.map (Block.re M)) (b.re M)))
  · exact LeC.adm1 _ _
  intro f ih b
  rw [seekChildStep2C.eq_def (P := P.withMethods M)]
  refine .tick ?_
  rcases b with ⟨segs, pre, e, _ | ⟨⟨n, i⟩, cs⟩⟩
  · exact .pure rfl
  cases n with
  | empty => exact .panicking _
  | focusMark => exact ih ⟨segs, pre, e, cs⟩
  | textual t => exact .bind (pushTextC_le ⟨segs, pre, e, cs⟩ t) fun b => ih _
  | endOfLine => exact ih ⟨segs, pre, true, cs⟩
  | newline ind => exact .panicking _
  | child k c =>
    by_cases hi : i = id ∧ k = j
    · simp only [hi, and_self, if_true, Block.re, List.map_cons, Chunk.re, CN.re]
      exact .bind (chunkNewC_le h _) fun c => .pure rfl
    · simp only [hi, if_false, Block.re, List.map_cons, Chunk.re, CN.re]
      exact .bind (chunkNewC_le h _) fun c => .bind (expandFirstC_le h _ ⟨segs, pre, e, cs⟩ _) fun r => .pure rfl
  | concat x y => exact .panicking _
  | choice x y =>
    exact .bind (chooseC_le h w ⟨segs, pre, e, cs⟩ _ _) fun c =>
      .bind (expandFirstC_le h _ ⟨segs, pre, e, cs⟩ _) fun r => .pure rfl

theorem scanned_re (id : P.Id) (j : Nat) (cs : List (Chunk P)) :
    scanned (P := P.withMethods M) id j (cs.map (Chunk.re M)) = scanned id j cs := by
  induction cs with
  | nil => rfl
  | cons c cs ih =>
    have := containsRelevantChunk_re (M := M) id j ⟨[], 0, false, [c]⟩
    simp only [List.map_cons, scanned, ih]
    rw [← this]
    rfl

theorem skipSteps_re (scan : Nat) (id : P.Id) (j : Nat) (next : List (Block P)) :
    skipSteps (P := P.withMethods M) scan id j (next.map (Block.re M)) = skipSteps scan id j next := by
  induction next with
  | nil => rfl
  | cons b next ih =>
    simp only [List.map_cons, skipSteps, ih, containsRelevantChunk_re]
    rw [show (b.re M).chunks = b.chunks.map (Chunk.re M) from rfl, scanned_re]

theorem seekChildLoopC_le (scan : Nat) (h : M.ExtendsKeeping K) (w : Nat) (id : P.Id) (j : Nat) (prev next : List (Block P)) :
    LeC K (reFound M) (seekChildLoopC scan w id j prev next)
      (seekChildLoopC (P := P.withMethods M) scan w id j (prev.map (Block.re M)) (next.map (Block.re M))) := by
  revert prev next
  apply seekChildLoopC.fixpoint_induct (motive := fun f => ∀ prev next, LeC K (reFound M) (f prev next)
    (seekChildLoopC (P := P.withMethods M) scan w id j (prev.map (Block.re M)) (next.map (Block.re M))))
  · exact LeC.adm2 _ _
  intro f ih prev next
  rw [seekChildLoopC.eq_def (P := P.withMethods M), skipBlocks_re, skipSteps_re]
  refine .tick ?_
  dsimp only
  match skipBlocks id j prev next with
  | (_, []) => exact .throwErr _
  | (prev, b :: next) =>
    refine .bind (seekChildStep2C_le h w id j next b) fun r => ?_
    cases r with
    | found next c => exact .pure rfl
    | again next => exact ih _ _

theorem seekChildC_le (scan : Nat) (h : M.ExtendsKeeping K) (p : Printer P) (c : Chunk P) (j : Nat) :
    LeC K (reChild M) (p.seekChildC scan c j) ((p.re M).seekChildC scan (c.re M) j) := by
  unfold Printer.seekChildC
  rcases p with ⟨w, prev, _ | ⟨b, next⟩⟩
  · exact .panicking _
  · exact .bind (expandFirstC_le h _ _ _) fun r => .bind (seekChildLoopC_le scan h w c.id j prev (r.2 :: r.1)) fun r =>
      .pure rfl

theorem seekPathC_le (scan : Nat) (h : M.ExtendsKeeping K) (p : Printer P) (c : Chunk P) (path : List Nat) :
    LeC K (reChild M) (p.seekPathC scan c path) ((p.re M).seekPathC scan (c.re M) path) := by
  induction path generalizing p c with
  | nil => exact .pure rfl
  | cons j path ih => exact .tick (.bind (seekChildC_le scan h p c j) fun r => ih r.1 r.2)

theorem seekC_le (scan : Nat) (h : M.ExtendsKeeping K) (p : Printer P) (doc : P.Node) (path : List Nat) (target : FocusTarget)
    (rs : Option P.Style) :
    LeC K (Printer.re M) (p.seekC scan doc path target rs) ((p.re M).seekC (P := P.withMethods M) scan doc path target rs) := by
  refine .bind (withOptionalStyleC_le h doc rs) fun d => .bind (chunkNewC_le h d) fun c =>
    .bind (seekPathC_le scan h p c path) fun r => ?_
  cases target with
  | start => exact seekStartC_le h _ _
  | «end» => exact seekEndC_le h _ _
  | text pos => exact seekTextC_le h _ _ pos
  | mark => exact seekMarkC_le h _ _

theorem prettyPrintC_le (scan : Nat) (h : M.ExtendsKeeping K) (doc : P.Node) (w : Nat) (path : List Nat) (target : FocusTarget)
    (rs : Option P.Style) :
    LeC K (Printed.re M) (prettyPrintC scan doc w path target rs)
      (prettyPrintC (P := P.withMethods M) scan doc w path target rs) := by
  unfold prettyPrintC
  refine .bind (c := Printer.re M) ?_ fun p => .bind (seekC_le scan h p doc path target rs) fun p => ?_
  · exact .bind (blockNewC_le [] []) fun b => .pure rfl
  rcases p with ⟨w, prev, _ | ⟨b, next⟩⟩
  · exact .panicking _
  refine .bind (printNextLineC_le h _) fun r => ?_
  rcases r with ⟨_ | l, p⟩
  · exact .panicking _
  · simp only [reNext, Option.map_some, Line.re, Printer.re, Block.re, List.map_cons, List.length_map]
    split
    · exact .panicking _
    · exact .pure (by simp [Printed.re, Printer.re, FocusedLine.re, List.map_take, List.map_drop])

theorem toStringLoopC_le (h : M.ExtendsKeeping K) (s : String) (p : Printer P) :
    LeC K (fun s : String => s) (toStringLoopC s p) (toStringLoopC (P := P.withMethods M) s (p.re M)) := by
  revert s p
  apply toStringLoopC.fixpoint_induct (P := P) (motive := fun f => ∀ s (p : Printer P), LeC K (fun s : String => s) (f s p)
    (toStringLoopC (P := P.withMethods M) s (p.re M)))
  · exact LeC.adm2 _ _
  intro f ih s p
  rw [toStringLoopC.eq_def s (p.re M)]
  refine .bind (printNextLineC_le h p) fun r => ?_
  rcases r with ⟨_ | l, p⟩
  · exact .pure rfl
  · have : (l.re M).toString = l.toString := by
      simp [Line.toString, Line.re, segsString, List.foldl_map, Segment.re]
    simp only [reNext, Option.map_some, this]
    exact ih _ _

theorem prettyPrintToStringC_le (scan : Nat) (h : M.ExtendsKeeping K) (doc : P.Node) (w : Nat) :
    LeC K (fun s : String => s) (prettyPrintToStringC scan doc w) (prettyPrintToStringC (P := P.withMethods M) scan doc w) := by
  refine .bind (prettyPrintC_le scan h doc w [] .start none) fun r => ?_
  have : (r.focused.re M).toString = r.focused.toString := by
    simp [FocusedLine.toString, FocusedLine.re, segsString, List.foldl_map, Segment.re]
  simp only [Printed.re, this]
  exact toStringLoopC_le h _ _

theorem browseC_le (h : M.ExtendsKeeping K) (asks : List Ask) (up down : Printer P) :
    LeC K (List.map (Option.map (Line.re M))) (browseC asks up down)
      (browseC asks (up.re M) (down.re M)) := by
  induction asks generalizing up down with
  | nil => exact .pure rfl
  | cons a asks ih =>
    cases a
    · exact .bind (printPrevLineC_le h up) fun r => .bind (ih r.2 down) fun ls => .pure rfl
    · exact .bind (printNextLineC_le h down) fun r => .bind (ih up r.2) fun ls => .pure rfl

/-- Corresponding results of sessions. -/
def reSession (M : Methods P.Node P.Id P.Style P.Label P.Cond P.Err)
    (r : FocusedLine P × List (Option (Line P))) :
    FocusedLine (P.withMethods M) × List (Option (Line (P.withMethods M))) :=
  (r.1.re M, r.2.map (Option.map (Line.re M)))

theorem sessionC_le (scan : Nat) (h : M.ExtendsKeeping K) (doc : P.Node) (w : Nat) (path : List Nat)
    (target : FocusTarget) (rs : Option P.Style) (asks : List Ask) :
    LeC K (reSession M) (sessionC scan doc w path target rs asks)
      (sessionC (P := P.withMethods M) scan doc w path target rs asks) := by
  exact .bind (prettyPrintC_le scan h doc w path target rs) fun r => .bind (browseC_le h asks r.up r.down) fun ls =>
    .pure rfl

end PPP
