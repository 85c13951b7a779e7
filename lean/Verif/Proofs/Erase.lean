import Verif.Model.Work
import Verif.Proofs.Exec
/-
The counted program is the program: what it returns is what the program without counter returns.
(`Er`: if the counted program ends, the other one ends with the same result; `Re`: and conversely.)
-/
namespace PPP
open Lean.Order

variable {P : PrettyDoc}

/-- If `x` ends, so does `y`, in the same way. -/
def Er {E α : Type} (x : Counted E α) (y : Exec E α) : Prop :=
  ∀ r, x.result.run = some r → y.run = some r

/-- If `y` ends, so does `x`, in the same way. -/
def Re {E α : Type} (x : Counted E α) (y : Exec E α) : Prop :=
  ∀ r, y.run = some r → x.result.run = some r

namespace Counted
variable {E α β : Type}

theorem bind_eq (x : Counted E α) (f : α → Counted E β) : (x >>= f) = x.andThen f := rfl

theorem result_bind (x : Counted E α) (f : α → Counted E β) :
    (x >>= f).result = x.result >>= fun a => (f a).result := by
  apply ExceptT.ext
  rw [Exec.run_bind]
  match x with
  | none => rfl
  | some (n, .error e) => rfl
  | some (n, .ok a) =>
    show (((ret n (.ok a)).andThen f).map (·.2)) = _
    simp only [andThen, ret]
    show _ = (f a).map (·.2)
    match f a with
    | none => rfl
    | some (m, r) => rfl

theorem result_tick (n : Nat) (g : Unit → Counted E α) : (tick n >>= g).result = (g ()).result := by
  rw [result_bind]
  rfl

theorem result_free (x : Exec E α) : x.free.result = x := by
  apply ExceptT.ext
  show ((x.free).map (·.2)) = x.run
  unfold Exec.free
  match x.run with
  | none => rfl
  | some r => rfl

theorem result_callC (c : Call E α) : (callC c).result = call c := rfl

end Counted

theorem Er.pure {E α : Type} {a : α} : Er (Pure.pure a : Counted E α) (Pure.pure a) := fun _ h => h
theorem Re.pure {E α : Type} {a : α} : Re (Pure.pure a : Counted E α) (Pure.pure a) := fun _ h => h
theorem Er.free {E α : Type} {x : Exec E α} : Er x.free x := fun _ h => by rwa [Counted.result_free] at h
theorem Re.free {E α : Type} {x : Exec E α} : Re x.free x := fun _ h => by rwa [Counted.result_free]
theorem Er.call {E α : Type} {c : Call E α} : Er (callC c) (PPP.call c) := fun _ h => h
theorem Re.call {E α : Type} {c : Call E α} : Re (callC c) (PPP.call c) := fun _ h => h
theorem Er.tick {E α : Type} {n : Nat} {g : Unit → Counted E α} {y : Exec E α} (h : Er (g ()) y) :
    Er (Counted.tick n >>= g) y := fun _ h' => h _ (by rwa [Counted.result_tick] at h')
theorem Re.tick {E α : Type} {n : Nat} {g : Unit → Counted E α} {y : Exec E α} (h : Re (g ()) y) :
    Re (Counted.tick n >>= g) y := fun _ h' => by rw [Counted.result_tick]; exact h _ h'
theorem Er.bind {E α β : Type} {x : Counted E α} {y : Exec E α} {f : α → Counted E β} {g : α → Exec E β}
    (h : Er x y) (hf : ∀ a, Er (f a) (g a)) : Er (x >>= f) (y >>= g) := by
  intro r hr
  rw [Counted.result_bind, Exec.run_bind] at hr
  rw [Exec.run_bind]
  match hx : x.result.run with
  | none => rw [hx] at hr; exact absurd hr (by simp)
  | some (.error e) => rw [hx] at hr; rw [h _ hx]; exact hr
  | some (.ok a) => rw [hx] at hr; rw [h _ hx]; exact hf a r hr
theorem Re.bind {E α β : Type} {x : Counted E α} {y : Exec E α} {f : α → Counted E β} {g : α → Exec E β}
    (h : Re x y) (hf : ∀ a, Re (f a) (g a)) : Re (x >>= f) (y >>= g) := by
  intro r hr
  rw [Exec.run_bind] at hr
  rw [Counted.result_bind, Exec.run_bind]
  match hx : y.run with
  | none => rw [hx] at hr; exact absurd hr (by simp)
  | some (.error e) => rw [hx] at hr; rw [h _ hx]; exact hr
  | some (.ok a) => rw [hx] at hr; rw [h _ hx]; exact hf a r hr

theorem Er.admissible {E α : Type} (y : Exec E α) :
    Lean.Order.admissible fun x : Counted E α => Er x y := by
  have : (fun x : Counted E α => Er x y) = fun x : Counted E α => ∀ n r, x = some (n, r) → y.run = some r := by
    funext x
    apply propext
    constructor
    · rintro h n r rfl; exact h r rfl
    · intro h r hr
      match x with
      | none => exact absurd hr (by simp [Counted.result])
      | some (n, r') =>
        have : r' = r := by
          have hr : (some r' : Option (Except (Fail E) α)) = some r := hr
          injection hr
        subst this; exact h n _ rfl
  rw [this]
  apply admissible_pi
  intro n
  apply admissible_pi
  intro r
  exact Option.admissible_eq_some _ _

theorem Re.admissible {E α : Type} (x : Counted E α) :
    Lean.Order.admissible fun y : Exec E α => Re x y := by
  apply admissible_pi
  intro r
  exact Option.admissible_eq_some _ _

theorem Er.adm1 {A E α : Type} (y : A → Exec E α) :
    Lean.Order.admissible fun f : A → Counted E α => ∀ a, Er (f a) (y a) :=
  admissible_pi_apply (fun a (x : Counted E α) => Er (x) (y a)) fun _ => Er.admissible _
theorem Er.adm2 {A B E α : Type} (y : A → B → Exec E α) :
    Lean.Order.admissible fun f : A → B → Counted E α => ∀ a b, Er (f a b) (y a b) :=
  admissible_pi_apply (fun a (x : B → Counted E α) => ∀ b, Er (x b) (y a b)) fun _ => Er.adm1 _
theorem Er.adm3 {A B C E α : Type} (y : A → B → C → Exec E α) :
    Lean.Order.admissible fun f : A → B → C → Counted E α => ∀ a b c, Er (f a b c) (y a b c) :=
  admissible_pi_apply (fun a (x : B → C → Counted E α) => ∀ b c, Er (x b c) (y a b c)) fun _ => Er.adm2 _
theorem Er.adm4 {A B C D E α : Type} (y : A → B → C → D → Exec E α) :
    Lean.Order.admissible fun f : A → B → C → D → Counted E α => ∀ a b c d, Er (f a b c d) (y a b c d) :=
  admissible_pi_apply (fun a (x : B → C → D → Counted E α) => ∀ b c d, Er (x b c d) (y a b c d)) fun _ => Er.adm3 _

theorem Re.adm1 {A E α : Type} (y : A → Counted E α) :
    Lean.Order.admissible fun f : A → Exec E α => ∀ a, Re (y a) (f a) :=
  admissible_pi_apply (fun a (x : Exec E α) => Re (y a) (x)) fun _ => Re.admissible _
theorem Re.adm2 {A B E α : Type} (y : A → B → Counted E α) :
    Lean.Order.admissible fun f : A → B → Exec E α => ∀ a b, Re (y a b) (f a b) :=
  admissible_pi_apply (fun a (x : B → Exec E α) => ∀ b, Re (y a b) (x b)) fun _ => Re.adm1 _
theorem Re.adm3 {A B C E α : Type} (y : A → B → C → Counted E α) :
    Lean.Order.admissible fun f : A → B → C → Exec E α => ∀ a b c, Re (y a b c) (f a b c) :=
  admissible_pi_apply (fun a (x : B → C → Exec E α) => ∀ b c, Re (y a b c) (x b c)) fun _ => Re.adm2 _
theorem Re.adm4 {A B C D E α : Type} (y : A → B → C → D → Counted E α) :
    Lean.Order.admissible fun f : A → B → C → D → Exec E α => ∀ a b c d, Re (y a b c d) (f a b c d) :=
  admissible_pi_apply (fun a (x : B → C → D → Exec E α) => ∀ b c d, Re (y a b c d) (x b c d)) fun _ => Re.adm3 _

/-! ### The counted program does what the program does -/

theorem docToInspect_er (d : DCN P) (pos : CheckPos) : Er (d.docToInspectC pos) (d.docToInspect pos) := by
  unfold DCN.docToInspect DCN.docToInspectC
  cases pos with
  | here => exact .pure
  | child i =>
    refine .bind .call fun n => ?_
    cases n with
    | none => exact .free
    | some n =>
      dsimp only
      cases normalizeChildIndex i n with
      | none => exact .free
      | some j => exact .call
  | rightChild =>
    rcases d with ⟨_, _, _, _, _, _ | jp⟩
    · exact .free
    · exact .pure
  | leftChild =>
    rcases d with ⟨_, _, _, _, _, _ | ⟨p, c, _ | k, _, _⟩⟩
    · exact .free
    · exact .free
    · exact .call

theorem withOptionalStyle_er (doc : P.Node) (style : Option P.Style) :
    Er (DCN.withOptionalStyleC doc style) (DCN.withOptionalStyle doc style) := by
  unfold DCN.withOptionalStyle DCN.withOptionalStyleC
  exact .bind .call fun a => .bind .call fun s => .pure

theorem eval_er (d : DCN P) : Er d.evalC d.eval := by
  revert d
  apply DCN.evalC.fixpoint_induct (motive := fun f => ∀ d, Er (f d) (DCN.eval d))
  · exact Er.adm1 _
  intro eval ih d
  rw [DCN.eval.eq_def]
  refine .tick ?_
  rcases d with ⟨notn, doc, flat, indent, style, jp⟩
  cases notn with
  | empty => exact .pure
  | endOfLine => exact .pure
  | newline => exact .pure
  | literal s => exact .pure
  | text =>
    refine .bind .call fun n => ?_
    cases n with
    | some n => exact .free
    | none => exact .bind .call fun t => .pure
  | flat n => exact ih _
  | indent pre label n =>
    cases label with
    | none => exact .bind .pure fun _ => ih _
    | some l => exact .bind .call fun s => .bind .pure fun _ => ih _
  | concat a b => exact .pure
  | choice a b =>
    cases flat with
    | true => exact ih _
    | false => exact .pure
  | check cond pos a b =>
    refine .bind (docToInspect_er _ _) fun n => .bind .call fun b => ?_
    cases b
    · exact ih _
    · exact ih _
  | child i =>
    refine .bind .call fun n => ?_
    cases n with
    | none => exact .free
    | some n =>
      dsimp only
      cases normalizeChildIndex i n with
      | none => exact .free
      | some j => exact .bind .call fun c => .bind .call fun a => .bind .call fun s => .pure
  | style l n => exact .bind .call fun s => ih _
  | focusMark => exact .pure
  | count zero one many =>
    refine .bind .call fun n => ?_
    match n with
    | none => exact .free
    | some 0 => exact ih _
    | some 1 => exact ih _
    | some (n + 2) => exact ih _
  | fold first join =>
    refine .bind .call fun n => ?_
    match n with
    | none => exact .free
    | some 0 => exact .pure
    | some 1 => exact ih _
    | some (n + 2) => exact .bind .call fun c => ih _
  | left =>
    rcases jp with _ | ⟨p, c, i, f, j⟩
    · exact .free
    · match i with
      | 0 => exact .free
      | 1 => exact ih _
      | k + 2 => exact .bind .call fun c => ih _
  | right =>
    rcases jp with _ | ⟨p, c, i, f, j⟩
    · exact .free
    · exact .bind .call fun a => .bind .call fun s => .pure

theorem chunkNew_er (d : DCN P) : Er (Chunk.newC d) (Chunk.new d) :=
  .bind .call fun _ => .bind (eval_er _) fun _ => .pure

theorem blockNew_er (ind : Indent P) (chunks : List (Chunk P)) :
    Er (Block.newC ind chunks) (Block.new ind chunks) := .tick .free

theorem fitsLoop_er (next : List (Chunk P)) (rem : Nat) (ns : List (CN P)) (eol : Bool) :
    Er (fitsLoopC next rem ns eol) (fitsLoop next rem ns eol) := by
  revert next rem ns eol
  apply fitsLoopC.fixpoint_induct (P := P)
    (motive := fun f => ∀ next rem ns eol, Er (f next rem ns eol) (fitsLoop next rem ns eol))
  · exact Er.adm4 _
  intro f ih next rem ns eol
  rw [fitsLoop.eq_def]
  refine .tick ?_
  match ns with
  | [] =>
    match next with
    | [] => exact .pure
    | c :: more => exact ih _ _ [c.notn] _
  | n :: ns =>
    cases n with
    | empty => exact ih _ _ _ _
    | focusMark => exact ih _ _ _ _
    | textual t =>
      cases eol
      · simp only [Bool.false_eq_true, if_false]
        split
        · exact ih _ _ _ _
        · exact .pure
      · exact .pure
    | endOfLine => exact ih _ _ _ _
    | newline i => exact .pure
    | child i c => exact .bind (eval_er _) fun n => ih _ _ (n :: ns) _
    | concat a b =>
      exact .bind (eval_er _) fun n2 => .bind (eval_er _) fun n1 => ih _ _ (n1 :: n2 :: ns) _
    | choice a b => exact .bind (eval_er _) fun n => ih _ _ (n :: ns) _

theorem choose_er (w : Nat) (b : Block P) (o1 o2 : DCN P) :
    Er (chooseC w b o1 o2) (choose w b o1 o2) := by
  unfold choose chooseC
  refine .bind (chunkNew_er _) fun c1 => ?_
  split
  · refine .bind (fitsLoop_er b.chunks _ [c1.notn] _) fun f => ?_
    cases f
    · exact chunkNew_er _
    · exact .pure
  · exact chunkNew_er _

theorem expandFirst_er (next : List (Block P)) (b : Block P) (c : Chunk P) :
    Er (expandFirstC next b c) (expandFirst next b c) := by
  suffices H : ∀ (next : List (Block P)) (b : Block P) (st : List (Chunk P)),
      Er (expandFirstLoopC next b st) (expandFirstLoop next b st) from H next b [c]
  apply expandFirstLoopC.fixpoint_induct
    (motive := fun f => ∀ next b st, Er (f next b st) (expandFirstLoop next b st))
  · exact Er.adm3 _
  intro f ih next b st
  rw [expandFirstLoop.eq_def]
  refine .tick ?_
  match st with
  | [] => exact .pure
  | ⟨n, i⟩ :: st =>
    cases n with
    | empty => exact ih _ _ _
    | focusMark => exact ih _ { b with chunks := _ :: b.chunks } _
    | textual t => exact ih _ { b with chunks := _ :: b.chunks } _
    | endOfLine => exact ih _ { b with chunks := _ :: b.chunks } _
    | newline ind => exact .bind (blockNew_er _ _) fun nb => ih (nb :: next) { b with chunks := [] } _
    | child j c => exact ih _ { b with chunks := _ :: b.chunks } _
    | concat x y =>
      exact .bind (chunkNew_er _) fun l => .bind (chunkNew_er _) fun r => ih _ _ (r :: l :: st)
    | choice x y => exact ih _ { b with chunks := _ :: b.chunks } _

theorem expandLast_er (prev : List (Block P)) (b : Block P) (c : Chunk P) :
    Er (expandLastC prev b c) (expandLast prev b c) := by
  suffices H : ∀ (prev : List (Block P)) (b : Block P) (cs st : List (Chunk P)),
      Er (expandLastLoopC prev b cs st) (expandLastLoop prev b cs st) from H prev b [] [c]
  apply expandLastLoopC.fixpoint_induct
    (motive := fun f => ∀ prev b cs st, Er (f prev b cs st) (expandLastLoop prev b cs st))
  · exact Er.adm4 _
  intro f ih prev b cs st
  rw [expandLastLoop.eq_def]
  refine .tick ?_
  match st with
  | [] => exact .tick .pure
  | ⟨n, i⟩ :: st =>
    cases n with
    | empty => exact ih _ _ _ _
    | focusMark => exact ih _ _ (_ :: cs) _
    | textual t => exact ih _ _ (_ :: cs) _
    | endOfLine => exact ih _ _ (_ :: cs) _
    | newline ind => exact .tick (.bind (blockNew_er ind b.chunks) fun nb => ih _ _ _ _)
    | child j c => exact ih _ _ (_ :: cs) _
    | concat x y =>
      exact .bind (chunkNew_er _) fun l => .bind (chunkNew_er _) fun r => ih _ _ _ (r :: l :: st)
    | choice x y => exact ih _ _ (_ :: cs) _

theorem printNextLoop_er (w : Nat) (next : List (Block P)) (b : Block P) :
    Er (printNextLoopC w next b) (printNextLoop w next b) := by
  revert next b
  apply printNextLoopC.fixpoint_induct
    (motive := fun f => ∀ next b, Er (f next b) (printNextLoop w next b))
  · exact Er.adm2 _
  intro f ih next b
  rw [printNextLoop.eq_def]
  refine .tick ?_
  rcases b with ⟨segs, pre, e, _ | ⟨⟨n, i⟩, cs⟩⟩
  · exact .bind .free fun l => .pure
  cases n with
  | empty => exact .free
  | focusMark => exact ih _ ⟨segs, pre, e, cs⟩
  | textual t => exact .bind .free fun b => ih _ _
  | endOfLine => exact ih _ ⟨segs, pre, true, cs⟩
  | newline ind => exact .free
  | child j c =>
    exact .bind (chunkNew_er _) fun c => .bind (expandFirst_er _ ⟨segs, pre, e, cs⟩ _) fun r => ih _ _
  | concat x y => exact .free
  | choice x y =>
    exact .bind (choose_er w ⟨segs, pre, e, cs⟩ _ _) fun c =>
      .bind (expandFirst_er _ ⟨segs, pre, e, cs⟩ _) fun r => ih _ _

theorem printPrevLoop_er (w : Nat) (prev : List (Block P)) (b : Block P) :
    Er (printPrevLoopC w prev b) (printPrevLoop w prev b) := by
  revert prev b
  apply printPrevLoopC.fixpoint_induct
    (motive := fun f => ∀ prev b, Er (f prev b) (printPrevLoop w prev b))
  · exact Er.adm2 _
  intro f ih prev b
  rw [printPrevLoop.eq_def]
  refine .tick ?_
  rcases b with ⟨segs, pre, e, _ | ⟨⟨n, i⟩, cs⟩⟩
  · exact .bind .free fun l => .pure
  cases n with
  | empty => exact .free
  | focusMark => exact ih _ ⟨segs, pre, e, cs⟩
  | textual t => exact .bind .free fun b => ih _ _
  | endOfLine => exact ih _ ⟨segs, pre, true, cs⟩
  | newline ind => exact .free
  | child j c =>
    exact .bind (chunkNew_er _) fun c => .bind (expandLast_er _ ⟨segs, pre, e, cs⟩ _) fun r => ih _ _
  | concat x y => exact .free
  | choice x y =>
    exact .bind (choose_er w ⟨segs, pre, e, cs⟩ _ _) fun c =>
      .bind (expandLast_er _ ⟨segs, pre, e, cs⟩ _) fun r => ih _ _

theorem printNextLine_er (p : Printer P) : Er p.printNextLineC p.printNextLine := by
  unfold Printer.printNextLine Printer.printNextLineC
  refine .tick ?_
  rcases p with ⟨w, prev, _ | ⟨b, next⟩⟩
  · exact .pure
  · exact .bind (printNextLoop_er w next b) fun r => .pure

theorem printPrevLine_er (p : Printer P) : Er p.printPrevLineC p.printPrevLine := by
  unfold Printer.printPrevLine Printer.printPrevLineC
  refine .tick ?_
  rcases p with ⟨w, _ | ⟨b, prev⟩, next⟩
  · exact .pure
  · exact .bind (printPrevLoop_er w prev b) fun r => .pure

theorem seekEnd_er (p : Printer P) (c : Chunk P) : Er (p.seekEndC c) (p.seekEnd c) := by
  have H : ∀ (w k : Nat) (prev : List (Block P)) (b : Block P),
      Er (seekEndLoopC w k prev b) (seekEndLoop w k prev b) := by
    intro w k
    apply seekEndLoopC.fixpoint_induct
      (motive := fun f => ∀ prev b, Er (f prev b) (seekEndLoop w k prev b))
    · exact Er.adm2 _
    intro f ih prev b
    rw [seekEndLoop.eq_def]
    refine .tick ?_
    by_cases hk : b.chunks.length > k
    rotate_left
    · simp only [hk, if_false]
      exact .pure
    simp only [hk, if_true]
    rcases b with ⟨segs, pre, e, _ | ⟨⟨n, i⟩, cs⟩⟩
    · exact .free
    cases n with
    | empty => exact .free
    | focusMark => exact ih _ ⟨segs, pre, e, cs⟩
    | textual t => exact .bind .free fun b => ih _ _
    | endOfLine => exact ih _ ⟨segs, pre, true, cs⟩
    | newline ind => exact .free
    | child j c =>
      exact .bind (chunkNew_er _) fun c => .bind (expandLast_er _ ⟨segs, pre, e, cs⟩ _) fun r => ih _ _
    | concat x y => exact .free
    | choice x y =>
      exact .bind (choose_er w ⟨segs, pre, e, cs⟩ _ _) fun c =>
        .bind (expandLast_er _ ⟨segs, pre, e, cs⟩ _) fun r => ih _ _
  unfold Printer.seekEnd Printer.seekEndC
  rcases p with ⟨w, prev, _ | ⟨b, next⟩⟩
  · exact .free
  · exact .bind (expandLast_er _ _ _) fun r => .bind (H _ _ _ _) fun r => .pure

theorem seekStart_er (p : Printer P) (c : Chunk P) : Er (p.seekStartC c) (p.seekStart c) := by
  unfold Printer.seekStart Printer.seekStartC
  rcases p with ⟨w, prev, _ | ⟨b, next⟩⟩
  · exact .free
  · exact .bind (expandFirst_er _ _ _) fun r => .pure

theorem seekMark_er (p : Printer P) (c : Chunk P) : Er (p.seekMarkC c) (p.seekMark c) := by
  have H : ∀ (w : Nat) (id : P.Id) (prev next : List (Block P)) (cur : Option (Block P)),
      Er (seekMarkLoopC w id prev next cur) (seekMarkLoop w id prev next cur) := by
    intro w id
    apply seekMarkLoopC.fixpoint_induct
      (motive := fun f => ∀ prev next cur, Er (f prev next cur) (seekMarkLoop w id prev next cur))
    · exact Er.adm3 _
    intro f ih prev next cur
    rw [seekMarkLoop.eq_def]
    refine .tick ?_
    match cur with
    | none =>
      match next with
      | [] => exact .free
      | b :: next => exact ih _ _ (some b)
    | some ⟨segs, pre, e, []⟩ => exact ih (⟨segs, pre, e, []⟩ :: prev) next none
    | some ⟨segs, pre, e, ⟨n, i⟩ :: cs⟩ =>
      cases n with
      | empty => exact .free
      | focusMark =>
        by_cases hi : i = id
        · simp only [hi, if_true]
          exact .pure
        · simp only [hi, if_false]
          exact ih _ _ (some ⟨segs, pre, e, cs⟩)
      | textual t => exact .bind .free fun b => ih _ _ (some b)
      | endOfLine => exact ih _ _ (some ⟨segs, pre, true, cs⟩)
      | newline ind => exact .free
      | child j c =>
        exact .bind (chunkNew_er _) fun c => .bind (expandFirst_er _ ⟨segs, pre, e, cs⟩ _) fun r =>
          ih _ _ (some r.2)
      | concat x y => exact .free
      | choice x y =>
        exact .bind (choose_er w ⟨segs, pre, e, cs⟩ _ _) fun c =>
          .bind (expandFirst_er _ ⟨segs, pre, e, cs⟩ _) fun r => ih _ _ (some r.2)
  unfold Printer.seekMark Printer.seekMarkC
  rcases p with ⟨w, prev, _ | ⟨b, next⟩⟩
  · exact .free
  · exact .bind (expandFirst_er _ _ _) fun r => .bind (H w c.id prev (r.2 :: r.1) none) fun r => .pure

theorem seekText_er (p : Printer P) (c : Chunk P) (pos : Nat) : Er (p.seekTextC c pos) (p.seekText c pos) := by
  have H : ∀ (w : Nat) (prev next : List (Block P)) (cur : Option (Block P)),
      Er (seekTextLoopC w pos prev next cur) (seekTextLoop w pos prev next cur) := by
    intro w
    apply seekTextLoopC.fixpoint_induct
      (motive := fun f => ∀ prev next cur, Er (f prev next cur) (seekTextLoop w pos prev next cur))
    · exact Er.adm3 _
    intro f ih prev next cur
    rw [seekTextLoop.eq_def]
    refine .tick ?_
    match cur with
    | none =>
      match next with
      | [] => exact .free
      | b :: next => exact ih _ _ (some b)
    | some ⟨segs, pre, e, []⟩ => exact ih (⟨segs, pre, e, []⟩ :: prev) next none
    | some ⟨segs, pre, e, ⟨n, i⟩ :: cs⟩ =>
      cases n with
      | empty => exact .free
      | focusMark => exact ih _ _ (some ⟨segs, pre, e, cs⟩)
      | textual t =>
        rcases t with ⟨str, tw, st, _ | _⟩
        · exact .bind .free fun b => ih _ _ (some b)
        · exact .bind .free fun b => .pure
      | endOfLine => exact ih _ _ (some ⟨segs, pre, true, cs⟩)
      | newline ind => exact .free
      | child j c =>
        exact .bind (chunkNew_er _) fun c => .bind (expandFirst_er _ ⟨segs, pre, e, cs⟩ _) fun r =>
          ih _ _ (some r.2)
      | concat x y => exact .free
      | choice x y =>
        exact .bind (choose_er w ⟨segs, pre, e, cs⟩ _ _) fun c =>
          .bind (expandFirst_er _ ⟨segs, pre, e, cs⟩ _) fun r => ih _ _ (some r.2)
  unfold Printer.seekText Printer.seekTextC
  rcases p with ⟨w, prev, _ | ⟨b, next⟩⟩
  · exact .free
  · exact .bind (expandFirst_er _ _ _) fun r => .bind (H w prev (r.2 :: r.1) none) fun r => .pure

theorem seekChildStep2_er (w : Nat) (id : P.Id) (j : Nat) (next : List (Block P)) (b : Block P) :
    Er (seekChildStep2C w id j next b) (seekChildStep2 w id j next b) := by
  revert b
  apply seekChildStep2C.fixpoint_induct
    (motive := fun f => ∀ b, Er (f b) (seekChildStep2 w id j next b))
  · exact Er.adm1 _
  intro f ih b
  rw [seekChildStep2.eq_def]
  refine .tick ?_
  rcases b with ⟨segs, pre, e, _ | ⟨⟨n, i⟩, cs⟩⟩
  · exact .pure
  cases n with
  | empty => exact .free
  | focusMark => exact ih ⟨segs, pre, e, cs⟩
  | textual t => exact .bind .free fun b => ih _
  | endOfLine => exact ih ⟨segs, pre, true, cs⟩
  | newline ind => exact .free
  | child k c =>
    by_cases hi : i = id ∧ k = j
    · simp only [hi, and_self, if_true]
      exact .bind (chunkNew_er _) fun c => .pure
    · simp only [hi, if_false]
      exact .bind (chunkNew_er _) fun c => .bind (expandFirst_er _ ⟨segs, pre, e, cs⟩ _) fun r => .pure
  | concat x y => exact .free
  | choice x y =>
    exact .bind (choose_er w ⟨segs, pre, e, cs⟩ _ _) fun c =>
      .bind (expandFirst_er _ ⟨segs, pre, e, cs⟩ _) fun r => .pure

theorem seekChildLoop_er (s w : Nat) (id : P.Id) (j : Nat) (prev next : List (Block P)) :
    Er (seekChildLoopC s w id j prev next) (seekChildLoop w id j prev next) := by
  revert prev next
  apply seekChildLoopC.fixpoint_induct
    (motive := fun f => ∀ prev next, Er (f prev next) (seekChildLoop w id j prev next))
  · exact Er.adm2 _
  intro f ih prev next
  rw [seekChildLoop.eq_def]
  refine .tick ?_
  try dsimp only
  match skipBlocks id j prev next with
  | (_, []) => exact .free
  | (prev, b :: next) =>
    refine .bind (seekChildStep2_er w id j next b) fun r => ?_
    cases r with
    | found next c => exact .pure
    | again next => exact ih _ _

theorem seekChild_er (s : Nat) (p : Printer P) (c : Chunk P) (j : Nat) :
    Er (p.seekChildC s c j) (p.seekChild c j) := by
  unfold Printer.seekChild Printer.seekChildC
  rcases p with ⟨w, prev, _ | ⟨b, next⟩⟩
  · exact .free
  · exact .bind (expandFirst_er _ _ _) fun r => .bind (seekChildLoop_er s w c.id j prev (r.2 :: r.1)) fun r =>
      .pure

theorem seekPath_er (s : Nat) (p : Printer P) (c : Chunk P) (path : List Nat) :
    Er (p.seekPathC s c path) (p.seekPath c path) := by
  induction path generalizing p c with
  | nil => exact .pure
  | cons j path ih => exact .tick (.bind (seekChild_er s p c j) fun r => ih r.1 r.2)

theorem seek_er (s : Nat) (p : Printer P) (doc : P.Node) (path : List Nat) (target : FocusTarget)
    (rs : Option P.Style) : Er (p.seekC s doc path target rs) (p.seek doc path target rs) := by
  refine .bind (withOptionalStyle_er doc rs) fun d => .bind (chunkNew_er d) fun c =>
    .bind (seekPath_er s p c path) fun r => ?_
  cases target with
  | start => exact seekStart_er _ _
  | «end» => exact seekEnd_er _ _
  | text pos => exact seekText_er _ _ pos
  | mark => exact seekMark_er _ _

theorem prettyPrint_er (s : Nat) (doc : P.Node) (w : Nat) (path : List Nat) (target : FocusTarget)
    (rs : Option P.Style) : Er (prettyPrintC s doc w path target rs) (prettyPrint doc w path target rs) := by
  unfold prettyPrint prettyPrintC
  refine .bind ?_ fun p => .bind (seek_er s p doc path target rs) fun p => ?_
  · exact .bind (blockNew_er [] []) fun b => .pure
  rcases p with ⟨w, prev, _ | ⟨b, next⟩⟩
  · exact .free
  refine .bind (printNextLine_er _) fun r => ?_
  rcases r with ⟨_ | l, p⟩
  · exact .free
  · dsimp only
    split
    · exact .free
    · exact .pure

theorem toStringLoop_er (s : String) (p : Printer P) : Er (toStringLoopC s p) (toStringLoop s p) := by
  revert s p
  apply toStringLoopC.fixpoint_induct (P := P)
    (motive := fun f => ∀ s p, Er (f s p) (toStringLoop s p))
  · exact Er.adm2 _
  intro f ih s p
  rw [toStringLoop.eq_def]
  refine .bind (printNextLine_er p) fun r => ?_
  rcases r with ⟨_ | l, p⟩
  · exact .pure
  · exact ih _ _

theorem prettyPrintToString_er (s : Nat) (doc : P.Node) (w : Nat) :
    Er (prettyPrintToStringC s doc w) (prettyPrintToString doc w) :=
  .bind (prettyPrint_er s doc w [] .start none) fun _ => toStringLoop_er _ _

/-! ### and conversely -/

theorem docToInspect_re (d : DCN P) (pos : CheckPos) : Re (d.docToInspectC pos) (d.docToInspect pos) := by
  unfold DCN.docToInspect DCN.docToInspectC
  cases pos with
  | here => exact .pure
  | child i =>
    refine .bind .call fun n => ?_
    cases n with
    | none => exact .free
    | some n =>
      dsimp only
      cases normalizeChildIndex i n with
      | none => exact .free
      | some j => exact .call
  | rightChild =>
    rcases d with ⟨_, _, _, _, _, _ | jp⟩
    · exact .free
    · exact .pure
  | leftChild =>
    rcases d with ⟨_, _, _, _, _, _ | ⟨p, c, _ | k, _, _⟩⟩
    · exact .free
    · exact .free
    · exact .call

theorem withOptionalStyle_re (doc : P.Node) (style : Option P.Style) :
    Re (DCN.withOptionalStyleC doc style) (DCN.withOptionalStyle doc style) := by
  unfold DCN.withOptionalStyle DCN.withOptionalStyleC
  exact .bind .call fun a => .bind .call fun s => .pure

theorem eval_re (d : DCN P) : Re d.evalC d.eval := by
  revert d
  apply DCN.eval.fixpoint_induct (motive := fun f => ∀ d, Re (DCN.evalC d) (f d))
  · exact Re.adm1 _
  intro eval ih d
  rw [DCN.evalC.eq_def]
  refine .tick ?_
  rcases d with ⟨notn, doc, flat, indent, style, jp⟩
  cases notn with
  | empty => exact .pure
  | endOfLine => exact .pure
  | newline => exact .pure
  | literal s => exact .pure
  | text =>
    refine .bind .call fun n => ?_
    cases n with
    | some n => exact .free
    | none => exact .bind .call fun t => .pure
  | flat n => exact ih _
  | indent pre label n =>
    cases label with
    | none => exact .bind .pure fun _ => ih _
    | some l => exact .bind .call fun s => .bind .pure fun _ => ih _
  | concat a b => exact .pure
  | choice a b =>
    cases flat with
    | true => exact ih _
    | false => exact .pure
  | check cond pos a b =>
    refine .bind (docToInspect_re _ _) fun n => .bind .call fun b => ?_
    cases b
    · exact ih _
    · exact ih _
  | child i =>
    refine .bind .call fun n => ?_
    cases n with
    | none => exact .free
    | some n =>
      dsimp only
      cases normalizeChildIndex i n with
      | none => exact .free
      | some j => exact .bind .call fun c => .bind .call fun a => .bind .call fun s => .pure
  | style l n => exact .bind .call fun s => ih _
  | focusMark => exact .pure
  | count zero one many =>
    refine .bind .call fun n => ?_
    match n with
    | none => exact .free
    | some 0 => exact ih _
    | some 1 => exact ih _
    | some (n + 2) => exact ih _
  | fold first join =>
    refine .bind .call fun n => ?_
    match n with
    | none => exact .free
    | some 0 => exact .pure
    | some 1 => exact ih _
    | some (n + 2) => exact .bind .call fun c => ih _
  | left =>
    rcases jp with _ | ⟨p, c, i, f, j⟩
    · exact .free
    · match i with
      | 0 => exact .free
      | 1 => exact ih _
      | k + 2 => exact .bind .call fun c => ih _
  | right =>
    rcases jp with _ | ⟨p, c, i, f, j⟩
    · exact .free
    · exact .bind .call fun a => .bind .call fun s => .pure

theorem chunkNew_re (d : DCN P) : Re (Chunk.newC d) (Chunk.new d) :=
  .bind .call fun _ => .bind (eval_re _) fun _ => .pure

theorem blockNew_re (ind : Indent P) (chunks : List (Chunk P)) :
    Re (Block.newC ind chunks) (Block.new ind chunks) := .tick .free

theorem fitsLoop_re (next : List (Chunk P)) (rem : Nat) (ns : List (CN P)) (eol : Bool) :
    Re (fitsLoopC next rem ns eol) (fitsLoop next rem ns eol) := by
  revert next rem ns eol
  apply fitsLoop.fixpoint_induct (P := P)
    (motive := fun f => ∀ next rem ns eol, Re (fitsLoopC next rem ns eol) (f next rem ns eol))
  · exact Re.adm4 _
  intro f ih next rem ns eol
  rw [fitsLoopC.eq_def]
  refine .tick ?_
  match ns with
  | [] =>
    match next with
    | [] => exact .pure
    | c :: more => exact ih _ _ [c.notn] _
  | n :: ns =>
    cases n with
    | empty => exact ih _ _ _ _
    | focusMark => exact ih _ _ _ _
    | textual t =>
      cases eol
      · simp only [Bool.false_eq_true, if_false]
        split
        · exact ih _ _ _ _
        · exact .pure
      · exact .pure
    | endOfLine => exact ih _ _ _ _
    | newline i => exact .pure
    | child i c => exact .bind (eval_re _) fun n => ih _ _ (n :: ns) _
    | concat a b =>
      exact .bind (eval_re _) fun n2 => .bind (eval_re _) fun n1 => ih _ _ (n1 :: n2 :: ns) _
    | choice a b => exact .bind (eval_re _) fun n => ih _ _ (n :: ns) _

theorem choose_re (w : Nat) (b : Block P) (o1 o2 : DCN P) :
    Re (chooseC w b o1 o2) (choose w b o1 o2) := by
  unfold choose chooseC
  refine .bind (chunkNew_re _) fun c1 => ?_
  split
  · refine .bind (fitsLoop_re b.chunks _ [c1.notn] _) fun f => ?_
    cases f
    · exact chunkNew_re _
    · exact .pure
  · exact chunkNew_re _

theorem expandFirst_re (next : List (Block P)) (b : Block P) (c : Chunk P) :
    Re (expandFirstC next b c) (expandFirst next b c) := by
  suffices H : ∀ (next : List (Block P)) (b : Block P) (st : List (Chunk P)),
      Re (expandFirstLoopC next b st) (expandFirstLoop next b st) from H next b [c]
  apply expandFirstLoop.fixpoint_induct
    (motive := fun f => ∀ next b st, Re (expandFirstLoopC next b st) (f next b st))
  · exact Re.adm3 _
  intro f ih next b st
  rw [expandFirstLoopC.eq_def]
  refine .tick ?_
  match st with
  | [] => exact .pure
  | ⟨n, i⟩ :: st =>
    cases n with
    | empty => exact ih _ _ _
    | focusMark => exact ih _ { b with chunks := _ :: b.chunks } _
    | textual t => exact ih _ { b with chunks := _ :: b.chunks } _
    | endOfLine => exact ih _ { b with chunks := _ :: b.chunks } _
    | newline ind => exact .bind (blockNew_re _ _) fun nb => ih (nb :: next) { b with chunks := [] } _
    | child j c => exact ih _ { b with chunks := _ :: b.chunks } _
    | concat x y =>
      exact .bind (chunkNew_re _) fun l => .bind (chunkNew_re _) fun r => ih _ _ (r :: l :: st)
    | choice x y => exact ih _ { b with chunks := _ :: b.chunks } _

theorem expandLast_re (prev : List (Block P)) (b : Block P) (c : Chunk P) :
    Re (expandLastC prev b c) (expandLast prev b c) := by
  suffices H : ∀ (prev : List (Block P)) (b : Block P) (cs st : List (Chunk P)),
      Re (expandLastLoopC prev b cs st) (expandLastLoop prev b cs st) from H prev b [] [c]
  apply expandLastLoop.fixpoint_induct
    (motive := fun f => ∀ prev b cs st, Re (expandLastLoopC prev b cs st) (f prev b cs st))
  · exact Re.adm4 _
  intro f ih prev b cs st
  rw [expandLastLoopC.eq_def]
  refine .tick ?_
  match st with
  | [] => exact .tick .pure
  | ⟨n, i⟩ :: st =>
    cases n with
    | empty => exact ih _ _ _ _
    | focusMark => exact ih _ _ (_ :: cs) _
    | textual t => exact ih _ _ (_ :: cs) _
    | endOfLine => exact ih _ _ (_ :: cs) _
    | newline ind => exact .tick (.bind (blockNew_re ind b.chunks) fun nb => ih _ _ _ _)
    | child j c => exact ih _ _ (_ :: cs) _
    | concat x y =>
      exact .bind (chunkNew_re _) fun l => .bind (chunkNew_re _) fun r => ih _ _ _ (r :: l :: st)
    | choice x y => exact ih _ _ (_ :: cs) _

theorem printNextLoop_re (w : Nat) (next : List (Block P)) (b : Block P) :
    Re (printNextLoopC w next b) (printNextLoop w next b) := by
  revert next b
  apply printNextLoop.fixpoint_induct
    (motive := fun f => ∀ next b, Re (printNextLoopC w next b) (f next b))
  · exact Re.adm2 _
  intro f ih next b
  rw [printNextLoopC.eq_def]
  refine .tick ?_
  rcases b with ⟨segs, pre, e, _ | ⟨⟨n, i⟩, cs⟩⟩
  · exact .bind .free fun l => .pure
  cases n with
  | empty => exact .free
  | focusMark => exact ih _ ⟨segs, pre, e, cs⟩
  | textual t => exact .bind .free fun b => ih _ _
  | endOfLine => exact ih _ ⟨segs, pre, true, cs⟩
  | newline ind => exact .free
  | child j c =>
    exact .bind (chunkNew_re _) fun c => .bind (expandFirst_re _ ⟨segs, pre, e, cs⟩ _) fun r => ih _ _
  | concat x y => exact .free
  | choice x y =>
    exact .bind (choose_re w ⟨segs, pre, e, cs⟩ _ _) fun c =>
      .bind (expandFirst_re _ ⟨segs, pre, e, cs⟩ _) fun r => ih _ _

theorem printPrevLoop_re (w : Nat) (prev : List (Block P)) (b : Block P) :
    Re (printPrevLoopC w prev b) (printPrevLoop w prev b) := by
  revert prev b
  apply printPrevLoop.fixpoint_induct
    (motive := fun f => ∀ prev b, Re (printPrevLoopC w prev b) (f prev b))
  · exact Re.adm2 _
  intro f ih prev b
  rw [printPrevLoopC.eq_def]
  refine .tick ?_
  rcases b with ⟨segs, pre, e, _ | ⟨⟨n, i⟩, cs⟩⟩
  · exact .bind .free fun l => .pure
  cases n with
  | empty => exact .free
  | focusMark => exact ih _ ⟨segs, pre, e, cs⟩
  | textual t => exact .bind .free fun b => ih _ _
  | endOfLine => exact ih _ ⟨segs, pre, true, cs⟩
  | newline ind => exact .free
  | child j c =>
    exact .bind (chunkNew_re _) fun c => .bind (expandLast_re _ ⟨segs, pre, e, cs⟩ _) fun r => ih _ _
  | concat x y => exact .free
  | choice x y =>
    exact .bind (choose_re w ⟨segs, pre, e, cs⟩ _ _) fun c =>
      .bind (expandLast_re _ ⟨segs, pre, e, cs⟩ _) fun r => ih _ _

theorem printNextLine_re (p : Printer P) : Re p.printNextLineC p.printNextLine := by
  unfold Printer.printNextLine Printer.printNextLineC
  refine .tick ?_
  rcases p with ⟨w, prev, _ | ⟨b, next⟩⟩
  · exact .pure
  · exact .bind (printNextLoop_re w next b) fun r => .pure

theorem printPrevLine_re (p : Printer P) : Re p.printPrevLineC p.printPrevLine := by
  unfold Printer.printPrevLine Printer.printPrevLineC
  refine .tick ?_
  rcases p with ⟨w, _ | ⟨b, prev⟩, next⟩
  · exact .pure
  · exact .bind (printPrevLoop_re w prev b) fun r => .pure

theorem seekEnd_re (p : Printer P) (c : Chunk P) : Re (p.seekEndC c) (p.seekEnd c) := by
  have H : ∀ (w k : Nat) (prev : List (Block P)) (b : Block P),
      Re (seekEndLoopC w k prev b) (seekEndLoop w k prev b) := by
    intro w k
    apply seekEndLoop.fixpoint_induct
      (motive := fun f => ∀ prev b, Re (seekEndLoopC w k prev b) (f prev b))
    · exact Re.adm2 _
    intro f ih prev b
    rw [seekEndLoopC.eq_def]
    refine .tick ?_
    by_cases hk : b.chunks.length > k
    rotate_left
    · simp only [hk, if_false]
      exact .pure
    simp only [hk, if_true]
    rcases b with ⟨segs, pre, e, _ | ⟨⟨n, i⟩, cs⟩⟩
    · exact .free
    cases n with
    | empty => exact .free
    | focusMark => exact ih _ ⟨segs, pre, e, cs⟩
    | textual t => exact .bind .free fun b => ih _ _
    | endOfLine => exact ih _ ⟨segs, pre, true, cs⟩
    | newline ind => exact .free
    | child j c =>
      exact .bind (chunkNew_re _) fun c => .bind (expandLast_re _ ⟨segs, pre, e, cs⟩ _) fun r => ih _ _
    | concat x y => exact .free
    | choice x y =>
      exact .bind (choose_re w ⟨segs, pre, e, cs⟩ _ _) fun c =>
        .bind (expandLast_re _ ⟨segs, pre, e, cs⟩ _) fun r => ih _ _
  unfold Printer.seekEnd Printer.seekEndC
  rcases p with ⟨w, prev, _ | ⟨b, next⟩⟩
  · exact .free
  · exact .bind (expandLast_re _ _ _) fun r => .bind (H _ _ _ _) fun r => .pure

theorem seekStart_re (p : Printer P) (c : Chunk P) : Re (p.seekStartC c) (p.seekStart c) := by
  unfold Printer.seekStart Printer.seekStartC
  rcases p with ⟨w, prev, _ | ⟨b, next⟩⟩
  · exact .free
  · exact .bind (expandFirst_re _ _ _) fun r => .pure

theorem seekMark_re (p : Printer P) (c : Chunk P) : Re (p.seekMarkC c) (p.seekMark c) := by
  have H : ∀ (w : Nat) (id : P.Id) (prev next : List (Block P)) (cur : Option (Block P)),
      Re (seekMarkLoopC w id prev next cur) (seekMarkLoop w id prev next cur) := by
    intro w id
    apply seekMarkLoop.fixpoint_induct
      (motive := fun f => ∀ prev next cur, Re (seekMarkLoopC w id prev next cur) (f prev next cur))
    · exact Re.adm3 _
    intro f ih prev next cur
    rw [seekMarkLoopC.eq_def]
    refine .tick ?_
    match cur with
    | none =>
      match next with
      | [] => exact .free
      | b :: next => exact ih _ _ (some b)
    | some ⟨segs, pre, e, []⟩ => exact ih (⟨segs, pre, e, []⟩ :: prev) next none
    | some ⟨segs, pre, e, ⟨n, i⟩ :: cs⟩ =>
      cases n with
      | empty => exact .free
      | focusMark =>
        by_cases hi : i = id
        · simp only [hi, if_true]
          exact .pure
        · simp only [hi, if_false]
          exact ih _ _ (some ⟨segs, pre, e, cs⟩)
      | textual t => exact .bind .free fun b => ih _ _ (some b)
      | endOfLine => exact ih _ _ (some ⟨segs, pre, true, cs⟩)
      | newline ind => exact .free
      | child j c =>
        exact .bind (chunkNew_re _) fun c => .bind (expandFirst_re _ ⟨segs, pre, e, cs⟩ _) fun r =>
          ih _ _ (some r.2)
      | concat x y => exact .free
      | choice x y =>
        exact .bind (choose_re w ⟨segs, pre, e, cs⟩ _ _) fun c =>
          .bind (expandFirst_re _ ⟨segs, pre, e, cs⟩ _) fun r => ih _ _ (some r.2)
  unfold Printer.seekMark Printer.seekMarkC
  rcases p with ⟨w, prev, _ | ⟨b, next⟩⟩
  · exact .free
  · exact .bind (expandFirst_re _ _ _) fun r => .bind (H w c.id prev (r.2 :: r.1) none) fun r => .pure

theorem seekText_re (p : Printer P) (c : Chunk P) (pos : Nat) : Re (p.seekTextC c pos) (p.seekText c pos) := by
  have H : ∀ (w : Nat) (prev next : List (Block P)) (cur : Option (Block P)),
      Re (seekTextLoopC w pos prev next cur) (seekTextLoop w pos prev next cur) := by
    intro w
    apply seekTextLoop.fixpoint_induct
      (motive := fun f => ∀ prev next cur, Re (seekTextLoopC w pos prev next cur) (f prev next cur))
    · exact Re.adm3 _
    intro f ih prev next cur
    rw [seekTextLoopC.eq_def]
    refine .tick ?_
    match cur with
    | none =>
      match next with
      | [] => exact .free
      | b :: next => exact ih _ _ (some b)
    | some ⟨segs, pre, e, []⟩ => exact ih (⟨segs, pre, e, []⟩ :: prev) next none
    | some ⟨segs, pre, e, ⟨n, i⟩ :: cs⟩ =>
      cases n with
      | empty => exact .free
      | focusMark => exact ih _ _ (some ⟨segs, pre, e, cs⟩)
      | textual t =>
        rcases t with ⟨str, tw, st, _ | _⟩
        · exact .bind .free fun b => ih _ _ (some b)
        · exact .bind .free fun b => .pure
      | endOfLine => exact ih _ _ (some ⟨segs, pre, true, cs⟩)
      | newline ind => exact .free
      | child j c =>
        exact .bind (chunkNew_re _) fun c => .bind (expandFirst_re _ ⟨segs, pre, e, cs⟩ _) fun r =>
          ih _ _ (some r.2)
      | concat x y => exact .free
      | choice x y =>
        exact .bind (choose_re w ⟨segs, pre, e, cs⟩ _ _) fun c =>
          .bind (expandFirst_re _ ⟨segs, pre, e, cs⟩ _) fun r => ih _ _ (some r.2)
  unfold Printer.seekText Printer.seekTextC
  rcases p with ⟨w, prev, _ | ⟨b, next⟩⟩
  · exact .free
  · exact .bind (expandFirst_re _ _ _) fun r => .bind (H w prev (r.2 :: r.1) none) fun r => .pure

theorem seekChildStep2_re (w : Nat) (id : P.Id) (j : Nat) (next : List (Block P)) (b : Block P) :
    Re (seekChildStep2C w id j next b) (seekChildStep2 w id j next b) := by
  revert b
  apply seekChildStep2.fixpoint_induct
    (motive := fun f => ∀ b, Re (seekChildStep2C w id j next b) (f b))
  · exact Re.adm1 _
  intro f ih b
  rw [seekChildStep2C.eq_def]
  refine .tick ?_
  rcases b with ⟨segs, pre, e, _ | ⟨⟨n, i⟩, cs⟩⟩
  · exact .pure
  cases n with
  | empty => exact .free
  | focusMark => exact ih ⟨segs, pre, e, cs⟩
  | textual t => exact .bind .free fun b => ih _
  | endOfLine => exact ih ⟨segs, pre, true, cs⟩
  | newline ind => exact .free
  | child k c =>
    by_cases hi : i = id ∧ k = j
    · simp only [hi, and_self, if_true]
      exact .bind (chunkNew_re _) fun c => .pure
    · simp only [hi, if_false]
      exact .bind (chunkNew_re _) fun c => .bind (expandFirst_re _ ⟨segs, pre, e, cs⟩ _) fun r => .pure
  | concat x y => exact .free
  | choice x y =>
    exact .bind (choose_re w ⟨segs, pre, e, cs⟩ _ _) fun c =>
      .bind (expandFirst_re _ ⟨segs, pre, e, cs⟩ _) fun r => .pure

theorem seekChildLoop_re (s w : Nat) (id : P.Id) (j : Nat) (prev next : List (Block P)) :
    Re (seekChildLoopC s w id j prev next) (seekChildLoop w id j prev next) := by
  revert prev next
  apply seekChildLoop.fixpoint_induct
    (motive := fun f => ∀ prev next, Re (seekChildLoopC s w id j prev next) (f prev next))
  · exact Re.adm2 _
  intro f ih prev next
  rw [seekChildLoopC.eq_def]
  refine .tick ?_
  try dsimp only
  match skipBlocks id j prev next with
  | (_, []) => exact .free
  | (prev, b :: next) =>
    refine .bind (seekChildStep2_re w id j next b) fun r => ?_
    cases r with
    | found next c => exact .pure
    | again next => exact ih _ _

theorem seekChild_re (s : Nat) (p : Printer P) (c : Chunk P) (j : Nat) :
    Re (p.seekChildC s c j) (p.seekChild c j) := by
  unfold Printer.seekChild Printer.seekChildC
  rcases p with ⟨w, prev, _ | ⟨b, next⟩⟩
  · exact .free
  · exact .bind (expandFirst_re _ _ _) fun r => .bind (seekChildLoop_re s w c.id j prev (r.2 :: r.1)) fun r =>
      .pure

theorem seekPath_re (s : Nat) (p : Printer P) (c : Chunk P) (path : List Nat) :
    Re (p.seekPathC s c path) (p.seekPath c path) := by
  induction path generalizing p c with
  | nil => exact .pure
  | cons j path ih => exact .tick (.bind (seekChild_re s p c j) fun r => ih r.1 r.2)

theorem seek_re (s : Nat) (p : Printer P) (doc : P.Node) (path : List Nat) (target : FocusTarget)
    (rs : Option P.Style) : Re (p.seekC s doc path target rs) (p.seek doc path target rs) := by
  refine .bind (withOptionalStyle_re doc rs) fun d => .bind (chunkNew_re d) fun c =>
    .bind (seekPath_re s p c path) fun r => ?_
  cases target with
  | start => exact seekStart_re _ _
  | «end» => exact seekEnd_re _ _
  | text pos => exact seekText_re _ _ pos
  | mark => exact seekMark_re _ _

theorem prettyPrint_re (s : Nat) (doc : P.Node) (w : Nat) (path : List Nat) (target : FocusTarget)
    (rs : Option P.Style) : Re (prettyPrintC s doc w path target rs) (prettyPrint doc w path target rs) := by
  unfold prettyPrint prettyPrintC
  refine .bind ?_ fun p => .bind (seek_re s p doc path target rs) fun p => ?_
  · exact .bind (blockNew_re [] []) fun b => .pure
  rcases p with ⟨w, prev, _ | ⟨b, next⟩⟩
  · exact .free
  refine .bind (printNextLine_re _) fun r => ?_
  rcases r with ⟨_ | l, p⟩
  · exact .free
  · dsimp only
    split
    · exact .free
    · exact .pure

theorem toStringLoop_re (s : String) (p : Printer P) : Re (toStringLoopC s p) (toStringLoop s p) := by
  revert s p
  apply toStringLoop.fixpoint_induct (P := P)
    (motive := fun f => ∀ s p, Re (toStringLoopC s p) (f s p))
  · exact Re.adm2 _
  intro f ih s p
  rw [toStringLoopC.eq_def]
  refine .bind (printNextLine_re p) fun r => ?_
  rcases r with ⟨_ | l, p⟩
  · exact .pure
  · exact ih _ _

theorem prettyPrintToString_re (s : Nat) (doc : P.Node) (w : Nat) :
    Re (prettyPrintToStringC s doc w) (prettyPrintToString doc w) :=
  .bind (prettyPrint_re s doc w [] .start none) fun _ => toStringLoop_re _ _

/-- The two directions together. -/
theorem result_eq {E α : Type} {x : Counted E α} {y : Exec E α} (h : Er x y) (h' : Re x y) : x.result = y := by
  apply ExceptT.ext
  match hx : y.run with
  | some r => exact h' r hx
  | none =>
    match hy : x.result.run with
    | none => rfl
    | some r => rw [h r hy] at hx; cases hx

end PPP
