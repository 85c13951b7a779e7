import Verif.Proofs.Denote
import Verif.Proofs.Depth
import Verif.Props.Choices
import Verif.Spec.View
/-
Printing documents without choices at different widths.
-/
namespace PPP
namespace Wd
open Lean.Order
variable {P : PrettyDoc}

/-- If `x` succeeds with `a`, then `y` succeeds with `φ a`, and `a` satisfies `G`.  If `x` fails, so does `y`, in
    the same way. -/
def Sw {E α β : Type} (φ : α → β) (G : α → Prop) (x : Exec E α) (y : Exec E β) : Prop :=
  (∀ a, x.run = some (.ok a) → y.run = some (.ok (φ a)) ∧ G a) ∧
  ∀ f, x.run = some (.error f) → y.run = some (.error f)

section
variable {E α β γ δ : Type} {φ : α → β} {G : α → Prop}

theorem Sw.self {x : Exec E α} (h : ∀ a, x.run = some (.ok a) → G a) : Sw id G x x :=
  ⟨fun a ha => ⟨ha, h a ha⟩, fun _ h => h⟩

theorem Sw.pure {a : α} (h : G a) : Sw φ G (Pure.pure a : Exec E α) (Pure.pure (φ a)) := by
  refine ⟨fun c hc => ?_, fun f hf => ?_⟩
  · have hc : (some (.ok a) : Option (Except (Fail E) α)) = some (.ok c) := hc
    cases hc
    exact ⟨rfl, h⟩
  · have hf : (some (.ok a) : Option (Except (Fail E) α)) = some (.error f) := hf
    cases hf

theorem Sw.error {f : Fail E} : Sw φ G (Exec.ofRes (.error f)) (Exec.ofRes (.error f)) := by
  refine ⟨fun b hb => ?_, fun f' hf => ?_⟩
  · have hb : (some (.error f) : Option (Except (Fail E) α)) = some (.ok b) := hb
    cases hb
  · have hf : (some (.error f) : Option (Except (Fail E) α)) = some (.error f') := hf
    cases hf
    rfl

theorem Sw.throwErr {f : PrintingError E} : Sw φ G (PPP.throwErr f : Exec E α) (PPP.throwErr f) := .error
theorem Sw.panicking : Sw φ G (PPP.panicking : Exec E α) PPP.panicking := .error
theorem Sw.overflowing : Sw φ G (PPP.overflowing : Exec E α) PPP.overflowing := .error

theorem Sw.bind {H : γ → Prop} {ψ : γ → δ} {x : Exec E α} {y : Exec E β} {f : α → Exec E γ} {g : β → Exec E δ}
    (h : Sw φ G x y) (hf : ∀ a, G a → Sw ψ H (f a) (g (φ a))) : Sw ψ H (x >>= f) (y >>= g) := by
  refine ⟨?_, ?_⟩
  · intro r hr
    rw [Exec.run_bind] at hr ⊢
    match hx : x.run with
    | none => rw [hx] at hr; exact absurd hr (by simp)
    | some (.error e) => rw [hx] at hr; exact absurd hr (by simp)
    | some (.ok a) =>
      rw [(h.1 a hx).1]
      exact (hf a (h.1 a hx).2).1 r (by rw [hx] at hr; exact hr)
  · intro e hr
    rw [Exec.run_bind] at hr ⊢
    match hx : x.run with
    | none => rw [hx] at hr; exact absurd hr (by simp)
    | some (.error e') =>
      rw [hx] at hr
      cases hr
      rw [h.2 e hx]
    | some (.ok a) =>
      rw [(h.1 a hx).1]
      exact (hf a (h.1 a hx).2).2 e (by rw [hx] at hr; exact hr)

theorem Sw.call {x : Call E α} : Sw _root_.id (fun _ => True) (PPP.call x) (PPP.call x) := .self fun _ _ => trivial

theorem Sw.adm0 (φ : α → β) (G : α → Prop) (y : Exec E β) : admissible fun x : Exec E α => Sw φ G x y := by
  have : (fun x : Exec E α => Sw φ G x y) = fun x : Exec E α =>
      (∀ a, x.run = some (.ok a) → (y.run = some (.ok (φ a)) ∧ G a)) ∧
        ∀ f, x.run = some (.error f) → y.run = some (.error f) :=
    rfl
  apply admissible_and
  · apply admissible_pi
    intro a
    exact Option.admissible_eq_some _ _
  · apply admissible_pi
    intro f
    exact Option.admissible_eq_some _ _

theorem Sw.adm1 {A : Type} (Q : A → Prop) (φ : α → β) (G : α → Prop) (y : A → Exec E β) :
    admissible fun f : A → Exec E α => ∀ a, Q a → Sw φ G (f a) (y a) :=
  admissible_pi_apply (fun a (x : Exec E α) => Q a → Sw φ G x (y a)) fun _ => admissible_pi _ fun _ => Sw.adm0 _ _ _
theorem Sw.adm2 {A B : Type} (Q : A → B → Prop) (φ : α → β) (G : α → Prop) (y : A → B → Exec E β) :
    admissible fun f : A → B → Exec E α => ∀ a b, Q a b → Sw φ G (f a b) (y a b) :=
  admissible_pi_apply (fun a (x : B → Exec E α) => ∀ b, Q a b → Sw φ G (x b) (y a b)) fun _ => Sw.adm1 _ _ _ _
theorem Sw.adm3 {A B C : Type} (Q : A → B → C → Prop) (φ : α → β) (G : α → Prop) (y : A → B → C → Exec E β) :
    admissible fun f : A → B → C → Exec E α => ∀ a b c, Q a b c → Sw φ G (f a b c) (y a b c) :=
  admissible_pi_apply (fun a (x : B → C → Exec E α) => ∀ b c, Q a b c → Sw φ G (x b c) (y a b c)) fun _ =>
    Sw.adm2 _ _ _ _
theorem Sw.adm4 {A B C D : Type} (Q : A → B → C → D → Prop) (φ : α → β) (G : α → Prop)
    (y : A → B → C → D → Exec E β) :
    admissible fun f : A → B → C → D → Exec E α => ∀ a b c d, Q a b c d → Sw φ G (f a b c d) (y a b c d) :=
  admissible_pi_apply (fun a (x : B → C → D → Exec E α) => ∀ b c d, Q a b c d → Sw φ G (x b c d) (y a b c d)) fun _ =>
    Sw.adm3 _ _ _ _

end

/-! ### What comes up -/

/-- All delayed notations in a consolidated notation are good; and so on. -/
def GoodN (good : DCN P → Prop) (n : CN P) : Prop := (∀ a b, n ≠ .choice a b) ∧ ∀ d ∈ n.parts, good d
@[inherit_doc GoodN]
def GoodC (good : DCN P → Prop) (c : Chunk P) : Prop := GoodN good c.notn
@[inherit_doc GoodN]
def GoodCs (good : DCN P → Prop) (cs : List (Chunk P)) : Prop := ∀ c ∈ cs, GoodC good c
@[inherit_doc GoodN]
def GoodB (good : DCN P → Prop) (b : Block P) : Prop := GoodCs good b.chunks
@[inherit_doc GoodN]
def GoodBs (good : DCN P → Prop) (bs : List (Block P)) : Prop := ∀ b ∈ bs, GoodB good b
@[inherit_doc GoodN]
def GoodP (good : DCN P → Prop) (p : Printer P) : Prop := GoodBs good p.prev ∧ GoodBs good p.next

variable {good : DCN P → Prop} {w' : Nat}

theorem GoodCs.nil : GoodCs good [] := nofun
theorem GoodCs.cons {c : Chunk P} {cs} (h : GoodC good c) (hs : GoodCs good cs) : GoodCs good (c :: cs) :=
  List.forall_mem_cons.2 ⟨h, hs⟩
theorem GoodCs.head {c : Chunk P} {cs} (h : GoodCs good (c :: cs)) : GoodC good c := (List.forall_mem_cons.1 h).1
theorem GoodCs.tail {c : Chunk P} {cs} (h : GoodCs good (c :: cs)) : GoodCs good cs := (List.forall_mem_cons.1 h).2
theorem GoodBs.nil : GoodBs good [] := nofun
theorem GoodBs.cons {b : Block P} {bs} (h : GoodB good b) (hs : GoodBs good bs) : GoodBs good (b :: bs) :=
  List.forall_mem_cons.2 ⟨h, hs⟩
theorem GoodBs.head {b : Block P} {bs} (h : GoodBs good (b :: bs)) : GoodB good b := (List.forall_mem_cons.1 h).1
theorem GoodBs.tail {b : Block P} {bs} (h : GoodBs good (b :: bs)) : GoodBs good bs := (List.forall_mem_cons.1 h).2

theorem GoodN.child {i} {c : DCN P} (h : GoodN good (.child i c)) : good c := h.2 c (by simp [CN.parts])
theorem GoodN.concat {a b : DCN P} (h : GoodN good (.concat a b)) : good a ∧ good b :=
  ⟨h.2 a (by simp [CN.parts]), h.2 b (by simp [CN.parts])⟩
theorem GoodN.no_choice {a b : DCN P} {q : Prop} (h : GoodN good (.choice a b)) : q := (h.1 a b rfl).elim

/-- Evaluating good notations gives no choices, and good parts. -/
def Plain (good : DCN P → Prop) : Prop := ∀ d cn, good d → d.eval.run = some (.ok cn) → GoodN good cn

/-- The printer with another width. -/
def setW (w' : Nat) (p : Printer P) : Printer P := { p with width := w' }
/-- What is returned along with the printer with another width. -/
def setW1 {α : Type} (w' : Nat) (r : Printer P × α) : Printer P × α := (setW w' r.1, r.2)
@[inherit_doc setW1]
def setW2 {α : Type} (w' : Nat) (r : α × Printer P) : α × Printer P := (r.1, setW w' r.2)
@[inherit_doc setW1]
def setWP (w' : Nat) (r : Printed P) : Printed P := { r with up := setW w' r.up, down := setW w' r.down }

/-! ### The printer -/

theorem chunkNew_sw (h : Plain good) {d : DCN P} (hd : good d) : Sw _root_.id (GoodC good) (Chunk.new d) (Chunk.new d) :=
  .bind .call fun _ _ => .bind (.self fun cn hc => h d cn hd hc) fun _ hn => .pure hn

theorem blockNew_sw {ind : Indent P} {cs : List (Chunk P)} (hc : GoodCs good cs) :
    Sw _root_.id (GoodB good) (Block.new ind cs) (Block.new ind cs) := by
  unfold Block.new
  dsimp only
  split
  · exact .pure hc
  · exact .overflowing

theorem pushText_sw {b : Block P} {t : Textual P} (hb : GoodB good b) :
    Sw _root_.id (GoodB good) (b.pushText t) (b.pushText t) := by
  unfold Block.pushText
  split
  · exact .throwErr
  · split
    · exact .pure hb
    · exact .overflowing

/-- Good pairs of blocks and a block. -/
def GoodPair (good : DCN P → Prop) (r : List (Block P) × Block P) : Prop := GoodBs good r.1 ∧ GoodB good r.2

theorem expandFirst_sw (h : Plain good) {next : List (Block P)} {b : Block P} {c : Chunk P} (hn : GoodBs good next)
    (hb : GoodB good b) (hc : GoodC good c) :
    Sw _root_.id (GoodPair good) (expandFirst next b c) (expandFirst next b c) := by
  suffices H : ∀ (next : List (Block P)) (b : Block P) (st : List (Chunk P)),
      (GoodBs good next ∧ GoodB good b ∧ GoodCs good st) →
      Sw _root_.id (GoodPair good) (expandFirstLoop next b st) (expandFirstLoop next b st) from
    H next b [c] ⟨hn, hb, .cons hc .nil⟩
  clear hn hb hc
  apply expandFirstLoop.fixpoint_induct (motive := fun f => ∀ (next : List (Block P)) (b : Block P) (st : List (Chunk P)),
      (GoodBs good next ∧ GoodB good b ∧ GoodCs good st) →
      Sw _root_.id (GoodPair good) (f next b st) (expandFirstLoop next b st))
  · exact Sw.adm3 (fun next b st => GoodBs good next ∧ GoodB good b ∧ GoodCs good st) _ _ _
  intro f ih next b st ⟨hn, hb, hst⟩
  rw [expandFirstLoop.eq_def]
  match st with
  | [] => exact .pure ⟨hn, hb⟩
  | ⟨n, i⟩ :: st =>
    have hc := hst.head
    replace hst := hst.tail
    cases n with
    | empty => exact ih _ _ _ ⟨hn, hb, hst⟩
    | focusMark => exact ih _ _ _ ⟨hn, .cons hc hb, hst⟩
    | textual t => exact ih _ _ _ ⟨hn, .cons hc hb, hst⟩
    | endOfLine => exact ih _ _ _ ⟨hn, .cons hc hb, hst⟩
    | newline ind => exact .bind (blockNew_sw hb) fun nb hnb => ih _ _ _ ⟨.cons hnb hn, .nil, hst⟩
    | child j c => exact ih _ _ _ ⟨hn, .cons hc hb, hst⟩
    | concat x y =>
      exact .bind (chunkNew_sw h (GoodN.concat hc).1) fun l hl => .bind (chunkNew_sw h (GoodN.concat hc).2) fun r hr =>
        ih _ _ _ ⟨hn, hb, .cons hr (.cons hl hst)⟩
    | choice x y => exact ih _ _ _ ⟨hn, .cons hc hb, hst⟩

theorem GoodCs.reverse {cs : List (Chunk P)} (h : GoodCs good cs) : GoodCs good cs.reverse :=
  fun c hc => h c (List.mem_reverse.1 hc)
theorem GoodCs.append {cs ds : List (Chunk P)} (h : GoodCs good cs) (h' : GoodCs good ds) : GoodCs good (cs ++ ds) :=
  fun c hc => (List.mem_append.1 hc).elim (h c) (h' c)

theorem expandLast_sw (h : Plain good) {prev : List (Block P)} {b : Block P} {c : Chunk P} (hn : GoodBs good prev)
    (hb : GoodB good b) (hc : GoodC good c) :
    Sw _root_.id (GoodPair good) (expandLast prev b c) (expandLast prev b c) := by
  suffices H : ∀ (prev : List (Block P)) (b : Block P) (cs st : List (Chunk P)),
      (GoodBs good prev ∧ GoodB good b ∧ GoodCs good cs ∧ GoodCs good st) →
      Sw _root_.id (GoodPair good) (expandLastLoop prev b cs st) (expandLastLoop prev b cs st) from
    H prev b [] [c] ⟨hn, hb, .nil, .cons hc .nil⟩
  clear hn hb hc
  apply expandLastLoop.fixpoint_induct (motive := fun f => ∀ (prev : List (Block P)) (b : Block P)
      (cs st : List (Chunk P)), (GoodBs good prev ∧ GoodB good b ∧ GoodCs good cs ∧ GoodCs good st) →
      Sw _root_.id (GoodPair good) (f prev b cs st) (expandLastLoop prev b cs st))
  · exact Sw.adm4 (fun prev b cs st => GoodBs good prev ∧ GoodB good b ∧ GoodCs good cs ∧ GoodCs good st) _ _ _
  intro f ih prev b cs st ⟨hn, hb, hcs, hst⟩
  rw [expandLastLoop.eq_def]
  match st with
  | [] => exact .pure ⟨hn, hcs.reverse.append hb⟩
  | ⟨n, i⟩ :: st =>
    have hc := hst.head
    replace hst := hst.tail
    cases n with
    | empty => exact ih _ _ _ _ ⟨hn, hb, hcs, hst⟩
    | focusMark => exact ih _ _ _ _ ⟨hn, hb, .cons hc hcs, hst⟩
    | textual t => exact ih _ _ _ _ ⟨hn, hb, .cons hc hcs, hst⟩
    | endOfLine => exact ih _ _ _ _ ⟨hn, hb, .cons hc hcs, hst⟩
    | newline ind =>
      exact .bind (blockNew_sw hb) fun nb hnb => ih _ _ _ _ ⟨.cons hcs.reverse hn, hnb, .nil, hst⟩
    | child j c => exact ih _ _ _ _ ⟨hn, hb, .cons hc hcs, hst⟩
    | concat x y =>
      exact .bind (chunkNew_sw h (GoodN.concat hc).2) fun r hr => .bind (chunkNew_sw h (GoodN.concat hc).1) fun l hl =>
        ih _ _ _ _ ⟨hn, hb, hcs, .cons hl (.cons hr hst)⟩
    | choice x y => exact ih _ _ _ _ ⟨hn, hb, .cons hc hcs, hst⟩

/-- Good lines and blocks. -/
def GoodLine (good : DCN P → Prop) (r : Line P × List (Block P)) : Prop := GoodBs good r.2

theorem blockPrint_sw {b : Block P} : Sw _root_.id (fun _ => True) b.print b.print := .self fun _ _ => trivial

theorem printNextLoop_sw (h : Plain good) (w : Nat) (next : List (Block P)) (b : Block P)
    (hn : GoodBs good next ∧ GoodB good b) :
    Sw _root_.id (GoodLine good) (printNextLoop w next b) (printNextLoop w' next b) := by
  revert next b
  apply printNextLoop.fixpoint_induct (motive := fun f => ∀ next b, (GoodBs good next ∧ GoodB good b) →
    Sw _root_.id (GoodLine good) (f next b) (printNextLoop w' next b))
  · exact Sw.adm2 (fun next b => GoodBs good next ∧ GoodB good b) _ _ _
  intro f ih next b ⟨hn, hb⟩
  rw [printNextLoop.eq_def]
  rcases b with ⟨segs, pre, e, _ | ⟨⟨n, i⟩, cs⟩⟩
  · exact .bind blockPrint_sw fun l _ => .pure hn
  have hc : GoodN good n := GoodCs.head hb
  have hcs : GoodCs good cs := GoodCs.tail hb
  cases n with
  | empty => exact .panicking
  | focusMark => exact ih _ _ ⟨hn, hcs⟩
  | textual t => exact .bind (pushText_sw (b := ⟨segs, pre, e, cs⟩) hcs) fun b hb => ih _ _ ⟨hn, hb⟩
  | endOfLine => exact ih _ _ ⟨hn, hcs⟩
  | newline ind => exact .panicking
  | child j c =>
    exact .bind (chunkNew_sw h hc.child) fun c hc =>
      .bind (expandFirst_sw h hn (b := ⟨segs, pre, e, cs⟩) hcs hc) fun r hr => ih _ _ hr
  | concat x y => exact .panicking
  | choice x y => exact hc.no_choice

theorem printPrevLoop_sw (h : Plain good) (w : Nat) (prev : List (Block P)) (b : Block P)
    (hn : GoodBs good prev ∧ GoodB good b) :
    Sw _root_.id (GoodLine good) (printPrevLoop w prev b) (printPrevLoop w' prev b) := by
  revert prev b
  apply printPrevLoop.fixpoint_induct (motive := fun f => ∀ prev b, (GoodBs good prev ∧ GoodB good b) →
    Sw _root_.id (GoodLine good) (f prev b) (printPrevLoop w' prev b))
  · exact Sw.adm2 (fun prev b => GoodBs good prev ∧ GoodB good b) _ _ _
  intro f ih prev b ⟨hn, hb⟩
  rw [printPrevLoop.eq_def]
  rcases b with ⟨segs, pre, e, _ | ⟨⟨n, i⟩, cs⟩⟩
  · exact .bind blockPrint_sw fun l _ => .pure hn
  have hc : GoodN good n := GoodCs.head hb
  have hcs : GoodCs good cs := GoodCs.tail hb
  cases n with
  | empty => exact .panicking
  | focusMark => exact ih _ _ ⟨hn, hcs⟩
  | textual t => exact .bind (pushText_sw (b := ⟨segs, pre, e, cs⟩) hcs) fun b hb => ih _ _ ⟨hn, hb⟩
  | endOfLine => exact ih _ _ ⟨hn, hcs⟩
  | newline ind => exact .panicking
  | child j c =>
    exact .bind (chunkNew_sw h hc.child) fun c hc =>
      .bind (expandLast_sw h hn (b := ⟨segs, pre, e, cs⟩) hcs hc) fun r hr => ih _ _ hr
  | concat x y => exact .panicking
  | choice x y => exact hc.no_choice

theorem printNextLine_sw (h : Plain good) {p : Printer P} (hp : GoodP good p) :
    Sw (setW2 w') (fun r => GoodP good r.2) p.printNextLine (setW w' p).printNextLine := by
  unfold Printer.printNextLine
  rcases p with ⟨w, prev, _ | ⟨b, next⟩⟩
  · exact .pure hp
  · exact .bind (printNextLoop_sw h w next b ⟨hp.2.tail, hp.2.head⟩) fun r hr => .pure ⟨hp.1, hr⟩

theorem printPrevLine_sw (h : Plain good) {p : Printer P} (hp : GoodP good p) :
    Sw (setW2 w') (fun r => GoodP good r.2) p.printPrevLine (setW w' p).printPrevLine := by
  unfold Printer.printPrevLine
  rcases p with ⟨w, _ | ⟨b, prev⟩, next⟩
  · exact .pure hp
  · exact .bind (printPrevLoop_sw h w prev b ⟨hp.1.tail, hp.1.head⟩) fun r hr => .pure ⟨hr, hp.2⟩

/-! ### Seeking -/

theorem seekEnd_sw (h : Plain good) {p : Printer P} {c : Chunk P} (hp : GoodP good p) (hc : GoodC good c) :
    Sw (setW w') (GoodP good) (p.seekEnd c) ((setW w' p).seekEnd c) := by
  have H : ∀ (w k : Nat) (prev : List (Block P)) (b : Block P), (GoodBs good prev ∧ GoodB good b) →
      Sw _root_.id (GoodPair good) (seekEndLoop w k prev b) (seekEndLoop w' k prev b) := by
    intro w k
    apply seekEndLoop.fixpoint_induct (motive := fun f => ∀ prev b, (GoodBs good prev ∧ GoodB good b) →
      Sw _root_.id (GoodPair good) (f prev b) (seekEndLoop w' k prev b))
    · exact Sw.adm2 (fun prev b => GoodBs good prev ∧ GoodB good b) _ _ _
    intro f ih prev b ⟨hn, hb⟩
    rw [seekEndLoop.eq_def]
    by_cases hk : b.chunks.length > k
    rotate_left
    · simp only [hk, if_false]
      exact .pure ⟨hn, hb⟩
    simp only [hk, if_true]
    rcases b with ⟨segs, pre, e, _ | ⟨⟨n, i⟩, cs⟩⟩
    · exact .panicking
    have hc : GoodN good n := GoodCs.head hb
    have hcs : GoodCs good cs := GoodCs.tail hb
    cases n with
    | empty => exact .panicking
    | focusMark => exact ih _ _ ⟨hn, hcs⟩
    | textual t => exact .bind (pushText_sw (b := ⟨segs, pre, e, cs⟩) hcs) fun b hb => ih _ _ ⟨hn, hb⟩
    | endOfLine => exact ih _ _ ⟨hn, hcs⟩
    | newline ind => exact .panicking
    | child j c =>
      exact .bind (chunkNew_sw h hc.child) fun c hc =>
        .bind (expandLast_sw h hn (b := ⟨segs, pre, e, cs⟩) hcs hc) fun r hr => ih _ _ hr
    | concat x y => exact .panicking
    | choice x y => exact hc.no_choice
  unfold Printer.seekEnd
  rcases p with ⟨w, prev, _ | ⟨b, next⟩⟩
  · exact .panicking
  · exact .bind (expandLast_sw h hp.1 hp.2.head hc) fun r hr => .bind (H w _ r.1 r.2 hr) fun r hr =>
      .pure ⟨hr.1, .cons hr.2 hp.2.tail⟩

theorem seekStart_sw (h : Plain good) {p : Printer P} {c : Chunk P} (hp : GoodP good p) (hc : GoodC good c) :
    Sw (setW w') (GoodP good) (p.seekStart c) ((setW w' p).seekStart c) := by
  unfold Printer.seekStart
  rcases p with ⟨w, prev, _ | ⟨b, next⟩⟩
  · exact .panicking
  · exact .bind (expandFirst_sw h hp.2.tail hp.2.head hc) fun r hr => .pure ⟨hp.1, .cons hr.2 hr.1⟩

/-- Good lists of blocks. -/
def GoodBlocks (good : DCN P → Prop) (r : List (Block P) × List (Block P)) : Prop := GoodBs good r.1 ∧ GoodBs good r.2

/-- The block, if there is one, is good. -/
def GoodCur (good : DCN P → Prop) (cur : Option (Block P)) : Prop := ∀ b, cur = some b → GoodB good b

theorem GoodCur.none : GoodCur (P := P) good none := nofun
theorem GoodCur.some {b : Block P} (h : GoodB good b) : GoodCur good (some b) := fun _ e => Option.some.inj e ▸ h

theorem seekMark_sw (h : Plain good) {p : Printer P} {c : Chunk P} (hp : GoodP good p) (hc : GoodC good c) :
    Sw (setW w') (GoodP good) (p.seekMark c) ((setW w' p).seekMark c) := by
  have H : ∀ (w : Nat) (id : P.Id) (prev next : List (Block P)) (cur : Option (Block P)),
      (GoodBs good prev ∧ GoodBs good next ∧ GoodCur good cur) →
      Sw _root_.id (GoodBlocks good) (seekMarkLoop w id prev next cur) (seekMarkLoop w' id prev next cur) := by
    intro w id
    apply seekMarkLoop.fixpoint_induct (motive := fun f => ∀ prev next cur,
      (GoodBs good prev ∧ GoodBs good next ∧ GoodCur good cur) →
      Sw _root_.id (GoodBlocks good) (f prev next cur) (seekMarkLoop w' id prev next cur))
    · exact Sw.adm3 (fun prev next cur => GoodBs good prev ∧ GoodBs good next ∧ GoodCur good cur) _ _ _
    intro f ih prev next cur ⟨hp, hn, hcur⟩
    rw [seekMarkLoop.eq_def]
    match cur with
    | none =>
      match next with
      | [] => exact .throwErr
      | b :: next => exact ih _ _ _ ⟨hp, hn.tail, .some hn.head⟩
    | some ⟨segs, pre, e, []⟩ => exact ih _ _ _ ⟨.cons (hcur _ rfl) hp, hn, .none⟩
    | some ⟨segs, pre, e, ⟨n, i⟩ :: cs⟩ =>
      have hb := hcur _ rfl
      have hc : GoodN good n := GoodCs.head hb
      have hcs : GoodB good ⟨segs, pre, e, cs⟩ := GoodCs.tail hb
      cases n with
      | empty => exact .panicking
      | focusMark =>
        dsimp only
        split
        · exact .pure ⟨hp, .cons hcs hn⟩
        · exact ih _ _ _ ⟨hp, hn, .some hcs⟩
      | textual t => exact .bind (pushText_sw hcs) fun b hb => ih _ _ _ ⟨hp, hn, .some hb⟩
      | endOfLine => exact ih _ _ _ ⟨hp, hn, .some hcs⟩
      | newline ind => exact .panicking
      | child j c =>
        exact .bind (chunkNew_sw h hc.child) fun c hc => .bind (expandFirst_sw h hn hcs hc) fun r hr =>
          ih _ _ _ ⟨hp, hr.1, .some hr.2⟩
      | concat x y => exact .panicking
      | choice x y => exact hc.no_choice
  unfold Printer.seekMark
  rcases p with ⟨w, prev, _ | ⟨b, next⟩⟩
  · exact .panicking
  · exact .bind (expandFirst_sw h hp.2.tail hp.2.head hc) fun r hr =>
      .bind (H w c.id prev (r.2 :: r.1) none ⟨hp.1, .cons hr.2 hr.1, .none⟩) fun r hr => .pure hr

theorem seekText_sw (h : Plain good) {p : Printer P} {c : Chunk P} (pos : Nat) (hp : GoodP good p)
    (hc : GoodC good c) : Sw (setW w') (GoodP good) (p.seekText c pos) ((setW w' p).seekText c pos) := by
  have H : ∀ (w : Nat) (prev next : List (Block P)) (cur : Option (Block P)),
      (GoodBs good prev ∧ GoodBs good next ∧ GoodCur good cur) →
      Sw _root_.id (GoodBlocks good) (seekTextLoop w pos prev next cur) (seekTextLoop w' pos prev next cur) := by
    intro w
    apply seekTextLoop.fixpoint_induct (motive := fun f => ∀ prev next cur,
      (GoodBs good prev ∧ GoodBs good next ∧ GoodCur good cur) →
      Sw _root_.id (GoodBlocks good) (f prev next cur) (seekTextLoop w' pos prev next cur))
    · exact Sw.adm3 (fun prev next cur => GoodBs good prev ∧ GoodBs good next ∧ GoodCur good cur) _ _ _
    intro f ih prev next cur ⟨hp, hn, hcur⟩
    rw [seekTextLoop.eq_def]
    match cur with
    | none =>
      match next with
      | [] => exact .throwErr
      | b :: next => exact ih _ _ _ ⟨hp, hn.tail, .some hn.head⟩
    | some ⟨segs, pre, e, []⟩ => exact ih _ _ _ ⟨.cons (hcur _ rfl) hp, hn, .none⟩
    | some ⟨segs, pre, e, ⟨n, i⟩ :: cs⟩ =>
      have hb := hcur _ rfl
      have hc : GoodN good n := GoodCs.head hb
      have hcs : GoodB good ⟨segs, pre, e, cs⟩ := GoodCs.tail hb
      cases n with
      | empty => exact .panicking
      | focusMark => exact ih _ _ _ ⟨hp, hn, .some hcs⟩
      | textual t =>
        dsimp only
        split
        · exact .bind (pushText_sw hcs) fun b hb => .pure ⟨hp, .cons (.cons ⟨nofun, nofun⟩ hb) hn⟩
        · exact .bind (pushText_sw hcs) fun b hb => ih _ _ _ ⟨hp, hn, .some hb⟩
      | endOfLine => exact ih _ _ _ ⟨hp, hn, .some hcs⟩
      | newline ind => exact .panicking
      | child j c =>
        exact .bind (chunkNew_sw h hc.child) fun c hc => .bind (expandFirst_sw h hn hcs hc) fun r hr =>
          ih _ _ _ ⟨hp, hr.1, .some hr.2⟩
      | concat x y => exact .panicking
      | choice x y => exact hc.no_choice
  unfold Printer.seekText
  rcases p with ⟨w, prev, _ | ⟨b, next⟩⟩
  · exact .panicking
  · exact .bind (expandFirst_sw h hp.2.tail hp.2.head hc) fun r hr =>
      .bind (H w prev (r.2 :: r.1) none ⟨hp.1, .cons hr.2 hr.1, .none⟩) fun r hr => .pure hr

theorem skipBlocks_good (id : P.Id) (i : Nat) {prev next : List (Block P)} (hp : GoodBs good prev)
    (hn : GoodBs good next) : GoodBlocks good (skipBlocks id i prev next) := by
  induction next generalizing prev with
  | nil => exact ⟨hp, .nil⟩
  | cons b next ih =>
    rw [skipBlocks]
    split
    · exact ⟨hp, hn⟩
    · exact ih (.cons hn.head hp) hn.tail

/-- Good ends of step 2. -/
def GoodStep2 (good : DCN P → Prop) : Step2 P → Prop
  | .found next c => GoodBs good next ∧ GoodC good c
  | .again next => GoodBs good next

theorem seekChildStep2_sw (h : Plain good) (w : Nat) (id : P.Id) (j : Nat) {next : List (Block P)} (b : Block P)
    (hn : GoodBs good next) (hb : GoodB good b) :
    Sw _root_.id (GoodStep2 good) (seekChildStep2 w id j next b) (seekChildStep2 w' id j next b) := by
  revert b
  apply seekChildStep2.fixpoint_induct (motive := fun f => ∀ b, GoodB good b → Sw _root_.id (GoodStep2 good) (f b)
    (seekChildStep2 w' id j next b))
  · exact Sw.adm1 (GoodB good) _ _ _
  intro f ih b hb
  rw [seekChildStep2.eq_def]
  rcases b with ⟨segs, pre, e, _ | ⟨⟨n, i⟩, cs⟩⟩
  · exact .pure hn
  have hc : GoodN good n := GoodCs.head hb
  have hcs : GoodB good ⟨segs, pre, e, cs⟩ := GoodCs.tail hb
  cases n with
  | empty => exact .panicking
  | focusMark => exact ih _ hcs
  | textual t => exact .bind (pushText_sw hcs) fun b hb => ih _ hb
  | endOfLine => exact ih _ hcs
  | newline ind => exact .panicking
  | child k c =>
    dsimp only
    split
    · exact .bind (chunkNew_sw h hc.child) fun c hc => .pure ⟨.cons hcs hn, hc⟩
    · exact .bind (chunkNew_sw h hc.child) fun c hc => .bind (expandFirst_sw h hn hcs hc) fun r hr =>
        .pure (GoodBs.cons hr.2 hr.1)
  | concat x y => exact .panicking
  | choice x y => exact hc.no_choice

/-- Good results of `seekChildLoop`. -/
def GoodFound (good : DCN P → Prop) (r : List (Block P) × List (Block P) × Chunk P) : Prop :=
  GoodBs good r.1 ∧ GoodBs good r.2.1 ∧ GoodC good r.2.2

theorem seekChildLoop_sw (h : Plain good) (w : Nat) (id : P.Id) (j : Nat) (prev next : List (Block P))
    (hn : GoodBs good prev ∧ GoodBs good next) :
    Sw _root_.id (GoodFound good) (seekChildLoop w id j prev next) (seekChildLoop w' id j prev next) := by
  revert prev next
  apply seekChildLoop.fixpoint_induct (motive := fun f => ∀ prev next, (GoodBs good prev ∧ GoodBs good next) →
    Sw _root_.id (GoodFound good) (f prev next) (seekChildLoop w' id j prev next))
  · exact Sw.adm2 (fun prev next => GoodBs good prev ∧ GoodBs good next) _ _ _
  intro f ih prev next ⟨hp, hn⟩
  rw [seekChildLoop.eq_def]
  have hs := skipBlocks_good id j hp hn
  dsimp only
  match skipBlocks id j prev next, hs with
  | (_, []), _ => exact .throwErr
  | (prev, b :: next), hs =>
    refine .bind (seekChildStep2_sw h w id j b hs.2.tail hs.2.head) fun r hr => ?_
    cases r with
    | found next c => exact .pure ⟨hs.1, hr.1, hr.2⟩
    | again next => exact ih _ _ ⟨hs.1, hr⟩

/-- Good results of `seek_child`. -/
def GoodChild (good : DCN P → Prop) (r : Printer P × Chunk P) : Prop := GoodP good r.1 ∧ GoodC good r.2

theorem seekChild_sw (h : Plain good) {p : Printer P} {c : Chunk P} (j : Nat) (hp : GoodP good p)
    (hc : GoodC good c) : Sw (setW1 w') (GoodChild good) (p.seekChild c j) ((setW w' p).seekChild c j) := by
  unfold Printer.seekChild
  rcases p with ⟨w, prev, _ | ⟨b, next⟩⟩
  · exact .panicking
  · exact .bind (expandFirst_sw h hp.2.tail hp.2.head hc) fun r hr =>
      .bind (seekChildLoop_sw h w c.id j prev (r.2 :: r.1) ⟨hp.1, .cons hr.2 hr.1⟩) fun r hr =>
        .pure ⟨⟨hr.1, hr.2.1⟩, hr.2.2⟩

theorem seekPath_sw (h : Plain good) {p : Printer P} {c : Chunk P} (path : List Nat) (hp : GoodP good p)
    (hc : GoodC good c) : Sw (setW1 w') (GoodChild good) (p.seekPath c path) ((setW w' p).seekPath c path) := by
  induction path generalizing p c with
  | nil => exact .pure ⟨hp, hc⟩
  | cons j path ih => exact .bind (seekChild_sw h j hp hc) fun r hr => ih hr.1 hr.2

theorem seek_sw (h : Plain good) {p : Printer P} (doc : P.Node) (path : List Nat) (target : FocusTarget)
    (rs : Option P.Style) (hp : GoodP good p)
    (hd : ∀ d, (DCN.withOptionalStyle doc rs).run = some (.ok d) → good d) :
    Sw (setW w') (GoodP good) (p.seek doc path target rs) ((setW w' p).seek doc path target rs) := by
  refine .bind (.self hd) fun d hd => .bind (chunkNew_sw h hd) fun c hc =>
    .bind (seekPath_sw h path hp hc) fun r hr => ?_
  cases target with
  | start => exact seekStart_sw h hr.1 hr.2
  | «end» => exact seekEnd_sw h hr.1 hr.2
  | text pos => exact seekText_sw h pos hr.1 hr.2
  | mark => exact seekMark_sw h hr.1 hr.2

theorem prettyPrint_sw (h : Plain good) (doc : P.Node) (w : Nat) (path : List Nat) (target : FocusTarget)
    (rs : Option P.Style) (hd : ∀ d, (DCN.withOptionalStyle doc rs).run = some (.ok d) → good d) :
    Sw (setWP w') (fun r => GoodP good r.up ∧ GoodP good r.down) (prettyPrint doc w path target rs)
      (prettyPrint doc w' path target rs) := by
  unfold prettyPrint
  refine .bind (G := GoodP good) (φ := setW w') ?_ fun p hp => .bind (seek_sw h doc path target rs hp hd) fun p hp => ?_
  · exact .bind (blockNew_sw .nil) fun b hb => .pure ⟨.nil, .cons hb .nil⟩
  rcases p with ⟨w, prev, _ | ⟨b, next⟩⟩
  · exact .panicking
  refine .bind (printNextLine_sw h hp) fun r hr => ?_
  rcases r with ⟨_ | l, p⟩
  · exact .panicking
  · dsimp only [setW2]
    split
    · exact .panicking
    · exact .pure ⟨⟨hr.1, .nil⟩, .nil, hr.2⟩

theorem takeLines_down_sw (h : Plain good) (n : Nat) {p : Printer P} (hp : GoodP good p) :
    Sw (setW2 w') (fun r => GoodP good r.2) (takeLines Printer.nextDown n p)
      (takeLines Printer.nextDown n (setW w' p)) := by
  induction n generalizing p with
  | zero => exact .pure hp
  | succ n ih => exact .bind (printNextLine_sw h hp) fun r hr => .bind (ih hr) fun r hr => .pure hr

theorem takeLines_up_sw (h : Plain good) (n : Nat) {p : Printer P} (hp : GoodP good p) :
    Sw (setW2 w') (fun r => GoodP good r.2) (takeLines Printer.nextUp n p)
      (takeLines Printer.nextUp n (setW w' p)) := by
  induction n generalizing p with
  | zero => exact .pure hp
  | succ n ih => exact .bind (printPrevLine_sw h hp) fun r hr => .bind (ih hr) fun r hr => .pure hr

theorem toStringLoop_sw (h : Plain good) (s : String) (p : Printer P) (hp : GoodP good p) :
    Sw _root_.id (fun _ => True) (toStringLoop s p) (toStringLoop s (setW w' p)) := by
  revert s p
  apply toStringLoop.fixpoint_induct (P := P) (motive := fun f => ∀ s (p : Printer P), GoodP good p →
    Sw _root_.id (fun _ => True) (f s p) (toStringLoop s (setW w' p)))
  · exact Sw.adm2 (fun _ p => GoodP good p) _ _ _
  intro f ih s p hp
  rw [toStringLoop.eq_def s (setW w' p)]
  refine .bind (printNextLine_sw h hp) fun r hr => ?_
  rcases r with ⟨_ | l, p⟩
  · exact .pure trivial
  · exact ih _ _ hr

theorem prettyPrintToString_sw (h : Plain good) (doc : P.Node) (w : Nat)
    (hd : ∀ d, (DCN.withOptionalStyle doc none).run = some (.ok d) → good d) :
    Sw _root_.id (fun _ => True) (prettyPrintToString doc w) (prettyPrintToString doc w') :=
  .bind (prettyPrint_sw h doc w [] .start none hd) fun _ hr => toStringLoop_sw h _ _ hr.2


theorem printAround_sw (h : Plain good) (doc : P.Node) (w : Nat) (path : List Nat) (target : FocusTarget)
    (rs : Option P.Style) (k j : Nat) (hd : ∀ d, (DCN.withOptionalStyle doc rs).run = some (.ok d) → good d) :
    Sw _root_.id (fun _ => True) (printAround doc w path target rs k j) (printAround doc w' path target rs k j) :=
  .bind (prettyPrint_sw h doc w path target rs hd) fun _ hr =>
    .bind (takeLines_up_sw h k hr.1) fun _ _ => .bind (takeLines_down_sw h j hr.2) fun _ _ => .pure trivial

/-- What is represented by a tree without choices. -/
def NoChoices (d : DCN P) : Prop := ∃ rid t, Rep d rid t ∧ t.ChoiceFree

theorem plain_noChoices : Plain (P := P) NoChoices := by
  rintro d cn ⟨rid, t, hr, hf⟩ he
  rcases hr.cases' with ⟨f, h, _⟩ | ⟨c, h, hc⟩
  · rw [h] at he
    cases he
  · rw [h] at he
    cases he
    cases hc with
    | concat ha hb =>
      refine ⟨nofun, fun d hd => ?_⟩
      simp only [CN.parts, List.mem_cons, List.not_mem_nil, or_false] at hd
      rcases hd with rfl | rfl
      · exact ⟨_, _, ha, hf.1⟩
      · exact ⟨_, _, hb, hf.2⟩
    | choice ha hb => exact hf.elim
    | child hc =>
      refine ⟨nofun, fun d hd => ?_⟩
      simp only [CN.parts, List.mem_cons, List.not_mem_nil, or_false] at hd
      subst hd
      exact ⟨_, _, hc, hf⟩
    | _ => exact ⟨nofun, nofun⟩

theorem noChoices_root (law : P.Lawful) {doc : P.Node}
    (h : ∀ p a, P.Within doc p → P.notn p = .ok a → a.NoChoice) (rs : Option P.Style) (d : DCN P)
    (hd : (DCN.withOptionalStyle doc rs).run = some (.ok d)) : NoChoices d := by
  rcases docTree_rep law doc false [] rs with ⟨f, _, h2⟩ | ⟨a, s, t, h1, h2, h3, h4⟩
  · exfalso
    unfold DCN.withOptionalStyle at hd
    cases ha : P.notn doc with
    | error e => rw [ha] at hd; cases hd
    | ok a =>
      cases hs : P.nodeStyle doc with
      | error e => rw [ha, hs] at hd; cases hd
      | ok s => rw [ha, hs] at h2; cases h2
  · unfold DCN.withOptionalStyle at hd
    rw [h1, h2] at hd
    cases hd
    exact ⟨_, t, h4 none, docTree_choiceFree law false doc (fun _ => h) (by simp) h3⟩

end Wd
end PPP
