import Verif.Model.Stack
import Verif.Proofs.Depth
import Verif.Props.Printing
/-
The printer with a limited stack computes the same as the printer, as long as evaluating what comes up does not
take more stack than there is.
-/
namespace PPP
open Lean.Order
variable {P : PrettyDoc}

/-- If `x` succeeds, so does `y`, with the same value, and the value satisfies `G`.  If `x` fails, so does `y`, in
    the same way. -/
def St {E α : Type} (G : α → Prop) (x y : Exec E α) : Prop :=
  (∀ a, x.run = some (.ok a) → y.run = some (.ok a) ∧ G a) ∧
  ∀ f, x.run = some (.error f) → y.run = some (.error f)

section
variable {E α β : Type} {G : α → Prop}

theorem St.self {x : Exec E α} (h : ∀ a, x.run = some (.ok a) → G a) : St G x x :=
  ⟨fun a ha => ⟨ha, h a ha⟩, fun _ h => h⟩

theorem St.pure {a : α} (h : G a) : St G (Pure.pure a : Exec E α) (Pure.pure a) := by
  refine .self fun b hb => ?_
  have hb : (some (.ok a) : Option (Except (Fail E) α)) = some (.ok b) := hb
  injection hb with hb
  injection hb with hb
  exact hb ▸ h

theorem St.error {f : Fail E} : St G (Exec.ofRes (.error f)) (Exec.ofRes (.error f)) := by
  refine .self fun b hb => ?_
  have hb : (some (.error f) : Option (Except (Fail E) α)) = some (.ok b) := hb
  injection hb with hb
  injection hb

theorem St.throwErr {f : PrintingError E} : St G (PPP.throwErr f : Exec E α) (PPP.throwErr f) := .error
theorem St.panicking : St G (PPP.panicking : Exec E α) PPP.panicking := .error
theorem St.overflowing : St G (PPP.overflowing : Exec E α) PPP.overflowing := .error

theorem St.bind {H : β → Prop} {x y : Exec E α} {f g : α → Exec E β} (h : St G x y)
    (hf : ∀ a, G a → St H (f a) (g a)) : St H (x >>= f) (y >>= g) := by
  refine ⟨?_, ?_⟩
  · intro r hr
    rw [Exec.run_bind] at hr ⊢
    match hx : x.run with
    | none => rw [hx] at hr; exact absurd hr (by simp)
    | some (.error e) => rw [hx] at hr; exact absurd hr (by simp)
    | some (.ok a) =>
      rw [(h.1 a hx).1]
      exact (hf a (h.1 a hx).2).1 r (by rw [hx] at hr; exact hr)
  · intro e hr
    rw [Exec.run_bind] at hr ⊢
    match hx : x.run with
    | none => rw [hx] at hr; exact absurd hr (by simp)
    | some (.error e') =>
      rw [hx] at hr
      cases hr
      rw [h.2 e hx]
    | some (.ok a) =>
      rw [(h.1 a hx).1]
      exact (hf a (h.1 a hx).2).2 e (by rw [hx] at hr; exact hr)

theorem St.call {x : Call E α} : St (fun _ => True) (PPP.call x) (PPP.call x) := .self fun _ _ => trivial

theorem St.adm0 (G : α → Prop) (y : Exec E α) : admissible fun x : Exec E α => St G x y := by
  have : (fun x : Exec E α => St G x y) = fun x : Exec E α =>
      (∀ a, x.run = some (.ok a) → (y.run = some (.ok a) ∧ G a)) ∧ ∀ f, x.run = some (.error f) → y.run = some (.error f) :=
    rfl
  apply admissible_and
  · apply admissible_pi
    intro a
    exact Option.admissible_eq_some _ _
  · apply admissible_pi
    intro f
    exact Option.admissible_eq_some _ _

theorem St.adm1 {A : Type} (Q : A → Prop) (G : α → Prop) (y : A → Exec E α) :
    admissible fun f : A → Exec E α => ∀ a, Q a → St G (f a) (y a) :=
  admissible_pi_apply (fun a (x : Exec E α) => Q a → St G x (y a)) fun _ => admissible_pi _ fun _ => St.adm0 _ _
theorem St.adm2 {A B : Type} (Q : A → B → Prop) (G : α → Prop) (y : A → B → Exec E α) :
    admissible fun f : A → B → Exec E α => ∀ a b, Q a b → St G (f a b) (y a b) :=
  admissible_pi_apply (fun a (x : B → Exec E α) => ∀ b, Q a b → St G (x b) (y a b)) fun _ => St.adm1 _ _ _
theorem St.adm3 {A B C : Type} (Q : A → B → C → Prop) (G : α → Prop) (y : A → B → C → Exec E α) :
    admissible fun f : A → B → C → Exec E α => ∀ a b c, Q a b c → St G (f a b c) (y a b c) :=
  admissible_pi_apply (fun a (x : B → C → Exec E α) => ∀ b c, Q a b c → St G (x b c) (y a b c)) fun _ => St.adm2 _ _ _
theorem St.adm4 {A B C D : Type} (Q : A → B → C → D → Prop) (G : α → Prop) (y : A → B → C → D → Exec E α) :
    admissible fun f : A → B → C → D → Exec E α => ∀ a b c d, Q a b c d → St G (f a b c d) (y a b c d) :=
  admissible_pi_apply (fun a (x : B → C → D → Exec E α) => ∀ b c d, Q a b c d → St G (x b c d) (y a b c d)) fun _ =>
    St.adm3 _ _ _

end

/-! ### What comes up -/

/-- All delayed notations in a consolidated notation are good; and so on. -/
def GoodN (good : DCN P → Prop) (n : CN P) : Prop := ∀ d ∈ n.parts, good d
@[inherit_doc GoodN]
def GoodC (good : DCN P → Prop) (c : Chunk P) : Prop := GoodN good c.notn
@[inherit_doc GoodN]
def GoodCs (good : DCN P → Prop) (cs : List (Chunk P)) : Prop := ∀ c ∈ cs, GoodC good c
@[inherit_doc GoodN]
def GoodB (good : DCN P → Prop) (b : Block P) : Prop := GoodCs good b.chunks
@[inherit_doc GoodN]
def GoodBs (good : DCN P → Prop) (bs : List (Block P)) : Prop := ∀ b ∈ bs, GoodB good b
@[inherit_doc GoodN]
def GoodP (good : DCN P → Prop) (p : Printer P) : Prop := GoodBs good p.prev ∧ GoodBs good p.next

variable {good : DCN P → Prop} {K : Nat}

theorem GoodCs.nil : GoodCs good [] := nofun
theorem GoodCs.cons {c : Chunk P} {cs} (h : GoodC good c) (hs : GoodCs good cs) : GoodCs good (c :: cs) :=
  List.forall_mem_cons.2 ⟨h, hs⟩
theorem GoodCs.head {c : Chunk P} {cs} (h : GoodCs good (c :: cs)) : GoodC good c := (List.forall_mem_cons.1 h).1
theorem GoodCs.tail {c : Chunk P} {cs} (h : GoodCs good (c :: cs)) : GoodCs good cs := (List.forall_mem_cons.1 h).2
theorem GoodBs.nil : GoodBs good [] := nofun
theorem GoodBs.cons {b : Block P} {bs} (h : GoodB good b) (hs : GoodBs good bs) : GoodBs good (b :: bs) :=
  List.forall_mem_cons.2 ⟨h, hs⟩
theorem GoodBs.head {b : Block P} {bs} (h : GoodBs good (b :: bs)) : GoodB good b := (List.forall_mem_cons.1 h).1
theorem GoodBs.tail {b : Block P} {bs} (h : GoodBs good (b :: bs)) : GoodBs good bs := (List.forall_mem_cons.1 h).2

theorem GoodN.leaf {n : CN P} (h : n.parts = []) : GoodN good n := by unfold GoodN; rw [h]; nofun
theorem GoodN.child {i} {c : DCN P} (h : GoodN good (.child i c)) : good c := h c (by simp [CN.parts])
theorem GoodN.concat {a b : DCN P} (h : GoodN good (.concat a b)) : good a ∧ good b :=
  ⟨h a (by simp [CN.parts]), h b (by simp [CN.parts])⟩
theorem GoodN.choice {a b : DCN P} (h : GoodN good (.choice a b)) : good a ∧ good b :=
  ⟨h a (by simp [CN.parts]), h b (by simp [CN.parts])⟩

/-- Good notations can be evaluated with the given stack, and give good ones. -/
def Enough (good : DCN P → Prop) (K : Nat) : Prop := ∀ d, good d → St (GoodN good) d.eval (d.evalS K)

/-! ### The printer -/

theorem chunkNew_st (h : Enough good K) {d : DCN P} (hd : good d) : St (GoodC good) (Chunk.new d) (Chunk.newS K d) :=
  .bind .call fun _ _ => .bind (h d hd) fun _ hn => .pure hn

theorem blockNew_st {ind : Indent P} {cs : List (Chunk P)} (hc : GoodCs good cs) :
    St (GoodB good) (Block.new ind cs) (Block.new ind cs) := by
  unfold Block.new
  dsimp only
  split
  · exact .pure hc
  · exact .overflowing

theorem pushText_st {b : Block P} {t : Textual P} (hb : GoodB good b) :
    St (GoodB good) (b.pushText t) (b.pushText t) := by
  unfold Block.pushText
  split
  · exact .throwErr
  · split
    · exact .pure hb
    · exact .overflowing

theorem fitsLoop_st (h : Enough good K) (next : List (Chunk P)) (rem : Nat) (ns : List (CN P)) (eol : Bool)
    (hn : GoodCs good next ∧ ∀ n ∈ ns, GoodN good n) :
    St (fun _ => True) (fitsLoop next rem ns eol) (fitsLoopS K next rem ns eol) := by
  revert next rem ns eol
  apply fitsLoop.fixpoint_induct (P := P) (motive := fun f => ∀ (next : List (Chunk P)) rem (ns : List (CN P)) eol,
    (GoodCs good next ∧ ∀ n ∈ ns, GoodN good n) → St (fun _ => True) (f next rem ns eol) (fitsLoopS K next rem ns eol))
  · exact St.adm4 (fun (next : List (Chunk P)) _ (ns : List (CN P)) _ => GoodCs good next ∧ ∀ n ∈ ns, GoodN good n) _ _
  intro f ih next rem ns eol ⟨hc, hn⟩
  rw [fitsLoopS.eq_def]
  match ns with
  | [] =>
    match next with
    | [] => exact .pure trivial
    | c :: more => exact ih _ _ _ _ ⟨hc.tail, fun n hn => by rw [List.mem_singleton.1 hn]; exact hc.head⟩
  | n :: ns =>
    obtain ⟨hn, hns⟩ := List.forall_mem_cons.1 hn
    cases n with
    | empty => exact ih _ _ _ _ ⟨hc, hns⟩
    | focusMark => exact ih _ _ _ _ ⟨hc, hns⟩
    | textual t =>
      dsimp only
      split
      · exact .pure trivial
      · split
        · exact ih _ _ _ _ ⟨hc, hns⟩
        · exact .pure trivial
    | endOfLine => exact ih _ _ _ _ ⟨hc, hns⟩
    | newline i => exact .pure trivial
    | child i c =>
      exact .bind (h _ hn.child) fun n h1 => ih _ _ _ _ ⟨hc, List.forall_mem_cons.2 ⟨h1, hns⟩⟩
    | concat a b =>
      exact .bind (h _ hn.concat.2) fun n2 h2 => .bind (h _ hn.concat.1) fun n1 h1 =>
        ih _ _ _ _ ⟨hc, List.forall_mem_cons.2 ⟨h1, List.forall_mem_cons.2 ⟨h2, hns⟩⟩⟩
    | choice a b =>
      exact .bind (h _ hn.choice.2) fun n h1 => ih _ _ _ _ ⟨hc, List.forall_mem_cons.2 ⟨h1, hns⟩⟩

theorem choose_st (h : Enough good K) (w : Nat) {b : Block P} {o1 o2 : DCN P} (hb : GoodB good b) (h1 : good o1)
    (h2 : good o2) : St (GoodC good) (choose w b o1 o2) (chooseS K w b o1 o2) := by
  unfold choose chooseS
  refine .bind (chunkNew_st h h1) fun c1 hc1 => ?_
  split
  · refine .bind (fitsLoop_st h _ _ _ _ ⟨hb, fun n hn => by rw [List.mem_singleton.1 hn]; exact hc1⟩) fun f _ => ?_
    cases f
    · exact chunkNew_st h h2
    · exact .pure hc1
  · exact chunkNew_st h h2

/-- Good pairs of blocks and a block. -/
def GoodPair (good : DCN P → Prop) (r : List (Block P) × Block P) : Prop := GoodBs good r.1 ∧ GoodB good r.2

theorem expandFirst_st (h : Enough good K) {next : List (Block P)} {b : Block P} {c : Chunk P} (hn : GoodBs good next)
    (hb : GoodB good b) (hc : GoodC good c) :
    St (GoodPair good) (expandFirst next b c) (expandFirstS K next b c) := by
  suffices H : ∀ (next : List (Block P)) (b : Block P) (st : List (Chunk P)),
      (GoodBs good next ∧ GoodB good b ∧ GoodCs good st) →
      St (GoodPair good) (expandFirstLoop next b st) (expandFirstLoopS K next b st) from
    H next b [c] ⟨hn, hb, .cons hc .nil⟩
  clear hn hb hc
  apply expandFirstLoop.fixpoint_induct (motive := fun f => ∀ (next : List (Block P)) (b : Block P) (st : List (Chunk P)),
      (GoodBs good next ∧ GoodB good b ∧ GoodCs good st) →
      St (GoodPair good) (f next b st) (expandFirstLoopS K next b st))
  · exact St.adm3 (fun next b st => GoodBs good next ∧ GoodB good b ∧ GoodCs good st) _ _
  intro f ih next b st ⟨hn, hb, hst⟩
  rw [expandFirstLoopS.eq_def]
  match st with
  | [] => exact .pure ⟨hn, hb⟩
  | ⟨n, i⟩ :: st =>
    have hc := hst.head
    replace hst := hst.tail
    cases n with
    | empty => exact ih _ _ _ ⟨hn, hb, hst⟩
    | focusMark => exact ih _ _ _ ⟨hn, .cons hc hb, hst⟩
    | textual t => exact ih _ _ _ ⟨hn, .cons hc hb, hst⟩
    | endOfLine => exact ih _ _ _ ⟨hn, .cons hc hb, hst⟩
    | newline ind => exact .bind (blockNew_st hb) fun nb hnb => ih _ _ _ ⟨.cons hnb hn, .nil, hst⟩
    | child j c => exact ih _ _ _ ⟨hn, .cons hc hb, hst⟩
    | concat x y =>
      exact .bind (chunkNew_st h (GoodN.concat hc).1) fun l hl => .bind (chunkNew_st h (GoodN.concat hc).2) fun r hr =>
        ih _ _ _ ⟨hn, hb, .cons hr (.cons hl hst)⟩
    | choice x y => exact ih _ _ _ ⟨hn, .cons hc hb, hst⟩

theorem GoodCs.reverse {cs : List (Chunk P)} (h : GoodCs good cs) : GoodCs good cs.reverse :=
  fun c hc => h c (List.mem_reverse.1 hc)
theorem GoodCs.append {cs ds : List (Chunk P)} (h : GoodCs good cs) (h' : GoodCs good ds) : GoodCs good (cs ++ ds) :=
  fun c hc => (List.mem_append.1 hc).elim (h c) (h' c)

theorem expandLast_st (h : Enough good K) {prev : List (Block P)} {b : Block P} {c : Chunk P} (hn : GoodBs good prev)
    (hb : GoodB good b) (hc : GoodC good c) :
    St (GoodPair good) (expandLast prev b c) (expandLastS K prev b c) := by
  suffices H : ∀ (prev : List (Block P)) (b : Block P) (cs st : List (Chunk P)),
      (GoodBs good prev ∧ GoodB good b ∧ GoodCs good cs ∧ GoodCs good st) →
      St (GoodPair good) (expandLastLoop prev b cs st) (expandLastLoopS K prev b cs st) from
    H prev b [] [c] ⟨hn, hb, .nil, .cons hc .nil⟩
  clear hn hb hc
  apply expandLastLoop.fixpoint_induct (motive := fun f => ∀ (prev : List (Block P)) (b : Block P)
      (cs st : List (Chunk P)), (GoodBs good prev ∧ GoodB good b ∧ GoodCs good cs ∧ GoodCs good st) →
      St (GoodPair good) (f prev b cs st) (expandLastLoopS K prev b cs st))
  · exact St.adm4 (fun prev b cs st => GoodBs good prev ∧ GoodB good b ∧ GoodCs good cs ∧ GoodCs good st) _ _
  intro f ih prev b cs st ⟨hn, hb, hcs, hst⟩
  rw [expandLastLoopS.eq_def]
  match st with
  | [] => exact .pure ⟨hn, hcs.reverse.append hb⟩
  | ⟨n, i⟩ :: st =>
    have hc := hst.head
    replace hst := hst.tail
    cases n with
    | empty => exact ih _ _ _ _ ⟨hn, hb, hcs, hst⟩
    | focusMark => exact ih _ _ _ _ ⟨hn, hb, .cons hc hcs, hst⟩
    | textual t => exact ih _ _ _ _ ⟨hn, hb, .cons hc hcs, hst⟩
    | endOfLine => exact ih _ _ _ _ ⟨hn, hb, .cons hc hcs, hst⟩
    | newline ind =>
      exact .bind (blockNew_st hb) fun nb hnb => ih _ _ _ _ ⟨.cons hcs.reverse hn, hnb, .nil, hst⟩
    | child j c => exact ih _ _ _ _ ⟨hn, hb, .cons hc hcs, hst⟩
    | concat x y =>
      exact .bind (chunkNew_st h (GoodN.concat hc).2) fun r hr => .bind (chunkNew_st h (GoodN.concat hc).1) fun l hl =>
        ih _ _ _ _ ⟨hn, hb, hcs, .cons hl (.cons hr hst)⟩
    | choice x y => exact ih _ _ _ _ ⟨hn, hb, .cons hc hcs, hst⟩

/-- Good lines and blocks. -/
def GoodLine (good : DCN P → Prop) (r : Line P × List (Block P)) : Prop := GoodBs good r.2

theorem blockPrint_st {b : Block P} : St (fun _ => True) b.print b.print := .self fun _ _ => trivial

theorem printNextLoop_st (h : Enough good K) (w : Nat) (next : List (Block P)) (b : Block P)
    (hn : GoodBs good next ∧ GoodB good b) :
    St (GoodLine good) (printNextLoop w next b) (printNextLoopS K w next b) := by
  revert next b
  apply printNextLoop.fixpoint_induct (motive := fun f => ∀ next b, (GoodBs good next ∧ GoodB good b) →
    St (GoodLine good) (f next b) (printNextLoopS K w next b))
  · exact St.adm2 (fun next b => GoodBs good next ∧ GoodB good b) _ _
  intro f ih next b ⟨hn, hb⟩
  rw [printNextLoopS.eq_def]
  rcases b with ⟨segs, pre, e, _ | ⟨⟨n, i⟩, cs⟩⟩
  · exact .bind blockPrint_st fun l _ => .pure hn
  have hc : GoodN good n := GoodCs.head hb
  have hcs : GoodCs good cs := GoodCs.tail hb
  cases n with
  | empty => exact .panicking
  | focusMark => exact ih _ _ ⟨hn, hcs⟩
  | textual t => exact .bind (pushText_st (b := ⟨segs, pre, e, cs⟩) hcs) fun b hb => ih _ _ ⟨hn, hb⟩
  | endOfLine => exact ih _ _ ⟨hn, hcs⟩
  | newline ind => exact .panicking
  | child j c =>
    exact .bind (chunkNew_st h hc.child) fun c hc =>
      .bind (expandFirst_st h hn (b := ⟨segs, pre, e, cs⟩) hcs hc) fun r hr => ih _ _ hr
  | concat x y => exact .panicking
  | choice x y =>
    exact .bind (choose_st h w (b := ⟨segs, pre, e, cs⟩) hcs hc.choice.1 hc.choice.2) fun c hc =>
      .bind (expandFirst_st h hn (b := ⟨segs, pre, e, cs⟩) hcs hc) fun r hr => ih _ _ hr

theorem printPrevLoop_st (h : Enough good K) (w : Nat) (prev : List (Block P)) (b : Block P)
    (hn : GoodBs good prev ∧ GoodB good b) :
    St (GoodLine good) (printPrevLoop w prev b) (printPrevLoopS K w prev b) := by
  revert prev b
  apply printPrevLoop.fixpoint_induct (motive := fun f => ∀ prev b, (GoodBs good prev ∧ GoodB good b) →
    St (GoodLine good) (f prev b) (printPrevLoopS K w prev b))
  · exact St.adm2 (fun prev b => GoodBs good prev ∧ GoodB good b) _ _
  intro f ih prev b ⟨hn, hb⟩
  rw [printPrevLoopS.eq_def]
  rcases b with ⟨segs, pre, e, _ | ⟨⟨n, i⟩, cs⟩⟩
  · exact .bind blockPrint_st fun l _ => .pure hn
  have hc : GoodN good n := GoodCs.head hb
  have hcs : GoodCs good cs := GoodCs.tail hb
  cases n with
  | empty => exact .panicking
  | focusMark => exact ih _ _ ⟨hn, hcs⟩
  | textual t => exact .bind (pushText_st (b := ⟨segs, pre, e, cs⟩) hcs) fun b hb => ih _ _ ⟨hn, hb⟩
  | endOfLine => exact ih _ _ ⟨hn, hcs⟩
  | newline ind => exact .panicking
  | child j c =>
    exact .bind (chunkNew_st h hc.child) fun c hc =>
      .bind (expandLast_st h hn (b := ⟨segs, pre, e, cs⟩) hcs hc) fun r hr => ih _ _ hr
  | concat x y => exact .panicking
  | choice x y =>
    exact .bind (choose_st h w (b := ⟨segs, pre, e, cs⟩) hcs hc.choice.1 hc.choice.2) fun c hc =>
      .bind (expandLast_st h hn (b := ⟨segs, pre, e, cs⟩) hcs hc) fun r hr => ih _ _ hr

theorem printNextLine_st (h : Enough good K) {p : Printer P} (hp : GoodP good p) :
    St (fun r => GoodP good r.2) p.printNextLine (p.printNextLineS K) := by
  unfold Printer.printNextLine Printer.printNextLineS
  rcases p with ⟨w, prev, _ | ⟨b, next⟩⟩
  · exact .pure hp
  · exact .bind (printNextLoop_st h w next b ⟨hp.2.tail, hp.2.head⟩) fun r hr => .pure ⟨hp.1, hr⟩

theorem printPrevLine_st (h : Enough good K) {p : Printer P} (hp : GoodP good p) :
    St (fun r => GoodP good r.2) p.printPrevLine (p.printPrevLineS K) := by
  unfold Printer.printPrevLine Printer.printPrevLineS
  rcases p with ⟨w, _ | ⟨b, prev⟩, next⟩
  · exact .pure hp
  · exact .bind (printPrevLoop_st h w prev b ⟨hp.1.tail, hp.1.head⟩) fun r hr => .pure ⟨hr, hp.2⟩

/-! ### Seeking -/

theorem seekEnd_st (h : Enough good K) {p : Printer P} {c : Chunk P} (hp : GoodP good p) (hc : GoodC good c) :
    St (GoodP good) (p.seekEnd c) (p.seekEndS K c) := by
  have H : ∀ (w k : Nat) (prev : List (Block P)) (b : Block P), (GoodBs good prev ∧ GoodB good b) →
      St (GoodPair good) (seekEndLoop w k prev b) (seekEndLoopS K w k prev b) := by
    intro w k
    apply seekEndLoop.fixpoint_induct (motive := fun f => ∀ prev b, (GoodBs good prev ∧ GoodB good b) →
      St (GoodPair good) (f prev b) (seekEndLoopS K w k prev b))
    · exact St.adm2 (fun prev b => GoodBs good prev ∧ GoodB good b) _ _
    intro f ih prev b ⟨hn, hb⟩
    rw [seekEndLoopS.eq_def]
    by_cases hk : b.chunks.length > k
    rotate_left
    · simp only [hk, if_false]
      exact .pure ⟨hn, hb⟩
    simp only [hk, if_true]
    rcases b with ⟨segs, pre, e, _ | ⟨⟨n, i⟩, cs⟩⟩
    · exact .panicking
    have hc : GoodN good n := GoodCs.head hb
    have hcs : GoodCs good cs := GoodCs.tail hb
    cases n with
    | empty => exact .panicking
    | focusMark => exact ih _ _ ⟨hn, hcs⟩
    | textual t => exact .bind (pushText_st (b := ⟨segs, pre, e, cs⟩) hcs) fun b hb => ih _ _ ⟨hn, hb⟩
    | endOfLine => exact ih _ _ ⟨hn, hcs⟩
    | newline ind => exact .panicking
    | child j c =>
      exact .bind (chunkNew_st h hc.child) fun c hc =>
        .bind (expandLast_st h hn (b := ⟨segs, pre, e, cs⟩) hcs hc) fun r hr => ih _ _ hr
    | concat x y => exact .panicking
    | choice x y =>
      exact .bind (choose_st h w (b := ⟨segs, pre, e, cs⟩) hcs hc.choice.1 hc.choice.2) fun c hc =>
        .bind (expandLast_st h hn (b := ⟨segs, pre, e, cs⟩) hcs hc) fun r hr => ih _ _ hr
  unfold Printer.seekEnd Printer.seekEndS
  rcases p with ⟨w, prev, _ | ⟨b, next⟩⟩
  · exact .panicking
  · exact .bind (expandLast_st h hp.1 hp.2.head hc) fun r hr => .bind (H w _ r.1 r.2 hr) fun r hr =>
      .pure ⟨hr.1, .cons hr.2 hp.2.tail⟩

theorem seekStart_st (h : Enough good K) {p : Printer P} {c : Chunk P} (hp : GoodP good p) (hc : GoodC good c) :
    St (GoodP good) (p.seekStart c) (p.seekStartS K c) := by
  unfold Printer.seekStart Printer.seekStartS
  rcases p with ⟨w, prev, _ | ⟨b, next⟩⟩
  · exact .panicking
  · exact .bind (expandFirst_st h hp.2.tail hp.2.head hc) fun r hr => .pure ⟨hp.1, .cons hr.2 hr.1⟩

/-- Good lists of blocks. -/
def GoodBlocks (good : DCN P → Prop) (r : List (Block P) × List (Block P)) : Prop := GoodBs good r.1 ∧ GoodBs good r.2

/-- The block, if there is one, is good. -/
def GoodCur (good : DCN P → Prop) (cur : Option (Block P)) : Prop := ∀ b, cur = some b → GoodB good b

theorem GoodCur.none : GoodCur (P := P) good none := nofun
theorem GoodCur.some {b : Block P} (h : GoodB good b) : GoodCur good (some b) := fun _ e => Option.some.inj e ▸ h

theorem seekMark_st (h : Enough good K) {p : Printer P} {c : Chunk P} (hp : GoodP good p) (hc : GoodC good c) :
    St (GoodP good) (p.seekMark c) (p.seekMarkS K c) := by
  have H : ∀ (w : Nat) (id : P.Id) (prev next : List (Block P)) (cur : Option (Block P)),
      (GoodBs good prev ∧ GoodBs good next ∧ GoodCur good cur) →
      St (GoodBlocks good) (seekMarkLoop w id prev next cur) (seekMarkLoopS K w id prev next cur) := by
    intro w id
    apply seekMarkLoop.fixpoint_induct (motive := fun f => ∀ prev next cur,
      (GoodBs good prev ∧ GoodBs good next ∧ GoodCur good cur) →
      St (GoodBlocks good) (f prev next cur) (seekMarkLoopS K w id prev next cur))
    · exact St.adm3 (fun prev next cur => GoodBs good prev ∧ GoodBs good next ∧ GoodCur good cur) _ _
    intro f ih prev next cur ⟨hp, hn, hcur⟩
    rw [seekMarkLoopS.eq_def]
    match cur with
    | none =>
      match next with
      | [] => exact .throwErr
      | b :: next => exact ih _ _ _ ⟨hp, hn.tail, .some hn.head⟩
    | some ⟨segs, pre, e, []⟩ => exact ih _ _ _ ⟨.cons (hcur _ rfl) hp, hn, .none⟩
    | some ⟨segs, pre, e, ⟨n, i⟩ :: cs⟩ =>
      have hb := hcur _ rfl
      have hc : GoodN good n := GoodCs.head hb
      have hcs : GoodB good ⟨segs, pre, e, cs⟩ := GoodCs.tail hb
      cases n with
      | empty => exact .panicking
      | focusMark =>
        dsimp only
        split
        · exact .pure ⟨hp, .cons hcs hn⟩
        · exact ih _ _ _ ⟨hp, hn, .some hcs⟩
      | textual t => exact .bind (pushText_st hcs) fun b hb => ih _ _ _ ⟨hp, hn, .some hb⟩
      | endOfLine => exact ih _ _ _ ⟨hp, hn, .some hcs⟩
      | newline ind => exact .panicking
      | child j c =>
        exact .bind (chunkNew_st h hc.child) fun c hc => .bind (expandFirst_st h hn hcs hc) fun r hr =>
          ih _ _ _ ⟨hp, hr.1, .some hr.2⟩
      | concat x y => exact .panicking
      | choice x y =>
        exact .bind (choose_st h w hcs hc.choice.1 hc.choice.2) fun c hc =>
          .bind (expandFirst_st h hn hcs hc) fun r hr => ih _ _ _ ⟨hp, hr.1, .some hr.2⟩
  unfold Printer.seekMark Printer.seekMarkS
  rcases p with ⟨w, prev, _ | ⟨b, next⟩⟩
  · exact .panicking
  · exact .bind (expandFirst_st h hp.2.tail hp.2.head hc) fun r hr =>
      .bind (H w c.id prev (r.2 :: r.1) none ⟨hp.1, .cons hr.2 hr.1, .none⟩) fun r hr => .pure hr

theorem seekText_st (h : Enough good K) {p : Printer P} {c : Chunk P} (pos : Nat) (hp : GoodP good p)
    (hc : GoodC good c) : St (GoodP good) (p.seekText c pos) (p.seekTextS K c pos) := by
  have H : ∀ (w : Nat) (prev next : List (Block P)) (cur : Option (Block P)),
      (GoodBs good prev ∧ GoodBs good next ∧ GoodCur good cur) →
      St (GoodBlocks good) (seekTextLoop w pos prev next cur) (seekTextLoopS K w pos prev next cur) := by
    intro w
    apply seekTextLoop.fixpoint_induct (motive := fun f => ∀ prev next cur,
      (GoodBs good prev ∧ GoodBs good next ∧ GoodCur good cur) →
      St (GoodBlocks good) (f prev next cur) (seekTextLoopS K w pos prev next cur))
    · exact St.adm3 (fun prev next cur => GoodBs good prev ∧ GoodBs good next ∧ GoodCur good cur) _ _
    intro f ih prev next cur ⟨hp, hn, hcur⟩
    rw [seekTextLoopS.eq_def]
    match cur with
    | none =>
      match next with
      | [] => exact .throwErr
      | b :: next => exact ih _ _ _ ⟨hp, hn.tail, .some hn.head⟩
    | some ⟨segs, pre, e, []⟩ => exact ih _ _ _ ⟨.cons (hcur _ rfl) hp, hn, .none⟩
    | some ⟨segs, pre, e, ⟨n, i⟩ :: cs⟩ =>
      have hb := hcur _ rfl
      have hc : GoodN good n := GoodCs.head hb
      have hcs : GoodB good ⟨segs, pre, e, cs⟩ := GoodCs.tail hb
      cases n with
      | empty => exact .panicking
      | focusMark => exact ih _ _ _ ⟨hp, hn, .some hcs⟩
      | textual t =>
        dsimp only
        split
        · exact .bind (pushText_st hcs) fun b hb => .pure ⟨hp, .cons (.cons (.leaf rfl) hb) hn⟩
        · exact .bind (pushText_st hcs) fun b hb => ih _ _ _ ⟨hp, hn, .some hb⟩
      | endOfLine => exact ih _ _ _ ⟨hp, hn, .some hcs⟩
      | newline ind => exact .panicking
      | child j c =>
        exact .bind (chunkNew_st h hc.child) fun c hc => .bind (expandFirst_st h hn hcs hc) fun r hr =>
          ih _ _ _ ⟨hp, hr.1, .some hr.2⟩
      | concat x y => exact .panicking
      | choice x y =>
        exact .bind (choose_st h w hcs hc.choice.1 hc.choice.2) fun c hc =>
          .bind (expandFirst_st h hn hcs hc) fun r hr => ih _ _ _ ⟨hp, hr.1, .some hr.2⟩
  unfold Printer.seekText Printer.seekTextS
  rcases p with ⟨w, prev, _ | ⟨b, next⟩⟩
  · exact .panicking
  · exact .bind (expandFirst_st h hp.2.tail hp.2.head hc) fun r hr =>
      .bind (H w prev (r.2 :: r.1) none ⟨hp.1, .cons hr.2 hr.1, .none⟩) fun r hr => .pure hr

theorem skipBlocks_good (id : P.Id) (i : Nat) {prev next : List (Block P)} (hp : GoodBs good prev)
    (hn : GoodBs good next) : GoodBlocks good (skipBlocks id i prev next) := by
  induction next generalizing prev with
  | nil => exact ⟨hp, .nil⟩
  | cons b next ih =>
    rw [skipBlocks]
    split
    · exact ⟨hp, hn⟩
    · exact ih (.cons hn.head hp) hn.tail

/-- Good ends of step 2. -/
def GoodStep2 (good : DCN P → Prop) : Step2 P → Prop
  | .found next c => GoodBs good next ∧ GoodC good c
  | .again next => GoodBs good next

theorem seekChildStep2_st (h : Enough good K) (w : Nat) (id : P.Id) (j : Nat) {next : List (Block P)} (b : Block P)
    (hn : GoodBs good next) (hb : GoodB good b) :
    St (GoodStep2 good) (seekChildStep2 w id j next b) (seekChildStep2S K w id j next b) := by
  revert b
  apply seekChildStep2.fixpoint_induct (motive := fun f => ∀ b, GoodB good b → St (GoodStep2 good) (f b)
    (seekChildStep2S K w id j next b))
  · exact St.adm1 (GoodB good) _ _
  intro f ih b hb
  rw [seekChildStep2S.eq_def]
  rcases b with ⟨segs, pre, e, _ | ⟨⟨n, i⟩, cs⟩⟩
  · exact .pure hn
  have hc : GoodN good n := GoodCs.head hb
  have hcs : GoodB good ⟨segs, pre, e, cs⟩ := GoodCs.tail hb
  cases n with
  | empty => exact .panicking
  | focusMark => exact ih _ hcs
  | textual t => exact .bind (pushText_st hcs) fun b hb => ih _ hb
  | endOfLine => exact ih _ hcs
  | newline ind => exact .panicking
  | child k c =>
    dsimp only
    split
    · exact .bind (chunkNew_st h hc.child) fun c hc => .pure ⟨.cons hcs hn, hc⟩
    · exact .bind (chunkNew_st h hc.child) fun c hc => .bind (expandFirst_st h hn hcs hc) fun r hr =>
        .pure (GoodBs.cons hr.2 hr.1)
  | concat x y => exact .panicking
  | choice x y =>
    exact .bind (choose_st h w hcs hc.choice.1 hc.choice.2) fun c hc =>
      .bind (expandFirst_st h hn hcs hc) fun r hr => .pure (GoodBs.cons hr.2 hr.1)

/-- Good results of `seekChildLoop`. -/
def GoodFound (good : DCN P → Prop) (r : List (Block P) × List (Block P) × Chunk P) : Prop :=
  GoodBs good r.1 ∧ GoodBs good r.2.1 ∧ GoodC good r.2.2

theorem seekChildLoop_st (h : Enough good K) (w : Nat) (id : P.Id) (j : Nat) (prev next : List (Block P))
    (hn : GoodBs good prev ∧ GoodBs good next) :
    St (GoodFound good) (seekChildLoop w id j prev next) (seekChildLoopS K w id j prev next) := by
  revert prev next
  apply seekChildLoop.fixpoint_induct (motive := fun f => ∀ prev next, (GoodBs good prev ∧ GoodBs good next) →
    St (GoodFound good) (f prev next) (seekChildLoopS K w id j prev next))
  · exact St.adm2 (fun prev next => GoodBs good prev ∧ GoodBs good next) _ _
  intro f ih prev next ⟨hp, hn⟩
  rw [seekChildLoopS.eq_def]
  have hs := skipBlocks_good id j hp hn
  dsimp only
  match skipBlocks id j prev next, hs with
  | (_, []), _ => exact .throwErr
  | (prev, b :: next), hs =>
    refine .bind (seekChildStep2_st h w id j b hs.2.tail hs.2.head) fun r hr => ?_
    cases r with
    | found next c => exact .pure ⟨hs.1, hr.1, hr.2⟩
    | again next => exact ih _ _ ⟨hs.1, hr⟩

/-- Good results of `seek_child`. -/
def GoodChild (good : DCN P → Prop) (r : Printer P × Chunk P) : Prop := GoodP good r.1 ∧ GoodC good r.2

theorem seekChild_st (h : Enough good K) {p : Printer P} {c : Chunk P} (j : Nat) (hp : GoodP good p)
    (hc : GoodC good c) : St (GoodChild good) (p.seekChild c j) (p.seekChildS K c j) := by
  unfold Printer.seekChild Printer.seekChildS
  rcases p with ⟨w, prev, _ | ⟨b, next⟩⟩
  · exact .panicking
  · exact .bind (expandFirst_st h hp.2.tail hp.2.head hc) fun r hr =>
      .bind (seekChildLoop_st h w c.id j prev (r.2 :: r.1) ⟨hp.1, .cons hr.2 hr.1⟩) fun r hr =>
        .pure ⟨⟨hr.1, hr.2.1⟩, hr.2.2⟩

theorem seekPath_st (h : Enough good K) {p : Printer P} {c : Chunk P} (path : List Nat) (hp : GoodP good p)
    (hc : GoodC good c) : St (GoodChild good) (p.seekPath c path) (p.seekPathS K c path) := by
  induction path generalizing p c with
  | nil => exact .pure ⟨hp, hc⟩
  | cons j path ih => exact .bind (seekChild_st h j hp hc) fun r hr => ih hr.1 hr.2

theorem seek_st (h : Enough good K) {p : Printer P} (doc : P.Node) (path : List Nat) (target : FocusTarget)
    (rs : Option P.Style) (hp : GoodP good p)
    (hd : ∀ d, (DCN.withOptionalStyle doc rs).run = some (.ok d) → good d) :
    St (GoodP good) (p.seek doc path target rs) (p.seekS K doc path target rs) := by
  refine .bind (.self hd) fun d hd => .bind (chunkNew_st h hd) fun c hc =>
    .bind (seekPath_st h path hp hc) fun r hr => ?_
  cases target with
  | start => exact seekStart_st h hr.1 hr.2
  | «end» => exact seekEnd_st h hr.1 hr.2
  | text pos => exact seekText_st h pos hr.1 hr.2
  | mark => exact seekMark_st h hr.1 hr.2

theorem prettyPrint_st (h : Enough good K) (doc : P.Node) (w : Nat) (path : List Nat) (target : FocusTarget)
    (rs : Option P.Style) (hd : ∀ d, (DCN.withOptionalStyle doc rs).run = some (.ok d) → good d) :
    St (fun r => GoodP good r.up ∧ GoodP good r.down) (prettyPrint doc w path target rs)
      (prettyPrintS K doc w path target rs) := by
  unfold prettyPrint prettyPrintS
  refine .bind (G := GoodP good) ?_ fun p hp => .bind (seek_st h doc path target rs hp hd) fun p hp => ?_
  · exact .bind (blockNew_st .nil) fun b hb => .pure ⟨.nil, .cons hb .nil⟩
  rcases p with ⟨w, prev, _ | ⟨b, next⟩⟩
  · exact .panicking
  refine .bind (printNextLine_st h hp) fun r hr => ?_
  rcases r with ⟨_ | l, p⟩
  · exact .panicking
  · dsimp only
    split
    · exact .panicking
    · exact .pure ⟨⟨hr.1, .nil⟩, .nil, hr.2⟩

theorem takeLines_down_st (h : Enough good K) (n : Nat) {p : Printer P} (hp : GoodP good p) :
    St (fun r => GoodP good r.2) (takeLines Printer.nextDown n p) (takeLines (Printer.nextDownS K) n p) := by
  induction n generalizing p with
  | zero => exact .pure hp
  | succ n ih => exact .bind (printNextLine_st h hp) fun r hr => .bind (ih hr) fun r hr => .pure hr

theorem takeLines_up_st (h : Enough good K) (n : Nat) {p : Printer P} (hp : GoodP good p) :
    St (fun r => GoodP good r.2) (takeLines Printer.nextUp n p) (takeLines (Printer.nextUpS K) n p) := by
  induction n generalizing p with
  | zero => exact .pure hp
  | succ n ih => exact .bind (printPrevLine_st h hp) fun r hr => .bind (ih hr) fun r hr => .pure hr

theorem toStringLoop_st (h : Enough good K) (s : String) (p : Printer P) (hp : GoodP good p) :
    St (fun _ => True) (toStringLoop s p) (toStringLoopS K s p) := by
  revert s p
  apply toStringLoop.fixpoint_induct (P := P) (motive := fun f => ∀ s (p : Printer P), GoodP good p →
    St (fun _ => True) (f s p) (toStringLoopS K s p))
  · exact St.adm2 (fun _ p => GoodP good p) _ _
  intro f ih s p hp
  rw [toStringLoopS.eq_def]
  refine .bind (printNextLine_st h hp) fun r hr => ?_
  rcases r with ⟨_ | l, p⟩
  · exact .pure trivial
  · exact ih _ _ hr

theorem prettyPrintToString_st (h : Enough good K) (doc : P.Node) (w : Nat)
    (hd : ∀ d, (DCN.withOptionalStyle doc none).run = some (.ok d) → good d) :
    St (fun _ => True) (prettyPrintToString doc w) (prettyPrintToStringS K doc w) :=
  .bind (prettyPrint_st h doc w [] .start none hd) fun _ hr => toStringLoop_st h _ _ hr.2

/-! ### Evaluation -/

theorem evalS_of_nests {d : DCN P} {k : Nat} (h : d.Nests k) : ∀ {K}, k ≤ K → (d.evalS K).run = d.eval.run := by
  induction h with
  | fails h =>
    intro K hk
    match K, hk with
    | K + 1, _ => rw [eval_step, DCN.evalS, Exec.run_bind, Exec.run_bind, h]
  | returns h =>
    intro K hk
    match K, hk with
    | K + 1, _ => rw [eval_step, DCN.evalS, Exec.run_bind, Exec.run_bind, h]
  | calls h _ ih =>
    intro K hk
    match K, hk with
    | K + 1, hk =>
      rw [eval_step, DCN.evalS, Exec.run_bind, Exec.run_bind, h]
      exact ih (by omega)

theorem evalS_runs_out {d : DCN P} {k : Nat} (h : d.Nests k) :
    ∀ {K}, K < k → (d.evalS K).run = some (.error .panic) := by
  induction h with
  | fails h =>
    intro K hk
    obtain rfl : K = 0 := by omega
    rfl
  | returns h =>
    intro K hk
    obtain rfl : K = 0 := by omega
    rfl
  | calls h _ ih =>
    intro K hk
    match K, hk with
    | 0, _ => rfl
    | K + 1, hk =>
      rw [DCN.evalS, Exec.run_bind, h]
      exact ih (by omega)

/-- The stack is enough for all that comes up when the document is printed. -/
theorem enough_of_nests {doc : P.Node} {st : Option P.Style}
    (h : ∀ d, Reached doc st d → ∃ k, d.Nests k ∧ k ≤ K) : Enough (Reached doc st) K := by
  intro d hd
  obtain ⟨k, h1, h2⟩ := h d hd
  have h := evalS_of_nests h1 h2
  exact ⟨fun cn hc => ⟨h ▸ hc, fun d' hd' => .part hd hc hd'⟩, fun f hf => h ▸ hf⟩

end PPP
