import Verif.Proofs.WorkSession
/-
Printing takes at least as many steps as there is to print: every delayed notation, chunk and block stands for
something that remains to be done, and every function of the printer is shown to take at least as many steps as
this decreases.
-/
namespace PPP
variable {P : PrettyDoc}
open Counted Lean.Order

/-- What remains to be done for a shape whose outermost construct has been found. -/
def Shape.rest : Shape → Nat
  | .leaf => 0
  | .newline levels => levels
  | .text _ => 0
  | .concat a b => a.smallest + b.smallest
  | .choice a b => min a.smallest b.smallest
  | .child t => t.smallest
  | .step t => t.smallest

theorem Shape.smallest_core (s : Shape) : s.smallest = s.steps + s.core.rest := by
  induction s with
  | step t ih => simp only [Shape.smallest, Shape.steps, Shape.core, ih]; omega
  | _ => simp only [Shape.smallest, Shape.steps, Shape.core, Shape.rest] <;> omega

/-- If the computation succeeds, then its steps and what remains to be done are together at least `L`. -/
def Owes {E α : Type} (x : Counted E α) (L : Nat) (Q : α → Nat → Prop) : Prop :=
  ∀ n a, x = some (n, .ok a) → ∃ φ, Q a φ ∧ L ≤ n + φ

namespace Owes
variable {E α β : Type}

theorem pure {a : α} {L : Nat} {Q : α → Nat → Prop} (h : Q a L) : Owes (Pure.pure a : Counted E α) L Q := by
  intro n a' h'
  cases h'
  exact ⟨L, h, by omega⟩

theorem mono {x : Counted E α} {L L' : Nat} {Q Q' : α → Nat → Prop} (h : Owes x L Q) (hL : L' ≤ L)
    (hQ : ∀ a φ, Q a φ → Q' a φ) : Owes x L' Q' := by
  intro n a ha
  obtain ⟨φ, h1, h2⟩ := h n a ha
  exact ⟨φ, hQ a φ h1, by omega⟩

theorem bind {x : Counted E α} {f : α → Counted E β} {L L0 k : Nat} {Q : α → Nat → Prop} {R : β → Nat → Prop}
    (hx : Owes x L0 Q) (hL : L ≤ L0 + k) (hf : ∀ a φ, Q a φ → Owes (f a) (φ + k) R) : Owes (x >>= f) L R := by
  rw [Counted.bind_eq]
  intro n b h
  match x, hx with
  | none, _ => cases h
  | some (m, .error e), _ => cases h
  | some (m, .ok a), hx =>
    obtain ⟨φ, h1, h2⟩ := hx m a rfl
    simp only [Counted.andThen] at h
    match hfa : f a with
    | none => rw [hfa] at h; cases h
    | some (m', r) =>
      rw [hfa] at h
      cases h
      obtain ⟨ψ, h3, h4⟩ := hf a φ h1 m' b hfa
      exact ⟨ψ, h3, by omega⟩

theorem tick {X : Unit → Counted E β} {L k : Nat} {R : β → Nat → Prop} (h : Owes (X ()) (L - k) R) :
    Owes (Counted.tick k >>= X) L R :=
  bind (L0 := k) (k := L - k) (Q := fun _ φ => φ = 0)
    (fun n a ha => by cases ha; exact ⟨0, rfl, by omega⟩) (by omega)
    (fun _ φ hφ => by subst hφ; exact mono h (by omega) (fun _ _ h => h))

theorem error {e : Fail E} {n : Nat} {L : Nat} {Q : α → Nat → Prop} :
    Owes (some (n, .error e) : Counted E α) L Q := by
  intro n a h
  cases h

theorem panic {L : Nat} {Q : α → Nat → Prop} : Owes (panicking : Exec E α).free L Q := error

theorem skip {x : Counted E α} {Q : α → Prop} (h : ∀ n a, x = some (n, .ok a) → Q a) :
    Owes x 0 (fun a φ => Q a ∧ φ = 0) :=
  fun n a ha => ⟨0, ⟨h n a ha, rfl⟩, by omega⟩

theorem admissible (L : Nat) (Q : α → Nat → Prop) : Lean.Order.admissible fun x : Counted E α => Owes x L Q := by
  apply admissible_pi
  intro n
  apply admissible_pi
  intro a
  exact Option.admissible_eq_some _ _

end Owes

theorem evalC_pos {d : DCN P} {n r} (h : d.evalC = some (n, r)) : 1 ≤ n := by
  rw [DCN.evalC.eq_def, Counted.bind_eq] at h
  simp only [Counted.tick, Counted.ret, Counted.andThen] at h
  split at h
  · cases h
  · cases h; omega

theorem ShapeRep.steps_le {d : DCN P} {s} (h : ShapeRep d s) :
    ∀ n c, d.evalC = some (n, .ok c) → s.steps ≤ n := by
  induction h with
  | fail h1 => intro n c h; rw [h1] at h; cases h
  | @step d d' k s h1 h2 h3 ih =>
    intro n c h
    rw [h1] at h
    match hd : d'.evalC with
    | none => rw [hd] at h; cases h
    | some (m, r) =>
      rw [hd, after_some] at h
      cases h
      have := ih m c hd
      simp only [Shape.steps]
      omega
  | _ => intro n c h; have := evalC_pos h; simp only [Shape.steps]; omega

theorem evalC_owes {d : DCN P} {s : Shape} (h : ShapeRep d s) :
    Owes d.evalC s.smallest (fun c φ => CNShape c s.core ∧ φ = s.core.rest) := by
  intro n c hc
  obtain ⟨n', r, h1, _, h3⟩ := h.eval
  rw [hc] at h1
  cases h1
  have := h.steps_le n c hc
  exact ⟨_, ⟨h3 c rfl, rfl⟩, by rw [s.smallest_core]; omega⟩

theorem Chunk.newC_owes {d : DCN P} {s : Shape} (h : ShapeRep d s) :
    Owes (Chunk.newC d) s.smallest (fun c φ => CNShape c.notn s.core ∧ φ = s.core.rest) := by
  unfold Chunk.newC
  refine Owes.bind (L0 := 0) (k := s.smallest) (Q := fun _ φ => True ∧ φ = 0) (Owes.skip fun _ _ _ => trivial) (by omega) ?_
  rintro id φ ⟨-, rfl⟩
  refine Owes.bind (k := 0) (evalC_owes h) (by omega) ?_
  rintro c φ ⟨hc, rfl⟩
  exact Owes.pure ⟨hc, rfl⟩

/-- What remains to be done for a list of shapes. -/
def restL : List Shape → Nat
  | [] => 0
  | s :: ss => s.rest + restL ss

/-- At least `φ` remains to be done for the blocks. -/
def BlocksR : List (Block P) → Nat → Prop
  | [], φ => φ = 0
  | b :: bs, φ => ∃ ks φ2, Chunks b.chunks ks ∧ BlocksR bs φ2 ∧ φ ≤ restL ks + φ2

/-- At least `φ` remains to be done after an expansion. -/
def ExpandR (x : List (Block P) × Block P) (φ : Nat) : Prop :=
  ∃ φ1 ks, BlocksR x.1 φ1 ∧ Chunks x.2.chunks ks ∧ φ ≤ φ1 + restL ks

theorem chooseC_owes {w : Nat} {block : Block P} {d1 d2 : DCN P} {s1 s2 : Shape} (h1 : ShapeRep d1 s1)
    (h2 : ShapeRep d2 s2) :
    Owes (chooseC w block d1 d2) (min s1.smallest s2.smallest) (fun c φ => ∃ s, CNShape c.notn s ∧ φ ≤ s.rest) := by
  unfold chooseC
  have second : ∀ L, L ≤ s2.smallest →
      Owes (Chunk.newC d2) L (fun c φ => ∃ s, CNShape c.notn s ∧ φ ≤ s.rest) := fun L hL =>
    (Chunk.newC_owes h2).mono hL fun c φ h => ⟨_, h.1, Nat.le_of_eq h.2⟩
  have first : Owes (Chunk.newC d1) (min s1.smallest s2.smallest)
      (fun c φ => CNShape c.notn s1.core ∧ φ ≤ s1.core.rest ∧ φ ≤ s2.smallest) := by
    intro n c hc
    obtain ⟨φ, ⟨g1, rfl⟩, g2⟩ := Chunk.newC_owes h1 n c hc
    exact ⟨min s1.core.rest s2.smallest, ⟨g1, by omega, by omega⟩, by omega⟩
  refine Owes.bind (k := 0) first (by omega) ?_
  rintro c φ ⟨hc, hφ, hφ'⟩
  split
  · refine Owes.bind (L0 := 0) (k := φ) (Q := fun _ φ => True ∧ φ = 0) (Owes.skip fun _ _ _ => trivial) (by omega) ?_
    rintro b ψ ⟨-, rfl⟩
    split
    · exact Owes.pure ⟨_, hc, by omega⟩
    · exact second _ (by omega)
  · exact second _ (by omega)

theorem Block.newC_owes (ind : Indent P) (cs : List (Chunk P)) :
    Owes (Block.newC ind cs) (1 + ind.length) (fun b φ => b.chunks = cs ∧ φ = 0) := by
  unfold Block.newC
  refine Owes.tick ?_
  rw [Nat.sub_self]
  refine Owes.skip fun n b hb => ?_
  simp only [Block.new] at hb
  split at hb
  · cases hb; rfl
  · cases hb

theorem expandFirstLoopC_owes (next : List (Block P)) (block : Block P) (stack : List (Chunk P)) :
    ∀ φ ks ss, BlocksR next φ → Chunks block.chunks ks → Chunks stack ss →
      Owes (expandFirstLoopC next block stack) (φ + restL ks + restL ss) ExpandR := by
  revert next block stack
  apply expandFirstLoopC.fixpoint_induct (motive := fun f => ∀ next block stack φ ks ss, BlocksR next φ →
    Chunks block.chunks ks → Chunks stack ss → Owes (f next block stack) (φ + restL ks + restL ss) ExpandR)
  · refine admissible_pi_apply (fun next (f : Block P → List (Chunk P) → _) => ∀ block stack φ ks ss, BlocksR next φ →
      Chunks block.chunks ks → Chunks stack ss → Owes (f block stack) (φ + restL ks + restL ss) ExpandR) fun next => ?_
    refine admissible_pi_apply (fun (block : Block P) (f : List (Chunk P) → _) => ∀ stack φ ks ss, BlocksR next φ →
      Chunks block.chunks ks → Chunks stack ss → Owes (f stack) (φ + restL ks + restL ss) ExpandR) fun block => ?_
    refine admissible_pi_apply (fun stack x => ∀ φ ks ss, BlocksR next φ →
      Chunks block.chunks ks → Chunks stack ss → Owes x (φ + restL ks + restL ss) ExpandR) fun stack => ?_
    refine admissible_pi _ fun φ => admissible_pi _ fun ks => admissible_pi _ fun ss => admissible_pi _ fun _ =>
      admissible_pi _ fun _ => admissible_pi _ fun _ => Owes.admissible _ _
  intro f ih next block stack φ ks ss hnext hks hss
  obtain ⟨segs, pl, eol, cs⟩ := block
  refine Owes.tick ?_
  cases hss with
  | nil => exact Owes.pure ⟨φ, ks, hnext, hks, by simp only [restL]; omega⟩
  | @cons c s stack ss hc hss =>
    have push : ∀ n, CNShape n s → Owes (f next ⟨segs, pl, eol, ⟨n, c.id⟩ :: cs⟩ stack)
        (φ + restL ks + restL (s :: ss) - 1) ExpandR := fun n hn =>
      (ih next ⟨segs, pl, eol, ⟨n, c.id⟩ :: cs⟩ stack φ (s :: ks) ss hnext (.cons hn hks) hss).mono
        (by simp only [restL]; omega) (fun _ _ h => h)
    obtain ⟨cn, id⟩ := c
    cases cn <;> dsimp only at hc push ⊢
    case empty =>
      have : s.rest = 0 := by cases hc; rfl
      exact (ih next ⟨segs, pl, eol, cs⟩ stack φ ks ss hnext hks hss).mono
        (by simp only [restL]; omega) (fun _ _ h => h)
    case focusMark => exact push _ hc
    case endOfLine => exact push _ hc
    case textual t => exact push _ hc
    case child i d => exact push _ hc
    case choice d1 d2 => exact push _ hc
    case newline ind =>
      have hs : s.rest = ind.length := by
        cases hc with
        | leaf h => rcases h with h | h | h <;> cases h
        | newline => rfl
      refine Owes.bind (k := φ + restL ks + restL ss) (Block.newC_owes ind cs)
        (by simp only [restL]; omega) ?_
      rintro b ψ ⟨hb, rfl⟩
      refine (ih (b :: next) ⟨segs, pl, eol, []⟩ stack (restL ks + φ) [] ss
        ⟨ks, φ, by rw [hb]; exact hks, hnext, Nat.le_refl _⟩ .nil hss).mono
        (by simp only [restL]; omega) (fun _ _ h => h)
    case concat l r =>
      obtain ⟨sa, sb, rfl, ha, hb⟩ : ∃ sa sb, s = .concat sa sb ∧ ShapeRep l sa ∧ ShapeRep r sb := by
        cases hc with
        | leaf h => rcases h with h | h | h <;> cases h
        | concat ha hb => exact ⟨_, _, rfl, ha, hb⟩
      simp only [restL, Shape.rest]
      refine Owes.bind (k := φ + restL ks + restL ss + sb.smallest) (Chunk.newC_owes ha) (by omega) ?_
      rintro c1 ψ ⟨h1, rfl⟩
      refine Owes.bind (k := φ + restL ks + restL ss + sa.core.rest) (Chunk.newC_owes hb) (by omega) ?_
      rintro c2 ψ ⟨h2, rfl⟩
      exact (ih next ⟨segs, pl, eol, cs⟩ (c2 :: c1 :: stack) φ ks (sb.core :: sa.core :: ss) hnext hks
        (.cons h2 (.cons h1 hss))).mono (by simp only [restL]; omega) (fun _ _ h => h)

theorem expandFirstC_owes {next : List (Block P)} {block : Block P} {c : Chunk P} {φ ks s} (h1 : BlocksR next φ)
    (h2 : Chunks block.chunks ks) (h3 : CNShape c.notn s) :
    Owes (expandFirstC next block c) (φ + restL ks + s.rest) ExpandR :=
  (expandFirstLoopC_owes next block [c] φ ks [s] h1 h2 (.cons h3 .nil)).mono (by simp only [restL]; omega)
    (fun _ _ h => h)

theorem pushText_chunks {b : Block P} {t : Textual P} {n b'} (h : (b.pushText t).free = some (n, .ok b')) :
    b'.chunks = b.chunks := by
  obtain ⟨m, r, h1, _, h3⟩ := pushText_pays (m := 1) b t 0
  rw [h] at h1
  cases h1
  obtain ⟨φ, ⟨g, _⟩, _⟩ := h3 _ rfl
  exact g

theorem printNextLoopC_owes (w : Nat) (next : List (Block P)) (block : Block P) :
    ∀ φ ks, BlocksR next φ → Chunks block.chunks ks →
      Owes (printNextLoopC w next block) (φ + restL ks) (fun r φ => BlocksR r.2 φ) := by
  revert next block
  apply printNextLoopC.fixpoint_induct (motive := fun f => ∀ next block φ ks, BlocksR next φ →
    Chunks block.chunks ks → Owes (f next block) (φ + restL ks) (fun r φ => BlocksR r.2 φ))
  · refine admissible_pi_apply (fun next (f : Block P → Counted P.Err (Line P × List (Block P))) => ∀ block φ ks, BlocksR next φ →
      Chunks block.chunks ks → Owes (f block) (φ + restL ks) (fun r φ => BlocksR r.2 φ)) fun next => ?_
    refine admissible_pi_apply (fun (block : Block P) (x : Counted P.Err (Line P × List (Block P))) => ∀ φ ks, BlocksR next φ →
      Chunks block.chunks ks → Owes x (φ + restL ks) (fun r φ => BlocksR r.2 φ)) fun block => ?_
    exact admissible_pi _ fun φ => admissible_pi _ fun ks => admissible_pi _ fun _ =>
      admissible_pi _ fun _ => Owes.admissible _ _
  intro f ih next block φ ks hnext hks
  obtain ⟨segs, pl, eol, cs⟩ := block
  refine Owes.tick ?_
  cases hks with
  | nil =>
    refine Owes.bind (L0 := 0) (k := φ) (Q := fun _ φ => True ∧ φ = 0) (Owes.skip fun _ _ _ => trivial)
      (by simp only [restL]; omega) ?_
    rintro l _ ⟨-, rfl⟩
    rw [Nat.zero_add]
    exact Owes.pure hnext
  | @cons c s cs ks hc hks =>
    have rest : ∀ segs pl eol, s.rest = 0 → Owes (f next ⟨segs, pl, eol, cs⟩) (φ + restL (s :: ks) - 1)
        (fun r φ => BlocksR r.2 φ) := fun segs pl eol h0 =>
      (ih next ⟨segs, pl, eol, cs⟩ φ ks hnext hks).mono (by simp only [restL]; omega) (fun _ _ h => h)
    have again : ∀ (x : List (Block P) × Block P) ψ, ExpandR x ψ →
        Owes (f x.1 x.2) ψ (fun r φ => BlocksR r.2 φ) := by
      rintro ⟨next', block'⟩ ψ ⟨φ1, ks', g1, g2, g3⟩
      exact (ih next' block' φ1 ks' g1 g2).mono g3 (fun _ _ h => h)
    have hi := hc.inv
    obtain ⟨cn, id⟩ := c
    cases cn <;> dsimp only at hi hc ⊢
    case empty => exact Owes.panic
    case newline => exact Owes.panic
    case concat => exact Owes.panic
    case focusMark => exact rest _ _ _ (by cases hc; rfl)
    case endOfLine => exact rest _ _ _ (by cases hc; rfl)
    case textual t =>
      have h0 : s.rest = 0 := by cases hc <;> rfl
      refine Owes.bind (L0 := 0) (k := φ + restL (s :: ks) - 1) (Owes.skip fun _ _ h => pushText_chunks h)
        (by omega) ?_
      rintro ⟨segs', pl', eol', cs'⟩ ψ ⟨hb, rfl⟩
      dsimp only at hb
      subst hb
      rw [Nat.zero_add]
      exact rest _ _ _ h0
    case child i d =>
      obtain ⟨t, rfl, hd⟩ := hi
      simp only [restL, Shape.rest]
      refine Owes.bind (k := φ + restL ks) (Chunk.newC_owes hd) (by omega) ?_
      rintro c ψ ⟨hc, rfl⟩
      refine Owes.bind (k := 0) (expandFirstC_owes (block := ⟨segs, pl, eol, cs⟩) hnext hks hc) (by omega) ?_
      intro x ψ hx
      exact again x ψ hx
    case choice d1 d2 =>
      obtain ⟨s1, s2, rfl, h1, h2⟩ := hi
      simp only [restL, Shape.rest]
      refine Owes.bind (k := φ + restL ks) (chooseC_owes h1 h2) (by omega) ?_
      rintro c ψ ⟨s, hc, hψ⟩
      refine Owes.bind (k := 0) (expandFirstC_owes (block := ⟨segs, pl, eol, cs⟩) hnext hks hc) (by omega) ?_
      intro x ψ hx
      exact again x ψ hx

theorem printNextLineC_owes (p : Printer P) {φ} (h : BlocksR p.next φ) :
    Owes p.printNextLineC φ (fun r ψ => BlocksR r.2.next ψ ∧ (r.1 = none → ψ = 0)) := by
  unfold Printer.printNextLineC
  refine Owes.tick ?_
  obtain ⟨w, prev, next⟩ := p
  cases next with
  | nil =>
    cases h
    exact Owes.pure ⟨rfl, fun _ => rfl⟩
  | cons b bs =>
    obtain ⟨ks, φ2, h1, h2, h3⟩ := h
    refine Owes.bind (k := 0) (printNextLoopC_owes w bs b φ2 ks h2 h1) (by omega) ?_
    rintro ⟨l, next⟩ ψ hψ
    exact Owes.pure ⟨hψ, fun h => by cases h⟩

theorem toStringLoopC_owes (s : String) (p : Printer P) : ∀ φ, BlocksR p.next φ →
    Owes (toStringLoopC s p) φ (fun _ ψ => ψ = 0) := by
  revert s p
  apply toStringLoopC.fixpoint_induct (P := P) (motive := fun f => ∀ s (p : Printer P) φ, BlocksR p.next φ →
    Owes (f s p) φ (fun _ ψ => ψ = 0))
  · refine admissible_pi_apply (fun s (f : Printer P → _) => ∀ p φ, BlocksR p.next φ →
      Owes (f p) φ (fun _ ψ => ψ = 0)) fun s => ?_
    refine admissible_pi_apply (fun (p : Printer P) x => ∀ φ, BlocksR p.next φ →
      Owes x φ (fun _ ψ => ψ = 0)) fun p => ?_
    exact admissible_pi _ fun φ => admissible_pi _ fun _ => Owes.admissible _ _
  intro f ih s p φ h
  refine Owes.bind (k := 0) (printNextLineC_owes p h) (by omega) ?_
  rintro ⟨l, p'⟩ ψ ⟨h1, h2⟩
  cases l with
  | none => exact Owes.pure (h2 rfl)
  | some l => exact ih _ p' ψ h1

theorem prettyPrintC_owes (law : P.Lawful) (scan : Nat) (doc : P.Node) (w : Nat) (style : Option P.Style) :
    Owes (prettyPrintC scan doc w [] .start style) (docSmallest law doc) (fun r φ => BlocksR r.down.next φ) := by
  unfold prettyPrintC
  have hnew : Owes (Printer.newC w : Counted P.Err (Printer P)) 0
      (fun p φ => (∃ b, p.next = [b] ∧ b.chunks = []) ∧ φ = 0) := by
    unfold Printer.newC
    refine Owes.bind (k := 0) (Block.newC_owes [] []) (by omega) ?_
    rintro b φ ⟨hb, rfl⟩
    exact Owes.pure ⟨⟨b, rfl, hb⟩, rfl⟩
  refine Owes.bind (k := docSmallest law doc) hnew (by omega) ?_
  rintro p φ ⟨⟨b, hb, hcs⟩, rfl⟩
  have hseek : Owes (p.seekC scan doc [] .start style) (docSmallest law doc) (fun p φ => BlocksR p.next φ) := by
    unfold Printer.seekC docSmallest
    have hroot : Owes (DCN.withOptionalStyleC doc style) 0
        (fun d φ => ShapeRep d (docShape law doc false 0) ∧ φ = 0) := by
      refine Owes.skip fun n d hd => ?_
      obtain ⟨m, r, h1, _, h3⟩ := rootC_pays law doc style
      rw [hd] at h1
      cases h1
      obtain ⟨_, ⟨g, _⟩, _⟩ := h3 _ rfl
      exact g
    refine Owes.bind (k := (docShape law doc false 0).smallest) hroot (by omega) ?_
    rintro d φ ⟨hd, rfl⟩
    refine Owes.bind (k := 0) (Chunk.newC_owes hd) (by omega) ?_
    rintro c φ ⟨hc, rfl⟩
    show Owes ((pure (p, c) : Counted P.Err _) >>= fun r => r.1.seekStartC r.2) _ _
    rw [pure_bind']
    unfold Printer.seekStartC
    rw [hb]
    dsimp only
    refine Owes.bind (k := 0) (expandFirstC_owes (φ := 0) (ks := []) rfl (by rw [hcs]; exact .nil) hc)
      (by simp only [restL]; omega) ?_
    rintro ⟨next, block⟩ ψ ⟨φ1, ks, g1, g2, g3⟩
    exact Owes.pure ⟨ks, φ1, g2, g1, by omega⟩
  refine Owes.bind (k := 0) hseek (by omega) ?_
  intro p' ψ hp'
  rw [Nat.add_zero]
  split
  · exact Owes.panic
  · refine Owes.bind (k := 0) (printNextLineC_owes p' hp') (by omega) ?_
    rintro ⟨l, q⟩ ψ ⟨h1, _⟩
    cases l with
    | none => exact Owes.panic
    | some l =>
      dsimp only
      split
      · exact Owes.panic
      · exact Owes.pure h1

theorem prettyPrintToStringC_owes (law : P.Lawful) (scan : Nat) (doc : P.Node) (w : Nat) :
    Owes (prettyPrintToStringC scan doc w) (docSmallest law doc) (fun _ φ => φ = 0) := by
  unfold prettyPrintToStringC
  refine Owes.bind (k := 0) (prettyPrintC_owes law scan doc w none) (by omega) ?_
  intro r ψ hr
  exact toStringLoopC_owes _ _ _ hr

end PPP
