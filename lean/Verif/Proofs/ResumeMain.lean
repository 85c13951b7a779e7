import Verif.Proofs.Resume
import Verif.Proofs.Main
/-
Calling the state-keeping iterators again and again.
-/
namespace PPP
variable {P : PrettyDoc}
open Lean.Order

section
variable (Q : Pred P)

theorem All2.cons_inv {α β : Type} {R : α → β → Prop} {a as bs} (h : All2 R (a :: as) bs) :
    ∃ b bs', bs = b :: bs' ∧ R a b ∧ All2 R as bs' := by
  cases h with
  | cons h1 h2 => exact ⟨_, _, rfl, h1, h2⟩

/-- A good stack of fresh blocks, as a list of items. -/
theorem Stack.rest (id : P.Id) (hnl : ∀ ind, Q.nl ind) {s : List (Block P)} :
    ∀ {n pv}, Stack Q .down n s pv → ∃ tail, RestR s tail ∧ AllFailIn Q tail := by
  induction s with
  | nil => intro n pv _; exact ⟨[], .nil, fun _ h => by simp at h⟩
  | cons b s ih =>
    intro n pv h
    obtain ⟨p, pv', rfl, h1, h2⟩ := h.rep.cons_inv
    obtain ⟨tail, g1, g2⟩ := ih (n := n) (pv := pv') ⟨h2, fun q hq => h.fail q (by simp [hq]), by
      have := h.size
      simp only [pvSize, List.map_cons, List.sum_cons] at this ⊢
      omega, fun hd b' hb' => h.fresh hd b' (by simp [hb'])⟩
    obtain ⟨f1, f2, f3⟩ := h.fresh rfl b (by simp)
    exact ⟨(id, .newline b.segments) :: (p.items ++ tail), .cons f1 f2 f3 h1.chunks g1,
      .cons (hnl _) ((h.fail p (by simp)).append g2)⟩

theorem Stack.tail {dir n} {b : Block P} {s pv} (h : Stack Q dir n (b :: s) pv) :
    ∃ p pv' m, pv = p :: pv' ∧ BlockR b p ∧ AllFailIn Q p.items ∧ Stack Q dir m s pv' ∧
      m + sizes (trees p.items) + 1 ≤ n := by
  obtain ⟨p, pv', rfl, h1, h2⟩ := h.rep.cons_inv
  have := h.size
  simp only [pvSize, List.map_cons, List.sum_cons] at this
  exact ⟨p, pv', pvSize pv', rfl, h1, h.fail p (by simp), ⟨h2, fun q hq => h.fail q (by simp [hq]),
    Nat.le_refl _, fun hd b' hb' => h.fresh hd b' (by simp [hb'])⟩, by simp only [pvSize]; omega⟩

/-- One round of the line loops, with the state kept. -/
theorem printLoopK_returns (hQ : QOk Q) (id : P.Id) (hnl : ∀ ind, Q.nl ind) (dir : Dir) (w : Nat)
    {b : Block P} {s pv n} (h : Stack Q dir n (b :: s) pv) :
    ∃ r s' pv' m, (printLoopK dir w b).run s = some (r, s') ∧ Stack Q dir m s' pv' ∧ m < n ∧
      ∀ e, r = .error e → Q e := by
  obtain ⟨p, pv', m, rfl, h1, h2, h3, h4⟩ := h.tail
  have key : ∀ r s', (printLoopK dir w b).run s = some (r, s') → (∀ e, r = .error e → Q e) →
      ∃ r s' pv' m, (printLoopK dir w b).run s = some (r, s') ∧ Stack Q dir m s' pv' ∧ m < n ∧
      ∀ e, r = .error e → Q e := by
    intro r s' hr he
    obtain ⟨pv'', g⟩ := printLoopK_sat Q dir w b s pv' m p.items _ h3 h1.chunks h2 (Nat.le_refl _) r s' hr
    exact ⟨r, s', pv'', _, hr, g, by omega, he⟩
  cases dir with
  | down =>
    obtain ⟨tail, t1, t2⟩ := h3.rest Q id hnl
    have hf : FirstR s b p.segs p.st (p.items ++ tail) :=
      ⟨h1.segs, h1.col, h1.eol, _, _, rfl, h1.chunks, t1⟩
    have hag := printNextLoop_ag w s b
    rcases (printNextLoop_sat Q hQ w _ hf (h2.append t2) (Nat.le_refl _)).exists_res with
      ⟨a, e1, _⟩ | ⟨e, e1, e2, _⟩
    · have := hag (.ok a) (by rw [e1]; rfl)
      exact key _ _ this (by simp)
    · obtain ⟨s', this⟩ := hag (.error e) (by rw [e1]; rfl)
      exact key _ _ this (by rintro e' h; cases h; exact e2)
  | up =>
    have hag := printPrevLoop_ag w s b
    rcases (printPrevLoop_sat Q hQ w _ h3.rep h3.fail h1 h2 (Nat.le_refl _)).exists_res with
      ⟨a, e1, _⟩ | ⟨e, e1, e2, _⟩
    · have := hag (.ok a) (by rw [e1]; rfl)
      exact key _ _ this (by simp)
    · obtain ⟨s', this⟩ := hag (.error e) (by rw [e1]; rfl)
      exact key _ _ this (by rintro e' h; cases h; exact e2)

/-- A call of `next`: it gives `None` and stays exhausted, or gives an item and has less work left; the
    only other failures are those allowed by `Q`. -/
theorem nextK_sat (hQ : QOk Q) (id : P.Id) (hnl : ∀ ind, Q.nl ind) (dir : Dir) (w : Nat)
    {s : List (Block P)} {pv n} (h : Stack Q dir n s pv) :
    Sat (nextK dir w s)
      (fun r => (s = [] ∧ r = (none, [])) ∨
        (∃ x, r.1 = some x) ∧ ∃ pv' m, Stack Q dir m r.2 pv' ∧ m < n)
      (fun e => Q e ∧ ∀ e', e ≠ .err e') := by
  cases s with
  | nil => exact .inl ⟨rfl, rfl⟩
  | cons b s =>
    obtain ⟨r, s', pv', m, h1, h2, h3, h4⟩ := printLoopK_returns Q hQ id hnl dir w h
    unfold nextK Sat
    have h1' : ((printLoopK dir w b).run s) = some (r, s') := h1
    simp only [ExceptT.run_mk, h1', Option.map_some]
    cases r with
    | ok line => exact .inr ⟨⟨_, rfl⟩, pv', m, h2, h3⟩
    | error f =>
      cases f with
      | err e => exact .inr ⟨⟨_, rfl⟩, pv', m, h2, h3⟩
      | panic => exact ⟨h4 _ rfl, by simp⟩
      | overflow => exact ⟨h4 _ rfl, by simp⟩

/-- Any number of calls; after as many as there is work they all give `None`. -/
theorem callsK_sat (hQ : QOk Q) (id : P.Id) (hnl : ∀ ind, Q.nl ind) (dir : Dir) (w : Nat) (k : Nat) :
    ∀ {s : List (Block P)} {pv n}, Stack Q dir n s pv →
    Sat (callsK dir w k s)
      (fun r => r.1.length = k ∧ ∀ i, n ≤ i → i < k → r.1[i]? = some none)
      (fun e => Q e ∧ ∀ e', e ≠ .err e') := by
  induction k with
  | zero => intro s pv n h; exact ⟨rfl, fun i _ hi => by omega⟩
  | succ k ih =>
    intro s pv n h
    unfold callsK
    refine Sat.bind' (nextK_sat Q hQ id hnl dir w h) ?_ (fun _ h => h)
    rintro ⟨item, s'⟩ hr
    simp only at hr ⊢
    rcases hr with ⟨rfl, hr⟩ | ⟨⟨x, rfl⟩, pv', m, hr, hm⟩
    · cases hr
      -- the stack is empty, so there is no work left
      have h0 : Stack Q dir 0 [] pv := ⟨h.rep, h.fail, by cases h.rep; simp [pvSize], h.fresh⟩
      refine Sat.bind' (ih h0) ?_ (fun _ h => h)
      rintro ⟨items, s'⟩ ⟨g1, g2⟩
      refine ⟨by simpa using g1, ?_⟩
      intro i hi hk
      cases i with
      | zero => rfl
      | succ i => simpa using g2 i (by omega) (by omega)
    · refine Sat.bind' (ih hr) ?_ (fun _ h => h)
      rintro ⟨items, s''⟩ ⟨g1, g2⟩
      refine ⟨by simpa using g1, ?_⟩
      intro i hi hk
      cases i with
      | zero => omega
      | succ i => simpa using g2 i (by omega) (by omega)

end

/-! ### From `pretty_print` -/

/-- The only thing asked of leaves is that they are no panics. -/
def noPanic (P : PrettyDoc) : Pred P := ⟨fun f => f ≠ .panic, fun _ => True, fun _ => True⟩

theorem noPanic_ok : QOk (noPanic P) := ⟨by simp [noPanic], by simp [noPanic]⟩

theorem NTree.FailIn.noPanic {doc : P.Node} {t : NTree P} (h : t.FailIn (docPred P doc)) :
    t.FailIn (noPanic P) := by
  induction t with
  | fail f => exact h
  | concat a b iha ihb => exact ⟨iha h.1, ihb h.2⟩
  | choice a b iha ihb => exact ⟨iha h.1, ihb h.2⟩
  | child i c t ih => exact ⟨fun f hf => h.1 f hf, ih h.2⟩
  | _ => trivial

theorem AllFailIn.noPanic {doc : P.Node} {xs : List (Item P)} (h : AllFailIn (docPred P doc) xs) :
    AllFailIn (noPanic P) xs := fun x hx => (h x hx).noPanic

theorem RestR.stack {doc : P.Node} {s : List (Block P)} {tail} (h : RestR s tail)
    (hf : AllFailIn (docPred P doc) tail) : ∃ n pv, Stack (noPanic P) .down n s pv := by
  induction h with
  | nil => exact ⟨0, [], .nil, fun _ h => by simp at h, by simp [pvSize], by simp⟩
  | @cons b bs id items tail h1 h2 h3 h4 h5 ih =>
    obtain ⟨n, pv, g⟩ := ih hf.tail.right
    exact ⟨_, _, g.push _ h4 hf.tail.left.noPanic (Nat.le_refl _) fun _ => ⟨h1, h2, h3⟩⟩

/-- The iterators that `pretty_print` returns have good stacks. -/
theorem printed_stacks (law : P.Lawful) {doc : P.Node} {w path target style r}
    (h : prettyPrint doc w path target style = Exec.ofRes (.ok r)) (dir : Dir) :
    ∃ (id : P.Id) (n : Nat) (pv : List (BSpec P)),
      Stack (noPanic P) dir n (match dir with | .up => r.up.prev | .down => r.down.next) pv := by
  have hf := rootTree_failIn law doc style
  cases hr : rootTree law doc style with
  | error f => rw [print_root_error law hr] at h; exact absurd (Exec.ofRes_inj h) (by simp)
  | ok x =>
    obtain ⟨id, t⟩ := x
    rw [hr] at hf
    obtain ⟨d, hd', hrep⟩ := rootTree_rep law doc style hr
    have hs := prettyPrint_core _ (I := False) docPred_ok
      (docPred_tgtOk doc _ target) hd' hrep hf (fun h => h.elim) w path
    rw [h] at hs
    obtain ⟨S, ex, st', tail, h1, _⟩ := hs
    cases dir with
    | up => exact ⟨id, _, S.pv, h1.up, fun p hp => (h1.pvf p hp).noPanic, Nat.le_refl _, by simp⟩
    | down =>
      obtain ⟨n, pv, g⟩ := h1.down.stack h1.tailf
      exact ⟨id, n, pv, g⟩

end PPP
