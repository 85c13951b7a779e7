import Verif.Proofs.ResumeParts
/-
What the state-keeping iterators give, call after call.
-/
namespace PPP
variable {P : PrettyDoc}

/-- From this stack of blocks, these items and then nothing more. -/
inductive GivesK (dir : Dir) (w : Nat) :
    List (Block P) → List (Except (PrintingError P.Err) (Line P)) → Prop where
  | nil : GivesK dir w [] []
  | cons {s x s' items} : nextK dir w s = Exec.ofRes (.ok (some x, s')) → GivesK dir w s' items →
      GivesK dir w s (x :: items)

theorem nextK_none {dir : Dir} {w : Nat} {s s' : List (Block P)}
    (h : nextK dir w s = Exec.ofRes (.ok (none, s'))) : s = [] := by
  cases s with
  | nil => rfl
  | cons b s =>
    unfold nextK at h
    simp only at h
    match hr : (printLoopK dir w b).run s with
    | none => rw [hr] at h; cases h
    | some (r, s1) =>
      rw [hr] at h
      cases r with
      | ok line => exact absurd (Exec.ofRes_inj h) (by simp)
      | error f => cases f <;> exact absurd (Exec.ofRes_inj h) (by simp)

theorem callsK_nil (dir : Dir) (w : Nat) (k : Nat) :
    callsK (P := P) dir w k [] = Exec.ofRes (.ok (List.replicate k none, [])) := by
  induction k with
  | zero => rfl
  | succ k ih =>
    unfold callsK
    simp only [nextK, Exec.pure_bind', ih, Exec.ofRes_ok_bind, List.replicate_succ]
    rfl

theorem GivesK.calls {dir : Dir} {w : Nat} {s : List (Block P)} {items} (h : GivesK dir w s items)
    (k : Nat) : callsK dir w (items.length + k) s =
      Exec.ofRes (.ok (items.map some ++ List.replicate k none, [])) := by
  induction h with
  | nil => simpa using callsK_nil dir w k
  | @cons s x s' items h1 h2 ih =>
    have : (x :: items).length + k = (items.length + k) + 1 := by simp; omega
    rw [this]
    unfold callsK
    simp only [h1, Exec.ofRes_ok_bind, ih, List.map_cons, List.cons_append]
    rfl

theorem GivesK.of_calls {dir : Dir} {w : Nat} {items : List (Except (PrintingError P.Err) (Line P))} :
    ∀ {s : List (Block P)} {t}, callsK dir w (items.length + 1) s =
      Exec.ofRes (.ok (items.map some ++ [none], t)) → GivesK dir w s items := by
  induction items with
  | nil =>
    intro s t h
    unfold callsK at h
    obtain ⟨⟨x, s'⟩, h1, h⟩ := Exec.bind_ok_inv h
    obtain ⟨⟨xs, s''⟩, h2, h⟩ := Exec.bind_ok_inv h
    have h := Exec.ofRes_inj h
    simp only [List.map_nil, List.nil_append, Except.ok.injEq, Prod.mk.injEq, List.cons.injEq] at h
    obtain ⟨⟨rfl, _⟩, _⟩ := h
    rw [nextK_none h1]
    exact .nil
  | cons y items ih =>
    intro s t h
    rw [List.length_cons] at h
    unfold callsK at h
    obtain ⟨⟨x, s'⟩, h1, h⟩ := Exec.bind_ok_inv h
    obtain ⟨⟨xs, s''⟩, h2, h⟩ := Exec.bind_ok_inv h
    have h := Exec.ofRes_inj h
    simp only [List.map_cons, List.cons_append, Except.ok.injEq, Prod.mk.injEq, List.cons.injEq] at h
    obtain ⟨⟨rfl, rfl⟩, rfl⟩ := h
    exact .cons h1 (ih h2)

theorem GivesK.det {dir : Dir} {w : Nat} {s : List (Block P)} {items items'}
    (h : GivesK dir w s items) (h' : GivesK dir w s items') : items = items' := by
  induction h generalizing items' with
  | nil =>
    cases h' with
    | nil => rfl
    | cons h1 _ => exact absurd (Exec.ofRes_inj h1) (by simp)
  | cons h1 _ ih =>
    cases h' with
    | nil => exact absurd (Exec.ofRes_inj h1) (by simp)
    | cons g1 g2 =>
      have := Exec.ofRes_inj (h1.symm.trans g1)
      simp only [Except.ok.injEq, Prod.mk.injEq, Option.some.injEq] at this
      obtain ⟨rfl, rfl⟩ := this
      rw [ih g2]

/-- What is below the stack comes after what the stack gives. -/
theorem GivesK.append {dir : Dir} {w : Nat} {s t : List (Block P)} {items items'}
    (h : GivesK dir w s items) (h' : GivesK dir w t items') : GivesK dir w (s ++ t) (items ++ items') := by
  induction h with
  | nil => exact h'
  | cons h1 _ ih => exact .cons (nextK_frame t h1) ih

theorem Printed.calls_eq (r : Printed P) (dir : Dir) (n : Nat) :
    r.calls dir n = callsK dir (match dir with | .up => r.up.width | .down => r.down.width) n
      (match dir with | .up => r.up.prev | .down => r.down.next) := by
  cases dir <;> rfl

theorem Printed.gives_iff (r : Printed P) (dir : Dir) (items) :
    r.Gives dir items ↔ GivesK dir (match dir with | .up => r.up.width | .down => r.down.width)
      (match dir with | .up => r.up.prev | .down => r.down.next) items := by
  constructor
  · intro h
    obtain ⟨s, h⟩ := h 1
    rw [Printed.calls_eq] at h
    exact GivesK.of_calls h
  · intro h k
    refine ⟨[], ?_⟩
    rw [Printed.calls_eq]
    exact h.calls k

/-- Every good stack gives a list of items, unless a width overflows. -/
theorem Stack.gives {Q : Pred P} (hQ : QOk Q) (id : P.Id) (hnl : ∀ ind, Q.nl ind) (hp : ¬ Q .panic)
    (dir : Dir) (w : Nat) (n : Nat) : ∀ {s : List (Block P)} {pv}, Stack Q dir n s pv →
    (∃ items, GivesK dir w s items) ∨ ∃ k, callsK dir w k s = Exec.ofRes (.error .overflow) := by
  induction n using Nat.strongRecOn with
  | ind n ih =>
    intro s pv h
    rcases (nextK_sat Q hQ id hnl dir w h).exists_res with ⟨⟨x, s'⟩, e, hr⟩ | ⟨f, e, hq, hf⟩
    · rcases hr with ⟨rfl, _⟩ | ⟨⟨y, rfl⟩, pv', m, hr, hm⟩
      · exact .inl ⟨[], .nil⟩
      · simp only at hr
        rcases ih m hm hr with ⟨items, g⟩ | ⟨k, g⟩
        · exact .inl ⟨y :: items, .cons e g⟩
        · refine .inr ⟨k + 1, ?_⟩
          unfold callsK
          simp only [e, Exec.ofRes_ok_bind, g]
          rfl
    · have : f = .overflow := by
        cases f with
        | err e' => exact absurd rfl (hf e')
        | panic => exact absurd hq hp
        | overflow => rfl
      subst this
      refine .inr ⟨1, ?_⟩
      unfold callsK
      simp only [e]
      rfl

/-- `next` of the plain model. -/
def nextP (dir : Dir) : Printer P → Exec P.Err (Option (Line P) × Printer P) :=
  match dir with
  | .up => Printer.nextUp
  | .down => Printer.nextDown

/-- A printer with this stack of blocks. -/
def stackP (dir : Dir) (w : Nat) (s : List (Block P)) : Printer P :=
  match dir with
  | .up => ⟨w, s, []⟩
  | .down => ⟨w, [], s⟩

/-- The two models of `next` agree. -/
theorem next_agrees {Q : Pred P} (hQ : QOk Q) (id : P.Id) (hnl : ∀ ind, Q.nl ind) (dir : Dir) (w : Nat)
    {s : List (Block P)} {pv n} (h : Stack Q dir n s pv) {x s'}
    (hx : nextK dir w s = Exec.ofRes (.ok (some x, s'))) :
    (∃ line, x = .ok line ∧ nextP dir (stackP dir w s) = Exec.ofRes (.ok (some line, stackP dir w s'))) ∨
    (∃ e, x = .error e ∧ nextP dir (stackP dir w s) = Exec.ofRes (.error (.err e))) := by
  cases s with
  | nil => exact absurd (Exec.ofRes_inj hx) (by simp)
  | cons b s =>
    obtain ⟨p, pv', m, rfl, h1, h2, h3, h4⟩ := h.tail
    unfold nextK at hx
    simp only at hx
    have key : ∀ r t, (printLoopK dir w b).run s = some (r, t) →
        (∃ line, x = .ok line ∧ r = .ok line ∧ s' = t) ∨ (∃ e, x = .error e ∧ r = .error (.err e)) := by
      intro r t hr
      rw [hr] at hx
      cases r with
      | ok line =>
        have := Exec.ofRes_inj hx
        simp only [Except.ok.injEq, Prod.mk.injEq, Option.some.injEq] at this
        obtain ⟨rfl, rfl⟩ := this
        exact .inl ⟨line, rfl, rfl, rfl⟩
      | error f =>
        cases f with
        | err e =>
          have := Exec.ofRes_inj hx
          simp only [Except.ok.injEq, Prod.mk.injEq, Option.some.injEq] at this
          obtain ⟨rfl, rfl⟩ := this
          exact .inr ⟨e, rfl, rfl⟩
        | panic => exact absurd (Exec.ofRes_inj hx) (by simp)
        | overflow => exact absurd (Exec.ofRes_inj hx) (by simp)
    cases dir with
    | down =>
      obtain ⟨tail, t1, t2⟩ := h3.rest Q id hnl
      have hf : FirstR s b p.segs p.st (p.items ++ tail) :=
        ⟨h1.segs, h1.col, h1.eol, _, _, rfl, h1.chunks, t1⟩
      have hag := printNextLoop_ag w s b
      rcases (printNextLoop_sat Q hQ w _ hf (h2.append t2) (Nat.le_refl _)).exists_res with
        ⟨⟨line, t⟩, e1, _⟩ | ⟨e, e1, e2, _⟩
      · rcases key _ _ (hag (.ok (line, t)) (by rw [e1]; rfl)) with ⟨l, rfl, g, rfl⟩ | ⟨e, _, g⟩
        · cases g
          refine .inl ⟨_, rfl, ?_⟩
          simp only [nextP, stackP, Printer.nextDown, Printer.printNextLine, e1, Exec.ofRes_ok_bind]
          rfl
        · cases g
      · obtain ⟨t, this⟩ := hag (.error e) (by rw [e1]; rfl)
        rcases key _ _ this with ⟨l, _, g, _⟩ | ⟨e, rfl, g⟩
        · cases g
        · cases g
          refine .inr ⟨_, rfl, ?_⟩
          simp only [nextP, stackP, Printer.nextDown, Printer.printNextLine, e1]
          rfl
    | up =>
      have hag := printPrevLoop_ag w s b
      rcases (printPrevLoop_sat Q hQ w _ h3.rep h3.fail h1 h2 (Nat.le_refl _)).exists_res with
        ⟨⟨line, t⟩, e1, _⟩ | ⟨e, e1, e2, _⟩
      · rcases key _ _ (hag (.ok (line, t)) (by rw [e1]; rfl)) with ⟨l, rfl, g, rfl⟩ | ⟨e, _, g⟩
        · cases g
          refine .inl ⟨_, rfl, ?_⟩
          simp only [nextP, stackP, Printer.nextUp, Printer.printPrevLine, e1, Exec.ofRes_ok_bind]
          rfl
        · cases g
      · obtain ⟨t, this⟩ := hag (.error e) (by rw [e1]; rfl)
        rcases key _ _ this with ⟨l, _, g, _⟩ | ⟨e, rfl, g⟩
        · cases g
        · cases g
          refine .inr ⟨_, rfl, ?_⟩
          simp only [nextP, stackP, Printer.nextUp, Printer.printPrevLine, e1]
          rfl

/-- Up to the first error. -/
def uptoError {E α : Type} : List (Except (PrintingError E) α) → Except (Fail E) (List α)
  | [] => .ok []
  | .ok a :: xs =>
    match uptoError xs with
    | .ok as => .ok (a :: as)
    | .error e => .error e
  | .error e :: _ => .error (.err e)

theorem uptoError_cons {E α : Type} (a : α) (xs : List (Except (PrintingError E) α)) :
    uptoError (.ok a :: xs) = match uptoError xs with
      | .ok as => .ok (a :: as)
      | .error e => .error e := by
  rw [uptoError]

theorem uptoError_ok {E α : Type} {items : List (Except (PrintingError E) α)} :
    ∀ {as}, uptoError items = .ok as ↔ items = as.map .ok := by
  induction items with
  | nil =>
    intro as
    constructor
    · intro h; cases h; rfl
    · intro h; cases as with
      | nil => rfl
      | cons a as => simp at h
  | cons x xs ih =>
    intro as
    cases x with
    | error e =>
      constructor
      · intro h; cases h
      · intro h; cases as <;> simp at h
    | ok a =>
      unfold uptoError
      cases h : uptoError xs with
      | ok bs =>
        have := (ih (as := bs)).1 h
        subst this
        constructor
        · intro h; cases h; rfl
        · intro h
          cases as with
          | nil => simp at h
          | cons b as =>
            simp only [List.map_cons, List.cons.injEq, Except.ok.injEq] at h
            obtain ⟨rfl, h3⟩ := h
            have : bs = as := by
              have := congrArg (List.filterMap fun x : Except (PrintingError E) α =>
                match x with | .ok a => some a | .error _ => none) h3
              simpa [List.filterMap_map, Function.comp_def] using this
            rw [this]
      | error e =>
        constructor
        · intro h; cases h
        · intro h'
          cases as with
          | nil => simp at h'
          | cons b as =>
            simp only [List.map_cons, List.cons.injEq, Except.ok.injEq] at h'
            rw [(ih (as := as)).2 h'.2] at h
            cases h

theorem uptoError_error {E α : Type} {items : List (Except (PrintingError E) α)} {e : PrintingError E} :
    uptoError items = .error (.err e) ↔
      ∃ (good : List α) (rest : List _), items = good.map .ok ++ .error e :: rest := by
  induction items with
  | nil => constructor
           · intro h; cases h
           · rintro ⟨good, rest, h⟩; cases good <;> simp at h
  | cons x xs ih =>
    cases x with
    | error e' =>
      constructor
      · intro h; cases h; exact ⟨[], xs, rfl⟩
      · rintro ⟨good, rest, h⟩
        cases good with
        | nil => simp only [List.map_nil, List.nil_append, List.cons.injEq, Except.error.injEq] at h
                 rw [← h.1]; rfl
        | cons a good => simp at h
    | ok a =>
      unfold uptoError
      constructor
      · intro h
        cases h' : uptoError xs with
        | ok as => rw [h'] at h; cases h
        | error f =>
          rw [h'] at h
          cases h
          obtain ⟨good, rest, rfl⟩ := ih.1 h'
          exact ⟨a :: good, rest, rfl⟩
      · rintro ⟨good, rest, h⟩
        cases good with
        | nil => simp at h
        | cons b good =>
          simp only [List.map_cons, List.cons_append, List.cons.injEq] at h
          rw [ih.2 ⟨good, rest, h.2⟩]

theorem uptoError_not {E α : Type} {items : List (Except (PrintingError E) α)} {f : Fail E}
    (h : uptoError items = .error f) : ∃ e, f = .err e := by
  induction items with
  | nil => cases h
  | cons x xs ih =>
    cases x with
    | error e => cases h; exact ⟨e, rfl⟩
    | ok a =>
      unfold uptoError at h
      cases h' : uptoError xs with
      | ok as => rw [h'] at h; cases h
      | error f' => rw [h'] at h; cases h; exact ih h'

theorem nextP_nil (dir : Dir) (w : Nat) :
    nextP dir (stackP (P := P) dir w []) = Exec.ofRes (.ok (none, stackP dir w [])) := by
  cases dir <;> rfl

/-- Running the plain iterator is reading the items up to the first error. -/
theorem GivesK.drain {Q : Pred P} (hQ : QOk Q) (id : P.Id) (hnl : ∀ ind, Q.nl ind) {dir : Dir} {w : Nat}
    {s : List (Block P)} {items} (hg : GivesK dir w s items) : ∀ {pv n}, Stack Q dir n s pv →
    PPP.drain (nextP dir) (stackP dir w s) = Exec.ofRes (uptoError items) := by
  induction hg with
  | nil =>
    intro pv n _
    rw [drain_eq, nextP_nil]
    rfl
  | @cons s x s' items h1 h2 ih =>
    intro pv n h
    have hs := nextK_sat Q hQ id hnl dir w h
    rw [h1] at hs
    rcases hs with ⟨rfl, hs⟩ | ⟨_, pv', m, hs, _⟩
    · cases hs
    · rw [drain_eq]
      rcases next_agrees hQ id hnl dir w h h1 with ⟨line, rfl, e⟩ | ⟨e', rfl, e⟩
      · rw [e]
        simp only [Exec.ofRes_ok_bind, ih hs]
        rw [uptoError_cons]
        cases uptoError items <;> rfl
      · rw [e]; rfl

end PPP
