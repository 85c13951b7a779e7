import Verif.Proofs.Step
/-
The printing and seeking loops.
-/
namespace PPP
variable {P : PrettyDoc} (Q : Pred P)

theorem bind_assoc3 {E α β γ : Type} (x : Exec E α) (f : α → Exec E β) (g : β → Exec E γ) :
    (x >>= fun a => f a >>= g) = (x >>= f) >>= g := by
  apply ExceptT.ext
  rw [Exec.run_bind, Exec.run_bind, Exec.run_bind]
  match hx : x.run with
  | none => rfl
  | some (.ok a) => simp only []; rw [Exec.run_bind]
  | some (.error e) => rfl

theorem Sat.bind2 {E α β γ : Type} {x : Exec E α} {f : α → Exec E β} {g : β → Exec E γ}
    {ok : γ → Prop} {er mid er'} (h : Sat (x >>= f) mid er') (h1 : ∀ b, mid b → Sat (g b) ok er)
    (h2 : ∀ e, er' e → er e) : Sat (x >>= fun a => f a >>= g) ok er := by
  rw [bind_assoc3]; exact Sat.bind' h h1 h2

theorem printNextLoop_sat (hQ : QOk Q) (w : Nat) (n : Nat) :
    ∀ {next : List (Block P)} {block : Block P} {segs st ys},
    FirstR next block segs st ys → AllFailIn Q ys → sizes (trees ys) ≤ n →
    Sat (printNextLoop w next block)
      (fun r => ∃ st' tail ex, (∀ pv, Adv w [] ⟨pv, segs, st, ys⟩ ⟨pv, r.1.segments, st', tail⟩) ∧
        RestR r.2 tail ∧ AllFailIn Q tail ∧ r.1.segments = segs ++ ex ∧
        sizes (trees tail) ≤ sizes (trees ys))
      (fun e => Q e ∧ ∀ pv, AS.D w [] ⟨pv, segs, st, ys⟩ = none) := by
  induction n with
  | zero =>
    intro next block segs st ys hf hfail hn
    rw [printNextLoop.eq_def]
    cases hc : block.chunks with
    | nil =>
      simp only [Block.print, hc]
      exact ⟨st, ys, [], fun pv => by rw [← hf.segs]; exact .refl _ _ _, hf.nil hc, hfail,
        by simp [hf.segs], Nat.le_refl _⟩
    | cons c cs =>
      obtain ⟨x, ys', rfl, _⟩ := hf.with_chunks hc
      have := x.2.size_pos; simp at hn; omega
  | succ n ih =>
    intro next block segs st ys hf hfail hn
    rw [printNextLoop.eq_def]
    cases hc : block.chunks with
    | nil =>
      simp only [Block.print, hc]
      exact ⟨st, ys, [], fun pv => by rw [← hf.segs]; exact .refl _ _ _, hf.nil hc, hfail,
        by simp [hf.segs], Nat.le_refl _⟩
    | cons c cs =>
      obtain ⟨⟨id, t⟩, ys, rfl, ⟨hid, hcr⟩, hat, hf'⟩ := hf.with_chunks hc
      obtain ⟨cn, cid⟩ := c
      simp only at hid hcr hat
      subst hid
      simp only [trees_cons, sizes_cons] at hn
      have step : ∀ {next' : List (Block P)} {block' : Block P} {segs' st' ys'},
          FirstR next' block' segs' st' ys' → AllFailIn Q ys' →
          sizes (trees ys') < t.size + sizes (trees ys) →
          (∀ pv, Adv w [] ⟨pv, segs, st, (cid, t) :: ys⟩ ⟨pv, segs', st', ys'⟩) →
          (∃ ex, segs' = segs ++ ex) →
          Sat (printNextLoop w next' block')
            (fun r => ∃ st' tail ex,
              (∀ pv, Adv w [] ⟨pv, segs, st, (cid, t) :: ys⟩ ⟨pv, r.1.segments, st', tail⟩) ∧
              RestR r.2 tail ∧ AllFailIn Q tail ∧ r.1.segments = segs ++ ex ∧
              sizes (trees tail) ≤ sizes (trees ((cid, t) :: ys)))
            (fun e => Q e ∧ ∀ pv, AS.D w [] ⟨pv, segs, st, (cid, t) :: ys⟩ = none) := by
        rintro next' block' segs' st' ys' h1 h2 h3 h4 ⟨ex', rfl⟩
        refine (ih h1 h2 (by omega)).mono ?_ ?_
        · rintro r ⟨st2, tail, ex, g1, g2, g3, g4, g5⟩
          refine ⟨st2, tail, ex' ++ ex, fun pv => (h4 pv).trans (g1 pv), g2, g3,
            by rw [g4, List.append_assoc], ?_⟩
          simp only [trees_cons, sizes_cons]; omega
        · rintro e ⟨g1, g2⟩
          exact ⟨g1, fun pv => (h4 pv).none_left (g2 pv)⟩
      have hys := hfail.tail
      simp only []
      cases hcr with
      | empty => exact hat.elim
      | newline => exact hat.elim
      | concat => exact hat.elim
      | mark =>
        exact step hf' hys (by simp [NTree.size]) (fun pv => .mark trivial) ⟨[], by simp⟩
      | eol =>
        refine step (st' := ⟨st.col, true⟩) ?_ hys (by simp [NTree.size])
          (fun pv => .eol trivial) ⟨[], by simp⟩
        exact ⟨hf'.segs, hf'.col, rfl, hf'.items⟩
      | @text t =>
        refine Sat.bind' (first_text Q hQ (t := t) hf') ?_ ?_
        · rintro b' ⟨h1, h2, h3⟩
          exact step h3 hys (by simp [NTree.size]) (fun pv => .text h1 h2 trivial) ⟨_, rfl⟩
        · rintro e ⟨h1, h2⟩
          exact ⟨h1, fun pv => h2 _ _ _ _ _ _⟩
      | @child i note cd t hr =>
        refine Sat.bind2 (first_child Q hQ (id := cid) (i := i) hr hf' hfail.head) ?_ ?_
        · rintro ⟨next', block'⟩ ⟨c, s, rfl, h2, h3⟩
          have hsz := sizes_tag_spine h2 c
          refine step h3 ((NTree.FailIn.spine hfail.head.2 h2 c).append hys) ?_
            (fun pv => AdvR.child.trans (AdvR.spine h2)) ⟨[], by simp⟩
          simp only [trees_append, sizes_append, NTree.size]; omega
        · rintro e ⟨h1, h2⟩
          exact ⟨h1, fun pv => h2 _ _ _⟩
      | @choice a b ta tb ha hb =>
        refine Sat.bind2 (first_choice Q hQ (w := w) ha hb hf' hfail.head hys) ?_ ?_
        · rintro ⟨next', block'⟩ ⟨rr, s, h1, h2, h3, h4⟩
          have hsz := sizes_tag_spine h3 cid
          have hlt := size_ite_lt (a := ta) (b := tb) rr
          refine step h4 ((NTree.FailIn.spine (failIn_ite Q hfail.head) h3 cid).append hys) ?_
            (fun pv => (AdvR.choice h1 h2).trans (AdvR.spine h3)) ⟨[], by simp⟩
          simp only [trees_append, sizes_append]; omega
        · rintro e ⟨h1, h2⟩
          exact ⟨h1, h2⟩

/-- All previous blocks satisfy the leaf predicate. -/
def PvFailIn (pv : List (BSpec P)) : Prop := ∀ p ∈ pv, AllFailIn Q p.items

/-- The head of a block is processed, keeping the last block current. -/
theorem last_step (hQ : QOk Q) (w : Nat) {prev : List (Block P)} {block : Block P} {cn : CN P}
    {cid t pv segs st xs after} {α : Type} {ok : α → Prop}
    {f : List (Block P) → Block P → Exec P.Err α}
    (hp : All2 BlockR prev pv) (hpf : PvFailIn Q pv)
    (hb : BlockR block ⟨segs, st, xs ++ after⟩) (hcr : CNRep (.ok cid) cn t) (hat : t.Atomic)
    (hfail : AllFailIn Q (((cid, t) :: xs) ++ after))
    (hf : ∀ {prev' block' pv' segs' st' xs'}, All2 BlockR prev' pv' → PvFailIn Q pv' →
      BlockR block' ⟨segs', st', xs' ++ after⟩ → AllFailIn Q (xs' ++ after) →
      sizes (trees xs') < sizes (trees ((cid, t) :: xs)) →
      pvSize pv' + sizes (trees xs') < pvSize pv + sizes (trees ((cid, t) :: xs)) →
      Adv w (trees after) ⟨pv, segs, st, (cid, t) :: xs⟩ ⟨pv', segs', st', xs'⟩ →
      Sat (f prev' block') ok
        (fun e => Q e ∧ AS.D w (trees after) ⟨pv, segs, st, (cid, t) :: xs⟩ = none)) :
    Sat (match cn with
      | .focusMark => f prev block
      | .empty | .newline _ | .concat _ _ => panicking
      | .endOfLine => f prev { block with atEol := true }
      | .textual t => do
        let block ← block.pushText t
        f prev block
      | .child _ note => do
        let c ← Chunk.new note
        let (prev, block) ← expandLast prev block c
        f prev block
      | .choice opt1 opt2 => do
        let c ← choose w block opt1 opt2
        let (prev, block) ← expandLast prev block c
        f prev block) ok
      (fun e => Q e ∧ AS.D w (trees after) ⟨pv, segs, st, (cid, t) :: xs⟩ = none) := by
  have hys : AllFailIn Q (xs ++ after) := hfail.tail
  have hafter : AllFailIn Q after := hys.right
  cases hcr with
  | empty => exact hat.elim
  | newline => exact hat.elim
  | concat => exact hat.elim
  | mark => exact hf hp hpf hb hys (by simp [NTree.size]) (by simp [NTree.size]) (.mark trivial)
  | eol =>
    refine hf (st' := ⟨st.col, true⟩) hp hpf ?_ hys (by simp [NTree.size]) (by simp [NTree.size]) (.eol trivial)
    exact ⟨hb.segs, hb.col, rfl, hb.chunks⟩
  | @text t =>
    refine Sat.bind' (last_text Q hQ (t := t) hb) ?_ ?_
    · rintro b' ⟨h1, h2, h3⟩
      exact hf hp hpf h3 hys (by simp [NTree.size]) (by simp [NTree.size]) (.text h1 h2 trivial)
    · rintro e ⟨h1, h2⟩
      exact ⟨h1, h2 _ _ _ _ _ _⟩
  | @child i note cd t hr =>
    refine Sat.bind2 (last_child Q hQ (id := cid) (i := i) hr hp hb hfail.head) ?_ ?_
    · rintro ⟨prev', block'⟩ ⟨c, s, pv', b', rfl, h2, h3, h4, h5⟩
      have hsz := sizes_tag_spine h2 c
      have hsp := h3.sizes_le
      have hps := h3.pvSize_le
      have hfi := h3.failIn Q (NTree.FailIn.spine hfail.head.2 h2 c)
      refine hf h4 ?_ h5 ?_ ?_ ?_ (last_child_adv h2 h3)
      · intro p hp
        rcases List.mem_append.1 hp with hp | hp
        · exact hfi.2 p hp
        · exact hpf p hp
      · rw [List.append_assoc]; exact hfi.1.append hys
      · simp only [trees_append, sizes_append, trees_cons, sizes_cons, NTree.size] at *; omega
      · simp only [trees_append, sizes_append, trees_cons, sizes_cons, NTree.size, pvSize,
          List.map_append, List.sum_append] at *; omega
    · rintro e ⟨h1, h2⟩
      exact ⟨h1, h2 _ _⟩
  | @choice a b ta tb ha hb' =>
    refine Sat.bind2 (last_choice Q hQ (w := w) ha hb' hp hb hfail.head hys) ?_ ?_
    · rintro ⟨prev', block'⟩ ⟨rr, s, pv', b', h0, h1, h2, h3, h4, h5⟩
      have hsz := sizes_tag_spine h2 cid
      have hsp := h3.sizes_le
      have hps := h3.pvSize_le
      have hlt := size_ite_lt (a := ta) (b := tb) rr
      have hfi := h3.failIn Q (NTree.FailIn.spine (failIn_ite Q hfail.head) h2 cid)
      refine hf h4 ?_ h5 ?_ ?_ ?_ (last_choice_adv h0 h1 h2 h3)
      · intro p hp
        rcases List.mem_append.1 hp with hp | hp
        · exact hfi.2 p hp
        · exact hpf p hp
      · rw [List.append_assoc]; exact hfi.1.append hys
      · simp only [trees_append, sizes_append, trees_cons, sizes_cons] at *; omega
      · simp only [trees_append, sizes_append, trees_cons, sizes_cons, pvSize,
          List.map_append, List.sum_append] at *; omega
    · rintro e h
      exact h

theorem printPrevLoop_sat (hQ : QOk Q) (w : Nat) (n : Nat) :
    ∀ {prev : List (Block P)} {block : Block P} {pv segs st xs},
    All2 BlockR prev pv → PvFailIn Q pv → BlockR block ⟨segs, st, xs⟩ →
    AllFailIn Q xs → sizes (trees xs) ≤ n →
    Sat (printPrevLoop w prev block)
      (fun r => ∃ pv' st', Adv w [] ⟨pv, segs, st, xs⟩ ⟨pv', r.1.segments, st', []⟩ ∧
        All2 BlockR r.2 pv' ∧ PvFailIn Q pv' ∧ pvSize pv' ≤ pvSize pv + sizes (trees xs))
      (fun e => Q e ∧ AS.D w [] ⟨pv, segs, st, xs⟩ = none) := by
  induction n with
  | zero =>
    intro prev block pv segs st xs hp hpf hb hfail hn
    rw [printPrevLoop.eq_def]
    cases hc : block.chunks with
    | nil =>
      have hx := hb.chunks
      rw [hc] at hx
      cases hx with
      | nil =>
        simp only [Block.print, hc]
        exact ⟨pv, st, by rw [show block.segments = segs from hb.segs]; exact .refl _ _ _, hp, hpf, by simp⟩
    | cons c cs =>
      obtain ⟨x, ys', rfl, _⟩ := hb.with_chunks hc
      have := x.2.size_pos; simp at hn; omega
  | succ n ih =>
    intro prev block pv segs st xs hp hpf hb hfail hn
    rw [printPrevLoop.eq_def]
    cases hc : block.chunks with
    | nil =>
      have hx := hb.chunks
      rw [hc] at hx
      cases hx with
      | nil =>
        simp only [Block.print, hc]
        exact ⟨pv, st, by rw [show block.segments = segs from hb.segs]; exact .refl _ _ _, hp, hpf, by simp⟩
    | cons c cs =>
      obtain ⟨⟨id, t⟩, ys, rfl, ⟨hid, hcr⟩, hat, hb'⟩ := hb.with_chunks hc
      obtain ⟨cn, cid⟩ := c
      simp only at hid hcr hat
      subst hid
      refine last_step Q hQ w (after := []) (f := fun prev block => printPrevLoop w prev block)
        hp hpf (by simpa using hb') hcr hat (by simpa using hfail) ?_
      intro prev' block' pv' segs' st' xs' h1 h2 h3 h4 h5 hps h6
      refine (ih h1 h2 (by simpa using h3) (by simpa using h4) (by omega)).mono ?_ ?_
      · rintro r ⟨pv'', st'', g1, g2, g3, g4⟩
        exact ⟨pv'', st'', h6.trans g1, g2, g3, by omega⟩
      · rintro e ⟨g1, g2⟩
        exact ⟨g1, h6.none_left g2⟩

theorem seekEndLoop_sat (hQ : QOk Q) (w : Nat) (n : Nat) :
    ∀ {prev : List (Block P)} {block : Block P} {pv segs st xs after},
    All2 BlockR prev pv → PvFailIn Q pv → BlockR block ⟨segs, st, xs ++ after⟩ →
    AllFailIn Q (xs ++ after) → sizes (trees xs) ≤ n →
    Sat (seekEndLoop w after.length prev block)
      (fun r => ∃ pv' segs' st', Adv w (trees after) ⟨pv, segs, st, xs⟩ ⟨pv', segs', st', []⟩ ∧
        All2 BlockR r.1 pv' ∧ PvFailIn Q pv' ∧ BlockR r.2 ⟨segs', st', after⟩)
      (fun e => Q e ∧ AS.D w (trees after) ⟨pv, segs, st, xs⟩ = none) := by
  induction n with
  | zero =>
    intro prev block pv segs st xs after hp hpf hb hfail hn
    rw [seekEndLoop.eq_def]
    have hlen := hb.chunks.length_eq
    cases xs with
    | nil =>
      simp only [List.nil_append] at hlen
      rw [if_neg (by omega)]
      exact ⟨pv, segs, st, .refl _ _ _, hp, hpf, hb⟩
    | cons x xs => have := x.2.size_pos; simp at hn; omega
  | succ n ih =>
    intro prev block pv segs st xs after hp hpf hb hfail hn
    rw [seekEndLoop.eq_def]
    have hlen := hb.chunks.length_eq
    cases xs with
    | nil =>
      simp only [List.nil_append] at hlen
      rw [if_neg (by omega)]
      exact ⟨pv, segs, st, .refl _ _ _, hp, hpf, hb⟩
    | cons x xs =>
      simp only [List.cons_append, List.length_cons, List.length_append] at hlen
      rw [if_pos (by omega)]
      cases hc : block.chunks with
      | nil => simp [hc] at hlen
      | cons c cs =>
        obtain ⟨⟨id, t⟩, ys, hxe, ⟨hid, hcr⟩, hat, hb'⟩ := hb.with_chunks hc
        injection hxe with hxe hxs
        subst hxe hxs
        obtain ⟨cn, cid⟩ := c
        simp only at hid hcr hat
        subst hid
        refine last_step Q hQ w (after := after)
          (f := fun prev block => seekEndLoop w after.length prev block)
          hp hpf hb' hcr hat hfail ?_
        intro prev' block' pv' segs' st' xs' h1 h2 h3 h4 h5 hps h6
        refine (ih h1 h2 h3 h4 (by omega)).mono ?_ ?_
        · rintro r ⟨pv'', segs'', st'', g1, g2⟩
          exact ⟨pv'', segs'', st'', h6.trans g1, g2⟩
        · rintro e ⟨g1, g2⟩
          exact ⟨g1, h6.none_left g2⟩

/-- The head of the first block is processed, keeping the first block current. -/
theorem first_step {R : Tok P → Prop} (hQ : QOk Q) (w : Nat) {next : List (Block P)}
    {block : Block P} {cn : CN P} {cid t pv segs st ys} {α : Type} {ok : α → Prop}
    {er : Fail P.Err → Prop} {f : List (Block P) → Block P → Exec P.Err α}
    {fmark : Exec P.Err α} {ftext : Textual P → Exec P.Err α}
    (hb : FirstR next block segs st ys) (hcr : CNRep (.ok cid) cn t) (hat : t.Atomic)
    (hfail : AllFailIn Q ((cid, t) :: ys)) (heol : R .eol)
    (her : ∀ e, Q e → AS.D w [] ⟨pv, segs, st, (cid, t) :: ys⟩ = none → er e)
    (hmark : t = .mark → Sat fmark ok er)
    (htext : ∀ t', t = .text t' → Sat (ftext t') ok er)
    (hf : ∀ {next' block' st' ys'}, FirstR next' block' segs st' ys' → AllFailIn Q ys' →
      sizes (trees ys') < sizes (trees ((cid, t) :: ys)) →
      AdvR R w [] ⟨pv, segs, st, (cid, t) :: ys⟩ ⟨pv, segs, st', ys'⟩ →
      Sat (f next' block') ok er) :
    Sat (match cn with
      | .empty | .newline _ | .concat _ _ => panicking
      | .focusMark => fmark
      | .endOfLine => f next { block with atEol := true }
      | .textual t => ftext t
      | .child _ note => do
        let c ← Chunk.new note
        let (next, block) ← expandFirst next block c
        f next block
      | .choice opt1 opt2 => do
        let c ← choose w block opt1 opt2
        let (next, block) ← expandFirst next block c
        f next block) ok er := by
  have hys := hfail.tail
  cases hcr with
  | empty => exact hat.elim
  | newline => exact hat.elim
  | concat => exact hat.elim
  | mark => exact hmark rfl
  | eol =>
    refine hf (st' := ⟨st.col, true⟩) ?_ hys (by simp [NTree.size]) (.eol heol)
    exact ⟨hb.segs, hb.col, rfl, hb.items⟩
  | @text t => exact htext t rfl
  | @child i note cd t hr =>
    refine Sat.bind2 (first_child Q hQ (id := cid) (i := i) hr hb hfail.head) ?_ ?_
    · rintro ⟨next', block'⟩ ⟨c, s, rfl, h2, h3⟩
      have hsz := sizes_tag_spine h2 c
      refine hf h3 ((NTree.FailIn.spine hfail.head.2 h2 c).append hys) ?_
        (AdvR.child.trans (AdvR.spine h2))
      simp only [trees_append, sizes_append, trees_cons, sizes_cons, NTree.size]; omega
    · rintro e ⟨h1, h2⟩
      exact her e h1 (h2 _ _ _)
  | @choice a b ta tb ha hb' =>
    refine Sat.bind2 (first_choice Q hQ (w := w) ha hb' hb hfail.head hys) ?_ ?_
    · rintro ⟨next', block'⟩ ⟨rr, s, h1, h2, h3, h4⟩
      have hsz := sizes_tag_spine h3 cid
      have hlt := size_ite_lt (a := ta) (b := tb) rr
      refine hf h4 ((NTree.FailIn.spine (failIn_ite Q hfail.head) h3 cid).append hys) ?_
        ((AdvR.choice h1 h2).trans (AdvR.spine h3))
      simp only [trees_append, sizes_append, trees_cons, sizes_cons]; omega
    · rintro e ⟨h1, h2⟩
      exact her e h1 (h2 _)

theorem RestR.uncons {next : List (Block P)} {ys} (h : RestR next ys) :
    (next = [] ∧ ys = []) ∨ ∃ b bs id ys', next = b :: bs ∧ ys = (id, .newline b.segments) :: ys' ∧
      segsWidth b.segments ≤ maxWidth ∧
      FirstR bs b b.segments ⟨segsWidth b.segments, false⟩ ys' := by
  cases h with
  | nil => exact .inl ⟨rfl, rfl⟩
  | @cons b bs id items tail h1 h2 h3 h4 h5 =>
    exact .inr ⟨_, _, id, _, rfl, rfl, h2, rfl, h1, h3, _, _, rfl, h4, h5⟩

theorem seekMarkLoop_sat (hQ : QOk Q) (w : Nat) (mid : P.Id) (n : Nat) :
    ∀ {prev next : List (Block P)} {block : Block P} {pv segs st ys},
    All2 BlockR prev pv → PvFailIn Q pv → FirstR next block segs st ys →
    AllFailIn Q ys → sizes (trees ys) ≤ n →
    Sat (seekMarkLoop w mid prev next (some block))
      (fun r => ∃ pv1 segs1 st1 ys1 b bs, r.2 = b :: bs ∧ All2 BlockR r.1 pv1 ∧ PvFailIn Q pv1 ∧
        FirstR bs b segs1 st1 ys1 ∧ AllFailIn Q ys1 ∧
        AdvR (fun t => t ≠ .mark mid) w [] ⟨pv, segs, st, ys⟩ ⟨pv1, segs1, st1, (mid, .mark) :: ys1⟩)
      (fun e => (Q e ∧ AS.D w [] ⟨pv, segs, st, ys⟩ = none) ∨
        (e = .err .missingFocusMark ∧ ∃ pv1 segs1 st1,
          AdvR (fun t => t ≠ .mark mid) w [] ⟨pv, segs, st, ys⟩ ⟨pv1, segs1, st1, []⟩)) := by
  induction n with
  | zero =>
    intro prev next block pv segs st ys hp hpf hf hfail hn
    rw [seekMarkLoop.eq_def]
    cases hc : block.chunks with
    | cons c cs =>
      obtain ⟨x, ys', rfl, _⟩ := hf.with_chunks hc
      have := x.2.size_pos; simp at hn; omega
    | nil =>
      simp only [hc]
      rcases (hf.nil hc).uncons with ⟨rfl, rfl⟩ | ⟨b, bs, id, ys', rfl, rfl, _⟩
      · rw [seekMarkLoop.eq_def]
        exact .inr ⟨rfl, pv, segs, st, .refl _ _ _⟩
      · simp [NTree.size] at hn
  | succ n ih =>
    intro prev next block pv segs st ys hp hpf hf hfail hn
    rw [seekMarkLoop.eq_def]
    have step : ∀ {prev' next' : List (Block P)} {block' : Block P} {pv' segs' st' ys'},
        All2 BlockR prev' pv' → PvFailIn Q pv' → FirstR next' block' segs' st' ys' →
        AllFailIn Q ys' → sizes (trees ys') < sizes (trees ys) →
        AdvR (fun t => t ≠ .mark mid) w [] ⟨pv, segs, st, ys⟩ ⟨pv', segs', st', ys'⟩ →
        Sat (seekMarkLoop w mid prev' next' (some block'))
          (fun r => ∃ pv1 segs1 st1 ys1 b bs, r.2 = b :: bs ∧ All2 BlockR r.1 pv1 ∧
            PvFailIn Q pv1 ∧ FirstR bs b segs1 st1 ys1 ∧ AllFailIn Q ys1 ∧
            AdvR (fun t => t ≠ .mark mid) w [] ⟨pv, segs, st, ys⟩
              ⟨pv1, segs1, st1, (mid, .mark) :: ys1⟩)
          (fun e => (Q e ∧ AS.D w [] ⟨pv, segs, st, ys⟩ = none) ∨
            (e = .err .missingFocusMark ∧ ∃ pv1 segs1 st1,
              AdvR (fun t => t ≠ .mark mid) w [] ⟨pv, segs, st, ys⟩ ⟨pv1, segs1, st1, []⟩)) := by
      intro prev' next' block' pv' segs' st' ys' h1 h2 h3 h4 h5 h6
      refine (ih h1 h2 h3 h4 (by omega)).mono ?_ ?_
      · rintro r ⟨pv1, segs1, st1, ys1, b, bs, g1, g2, g3, g4, g5, g6⟩
        exact ⟨pv1, segs1, st1, ys1, b, bs, g1, g2, g3, g4, g5, h6.trans g6⟩
      · rintro e (⟨g1, g2⟩ | ⟨g1, pv1, segs1, st1, g2⟩)
        · exact .inl ⟨g1, h6.none_left g2⟩
        · exact .inr ⟨g1, pv1, segs1, st1, h6.trans g2⟩
    cases hc : block.chunks with
    | nil =>
      simp only [hc]
      rcases (hf.nil hc).uncons with ⟨rfl, rfl⟩ | ⟨b, bs, id, ys', rfl, rfl, h1, h2⟩
      · rw [seekMarkLoop.eq_def]
        exact .inr ⟨rfl, pv, segs, st, .refl _ _ _⟩
      · rw [seekMarkLoop.eq_def]
        refine step (pv' := ⟨segs, st, []⟩ :: pv) (.cons ⟨hf.segs, hf.col, hf.eol, ?_⟩ hp) ?_ h2
          hfail.tail (by simp [NTree.size])
          (AdvR.skip (xs := []) h1 (by simp) (.inl rfl))
        · rw [hc]; exact .nil
        · intro p hp'
          rcases List.mem_cons.1 hp' with rfl | hp'
          · intro x hx; simp at hx
          · exact hpf p hp'
    | cons c cs =>
      obtain ⟨⟨id, t⟩, ys, rfl, ⟨hid, hcr⟩, hat, hf'⟩ := hf.with_chunks hc
      obtain ⟨cn, cid⟩ := c
      simp only at hid hcr hat
      subst hid
      simp only [hc]
      refine first_step Q hQ w (R := fun t => t ≠ .mark mid) (pv := pv)
        (f := fun next block => seekMarkLoop w mid prev next (some block))
        (fmark := if cid = mid then pure (prev, { block with chunks := cs } :: next)
          else seekMarkLoop w mid prev next (some { block with chunks := cs }))
        (ftext := fun t => do
          let block ← Block.pushText { block with chunks := cs } t
          seekMarkLoop w mid prev next (some block)) hf' hcr hat hfail
        (by simp) (fun e h1 h2 => ?her) ?_ ?_ ?_
      · exact Or.inl ⟨h1, h2⟩
      · rintro rfl
        by_cases hm : cid = mid
        · subst hm
          rw [if_pos rfl]
          exact ⟨pv, segs, st, ys, _, _, rfl, hp, hpf, hf', hfail.tail, .refl _ _ _⟩
        · rw [if_neg hm]
          refine step hp hpf hf' hfail.tail (by simp [NTree.size]) (.mark ?_)
          intro h; injection h with h; exact hm h
      · rintro t' rfl
        refine Sat.bind' (first_text Q hQ (t := t') hf') ?_ ?_
        · rintro b' ⟨h1, h2, h3⟩
          exact step hp hpf h3 hfail.tail (by simp [NTree.size]) (.text h1 h2 (by simp))
        · rintro e ⟨h1, h2⟩
          exact .inl ⟨h1, h2 _ _ _ _ _ _⟩
      · intro next' block' st' ys' h1 h2 h3 h4
        exact step hp hpf h1 h2 h3 h4

theorem seekTextLoop_sat (hQ : QOk Q) (w : Nat) (pos : Nat) {A : Prop}
    (hle : A → ∀ t, Q.text t → t.isFromText = true → (t.splitAt pos).1.width ≤ t.width) (n : Nat) :
    ∀ {prev next : List (Block P)} {block : Block P} {pv segs st ys},
    All2 BlockR prev pv → PvFailIn Q pv → FirstR next block segs st ys →
    AllFailIn Q ys → sizes (trees ys) ≤ n →
    Sat (seekTextLoop w pos prev next (some block))
      (fun r => ∃ pv1 segs1 st1 ys1 b bs cid t, r.2 = b :: bs ∧ All2 BlockR r.1 pv1 ∧
        PvFailIn Q pv1 ∧ Q.text t ∧ t.isFromText = true ∧ st1.eol = false ∧
        FirstR bs b (segs1 ++ [(t.splitAt pos).1.segment])
          ⟨st1.col + (t.splitAt pos).1.width, false⟩ ((cid, .text (t.splitAt pos).2) :: ys1) ∧
        AllFailIn Q ys1 ∧
        AdvR (fun t => t.isDocText = false) w [] ⟨pv, segs, st, ys⟩
          ⟨pv1, segs1, st1, (cid, .text t) :: ys1⟩)
      (fun e => (Q e ∧ (A → AS.D w [] ⟨pv, segs, st, ys⟩ = none)) ∨
        (e = .err .missingText ∧ ∃ pv1 segs1 st1,
          AdvR (fun t => t.isDocText = false) w [] ⟨pv, segs, st, ys⟩ ⟨pv1, segs1, st1, []⟩)) := by
  induction n with
  | zero =>
    intro prev next block pv segs st ys hp hpf hf hfail hn
    rw [seekTextLoop.eq_def]
    cases hc : block.chunks with
    | cons c cs =>
      obtain ⟨x, ys', rfl, _⟩ := hf.with_chunks hc
      have := x.2.size_pos; simp at hn; omega
    | nil =>
      simp only [hc]
      rcases (hf.nil hc).uncons with ⟨rfl, rfl⟩ | ⟨b, bs, id, ys', rfl, rfl, _⟩
      · rw [seekTextLoop.eq_def]
        exact .inr ⟨rfl, pv, segs, st, .refl _ _ _⟩
      · simp [NTree.size] at hn
  | succ n ih =>
    intro prev next block pv segs st ys hp hpf hf hfail hn
    rw [seekTextLoop.eq_def]
    have step : ∀ {prev' next' : List (Block P)} {block' : Block P} {pv' segs' st' ys'},
        All2 BlockR prev' pv' → PvFailIn Q pv' → FirstR next' block' segs' st' ys' →
        AllFailIn Q ys' → sizes (trees ys') < sizes (trees ys) →
        AdvR (fun t => t.isDocText = false) w [] ⟨pv, segs, st, ys⟩ ⟨pv', segs', st', ys'⟩ →
        Sat (seekTextLoop w pos prev' next' (some block'))
          (fun r => ∃ pv1 segs1 st1 ys1 b bs cid t, r.2 = b :: bs ∧ All2 BlockR r.1 pv1 ∧
            PvFailIn Q pv1 ∧ Q.text t ∧ t.isFromText = true ∧ st1.eol = false ∧
            FirstR bs b (segs1 ++ [(t.splitAt pos).1.segment])
              ⟨st1.col + (t.splitAt pos).1.width, false⟩ ((cid, .text (t.splitAt pos).2) :: ys1) ∧
            AllFailIn Q ys1 ∧
            AdvR (fun t => t.isDocText = false) w [] ⟨pv, segs, st, ys⟩
              ⟨pv1, segs1, st1, (cid, .text t) :: ys1⟩)
          (fun e => (Q e ∧ (A → AS.D w [] ⟨pv, segs, st, ys⟩ = none)) ∨
            (e = .err .missingText ∧ ∃ pv1 segs1 st1,
              AdvR (fun t => t.isDocText = false) w [] ⟨pv, segs, st, ys⟩
                ⟨pv1, segs1, st1, []⟩)) := by
      intro prev' next' block' pv' segs' st' ys' h1 h2 h3 h4 h5 h6
      refine (ih h1 h2 h3 h4 (by omega)).mono ?_ ?_
      · rintro r ⟨pv1, segs1, st1, ys1, b, bs, cid, t, g1, g2, g3, g4, g5, g6, g7, g8, g9⟩
        exact ⟨pv1, segs1, st1, ys1, b, bs, cid, t, g1, g2, g3, g4, g5, g6, g7, g8, h6.trans g9⟩
      · rintro e (⟨g1, g2⟩ | ⟨g1, pv1, segs1, st1, g2⟩)
        · exact .inl ⟨g1, fun hA => h6.none_left (g2 hA)⟩
        · exact .inr ⟨g1, pv1, segs1, st1, h6.trans g2⟩
    cases hc : block.chunks with
    | nil =>
      simp only [hc]
      rcases (hf.nil hc).uncons with ⟨rfl, rfl⟩ | ⟨b, bs, id, ys', rfl, rfl, h1, h2⟩
      · rw [seekTextLoop.eq_def]
        exact .inr ⟨rfl, pv, segs, st, .refl _ _ _⟩
      · rw [seekTextLoop.eq_def]
        refine step (pv' := ⟨segs, st, []⟩ :: pv) (.cons ⟨hf.segs, hf.col, hf.eol, ?_⟩ hp) ?_ h2
          hfail.tail (by simp [NTree.size])
          (AdvR.skip (xs := []) h1 rfl (.inl rfl))
        · rw [hc]; exact .nil
        · intro p hp'
          rcases List.mem_cons.1 hp' with rfl | hp'
          · intro x hx; simp at hx
          · exact hpf p hp'
    | cons c cs =>
      obtain ⟨⟨id, t⟩, ys, rfl, ⟨hid, hcr⟩, hat, hf'⟩ := hf.with_chunks hc
      obtain ⟨cn, cid⟩ := c
      simp only at hid hcr hat
      subst hid
      simp only [hc]
      refine first_step Q hQ w (R := fun t => t.isDocText = false) (pv := pv)
        (f := fun next block => seekTextLoop w pos prev next (some block))
        (fmark := seekTextLoop w pos prev next (some { block with chunks := cs }))
        (ftext := fun t =>
          if t.isFromText then do
            let (leftT, rightT) := t.splitAt pos
            let block ← Block.pushText { block with chunks := cs } leftT
            pure (prev, { block with
              chunks := { id := cid, notn := .textual rightT } :: block.chunks } :: next)
          else do
            let block ← Block.pushText { block with chunks := cs } t
            seekTextLoop w pos prev next (some block)) hf' hcr hat hfail
        rfl (fun e h1 h2 => ?her) ?_ ?_ ?_
      · exact Or.inl ⟨h1, fun _ => h2⟩
      · rintro rfl
        exact step hp hpf hf' hfail.tail (by simp [NTree.size]) (.mark rfl)
      · rintro t' rfl
        by_cases ht : t'.isFromText = true
        · rw [if_pos ht]
          have hqt : Q.text t' := hfail.head
          refine Sat.bind' (pushText_sat Q hQ (t := (t'.splitAt pos).1) hf'.col hf'.eol) ?_ ?_
          · rintro b' ⟨h1, h2, rfl⟩
            refine ⟨pv, segs, st, ys, _, _, cid, t', rfl, hp, hpf, hqt, ht, h1, ?_, hfail.tail,
              .refl _ _ _⟩
            obtain ⟨items, tail, rfl, i1, i2⟩ := hf'.items
            exact ⟨by rw [← hf'.segs], rfl, by simp [← h1, ← hf'.eol], (cid, .text (t'.splitAt pos).2) :: items,
              tail, rfl, .cons ⟨⟨rfl, .text⟩, trivial⟩ i1, i2⟩
          · rintro e ⟨h1, h2⟩
            refine .inl ⟨h1, fun hA => D_none_of_lt ?_⟩
            have hwl := hle hA t' hqt ht
            have := h2 w cid [] [] [] []
            simp only [AS.D, prevLines, Option.bind_some] at this
            rw [lt_text]
            have h3 : lt w [(cid, .text (t'.splitAt pos).1)] [] st = none := by
              unfold lt
              cases hl : lay w [(cid, .text (t'.splitAt pos).1)] [] st with
              | error _ => rfl
              | ok r => simp [hl] at this
            rw [lt_text] at h3
            by_cases he : st.eol = true
            · simp [he]
            · by_cases hw1 : st.col + (t'.splitAt pos).1.width ≤ maxWidth
              · simp [he, hw1] at h3
              · have : ¬ (st.col + t'.width ≤ maxWidth) := by omega
                simp [this]
        · rw [if_neg ht]
          refine Sat.bind' (first_text Q hQ (t := t') hf') ?_ ?_
          · rintro b' ⟨h1, h2, h3⟩
            exact step hp hpf h3 hfail.tail (by simp [NTree.size])
              (.text h1 h2 (by simpa [Tok.isDocText] using ht))
          · rintro e ⟨h1, h2⟩
            exact .inl ⟨h1, fun _ => h2 _ _ _ _ _ _⟩
      · intro next' block' st' ys' h1 h2 h3 h4
        exact step hp hpf h1 h2 h3 h4

end PPP
