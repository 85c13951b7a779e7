import Verif.Proofs.SeekPath
/-
Seeking to the focus target, and printing from there.
-/
namespace PPP
variable {P : PrettyDoc} (Q : Pred P) {I : Prop}

theorem splitAtTok_some {p : Tok P → Bool} {T A : List (Tok P)} {x : Tok P}
    (hT : ∀ t ∈ T, p t = false) (hx : p x = true) : splitAtTok p (T ++ x :: A) = some (T, x, A) := by
  induction T with
  | nil => simp [splitAtTok, hx]
  | cons t T ih =>
    rw [List.cons_append, splitAtTok, hT t (by simp), ih (fun t ht => hT t (by simp [ht]))]
    simp

theorem splitAtTok_none {p : Tok P → Bool} {T : List (Tok P)}
    (hT : ∀ t ∈ T, p t = false) : splitAtTok p T = none := by
  induction T with
  | nil => simp [splitAtTok]
  | cons t T ih =>
    rw [splitAtTok, hT t (by simp), ih (fun t ht => hT t (by simp [ht]))]
    simp

/-- The printer stands in the middle of a line. -/
structure ReadyR (p : Printer P) (S : AS P) : Prop where
  pv : All2 BlockR p.prev S.pv
  pvf : PvFailIn Q S.pv
  next : ∃ b bs, p.next = b :: bs ∧ FirstR bs b S.segs S.st S.items
  fail : AllFailIn Q S.items

/-- The layout facts about the first item of a state. -/
def HeadLay (w : Nat) (S : AS P) (x : Item P) (ls : List (List (Segment P))) (st : LineSt)
    (L : LTree P) (Lr : List (P.Id × LTree P)) : Prop :=
  S.D w [] = some (ls, st, tag x.1 L.flat ++ Lr) ∧
  ∃ st1 ys, S.items = x :: ys ∧ x.2.layout w x.1 (trees ys ++ []) S.st = .ok (st1, L) ∧
    lay w ys [] st1 = .ok (st, Lr)

/-- The state `S'` is at the focus target of the node `x` at which `S` stands. -/
def TgtR (target : FocusTarget) (w : Nat) (x : Item P) (S S' : AS P) : Prop :=
  (S.D w [] = none → S'.D w [] = none) ∧
  ∀ ls st L Lr, HeadLay w S x ls st L Lr →
    ∃ B1 A1 ls' Ls', focusToks target x.1 L.toks (itemToks Lr) = .ok (B1, A1) ∧
      S'.D w [] = some (ls', st, Ls') ∧ itemToks Ls' = A1 ∧
      ∀ B, ls = linesOf B → ls' = linesOf (B ++ B1)

theorem HeadLay.of_D {w : Nat} {S : AS P} {x : Item P} {ys ls st Ls} (hi : S.items = x :: ys)
    (h : S.D w [] = some (ls, st, Ls)) : ∃ L Lr, Ls = tag x.1 L.flat ++ Lr ∧ HeadLay w S x ls st L Lr := by
  obtain ⟨pv, segs, st0, items⟩ := S
  simp only at hi
  subst hi
  obtain ⟨st1, L, Lr, h1, h2, rfl⟩ := D_head h
  exact ⟨L, Lr, rfl, h, st1, ys, rfl, h1, h2⟩

theorem adv_prefix {R : Tok P → Prop} {w : Nat} {S S' : AS P} (h : AdvR R w [] S S') {ls st Ls}
    (hD : S.D w [] = some (ls, st, Ls)) : ∃ ls' Ls' T1, S'.D w [] = some (ls', st, Ls') ∧
      itemToks Ls = T1 ++ itemToks Ls' ∧ (∀ B, ls = linesOf B → ls' = linesOf (B ++ T1)) ∧
      ∀ t ∈ T1, R t := by
  rcases h with ⟨k1, _⟩ | ⟨_, ls', _, _, Ls', T1, k1, k2, k3, k4, k5⟩
  · rw [hD] at k1; simp at k1
  · rw [hD] at k1
    injection k1 with k1; injection k1 with ga k1; injection k1 with gb gc
    subst ga gb gc
    exact ⟨ls', Ls', T1, k2, k3, k4, k5⟩

theorem adv_none {R : Tok P → Prop} {w : Nat} {S S' : AS P} (h : AdvR R w [] S S')
    (hD : S.D w [] = none) : S'.D w [] = none := by
  rcases h with ⟨_, k1⟩ | ⟨_, _, _, _, _, _, k1, _⟩
  · exact k1
  · simp [hD] at k1

theorem seekStart_sat (hQ : QOk Q) {p : Printer P} {chunk : Chunk P} {x S}
    (h : PathR Q I p chunk x S) :
    Sat (p.seekStart chunk)
      (fun p' => ∃ S', ReadyR Q p' S' ∧ p'.width = p.width ∧ TgtR .start p.width x S S')
      (fun e => Q e ∧ S.D p.width [] = none) := by
  obtain ⟨b, bs, ys, hnext, hf, hitems⟩ := h.next
  obtain ⟨pv, segs, st, items⟩ := S
  simp only at hitems hf
  subst hitems
  unfold Printer.seekStart
  rw [hnext]
  simp only []
  have hfail : AllFailIn Q (x :: ys) := h.fail
  refine Sat.bind' (expandFirst_sat Q hQ.overflow h.chunk hf hfail.head) ?_ ?_
  · rintro ⟨next1, block1⟩ ⟨s, hs, hf1⟩
    have hDs : AS.D p.width [] ⟨pv, segs, st, x :: ys⟩ = AS.D p.width [] ⟨pv, segs, st, tag x.1 s ++ ys⟩ := by
      simp only [AS.D]
      rw [lay_spine_append p.width x.1 hs]
    refine ⟨⟨pv, segs, st, tag x.1 s ++ ys⟩, ⟨h.pv, h.pvf, ⟨_, _, rfl, hf1⟩,
      (NTree.FailIn.spine hfail.head hs x.1).append hfail.tail⟩, rfl, fun hn => hDs ▸ hn, ?_⟩
    intro ls st L Lr ⟨hD, _⟩
    exact ⟨[], _, ls, _, rfl, hDs ▸ hD, by simp, by simp⟩
  · rintro e ⟨h1, f, h2⟩
    exact ⟨h1, D_none_of_lt (lt_spine_error _ _ h2 _ _ _)⟩

theorem lay_single {w : Nat} (x : Item P) (k st) :
    lay w [x] k st = match x.2.layout w x.1 k st with
      | .error e => .error e
      | .ok r => .ok (r.1, tag x.1 r.2.flat) := by
  simp only [lay, trees_nil, List.nil_append]
  cases x.2.layout w x.1 k st <;> simp

/-- Advancing over a node, in the context of what follows the node. -/
theorem adv_node {w : Nat} {pv pv' : List (BSpec P)} {segs segs' st st'} {x : Item P} {items tail ys}
    (hys : ys = items ++ tail) (hk : KEquiv (trees ys) (trees items))
    (h : Adv w (trees items) ⟨pv, segs, st, [x]⟩ ⟨pv', segs', st', []⟩) :
    TgtR .end w x ⟨pv, segs, st, x :: ys⟩ ⟨pv', segs', st', ys⟩ := by
  have hlay : x.2.layout w x.1 (trees ys ++ []) st = x.2.layout w x.1 (trees items) st := by
    rw [List.append_nil]; exact layout_congr _ _ _ _ hk
  constructor
  · intro hD
    rcases h with ⟨h1, h2⟩ | ⟨ls, ls', st2, Ls, Ls', T1, h1, h2, h3, h4, _⟩
    · simp only [AS.D] at h2 ⊢
      cases hp : prevLines w pv' with
      | none => rfl
      | some r => rw [hp] at h2; simp [lay] at h2
    · obtain ⟨ls0, q1, q2, q3⟩ := D_some h1
      simp only [lay_single] at q1 q2 q3
      cases hx : x.2.layout w x.1 (trees items) st with
      | error e => rw [hx] at q3; simp at q3
      | ok r =>
        rw [hx] at q3
        simp at q3
        obtain ⟨ls0', q1', q2', q3'⟩ := D_some h2
        simp only [lay, Except.ok.injEq, Prod.mk.injEq] at q1' q2' q3'
        simp only [AS.D, q1, Option.bind_some, lay, hlay, hx] at hD
        simp only [AS.D, q1', Option.bind_some]
        rw [q3'.1, ← q3.1]
        cases hy : lay w ys [] r.1 with
        | error e => rfl
        | ok r' => rw [hy] at hD; simp at hD
  · rintro ls st2 L Lr ⟨hD, st1, ys0, hys0, hL, hLr⟩
    simp only [List.cons.injEq, true_and] at hys0
    subst hys0
    simp only at hL
    rw [hlay] at hL
    obtain ⟨ls0, q1, q2, q3⟩ := D_some hD
    simp only at q1 q2
    have hD1 : AS.D w (trees items) ⟨pv, segs, st, [x]⟩ = some (ls, st1, tag x.1 L.flat) := by
      simp only [AS.D, q1, Option.bind_some, lay_single, hL]
      rw [q2]
    rcases h with ⟨h1, _⟩ | ⟨lsa, ls', sta, Lsa, Ls', T1, h1, h2, h3, h4, _⟩
    · rw [hD1] at h1; simp at h1
    · rw [hD1] at h1
      injection h1 with h1; injection h1 with ga h1; injection h1 with gb gc
      subst ga gb gc
      obtain ⟨ls0', q1', q2', q3'⟩ := D_some h2
      simp only [lay, Except.ok.injEq, Prod.mk.injEq] at q1' q2' q3'
      obtain ⟨rfl, rfl⟩ := q3'
      refine ⟨L.toks, itemToks Lr, ls', Lr, rfl, ?_, rfl, ?_⟩
      · simp only [AS.D, q1', Option.bind_some, hLr]
        rw [q2']
      · intro B hB
        have := h4 B hB
        simp at h3
        rw [h3]; exact this

theorem seekEnd_sat (hQ : QOk Q) {p : Printer P} {chunk : Chunk P} {x S}
    (h : PathR Q I p chunk x S) :
    Sat (p.seekEnd chunk)
      (fun p' => ∃ S', ReadyR Q p' S' ∧ p'.width = p.width ∧ TgtR .end p.width x S S')
      (fun e => Q e ∧ S.D p.width [] = none) := by
  obtain ⟨b, bs, ys, hnext, hf, hitems⟩ := h.next
  obtain ⟨pv, segs, st, items⟩ := S
  simp only at hitems hf
  subst hitems
  unfold Printer.seekEnd
  rw [hnext]
  simp only []
  have hfail : AllFailIn Q (x :: ys) := h.fail
  obtain ⟨items, tail, hys, hc, hr⟩ := hf.items
  have hk : KEquiv (trees ys) (trees items) := by rw [hys]; exact hr.kequiv items
  have hlay : x.2.layout p.width x.1 (trees ys ++ []) st = x.2.layout p.width x.1 (trees items) st := by
    rw [List.append_nil]; exact layout_congr _ _ _ _ hk
  have hnone : AS.D p.width (trees items) ⟨pv, segs, st, [x]⟩ = none →
      AS.D p.width [] ⟨pv, segs, st, x :: ys⟩ = none := by
    intro hn
    simp only [AS.D, lay_single] at hn ⊢
    cases hp : prevLines p.width pv with
    | none => rfl
    | some r =>
      rw [hp] at hn
      simp only [lay, hlay, Option.bind_some] at hn ⊢
      cases hx : x.2.layout p.width x.1 (trees items) st with
      | error e => rfl
      | ok r => rw [hx] at hn; simp at hn
  have hb : BlockR b ⟨segs, st, items⟩ := ⟨hf.segs, hf.col, hf.eol, hc⟩
  have hfi : AllFailIn Q items := by
    have := hfail.tail; rw [hys] at this; exact this.left
  refine Sat.bind' (expandLast_sat Q hQ.overflow h.chunk h.pv hb hfail.head) ?_ ?_
  · rintro ⟨prev1, block1⟩ ⟨s, pv1, b1, hs, h1, h2, h3⟩
    simp only at h2 h3 ⊢
    have hlen : b.chunks.length = items.length := hc.length_eq
    rw [hlen]
    have hff := h1.failIn Q (NTree.FailIn.spine hfail.head hs x.1)
    have hpf : PvFailIn Q (pv1 ++ pv) := by
      intro q hq
      rcases List.mem_append.1 hq with hq | hq
      · exact hff.2 q hq
      · exact h.pvf q hq
    have hadv0 : Adv p.width (trees items) ⟨pv, segs, st, [x]⟩ ⟨pv1 ++ pv, b1.segs, b1.st, b1.items⟩ := by
      refine AdvR.trans (AdvR.spine (id := x.1) (t := x.2) hs) ?_
      have := h1.adv p.width (trees items) pv
      simpa using this
    refine Sat.bind' (seekEndLoop_sat Q hQ p.width _ h2 hpf h3 (hff.1.append hfi) (Nat.le_refl _)) ?_ ?_
    · rintro ⟨prev2, block2⟩ ⟨pv2, segs2, st2, g1, g2, g3, g4⟩
      simp only at g2 g4
      refine ⟨⟨pv2, segs2, st2, ys⟩, ⟨g2, g3, ⟨_, _, rfl, g4.segs, g4.col, g4.eol, items, tail, hys,
        g4.chunks, hr⟩, hfail.tail⟩, rfl, adv_node hys hk (hadv0.trans g1)⟩
    · rintro e ⟨g1, g2⟩
      exact ⟨g1, hnone (hadv0.none_left g2)⟩
  · rintro e ⟨g1, f, g2⟩
    refine ⟨g1, D_none_of_lt (lt_spine_error _ _ g2 _ _ _)⟩

theorem seekMark_sat (hQ : QOk Q) {p : Printer P} {chunk : Chunk P} {x S}
    (h : PathR Q I p chunk x S) :
    Sat (p.seekMark chunk)
      (fun p' => ∃ S', ReadyR Q p' S' ∧ p'.width = p.width ∧ TgtR .mark p.width x S S')
      (fun e => (Q e ∧ S.D p.width [] = none) ∨ (e = .err .missingFocusMark ∧
        ∀ ls st L Lr, HeadLay p.width S x ls st L Lr →
          focusToks .mark x.1 L.toks (itemToks Lr) = .error .missingFocusMark)) := by
  obtain ⟨b, bs, ys, hnext, hf, hitems⟩ := h.next
  obtain ⟨pv, segs, st, items⟩ := S
  simp only at hitems hf
  subst hitems
  unfold Printer.seekMark
  rw [hnext]
  simp only []
  have hfail : AllFailIn Q (x :: ys) := h.fail
  have hcid : chunk.id = x.1 := h.chunk.1
  refine Sat.bind' (expandFirst_sat Q hQ.overflow h.chunk hf hfail.head) ?_ ?_
  · rintro ⟨next1, block1⟩ ⟨s, hs, hf1⟩
    simp only at hf1 ⊢
    have hDs : AS.D p.width [] ⟨pv, segs, st, x :: ys⟩ = AS.D p.width [] ⟨pv, segs, st, tag x.1 s ++ ys⟩ := by
      simp only [AS.D]
      rw [lay_spine_append p.width x.1 hs]
    rw [seekMarkLoop.eq_def, hcid]
    simp only []
    refine Sat.bind' (seekMarkLoop_sat Q hQ p.width x.1 _ h.pv h.pvf hf1
      ((NTree.FailIn.spine hfail.head hs x.1).append hfail.tail) (Nat.le_refl _)) ?_ ?_
    · rintro ⟨prev2, next2⟩ ⟨pv1, segs1, st1, ys1, b2, bs2, rfl, g2, g3, g4, g5, g6⟩
      simp only at g2
      have hadv := (AdvR.of_D_eq (R := fun t => t ≠ .mark x.1) hDs).trans g6
      refine ⟨⟨pv1, segs1, st1, ys1⟩, ⟨g2, g3, ⟨_, _, rfl, g4⟩, g5⟩, rfl, ?_, ?_⟩
      · intro hn
        exact adv_none (AdvR.mark (R := fun _ => True) trivial) (adv_none hadv hn)
      · rintro ls st2 L Lr ⟨hD, _⟩
        obtain ⟨ls', Ls', T1, k1, k2, k3, k4⟩ := adv_prefix hadv hD
        obtain ⟨st3, L3, Lr3, m1, m2, rfl⟩ := D_head k1
        simp only [NTree.layout, Except.ok.injEq, Prod.mk.injEq] at m1
        obtain ⟨rfl, rfl⟩ := m1
        simp only [itemToks_append, itemToks_tag_flat, LTree.toks] at k2
        refine ⟨T1, itemToks Lr3, ls', Lr3, ?_, ?_, rfl, k3⟩
        · simp only [focusToks]
          rw [k2]
          simp only [List.cons_append, List.nil_append]
          rw [splitAtTok_some (x := .mark x.1)]
          · intro t ht
            have := k4 t ht
            cases t <;> simp [Tok.isMark] at this ⊢
            exact this
          · simp [Tok.isMark]
        · obtain ⟨ls0, q1, q2, q3⟩ := D_some k1
          simp only at q1 q2
          simp only [AS.D, q1, Option.bind_some, m2]
          rw [q2]
    · rintro e (⟨g1, g2⟩ | ⟨rfl, pv1, segs1, st1, g2⟩)
      · exact .inl ⟨g1, hDs.trans g2⟩
      · refine .inr ⟨rfl, ?_⟩
        rintro ls st2 L Lr ⟨hD, _⟩
        obtain ⟨ls', Ls', T1, k1, k2, k3, k4⟩ :=
          adv_prefix ((AdvR.of_D_eq (R := fun t => t ≠ .mark x.1) hDs).trans g2) hD
        obtain ⟨_, _, _, q3⟩ := D_some k1
        simp [lay] at q3
        rw [q3.2] at k2
        simp only [itemToks_append, itemToks_tag_flat, itemToks_nil, List.append_nil] at k2
        simp only [focusToks]
        rw [k2, splitAtTok_none]
        intro t ht
        have := k4 t ht
        cases t <;> simp [Tok.isMark] at this ⊢
        exact this
  · rintro e ⟨h1, f, h2⟩
    exact .inl ⟨h1, D_none_of_lt (lt_spine_error _ _ h2 _ _ _)⟩

theorem seekText_sat (hQ : QOk Q) {p : Printer P} {chunk : Chunk P} {x S} (pos : Nat) {A : Prop}
    (hadd : A → ∀ t, Q.text t → t.isFromText = true →
      (t.splitAt pos).1.width + (t.splitAt pos).2.width = t.width)
    (hsplit : ∀ t, Q.text t → Q.text (t.splitAt pos).2)
    (h : PathR Q I p chunk x S) :
    Sat (p.seekText chunk pos)
      (fun p' => ∃ S', ReadyR Q p' S' ∧ p'.width = p.width ∧ (A → TgtR (.text pos) p.width x S S'))
      (fun e => (Q e ∧ (A → S.D p.width [] = none)) ∨ (e = .err .missingText ∧
        ∀ ls st L Lr, HeadLay p.width S x ls st L Lr →
          focusToks (.text pos) x.1 L.toks (itemToks Lr) = .error .missingText)) := by
  obtain ⟨b, bs, ys, hnext, hf, hitems⟩ := h.next
  obtain ⟨pv, segs, st, items⟩ := S
  simp only at hitems hf
  subst hitems
  unfold Printer.seekText
  rw [hnext]
  simp only []
  have hfail : AllFailIn Q (x :: ys) := h.fail
  refine Sat.bind' (expandFirst_sat Q hQ.overflow h.chunk hf hfail.head) ?_ ?_
  · rintro ⟨next1, block1⟩ ⟨s, hs, hf1⟩
    simp only at hf1 ⊢
    have hDs : AS.D p.width [] ⟨pv, segs, st, x :: ys⟩ = AS.D p.width [] ⟨pv, segs, st, tag x.1 s ++ ys⟩ := by
      simp only [AS.D]
      rw [lay_spine_append p.width x.1 hs]
    rw [seekTextLoop.eq_def]
    simp only []
    refine Sat.bind' (seekTextLoop_sat Q hQ p.width pos (A := A) (fun hA t h1 h2 => ?_) _ h.pv h.pvf hf1
      ((NTree.FailIn.spine hfail.head hs x.1).append hfail.tail) (Nat.le_refl _)) ?_ ?_
    · have := hadd hA t h1 h2; omega
    · rintro ⟨prev2, next2⟩ ⟨pv1, segs1, st1, ys1, b2, bs2, cid, t, rfl, g2, g3, gt1, gt2, ge, g4, g5, g6⟩
      simp only at g2
      have hadv := (AdvR.of_D_eq (R := fun t => t.isDocText = false) hDs).trans g6
      refine ⟨⟨pv1, segs1 ++ [(t.splitAt pos).1.segment], ⟨st1.col + (t.splitAt pos).1.width, false⟩,
        (cid, .text (t.splitAt pos).2) :: ys1⟩, ⟨g2, g3, ⟨_, _, rfl, g4⟩,
        .cons (hsplit t gt1) g5⟩, rfl, ?_⟩
      intro hA
      have hw := hadd hA t gt1 gt2
      have hsame : ∀ {st2 L2}, (NTree.text t).layout p.width cid (trees ys1 ++ []) st1 = .ok (st2, L2) ↔
          (st1.col + t.width ≤ maxWidth ∧ st2 = ⟨st1.col + t.width, false⟩ ∧ L2 = .text t) := by
        intro st2 L2
        simp only [NTree.layout, ge]
        by_cases hm : st1.col + t.width ≤ maxWidth
        · simp [hm, eq_comm]
        · simp [hm]
      constructor
      · intro hn
        have := adv_none hadv hn
        simp only [AS.D] at this ⊢
        cases hp : prevLines p.width pv1 with
        | none => rfl
        | some r =>
          rw [hp] at this
          simp only [Option.bind_some, lay, NTree.layout, ge] at this ⊢
          by_cases hm : st1.col + t.width ≤ maxWidth
          · have hm' : st1.col + (t.splitAt pos).1.width + (t.splitAt pos).2.width ≤ maxWidth := by omega
            have he : st1.col + (t.splitAt pos).1.width + (t.splitAt pos).2.width = st1.col + t.width := by omega
            simp only [hm, hm', if_true, Bool.false_eq_true, if_false] at this ⊢
            rw [he]
            cases hl : lay p.width ys1 [] ⟨st1.col + t.width, false⟩ with
            | error e => rfl
            | ok r => rw [hl] at this; simp at this
          · have hm' : ¬ st1.col + (t.splitAt pos).1.width + (t.splitAt pos).2.width ≤ maxWidth := by omega
            simp [hm']
      · rintro ls st2 L Lr ⟨hD, _⟩
        obtain ⟨ls', Ls', T1, k1, k2, k3, k4⟩ := adv_prefix hadv hD
        obtain ⟨st3, L3, Lr3, m1, m2, rfl⟩ := D_head k1
        rw [hsame] at m1
        obtain ⟨hm, rfl, rfl⟩ := m1
        simp only [itemToks_append, itemToks_tag_flat, LTree.toks] at k2
        obtain ⟨ls0, q1, q2, q3⟩ := D_some k1
        simp only at q1 q2
        refine ⟨T1 ++ [.text (t.splitAt pos).1], .text (t.splitAt pos).2 :: itemToks Lr3,
          ls0 ++ [segs1 ++ [(t.splitAt pos).1.segment]], (cid, .text (t.splitAt pos).2) :: Lr3, ?_, ?_, ?_, ?_⟩
        · simp only [focusToks]
          rw [k2]
          simp only [List.cons_append, List.nil_append]
          rw [splitAtTok_some (x := .text t) k4 (by simpa [Tok.isDocText] using gt2)]
        · have hm' : st1.col + (t.splitAt pos).1.width + (t.splitAt pos).2.width ≤ maxWidth := by omega
          have he : st1.col + (t.splitAt pos).1.width + (t.splitAt pos).2.width = st1.col + t.width := by omega
          simp only [AS.D, q1, Option.bind_some, lay, NTree.layout, hm', if_true, Bool.false_eq_true, if_false]
          rw [he, m2]
          simp [LTree.flat]
        · simp [itemToks, LTree.toks]
        · intro B hB
          have h3 := k3 B hB
          rw [← List.append_assoc, linesOf]
          rw [q2] at h3
          rw [linesFrom_append h3]
          simp [linesFrom]
    · rintro e (⟨g1, g2⟩ | ⟨rfl, pv1, segs1, st1, g2⟩)
      · exact .inl ⟨g1, fun hA => hDs.trans (g2 hA)⟩
      · refine .inr ⟨rfl, ?_⟩
        rintro ls st2 L Lr ⟨hD, _⟩
        obtain ⟨ls', Ls', T1, k1, k2, k3, k4⟩ :=
          adv_prefix ((AdvR.of_D_eq (R := fun t => t.isDocText = false) hDs).trans g2) hD
        obtain ⟨_, _, _, q3⟩ := D_some k1
        simp [lay] at q3
        rw [q3.2] at k2
        simp only [itemToks_append, itemToks_tag_flat, itemToks_nil, List.append_nil] at k2
        simp only [focusToks]
        rw [k2, splitAtTok_none k4]
  · rintro e ⟨h1, f, h2⟩
    exact .inl ⟨h1, fun _ => D_none_of_lt (lt_spine_error _ _ h2 _ _ _)⟩

end PPP
