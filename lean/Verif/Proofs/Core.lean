import Verif.Proofs.Print
/-
`prettyPrint` as a whole, for a document represented by a notation tree.
-/
namespace PPP
variable {P : PrettyDoc} (Q : Pred P) {I A : Prop}

/-- A found node together with what is before and after it is the whole layout. -/
theorem findChild_toks {i : Nat} (L : LTree P) : ∀ {l}, L.findChild i = some l →
    L.toks = l.before ++ (l.node.toks ++ l.after) := by
  induction L with
  | child p j c t _ =>
    intro l h
    simp only [LTree.findChild] at h
    split at h
    · simp only [Option.some.injEq] at h
      subst h
      simp [LTree.toks]
    · simp at h
  | concat a b iha ihb =>
    intro l h
    simp only [LTree.findChild] at h
    cases ha : a.findChild i with
    | some l0 =>
      rw [ha] at h
      simp at h
      subst h
      simp [LTree.toks, iha ha]
    | none =>
      rw [ha] at h
      cases hb : b.findChild i with
      | none => rw [hb] at h; simp at h
      | some l0 =>
        rw [hb] at h
        simp at h
        subst h
        simp [LTree.toks, ihb hb]
  | _ => intro l h; simp [LTree.findChild] at h

theorem locate_toks (L : LTree P) (id : P.Id) (path : List Nat) : ∀ {l}, L.locate id path = .ok l →
    L.toks = l.before ++ (l.node.toks ++ l.after) := by
  induction path generalizing L id with
  | nil => intro l h; simp [LTree.locate] at h; subst h; simp
  | cons i path ih =>
    intro l h
    simp only [LTree.locate] at h
    cases hf : L.findChild i with
    | none => rw [hf] at h; simp at h
    | some l0 =>
      rw [hf] at h
      simp only at h
      cases hl : l0.node.locate l0.id path with
      | error j => rw [hl] at h; simp at h
      | ok l1 =>
        rw [hl] at h
        simp only [Except.ok.injEq] at h
        subst h
        rw [findChild_toks L hf, ih _ _ hl]
        simp

/-- What must be known about texts to seek into the middle of one.  (`A` is the assumption that
    widths add up.) -/
structure TgtOk (A : Prop) (target : FocusTarget) : Prop where
  add : ∀ pos, target = .text pos → A → ∀ t, Q.text t → t.isFromText = true →
    (t.splitAt pos).1.width + (t.splitAt pos).2.width = t.width
  split : ∀ pos, target = .text pos → ∀ t, Q.text t → Q.text (t.splitAt pos).2

/-- The second half of `Printer::seek`. -/
def Printer.seekTarget (p : Printer P) (chunk : Chunk P) : FocusTarget → Exec P.Err (Printer P)
  | .start => p.seekStart chunk
  | .end => p.seekEnd chunk
  | .text pos => p.seekText chunk pos
  | .mark => p.seekMark chunk

theorem seekTarget_sat (hQ : QOk Q) {target : FocusTarget} (hT : TgtOk Q A target) {p : Printer P}
    {chunk : Chunk P} {x S} (h : PathR Q I p chunk x S) :
    Sat (p.seekTarget chunk target)
      (fun p' => ∃ S', ReadyR Q p' S' ∧ p'.width = p.width ∧ (A → TgtR target p.width x S S'))
      (fun e => (Q e ∧ (A → S.D p.width [] = none)) ∨ ∃ e', e = .err e' ∧
        ((target = .mark ∧ e' = .missingFocusMark) ∨
          ((∃ pos, target = .text pos) ∧ e' = .missingText)) ∧
        ∀ ls st L Lr, HeadLay p.width S x ls st L Lr →
          focusToks target x.1 L.toks (itemToks Lr) = .error e') := by
  cases target with
  | start =>
    refine (seekStart_sat Q hQ h).mono ?_ ?_
    · rintro p' ⟨S', h1, h2, h3⟩; exact ⟨S', h1, h2, fun _ => h3⟩
    · rintro e ⟨h1, h2⟩; exact .inl ⟨h1, fun _ => h2⟩
  | «end» =>
    refine (seekEnd_sat Q hQ h).mono ?_ ?_
    · rintro p' ⟨S', h1, h2, h3⟩; exact ⟨S', h1, h2, fun _ => h3⟩
    · rintro e ⟨h1, h2⟩; exact .inl ⟨h1, fun _ => h2⟩
  | mark =>
    refine (seekMark_sat Q hQ h).mono ?_ ?_
    · rintro p' ⟨S', h1, h2, h3⟩; exact ⟨S', h1, h2, fun _ => h3⟩
    · rintro e (⟨h1, h2⟩ | ⟨rfl, h2⟩)
      · exact .inl ⟨h1, fun _ => h2⟩
      · exact .inr ⟨_, rfl, .inl ⟨rfl, rfl⟩, h2⟩
  | text pos =>
    refine (seekText_sat Q hQ pos (hT.add pos rfl) (hT.split pos rfl) h).mono ?_ ?_
    · rintro p' h; exact h
    · rintro e (⟨h1, h2⟩ | ⟨rfl, h2⟩)
      · exact .inl ⟨h1, h2⟩
      · exact .inr ⟨_, rfl, .inr ⟨⟨pos, rfl⟩, rfl⟩, h2⟩

/-- The state in which printing of a document starts. -/
def AS.init (id : P.Id) (t : NTree P) : AS P := ⟨[], [], ⟨0, false⟩, [(id, t)]⟩

theorem init_ok {w : Nat} {id : P.Id} {t : NTree P} {L} (h : t.layoutDoc w id = .ok L) :
    ∃ st, HeadLay w (AS.init id t) (id, t) [[]] st L [] := by
  unfold NTree.layoutDoc at h
  cases hl : t.layout w id [] ⟨0, false⟩ with
  | error e => rw [hl] at h; simp [Except.bind_eq] at h
  | ok r =>
    rw [hl] at h
    simp [Except.bind_eq] at h
    subst h
    refine ⟨r.1, ?_, r.1, [], rfl, by simpa [AS.init] using hl, rfl⟩
    simp [AS.D, AS.init, prevLines, lay, hl]

theorem init_error {w : Nat} {id : P.Id} {t : NTree P} :
    (AS.init id t).D w [] = none ↔ ∃ f, t.layoutDoc w id = .error f := by
  unfold NTree.layoutDoc
  cases hl : t.layout w id [] ⟨0, false⟩ with
  | error e => simp [AS.D, AS.init, prevLines, lay, hl, Except.bind_eq]
  | ok r => simp [AS.D, AS.init, prevLines, lay, hl, Except.bind_eq]

theorem init_unique {w : Nat} {id : P.Id} {t : NTree P} {L st L' st' Lr ls}
    (h : HeadLay w (AS.init id t) (id, t) [[]] st L [])
    (h' : HeadLay w (AS.init id t) (id, t) ls st' L' Lr) : ls = [[]] ∧ st' = st ∧ L' = L ∧ Lr = [] := by
  obtain ⟨h1, st1, ys, h2, h3, h4⟩ := h
  obtain ⟨g1, st2, ys', g2, g3, g4⟩ := h'
  simp only [AS.init, List.cons.injEq, true_and] at h2 g2
  subst h2 g2
  rw [h3] at g3
  simp only [Except.ok.injEq, Prod.mk.injEq] at g3
  obtain ⟨rfl, rfl⟩ := g3
  rw [h1] at g1
  simp only [Option.some.injEq, Prod.mk.injEq, List.append_cancel_left_eq] at g1
  exact ⟨g1.1.symm, g1.2.1.symm, rfl, g1.2.2.symm⟩

/-- The internal state of the result of `pretty_print`. -/
structure PrintedR (w : Nat) (r : Printed P) (S : AS P) (ex : List (Segment P)) (st' : LineSt)
    (tail : List (Item P)) : Prop where
  up : All2 BlockR r.up.prev S.pv
  upw : r.up.width = w
  pvf : PvFailIn Q S.pv
  left : r.focused.leftSegments = S.segs
  right : r.focused.rightSegments = ex
  down : RestR r.down.next tail
  downw : r.down.width = w
  tailf : AllFailIn Q tail
  adv : Adv w [] S ⟨S.pv, S.segs ++ ex, st', tail⟩

/-- Where the focus of a successful print is, in terms of the layout. -/
def FocusR (I : Prop) (w : Nat) (id : P.Id) (t : NTree P) (path : List Nat) (target : FocusTarget)
    (S : AS P) : Prop :=
  ((∃ f, t.layoutDoc w id = .error f) → S.D w [] = none) ∧
  ∀ L, t.layoutDoc w id = .ok L → ∃ T0 id' nodeT afterT B1 A1 st Ls,
    L.toks = T0 ++ (nodeT ++ afterT) ∧ focusToks target id' nodeT afterT = .ok (B1, A1) ∧
    S.D w [] = some (linesOf (T0 ++ B1), st, Ls) ∧ itemToks Ls = A1 ∧
    (I → ∃ l, L.locate id path = .ok l ∧ l.before = T0 ∧ l.id = id' ∧ l.node.toks = nodeT ∧
      l.after = afterT)

theorem prettyPrint_core (hQ : QOk Q) {target : FocusTarget} (hT : TgtOk Q A target)
    {doc : P.Node} {rootStyle : Option P.Style} {d : DCN P} {id t}
    (hd : DCN.withOptionalStyle doc rootStyle = Exec.ofRes (.ok d)) (hrep : Rep d (.ok id) t)
    (hfail : t.FailIn Q) (hI : I → t.IdsDistinct id) (w : Nat) (path : List Nat) :
    Sat (prettyPrint doc w path target rootStyle)
      (fun r => ∃ S ex st' tail, PrintedR Q w r S ex st' tail ∧ (A → FocusR I w id t path target S))
      (fun e => (Q e ∧ (A → ∃ f, t.layoutDoc w id = .error f)) ∨
        (∃ j, e = .err (.invalidPath j) ∧ j ∈ path ∧
          (I → ∀ L, t.layoutDoc w id = .ok L → L.locate id path = .error j)) ∨
        (∃ e', e = .err e' ∧ ((target = .mark ∧ e' = .missingFocusMark) ∨
          ((∃ pos, target = .text pos) ∧ e' = .missingText)) ∧
          (I → ∀ L, t.layoutDoc w id = .ok L → ∃ l, L.locate id path = .ok l ∧
            focusToks target l.id l.node.toks l.after = .error e'))) := by
  unfold prettyPrint
  have hnew : Printer.new (P := P) w = Exec.ofRes (.ok ⟨w, [], [⟨[], 0, false, []⟩]⟩) := by
    simp [Printer.new, Block.new, segsWidth, Exec.pure_eq]
  rw [hnew]
  simp only [Exec.ofRes_ok_bind]
  have hseek : Printer.seek (P := P) ⟨w, [], [⟨[], 0, false, []⟩]⟩ doc path target rootStyle =
      (do
        let chunk ← Chunk.new d
        let r ← Printer.seekPath ⟨w, [], [⟨[], 0, false, []⟩]⟩ chunk path
        r.1.seekTarget r.2 target) := by
    unfold Printer.seek
    rw [hd]
    simp only [Exec.ofRes_ok_bind]
    cases target <;> rfl
  rw [hseek, bind_assoc]
  refine Sat.bind' (Chunk.new_sat_ok hrep) ?_ ?_
  · intro chunk hchunk
    have h0 : PathR Q I ⟨w, [], [⟨[], 0, false, []⟩]⟩ chunk (id, t) (AS.init id t) := by
      refine ⟨hchunk, .nil, fun p hp => by simp [AS.init] at hp, ⟨_, _, [], rfl,
        ⟨rfl, rfl, rfl, [], [], rfl, .nil, .nil⟩, rfl⟩, .cons hfail (fun _ h => by simp at h), ?_⟩
      intro h
      exact ⟨hI h, by simp [AS.init]⟩
    rw [bind_assoc]
    refine Sat.bind' (seekPath_sat Q hQ path h0) ?_ ?_
    · rintro ⟨p1, chunk1⟩ ⟨x1, S1, h1, hw1, h2, h3⟩
      simp only at h1 hw1 h2 h3 ⊢
      refine Sat.bind' (seekTarget_sat Q hQ hT h1) ?_ ?_
      · rintro p2 ⟨S2, g1, hw2, g2⟩
        rw [hw1] at hw2 g2
        obtain ⟨b, bs, hnext, hf⟩ := g1.next
        rw [hnext]
        simp only [Printer.printNextLine, hnext, hw2, bind_assoc]
        refine Sat.bind' (printNextLoop_sat Q hQ w _ hf g1.fail (Nat.le_refl _)) ?_ ?_
        · rintro ⟨line, next'⟩ ⟨st', tail, ex, k1, k2, k3, k4, k5⟩
          simp only [Exec.pure_bind'] at k1 k2 k4 ⊢
          have hseg : b.segments = S2.segs := hf.segs
          rw [hseg]
          rw [if_neg (by rw [k4]; simp)]
          refine ⟨S2, ex, st', tail, ⟨g1.pv, rfl, g1.pvf, ?_, ?_, k2, rfl, k3, ?_⟩, ?_⟩
          · simp [k4]
          · simp [k4]
          · have := k1 S2.pv
            rw [k4] at this
            exact this
          · intro hA
            refine ⟨fun he => (g2 hA).1 (adv_none h2 (init_error.2 he)), ?_⟩
            intro L hL
            obtain ⟨st, hh⟩ := init_ok hL
            obtain ⟨ls1, Ls1, T1, m1, m2, m3, _⟩ := adv_prefix h2 hh.1
            obtain ⟨_, _, ys1, _, _, hit⟩ := h1.next
            obtain ⟨L1, Lr1, rfl, hh1⟩ := HeadLay.of_D hit m1
            obtain ⟨B1, A1, ls2, Ls2, n1, n2, n3, n4⟩ := (g2 hA).2 _ _ _ _ hh1
            refine ⟨T1, x1.1, L1.toks, itemToks Lr1, B1, A1, st, Ls2, ?_, n1, ?_, n3, ?_⟩
            · simpa using m2
            · have := n4 T1 (by simpa using m3 [] rfl)
              rw [n2, this]
            · intro hi
              obtain ⟨l, ls', Lr', st1, ys', e1, e2, e3, e4, e5, e6, e7, e8⟩ := h3 hi _ _ _ _ hh.1 hh.2
              obtain ⟨_, st2, ys2, f2, f3, f4⟩ := hh1
              rw [e4] at f2
              injection f2 with _ f2
              subst f2
              rw [e5] at f3
              simp only [Except.ok.injEq, Prod.mk.injEq] at f3
              obtain ⟨rfl, rfl⟩ := f3
              rw [e6] at f4
              simp only [Except.ok.injEq, Prod.mk.injEq, true_and] at f4
              subst f4
              simp at e7
              refine ⟨l, e1, ?_, e2, rfl, e7.symm⟩
              simp only [itemToks_append, itemToks_tag_flat, itemToks_nil, List.append_nil] at m2
              have hlt := locate_toks L id path e1
              rw [hlt, e7] at m2
              simpa using m2
        · rintro e ⟨k1, k2⟩
          refine .inl ⟨k1, fun hA => ?_⟩
          have hD2 : S2.D w [] = none := k2 S2.pv
          by_cases hn : S1.D w [] = none
          · exact init_error.1 (h2.none_left hn)
          · cases hD1 : S1.D w [] with
            | none => exact absurd hD1 hn
            | some r =>
              obtain ⟨ls1, st1, Ls1⟩ := r
              obtain ⟨_, _, ys1, _, _, hit⟩ := h1.next
              obtain ⟨L1, Lr1, rfl, hh1⟩ := HeadLay.of_D hit hD1
              obtain ⟨_, _, _, _, _, n2, _⟩ := (g2 hA).2 _ _ _ _ hh1
              rw [hD2] at n2; simp at n2
      · rw [hw1]
        rintro e (⟨k1, k2⟩ | ⟨e', rfl, he, k2⟩)
        · exact .inl ⟨k1, fun hA => init_error.1 (h2.none_left (k2 hA))⟩
        · refine .inr (.inr ⟨e', rfl, he, ?_⟩)
          intro hi L hL
          obtain ⟨st, hh⟩ := init_ok hL
          obtain ⟨l, ls', Lr', st1, ys', e1, e2, e3, e4, e5, e6, e7, e8⟩ := h3 hi _ _ _ _ hh.1 hh.2
          have := k2 _ _ _ _ ⟨e3, st1, ys', e4, e5, e6⟩
          simp at e7
          exact ⟨l, e1, by rw [e2, ← e7]; exact this⟩
    · rintro e (⟨k1, k2⟩ | ⟨j, rfl, hj, k2⟩)
      · exact .inl ⟨k1, fun _ => init_error.1 k2⟩
      · refine .inr (.inl ⟨j, rfl, hj, ?_⟩)
        intro hi L hL
        obtain ⟨st, hD, st1, ys, q1, q2, q3⟩ := init_ok hL
        exact k2 hi st1 L ys _ st [] q1 q2 hD q3
  · rintro e rfl
    exact .inl ⟨hfail, fun _ => ⟨e, rfl⟩⟩

end PPP
