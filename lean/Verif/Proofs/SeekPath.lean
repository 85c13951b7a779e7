import Verif.Proofs.SeekChild
/-
Seeking along a path.
-/
namespace PPP
variable {P : PrettyDoc} (Q : Pred P) {I : Prop} {pid : P.Id} {i : Nat}

/-- The chunk is one that `containsRelevantChunk` looks for. -/
def relevantChunk (pid : P.Id) (i : Nat) (chunk : Chunk P) : Bool :=
  match chunk.notn with
  | .child j _ => chunk.id = pid && j = i
  | .choice _ _ => chunk.id = pid
  | _ => false

theorem containsRelevantChunk_eq (b : Block P) :
    containsRelevantChunk pid i b = b.chunks.any (relevantChunk pid i) := rfl

theorem irrelevant_of {c : Chunk P} {x : Item P} (h : ChunkR c x) (ha : x.2.Atomic)
    (hr : relevantChunk pid i c = false) : Irrelevant pid i x := by
  obtain ⟨cn, cid⟩ := c
  obtain ⟨id, t⟩ := x
  obtain ⟨hid, hc⟩ := h
  simp only at hid hc
  subst hid
  by_cases hp : cid = pid
  · subst hp
    right
    cases hc with
    | child => simpa [relevantChunk] using hr
    | choice => simp [relevantChunk] at hr
    | concat => exact ha
    | _ => trivial
  · exact .inl hp

theorem irrelevant_all {cs : List (Chunk P)} {xs : List (Item P)} (h : ChunksR cs xs)
    (hr : cs.any (relevantChunk pid i) = false) : ∀ x ∈ xs, Irrelevant pid i x := by
  induction h with
  | nil => simp
  | cons hx _ ih =>
    simp only [List.any_cons, Bool.or_eq_false_iff] at hr
    intro y hy
    rcases List.mem_cons.1 hy with rfl | hy
    · exact irrelevant_of hx.1 hx.2 hr.1
    · exact ih hr.2 y hy

theorem skipBlocks_sat (w : Nat) {bs : List (Block P)} :
    ∀ {prev : List (Block P)} {b : Block P} {pv segs st ys},
    All2 BlockR prev pv → PvFailIn Q pv → FirstR bs b segs st ys → AllFailIn Q ys →
    (∃ prev', skipBlocks pid i prev (b :: bs) = (prev', []) ∧ ∀ x ∈ ys, Irrelevant pid i x) ∨
    (∃ prev' b' bs' pv' segs' st' zs ys', skipBlocks pid i prev (b :: bs) = (prev', b' :: bs') ∧
      All2 BlockR prev' pv' ∧ PvFailIn Q pv' ∧ FirstR bs' b' segs' st' ys' ∧ ys = zs ++ ys' ∧
      AdvF I pid i w ⟨pv, segs, st, ys⟩ ⟨pv', segs', st', ys'⟩ ∧
      b'.chunks.any (relevantChunk pid i) = true) := by
  induction bs with
  | nil =>
    intro prev b pv segs st ys hp hpf hf hfail
    rw [skipBlocks, containsRelevantChunk_eq]
    obtain ⟨items, tail, rfl, h1, h2⟩ := hf.items
    by_cases hr : b.chunks.any (relevantChunk pid i) = true
    · rw [if_pos hr]
      exact .inr ⟨prev, b, [], pv, segs, st, [], _, rfl, hp, hpf, hf, rfl, .refl _ _, hr⟩
    · rw [if_neg hr]
      rw [skipBlocks]
      cases h2 with
      | nil => exact .inl ⟨_, rfl, by simpa using irrelevant_all h1 (by simpa using hr)⟩
  | cons b2 bs ih =>
    intro prev b pv segs st ys hp hpf hf hfail
    rw [skipBlocks, containsRelevantChunk_eq]
    obtain ⟨items, tail, rfl, h1, h2⟩ := hf.items
    by_cases hr : b.chunks.any (relevantChunk pid i) = true
    · rw [if_pos hr]
      exact .inr ⟨prev, b, _, pv, segs, st, [], _, rfl, hp, hpf, hf, rfl, .refl _ _, hr⟩
    · rw [if_neg hr]
      have hirr := irrelevant_all h1 (by simpa using hr)
      rcases h2.uncons with ⟨h, _⟩ | ⟨b', bs', id, ys', h, rfl, hw, hf'⟩
      · simp at h
      · simp only [List.cons.injEq] at h
        obtain ⟨rfl, rfl⟩ := h
        have hp' : All2 BlockR (b :: prev) (⟨segs, st, items⟩ :: pv) :=
          .cons ⟨hf.segs, hf.col, hf.eol, h1⟩ hp
        have hpf' : PvFailIn Q (⟨segs, st, items⟩ :: pv) := by
          intro p hpp
          rcases List.mem_cons.1 hpp with rfl | hpp
          · exact hfail.left
          · exact hpf p hpp
        rcases ih hp' hpf' hf' hfail.right.tail with ⟨prev', h3, h4⟩ |
          ⟨prev', b', bs', pv', segs', st', zs, ys'', h3, h4, h5, h6, h7, h8, h9⟩
        · refine .inl ⟨prev', h3, ?_⟩
          intro x hx
          rcases List.mem_append.1 hx with hx | hx
          · exact hirr x hx
          · rcases List.mem_cons.1 hx with rfl | hx
            · exact .inr trivial
            · exact h4 x hx
        · exact .inr ⟨prev', b', bs', pv', segs', st', items ++ (id, .newline b2.segments) :: zs,
            ys'', h3, h4, h5, h6, by simp [h7], (AdvF.skip hw hirr).trans h8, h9⟩

/-- The possible outcomes of step 2. -/
def Step2Ok (I : Prop) (pid : P.Id) (i : Nat) (w : Nat) (S : AS P) : Step2 P → Prop
  | .found next' chunk => ∃ b bs segs' st' ys' c t, next' = b :: bs ∧ FirstR bs b segs' st' ys' ∧
      ChunkR chunk (c, t) ∧ AllFailIn Q ((pid, .child i (.ok c) t) :: ys') ∧
      AdvF I pid i w S ⟨S.pv, segs', st', (pid, .child i (.ok c) t) :: ys'⟩ ∧
      (I → IdInv pid ((pid, .child i (.ok c) t) :: ys'))
  | .again next' => ∃ b bs segs' st' ys', next' = b :: bs ∧ FirstR bs b segs' st' ys' ∧
      AllFailIn Q ys' ∧ sizes (trees ys') < sizes (trees S.items) ∧
      AdvF I pid i w S ⟨S.pv, segs', st', ys'⟩ ∧ (I → IdInv pid ys')

theorem Step2Ok.adv {w : Nat} {S S' : AS P} {r : Step2 P} (h : Step2Ok Q I pid i w S' r)
    (hpv : S.pv = S'.pv) (hsz : sizes (trees S'.items) ≤ sizes (trees S.items))
    (hadv : AdvF I pid i w S S') : Step2Ok Q I pid i w S r := by
  cases r with
  | found next' chunk =>
    obtain ⟨b, bs, segs', st', ys', c, t, h1, h2, h3, h4, h5, h6⟩ := h
    exact ⟨b, bs, segs', st', ys', c, t, h1, h2, h3, h4, hadv.trans (hpv ▸ h5), h6⟩
  | again next' =>
    obtain ⟨b, bs, segs', st', ys', h1, h2, h3, h4, h5, h6⟩ := h
    exact ⟨b, bs, segs', st', ys', h1, h2, h3, by omega, hadv.trans (hpv ▸ h5), h6⟩

theorem exists_pid {cs : List (Chunk P)} {xs : List (Item P)} (h : ChunksR cs xs)
    (hr : cs.any (relevantChunk pid i) = true) : ∃ y ∈ xs, y.1 = pid := by
  induction h with
  | nil => simp at hr
  | @cons c x cs xs hx _ ih =>
    simp only [List.any_cons, Bool.or_eq_true] at hr
    rcases hr with hr | hr
    · refine ⟨x, by simp, ?_⟩
      obtain ⟨cn, cid⟩ := c
      have := hx.1.1
      simp only at this
      rw [← this]
      cases cn <;> simp [relevantChunk] at hr
      · exact hr
      · exact hr.1
    · obtain ⟨y, hy, h⟩ := ih hr
      exact ⟨y, by simp [hy], h⟩

theorem seekChildStep2_sat (hQ : QOk Q) (w : Nat) (n : Nat) :
    ∀ {next : List (Block P)} {block : Block P} {pv segs st ys},
    FirstR next block segs st ys → AllFailIn Q ys → (I → IdInv pid ys) →
    block.chunks.any (relevantChunk pid i) = true → block.chunks.length ≤ n →
    Sat (seekChildStep2 w pid i next block) (Step2Ok Q I pid i w ⟨pv, segs, st, ys⟩)
      (fun e => Q e ∧ AS.D w [] ⟨pv, segs, st, ys⟩ = none) := by
  induction n with
  | zero =>
    intro next block pv segs st ys hf hfail hid hr hn
    have : block.chunks = [] := by
      cases h : block.chunks with
      | nil => rfl
      | cons => simp [h] at hn
    simp [this] at hr
  | succ n ih =>
    intro next block pv segs st ys hf hfail hid hr hn
    rw [seekChildStep2.eq_def]
    cases hc : block.chunks with
    | nil => simp [hc] at hr
    | cons c cs =>
      have hex : ∃ y ∈ ys, y.1 = pid := by
        obtain ⟨items, tail, rfl, h1, h2⟩ := hf.items
        obtain ⟨y, hy, h⟩ := exists_pid h1 hr
        exact ⟨y, by simp [hy], h⟩
      obtain ⟨⟨id, t⟩, ys, rfl, ⟨hid', hcr⟩, hat, hf'⟩ := hf.with_chunks hc
      obtain ⟨cn, cid⟩ := c
      simp only at hid' hcr hat
      subst hid'
      simp only [hc, List.any_cons, Bool.or_eq_true] at hr
      simp only [hc, List.length_cons] at hn
      have hys := hfail.tail
      cases hcr with
      | empty => exact hat.elim
      | newline => exact hat.elim
      | concat => exact hat.elim
      | mark =>
        simp only [relevantChunk] at hr
        refine (ih (pv := pv) hf' hys (fun h => (hid h).tail) (by simpa using hr) (by simp; omega)).mono ?_ ?_
        · intro r hr
          exact hr.adv Q rfl (by simp) .mark
        · rintro e ⟨h1, h2⟩
          exact ⟨h1, AdvF.none_left (I := I) (pid := pid) (i := i) .mark h2⟩
      | eol =>
        simp only [relevantChunk] at hr
        have hf2 : FirstR next { segments := block.segments, prefixLen := block.prefixLen, atEol := true, chunks := cs : Block P } segs ⟨st.col, true⟩ ys :=
          ⟨hf'.segs, hf'.col, rfl, hf'.items⟩
        refine (ih (pv := pv) hf2 hys (fun h => (hid h).tail) (by simpa using hr) (by simp; omega)).mono ?_ ?_
        · intro r hr
          exact hr.adv Q rfl (by simp) .eol
        · rintro e ⟨h1, h2⟩
          exact ⟨h1, AdvF.none_left (I := I) (pid := pid) (i := i) .eol h2⟩
      | @text t =>
        simp only [relevantChunk] at hr
        refine Sat.bind' (pushText_sat Q hQ (t := t) hf'.col hf'.eol) ?_ ?_
        · rintro b' ⟨h1, h2, rfl⟩
          have hf2 : FirstR next { block with
              segments := block.segments ++ [t.segment], prefixLen := st.col + t.width, chunks := cs }
              (segs ++ [t.segment]) ⟨st.col + t.width, false⟩ ys :=
            ⟨by simp [← hf'.segs], rfl, by simp [← h1, ← hf'.eol], hf'.items⟩
          refine (ih (pv := pv) hf2 hys (fun h => (hid h).tail) (by simpa using hr) (by simp; omega)).mono ?_ ?_
          · intro r hr
            exact hr.adv Q rfl (by simp) (.text h1 h2)
          · rintro e ⟨g1, g2⟩
            exact ⟨g1, AdvF.none_left (I := I) (pid := pid) (i := i) (.text h1 h2) g2⟩
        · rintro e ⟨h1, h2⟩
          exact ⟨h1, h2 _ _ _ _ _ _⟩
      | @child j note cd t hrep =>
        by_cases hji : cid = pid ∧ j = i
        · obtain ⟨rfl, rfl⟩ := hji
          simp only [and_self, if_true]
          refine Sat.bind' (Chunk.new_sat hrep) ?_ ?_
          · rintro ch ⟨c, rfl, hch⟩
            exact ⟨_, _, segs, st, ys, c, t, rfl, hf', hch, hfail, .refl _ _, hid⟩
          · rintro e (rfl | rfl)
            · exact ⟨hfail.head.1 _ rfl, D_none_of_lt (lt_child_error _ _ _ _ _ _ _ _)⟩
            · refine ⟨hfail.head.2, D_none_of_lt ?_⟩
              match cd with
              | .error f => exact lt_child_error _ _ _ _ _ _ _ _
              | .ok c => rw [lt_child_ok, lt_cons, lt_single]; rfl
        · simp only [if_neg hji]
          refine Sat.bind2 (first_child Q hQ (id := cid) (i := j) hrep hf' hfail.head) ?_ ?_
          · rintro ⟨next', block'⟩ ⟨c, s, rfl, h2, h3⟩
            have hsz := sizes_tag_spine h2 c
            refine ⟨_, _, segs, st, _, rfl, h3,
              (NTree.FailIn.spine hfail.head.2 h2 c).append hys, ?_,
              .child hji h2 (fun h => ((hid h).child hex h2).1),
              fun h => ((hid h).child hex h2).2⟩
            simp only [trees_append, sizes_append, trees_cons, sizes_cons, NTree.size]; omega
          · rintro e ⟨h1, h2⟩
            exact ⟨h1, h2 _ _ _⟩
      | @choice a b ta tb ha hb' =>
        refine Sat.bind2 (first_choice Q hQ (w := w) ha hb' hf' hfail.head hys) ?_ ?_
        · rintro ⟨next', block'⟩ ⟨rr, s, h1, h2, h3, h4⟩
          have hsz := sizes_tag_spine h3 cid
          have hlt := size_ite_lt (a := ta) (b := tb) rr
          refine ⟨_, _, segs, st, _, rfl, h4,
            (NTree.FailIn.spine (failIn_ite Q hfail.head) h3 cid).append hys, ?_,
            .choice h1 h2 h3, fun h => (hid h).choice hex h3⟩
          simp only [trees_append, sizes_append, trees_cons, sizes_cons]; omega
        · rintro e ⟨h1, h2⟩
          exact ⟨h1, h2 _⟩

theorem seekChildLoop_sat (hQ : QOk Q) (w : Nat) (n : Nat) :
    ∀ {prev bs : List (Block P)} {b : Block P} {pv segs st ys},
    All2 BlockR prev pv → PvFailIn Q pv → FirstR bs b segs st ys → AllFailIn Q ys →
    (I → IdInv pid ys) → sizes (trees ys) ≤ n →
    Sat (seekChildLoop w pid i prev (b :: bs))
      (fun r => ∃ b' bs' pv' segs' st' ys' c t, r.2.1 = b' :: bs' ∧ All2 BlockR r.1 pv' ∧
        PvFailIn Q pv' ∧ FirstR bs' b' segs' st' ys' ∧ ChunkR r.2.2 (c, t) ∧
        AllFailIn Q ((pid, .child i (.ok c) t) :: ys') ∧
        AdvF I pid i w ⟨pv, segs, st, ys⟩ ⟨pv', segs', st', (pid, .child i (.ok c) t) :: ys'⟩ ∧
        (I → IdInv pid ((pid, .child i (.ok c) t) :: ys')))
      (fun e => (Q e ∧ AS.D w [] ⟨pv, segs, st, ys⟩ = none) ∨
        (e = .err (.invalidPath i) ∧ (I → ∀ ls st' Ls,
          AS.D w [] ⟨pv, segs, st, ys⟩ = some (ls, st', Ls) → findItems pid i Ls = none))) := by
  induction n with
  | zero =>
    intro prev bs b pv segs st ys hp hpf hf hfail hid hn
    rw [seekChildLoop.eq_def]
    have hys : ys = [] := by
      cases ys with
      | nil => rfl
      | cons x ys => have := x.2.size_pos; simp at hn; omega
    subst hys
    rcases skipBlocks_sat (I := I) Q (pid := pid) (i := i) w hp hpf hf hfail with ⟨prev', h1, h2⟩ |
      ⟨prev', b', bs', pv', segs', st', zs, ys', h1, h2, h3, h4, h5, h6, h7⟩
    · rw [h1]
      refine .inr ⟨rfl, fun _ ls st' Ls hD => ?_⟩
      obtain ⟨_, _, _, hl⟩ := D_some hD
      exact findItems_none (lay_irrelevant h2 hl)
    · simp at h5
      obtain ⟨items, tail, g1, g2, g3⟩ := h4.items
      obtain ⟨y, hy, _⟩ := exists_pid g2 h7
      rw [h5.2] at g1
      simp at g1
      simp [g1.1] at hy
  | succ n ih =>
    intro prev bs b pv segs st ys hp hpf hf hfail hid hn
    rw [seekChildLoop.eq_def]
    rcases skipBlocks_sat (I := I) Q (pid := pid) (i := i) w hp hpf hf hfail with ⟨prev', h1, h2⟩ |
      ⟨prev', b', bs', pv', segs', st', zs, ys', h1, h2, h3, h4, rfl, h6, h7⟩
    · rw [h1]
      refine .inr ⟨rfl, fun _ ls st' Ls hD => ?_⟩
      obtain ⟨_, _, _, hl⟩ := D_some hD
      exact findItems_none (lay_irrelevant h2 hl)
    · rw [h1]
      simp only []
      refine Sat.bind' (seekChildStep2_sat Q (I := I) hQ w _ (pv := pv') h4 hfail.right
        (fun h => (hid h).drop) h7 (Nat.le_refl _)) ?_ ?_
      · intro r hr
        cases r with
        | found next' chunk =>
          obtain ⟨b, bs, segs2, st2, ys2, c, t, rfl, g2, g3, g4, g5, g6⟩ := hr
          exact ⟨b, bs, pv', segs2, st2, ys2, c, t, rfl, h2, h3, g2, g3, g4, h6.trans g5, g6⟩
        | again next' =>
          obtain ⟨b, bs, segs2, st2, ys2, rfl, g2, g3, g4, g5, g6⟩ := hr
          simp only at g4
          simp only [trees_append, sizes_append] at hn
          refine (ih h2 h3 g2 g3 g6 (by omega)).mono ?_ ?_
          · rintro r ⟨b', bs', pv3, segs3, st3, ys3, c, t, k1, k2, k3, k4, k5, k6, k7, k8⟩
            exact ⟨b', bs', pv3, segs3, st3, ys3, c, t, k1, k2, k3, k4, k5, k6,
              (h6.trans g5).trans k7, k8⟩
          · rintro e (⟨k1, k2⟩ | ⟨rfl, k2⟩)
            · exact .inl ⟨k1, (h6.trans g5).none_left k2⟩
            · refine .inr ⟨rfl, fun hI ls st' Ls hD => ?_⟩
              rcases h6.trans g5 with ⟨m1, _⟩ | ⟨_, _, _, _, _, _, m1, m2, _, _, m3⟩
              · simp [hD] at m1
              · rw [hD] at m1
                injection m1 with m1; injection m1 with ga m1; injection m1 with gb gc
                subst ga gb gc
                rw [m3 hI, k2 hI _ _ _ m2]
                rfl
      · rintro e ⟨g1, g2⟩
        exact .inl ⟨g1, h6.none_left g2⟩

/-! ### Following the path -/

/-- The state of the printer while it follows the path: it stands just before the node `x`. -/
structure PathR (I : Prop) (p : Printer P) (chunk : Chunk P) (x : Item P) (S : AS P) : Prop where
  chunk : ChunkR chunk x
  pv : All2 BlockR p.prev S.pv
  pvf : PvFailIn Q S.pv
  next : ∃ b bs ys, p.next = b :: bs ∧ FirstR bs b S.segs S.st ys ∧ S.items = x :: ys
  fail : AllFailIn Q S.items
  ids : I → x.2.IdsDistinct x.1 ∧ ∀ y ∈ S.items.tail, y.1 ≠ x.1 ∧ x.2.IdAbsent y.1

/-- The layout a state stands in front of, split into the first item and what follows. -/
theorem D_head {w : Nat} {pv : List (BSpec P)} {segs st x ys ls st2 Ls}
    (h : AS.D w [] ⟨pv, segs, st, x :: ys⟩ = some (ls, st2, Ls)) :
    ∃ st1 L Lr, x.2.layout w x.1 (trees ys ++ []) st = .ok (st1, L) ∧ lay w ys [] st1 = .ok (st2, Lr) ∧
      Ls = tag x.1 L.flat ++ Lr := by
  obtain ⟨_, _, _, hl⟩ := D_some h
  exact lay_cons_ok hl

theorem lay_ids {w : Nat} {xs : List (Item P)} {A : P.Id → Prop} (h : ∀ x ∈ xs, A x.1) :
    ∀ {k st st2 Ls}, lay w xs k st = .ok (st2, Ls) → ∀ x ∈ Ls, A x.1 := by
  induction xs with
  | nil => intro k st st2 Ls hl; simp [lay] at hl; simp [hl.2]
  | cons x xs ih =>
    intro k st st2 Ls hl y hy
    obtain ⟨st1, L, Ls', h1, h2, rfl⟩ := lay_cons_ok hl
    rcases List.mem_append.1 hy with hy | hy
    · simp only [tag, List.mem_map] at hy
      obtain ⟨z, hz, rfl⟩ := hy
      exact h x (by simp)
    · exact ih (fun x hx => h x (by simp [hx])) h2 y hy

/-- The node reached, relative to the layout. -/
def LocOk (I : Prop) (w : Nat) (S S' : AS P) (x x' : Item P) (path : List Nat) : Prop :=
  I → ∀ ls st L Lr, S.D w [] = some (ls, st, tag x.1 L.flat ++ Lr) →
    (∃ st1 ys, S.items = x :: ys ∧ x.2.layout w x.1 (trees ys ++ []) S.st = .ok (st1, L) ∧
      lay w ys [] st1 = .ok (st, Lr)) →
    ∃ l ls' Lr' st1 ys', L.locate x.1 path = .ok l ∧ l.id = x'.1 ∧
      S'.D w [] = some (ls', st, tag x'.1 l.node.flat ++ Lr') ∧ S'.items = x' :: ys' ∧
      x'.2.layout w x'.1 (trees ys' ++ []) S'.st = .ok (st1, l.node) ∧
      lay w ys' [] st1 = .ok (st, Lr') ∧
      itemToks Lr' = l.after ++ itemToks Lr ∧ (∀ B, ls = linesOf B → ls' = linesOf (B ++ l.before))

theorem seekChild_sat (hQ : QOk Q) {p : Printer P} {chunk : Chunk P} {x S}
    (h : PathR Q I p chunk x S) (i : Nat) :
    Sat (p.seekChild chunk i)
      (fun r => ∃ x' S', PathR Q I r.1 r.2 x' S' ∧ r.1.width = p.width ∧ Adv p.width [] S S' ∧
        LocOk I p.width S S' x x' [i])
      (fun e => (Q e ∧ S.D p.width [] = none) ∨
        (e = .err (.invalidPath i) ∧ (I → ∀ st1 L ys ls st Lr, S.items = x :: ys →
          x.2.layout p.width x.1 (trees ys ++ []) S.st = .ok (st1, L) →
          S.D p.width [] = some (ls, st, tag x.1 L.flat ++ Lr) → lay p.width ys [] st1 = .ok (st, Lr) →
          L.findChild i = none))) := by
  obtain ⟨b, bs, ys, hnext, hf, hitems⟩ := h.next
  obtain ⟨pv, segs, st, items⟩ := S
  simp only at hitems hf
  subst hitems
  have hids := h.ids
  simp only [List.tail_cons] at hids
  unfold Printer.seekChild
  rw [hnext]
  simp only []
  have hfail := h.fail
  simp only at hfail
  have hcid : chunk.id = x.1 := h.chunk.1
  refine Sat.bind' (expandFirst_sat Q hQ.overflow h.chunk hf hfail.head) ?_ ?_
  · rintro ⟨next1, block1⟩ ⟨s, hs, hf1⟩
    simp only at hf1 ⊢
    have hidinv : I → IdInv x.1 (tag x.1 s ++ ys) := by
      intro hI
      obtain ⟨h1, h2⟩ := hids hI
      refine ⟨[], tag x.1 s, ys, rfl, by simp, ?_, fun y hy => (h2 y hy).1⟩
      intro z hz
      simp only [tag, List.mem_map] at hz
      obtain ⟨u, hu, rfl⟩ := hz
      refine ⟨rfl, spine_all (A := fun t => t.IdsDistinct x.1) (fun _ _ h => h) h1 hs u hu, ?_⟩
      intro o ho
      exact spine_all (A := fun t => t.IdAbsent o.1) (fun _ _ h => h) (h2 o ho).2 hs u hu
    have hfail1 : AllFailIn Q (tag x.1 s ++ ys) :=
      (NTree.FailIn.spine hfail.head hs x.1).append hfail.tail
    have hDs : AS.D p.width [] ⟨pv, segs, st, x :: ys⟩ = AS.D p.width [] ⟨pv, segs, st, tag x.1 s ++ ys⟩ := by
      simp only [AS.D]
      rw [lay_spine_append p.width x.1 hs]
    rw [hcid]
    refine Sat.bind' (seekChildLoop_sat Q (I := I) (pid := x.1) (i := i) hQ p.width _ h.pv h.pvf hf1
      hfail1 hidinv (Nat.le_refl _)) ?_ ?_
    · rintro ⟨prev', next', chunk'⟩ ⟨b', bs', pv', segs', st', ys', c, t, h1, h2, h3, h4, h5, h6, h7, h8⟩
      simp only at h1 h2 h5
      subst h1
      have hadv : AdvF I x.1 i p.width ⟨pv, segs, st, x :: ys⟩
        ⟨pv', segs', st', (x.1, .child i (.ok c) t) :: ys'⟩ := (AdvF.of_D_eq hDs).trans h7
      refine ⟨(c, t), ⟨pv', segs', st', (c, t) :: ys'⟩, ⟨h5, h2, h3, ⟨b', bs', ys', rfl, h4, rfl⟩,
        .cons h6.head.2 h6.tail, fun hI => (h8 hI).found⟩, rfl, hadv.adv.trans .child, ?_⟩
      rintro hI ls st2 L Lr hD ⟨st1, ys0, hys0, hL, hLr⟩
      simp only [List.cons.injEq, true_and] at hys0
      subst hys0
      rcases hadv with ⟨k1, _⟩ | ⟨_, ls', _, _, Ls', T1, k1, k2, k3, k4, k5⟩
      · rw [hD] at k1; simp at k1
      · rw [hD] at k1
        injection k1 with k1; injection k1 with ga k1; injection k1 with gb gc
        subst ga gb gc
        have k5 := k5 hI
        rw [findItems_flat _ _ _ _ (lay_ids (A := fun a => a ≠ x.1) (fun y hy => ((hids hI).2 y hy).1) hLr)] at k5
        obtain ⟨st3, Lc, Lr', m1, m2, rfl⟩ := D_head k2
        simp only [NTree.layout, Except.bind_eq] at m1
        cases hLc : t.layout p.width c (trees ys' ++ []) st' with
        | error _ => rw [hLc] at m1; simp at m1
        | ok r =>
          obtain ⟨r1, r2⟩ := r
          rw [hLc] at m1
          simp only [Except.ok.injEq, Prod.mk.injEq] at m1
          obtain ⟨rfl, rfl⟩ := m1
          have hfi : findItems x.1 i (tag x.1 (LTree.child x.1 i c r2).flat ++ Lr') =
              some ⟨[], c, r2, itemToks Lr'⟩ := by
            simp [LTree.flat, findItems, LTree.findChild, Located.post]
          rw [hfi] at k5
          cases hfc : L.findChild i with
          | none => rw [hfc] at k5; simp at k5
          | some l =>
            rw [hfc] at k5
            simp only [Option.map_some, Option.some.injEq] at k5
            obtain ⟨lb, lid, ln, la⟩ := l
            simp only [Located.post, Located.pre, List.append_nil, Located.mk.injEq] at k5
            obtain ⟨rfl, rfl, hn, hafter⟩ := k5
            refine ⟨⟨lb, lid, ln, la⟩, ls', Lr', r1, ys', ?_, rfl, ?_, rfl, ?_, m2, hafter.symm, k4⟩
            · simp [LTree.locate, hfc]
            · obtain ⟨_, q1, q2, q3⟩ := D_some k2
              simp only at q1 q2 q3
              simp only [AS.D]
              rw [q1]
              simp only [Option.bind_some, lay, hn, hLc, m2]
              simp [q2]
            · rw [hn]; exact hLc
    · rintro e (⟨k1, k2⟩ | ⟨rfl, k2⟩)
      · exact .inl ⟨k1, hDs.trans k2⟩
      · refine .inr ⟨rfl, ?_⟩
        intro hI st1 L ys0 ls st2 Lr hys0 hL hD hLr
        simp only [List.cons.injEq, true_and] at hys0
        subst hys0
        have := k2 hI ls st2 _ (hDs ▸ hD)
        rw [findItems_flat _ _ _ _ (lay_ids (A := fun a => a ≠ x.1) (fun y hy => ((hids hI).2 y hy).1) hLr)] at this
        simpa using this
  · rintro e ⟨h1, f, h2⟩
    exact .inl ⟨h1, D_none_of_lt (lt_spine_error _ _ h2 _ _ _)⟩

theorem seekPath_sat (hQ : QOk Q) (path : List Nat) :
    ∀ {p : Printer P} {chunk : Chunk P} {x S}, PathR Q I p chunk x S →
    Sat (p.seekPath chunk path)
      (fun r => ∃ x' S', PathR Q I r.1 r.2 x' S' ∧ r.1.width = p.width ∧ Adv p.width [] S S' ∧
        LocOk I p.width S S' x x' path)
      (fun e => (Q e ∧ S.D p.width [] = none) ∨
        (∃ j, e = .err (.invalidPath j) ∧ j ∈ path ∧ (I → ∀ st1 L ys ls st Lr, S.items = x :: ys →
          x.2.layout p.width x.1 (trees ys ++ []) S.st = .ok (st1, L) →
          S.D p.width [] = some (ls, st, tag x.1 L.flat ++ Lr) → lay p.width ys [] st1 = .ok (st, Lr) →
          L.locate x.1 path = .error j))) := by
  induction path with
  | nil =>
    intro p chunk x S h
    refine ⟨x, S, h, rfl, .refl _ _ _, ?_⟩
    rintro hI ls st L Lr hD ⟨st1, ys, h1, h2, h3⟩
    exact ⟨⟨[], x.1, L, []⟩, ls, Lr, st1, ys, rfl, rfl, hD, h1, h2, h3, by simp, by simp⟩
  | cons i path ih =>
    intro p chunk x S h
    unfold Printer.seekPath
    refine Sat.bind' (seekChild_sat Q hQ h i) ?_ ?_
    · rintro ⟨p1, chunk1⟩ ⟨x1, S1, h1, hw, h2, h3⟩
      simp only at h1 hw ⊢
      refine (ih h1).mono ?_ ?_
      · rintro r ⟨x2, S2, g1, g2, g3, g4⟩
        rw [hw] at g2 g3 g4
        refine ⟨x2, S2, g1, g2, h2.trans g3, ?_⟩
        rintro hI ls st L Lr hD hex
        obtain ⟨l, ls', Lr', st1, ys', k1, k2, k3, k4, k5, k6, k7, k8⟩ := h3 hI ls st L Lr hD hex
        obtain ⟨l', ls'', Lr'', st2, ys'', m1, m2, m3, m4, m5, m6, m7, m8⟩ :=
          g4 hI ls' st l.node Lr' k3 ⟨st1, ys', k4, k5, k6⟩
        have hfc : L.findChild i = some l := by
          simp only [LTree.locate] at k1
          cases hfc : L.findChild i with
          | none => rw [hfc] at k1; simp at k1
          | some l0 =>
            rw [hfc] at k1
            simp at k1
            rw [← k1]
        refine ⟨{ l' with before := l.before ++ l'.before, after := l'.after ++ l.after },
          ls'', Lr'', st2, ys'', ?_, ?_, ?_, m4, ?_, m6, ?_, ?_⟩
        · simp only [LTree.locate, hfc]
          rw [k2, m1]
        · exact m2
        · exact m3
        · exact m5
        · rw [m7, k7, List.append_assoc]
        · intro B hB
          have := m8 _ (k8 _ hB)
          rw [this, List.append_assoc]
      · rintro e (⟨k1, k2⟩ | ⟨j, rfl, hj, k2⟩)
        · rw [hw] at k2
          exact .inl ⟨k1, h2.none_left k2⟩
        · refine .inr ⟨j, rfl, by simp [hj], ?_⟩
          intro hI st1 L ys ls st Lr hys hL hD hLr
          obtain ⟨l, ls', Lr', st1', ys', k1, k2', k3, k4, k5, k6, k7, k8⟩ :=
            h3 hI ls st L Lr hD ⟨st1, ys, hys, hL, hLr⟩
          have hfc : L.findChild i = some l := by
            simp only [LTree.locate] at k1
            cases hfc : L.findChild i with
            | none => rw [hfc] at k1; simp at k1
            | some l0 =>
              rw [hfc] at k1
              simp at k1
              rw [← k1]
          rw [hw] at k2
          have := k2 hI st1' l.node ys' ls' st Lr' k4 k5 k3 k6
          simp only [LTree.locate, hfc]
          rw [k2', this]
    · rintro e (⟨k1, k2⟩ | ⟨rfl, k2⟩)
      · exact .inl ⟨k1, k2⟩
      · refine .inr ⟨i, rfl, by simp, ?_⟩
        intro hI st1 L ys ls st Lr hys hL hD hLr
        simp only [LTree.locate, k2 hI st1 L ys ls st Lr hys hL hD hLr]

end PPP
