import Verif.Proofs.Sane
import Verif.Proofs.OracleTest
import Verif.Proofs.Reach
import Verif.Proofs.Ink
import Verif.Proofs.Tree
import Verif.Spec.Programs
/-
The programs of the tests.
-/
namespace PPP
variable {P : PrettyDoc}

theorem secondsFit_newline {w : Nat} {st : LineSt} {a x : NTree P} {ind} {k : List (NTree P)}
    (h : SecondsFit w st (a :: k)) : SecondsFit w st (.concat (.newline ind) x :: k) := by
  have := h.col
  simpa [SecondsFit, NTree.seconds] using this

theorem fit_break {w : Nat} {st : LineSt} {A U V : List (Tok P)} {ind} (h : LineFits w st (A ++ U)) :
    LineFits w st (A ++ .nl ind :: V) :=
  lineFits_replace h fun _ h' => (lineFits_nl ..).2 h'.col

theorem fit_break_text {w : Nat} {st : LineSt} {A U V : List (Tok P)} {ind} {x y : Textual P} (hw : y.width ≤ x.width)
    (h : LineFits w st (A ++ .text x :: U)) : LineFits w st (A ++ .text y :: .nl ind :: V) := by
  refine lineFits_replace h fun _ h' => ?_
  rw [lineFits_text] at h' ⊢
  refine ⟨h'.1, (lineFits_nl ..).2 ?_⟩
  have := h'.2.col
  dsimp only at this ⊢
  omega

theorem segsWidth_indent (ind : List (Segment P)) (s : Segment P) : segsWidth (ind ++ [s]) = segsWidth ind + s.width := by
  simp [segsWidth]

/-- How a subtree is seen: as it is, and inside of `Flat`. -/
theorem kid_sane (law : P.Lawful) {node child : P.Node} {i : Nat} {cid : P.Id} {ind : List (Segment P)} {style : P.Style}
    (hc : P.childAt node i = .ok child) (hid : P.id child = .ok cid) {B n : Nat} {s : String}
    (h : ∃ t, docTree law child false ind (some style) = .ok t ∧ t.Sane B n ∧ t.Inline n s) :
    (∃ t, docKid law node i ⟨false, ind, style⟩ = t ∧ t.Sane B n ∧ t.Inline n s) ∧
    (∃ t, docKid law node i ⟨true, ind, style⟩ = t ∧ t.Sane B n ∧ t.Inline n s) := by
  obtain ⟨t, h1, h2, h3⟩ := h
  constructor
  · refine ⟨_, docKid_of law hc h1, ?_, ?_⟩ <;> rw [hid]
    · exact h2.child
    · exact h3.child
  · have h1' : docTree law child true ind (some style) = .ok t.firsts := by
      rw [C16_flat_node, h1]; rfl
    refine ⟨_, docKid_of law hc h1', ?_, ?_⟩ <;> rw [hid]
    · exact h2.firsts.child
    · exact h3.firsts.child

section
variable {sw : String → Nat}
/-- A path that leads to a node is found in the layout. -/
theorem locate_of_reach {P : PrettyDoc} (law : P.Lawful) {doc : P.Node} {w : Nat} {style} {id} {L : LTree P}
    (hL : docLayout law doc w style = .ok (id, L)) {path : List Nat}
    (h : ∀ nt, docTree law doc false [] style = .ok nt → nt.Reach path) : ∃ l, L.locate id path = .ok l := by
  obtain ⟨nt, hr, hl⟩ := docLayout_ok law hL
  obtain ⟨ht, _⟩ := rootTree_inv law hr
  unfold NTree.layoutDoc at hl
  simp only [Except.bind_eq] at hl
  split at hl
  · rename_i r hlay
    obtain ⟨st, L'⟩ := r
    simp only [Except.ok.injEq] at hl
    subst hl
    exact layout_locate w path (h _ ht) hlay
  · simp at hl

/-- Not white space. -/
abbrev visible (c : Char) : Bool := !isWhitespace c


/-! ### IterChain -/

theorem chain_childAt {d : IterChain} {i : Nat} {c} (h : (chainDoc sw).childAt d i = .ok c) :
    ∃ slice, d.contents = .inr slice ∧ slice[i]? = some c := by
  simp only [PrettyDoc.childAt, IterChain.numChildren] at h
  cases hd : d.contents with
  | inl s => simp [hd] at h
  | inr slice =>
    refine ⟨slice, rfl, ?_⟩
    simp only [hd] at h
    split at h
    · rename_i hi
      unfold IterChain.unwrapChild at h
      simp only [hd, List.getElem?_eq_getElem hi] at h ⊢
      injection h with h
      rw [h]
    · cases h

theorem chain_contents {d : IterChain} {slice} (h : d.contents = .inr slice) {i c} (hc : slice[i]? = some c) :
    (chainDoc sw).childAt d i = .ok c := by
  have hi : i < slice.length := by
    rcases Nat.lt_or_ge i slice.length with hi | hi
    · exact hi
    · rw [List.getElem?_eq_none hi] at hc; cases hc
  simp only [PrettyDoc.childAt, IterChain.numChildren]
  rw [List.getElem?_eq_getElem hi] at hc
  simp [h, hi, IterChain.unwrapChild]
  exact Option.some.inj hc

theorem chain_size {d : IterChain} {slice} (h : d.contents = .inr slice) {c} (hc : c ∈ slice) : sizeOf c < sizeOf d := by
  cases d <;> simp only [IterChain.contents, reduceCtorEq, Sum.inr.injEq] at h
  all_goals
    subst h
    simp only [List.mem_cons, List.not_mem_nil, or_false] at hc
    rcases hc with rfl | rfl | rfl | rfl
  all_goals
    simp +arith

/-- These documents obey the contract. -/
theorem chainLaw (sw : String → Nat) : (chainDoc sw).Lawful where
  wf := Subrelation.wf (r := fun a b : IterChain => sizeOf a < sizeOf b)
    (fun ⟨_, h⟩ => by
      obtain ⟨slice, h1, h2⟩ := chain_childAt h
      exact chain_size h1 (List.mem_of_getElem? h2))
    (InvImage.wf sizeOf Nat.lt_wfRel.wf)
  valid p a h := by
    injection h with h
    subst h
    have h1 : IterChain.varN.Valid := by decide
    have h2 : IterChain.methodCallN.Valid := by decide
    have h3 : IterChain.closureN.Valid := by decide
    have h4 : IterChain.timesN.Valid := by decide
    cases p
    · exact h1
    · exact h2
    · exact h3
    · exact h4
  last p m h := by
    have h' : p.numChildren = some (m + 1) := by injection h
    simp [h']
  prev p n' i c h1 h2 h3 := rfl
  id_no_panic p := by simp
  notn_no_panic p := by simp
  condition_no_panic p _ _ := by simp
  lookupStyle_no_panic p _ _ := by simp
  nodeStyle_no_panic p := by simp
  numChildren_no_panic p := by simp
  unwrapText_no_panic p h := by
    have h' : p.numChildren = none := by injection h
    unfold IterChain.numChildren at h'
    simp only [IterChain.unwrapText]
    split at h' <;> simp_all
  unwrapChild_no_panic p n i h hi := by
    have h' : p.numChildren = some n := by injection h
    unfold IterChain.numChildren at h'
    simp only [IterChain.unwrapChild]
    split at h'
    · cases h'
    · rename_i slice hs
      have : slice.length = n := by simpa using h'
      simp [List.getElem?_eq_getElem (show i < slice.length by omega)]

theorem chain_ids (e : ChainExpr) (next : Nat) : (e.build next).1.id < (e.build next).2 := by
  cases e <;> simp [ChainExpr.build, IterChain.id]

/-- Four spaces. -/
abbrev four (sw : String → Nat) : Nat := sw (String.ofList (List.replicate 4 ' '))

/-- What is after the object of a method call, on one line. -/
abbrev callTree (sw : String → Nat) (m a : NTree (chainDoc sw)) : NTree (chainDoc sw) :=
  .concat (.concat (.concat (.concat (.text ⟨".", sw ".", (), false⟩) m) (.text ⟨"(", sw "(", (), false⟩)) a)
    (.text ⟨")", sw ")", (), false⟩)

/-- What is after the object of a method call, on many lines. -/
abbrev callTree2 (sw : String → Nat) (ind1 ind2 : List (Segment (chainDoc sw))) (m a : NTree (chainDoc sw)) : NTree (chainDoc sw) :=
  .concat (.concat (.concat (.concat (.concat (.text ⟨".", sw ".", (), false⟩) m) (.text ⟨"(", sw "(", (), false⟩))
    (.concat (.newline ind2) a)) (.newline ind1)) (.text ⟨")", sw ")", (), false⟩)

theorem chain_tree (hsw : Narrower sw) (e : ChainExpr) : ∀ next indent outer, ∃ t,
    docTree (chainLaw sw) (e.build next).1 false indent outer = .ok t ∧
      t.Sane (segsWidth indent + e.depth * four sw) (e.cols sw) ∧ t.Inline (e.cols sw) e.source := by
  have hvar : ∀ id name indent outer, ∃ t, docTree (chainLaw sw) (.var id name) false indent outer = .ok t ∧
      t.Sane (segsWidth indent) (sw name) ∧ t.Inline (sw name) name := by
    intro id name indent outer
    exact ⟨_, docTree_of (chainLaw sw) (a := IterChain.varN) (s := ()) rfl rfl _ _ _, .text _, .text _⟩
  induction e with
  | var name =>
    intro next indent outer
    obtain ⟨t, h1, h2, h3⟩ := hvar next name indent outer
    exact ⟨t, h1, h2.mono (by omega) (Nat.le_refl _), h3⟩
  | methodCall obj method arg iho iha =>
    intro next indent outer
    obtain ⟨o, next1, ho⟩ : ∃ o n, obj.build next = (o, n) := ⟨_, _, rfl⟩
    obtain ⟨a, next2, ha⟩ : ∃ a n, arg.build next1 = (a, n) := ⟨_, _, rfl⟩
    have hb : (ChainExpr.methodCall obj method arg).build next =
        (.methodCall (next2 + 1) o (.var next2 method) a, next2 + 2) := by
      simp [ChainExpr.build, ho, ha]
    have ho' : o = (obj.build next).1 := by rw [ho]
    have ha' : a = (arg.build next1).1 := by rw [ha]
    rw [hb]
    dsimp only
    generalize hN : IterChain.methodCall (next2 + 1) o (.var next2 method) a = N
    have c0 : (chainDoc sw).childAt N 0 = .ok o := by subst hN; rfl
    have c1 : (chainDoc sw).childAt N 1 = .ok (.var next2 method) := by subst hN; rfl
    have c2 : (chainDoc sw).childAt N 2 = .ok a := by subst hN; rfl
    let st : Unit := enterStyle (P := chainDoc sw) outer ()
    let ind1 : List (Segment (chainDoc sw)) := indent ++ [⟨String.ofList (List.replicate 4 ' '), four sw, st⟩]
    let ind2 : List (Segment (chainDoc sw)) := ind1 ++ [⟨String.ofList (List.replicate 4 ' '), four sw, st⟩]
    obtain ⟨t0, k0, s0, l0⟩ := (kid_sane (chainLaw sw) (ind := indent) (style := st) c0 rfl (by rw [ho']; exact iho next indent _)).1
    obtain ⟨t1, k1, s1, l1⟩ := (kid_sane (chainLaw sw) (ind := indent) (style := st) c1 rfl (hvar _ _ indent _)).1
    obtain ⟨t1', k1', s1', l1'⟩ := (kid_sane (chainLaw sw) (ind := ind1) (style := st) c1 rfl (hvar _ _ ind1 _)).1
    obtain ⟨f2, k2, s2, l2⟩ := (kid_sane (chainLaw sw) (ind := indent) (style := st) c2 rfl (by rw [ha']; exact iha next1 indent _)).2
    obtain ⟨f2', k2', s2', l2'⟩ := (kid_sane (chainLaw sw) (ind := ind1) (style := st) c2 rfl (by rw [ha']; exact iha next1 ind1 _)).2
    obtain ⟨t2, k3, s3, l3⟩ := (kid_sane (chainLaw sw) (ind := ind2) (style := st) c2 rfl (by rw [ha']; exact iha next1 ind2 _)).1
    have lit : ∀ s, (NTree.text (P := chainDoc sw) ⟨s, sw s, st, false⟩).Sane (segsWidth indent + (arg.depth + 2) * four sw) (sw s) := fun s => .text _
    have w1 : segsWidth ind1 = segsWidth indent + four sw := segsWidth_indent _ _
    have w2 : segsWidth ind2 = segsWidth indent + four sw + four sw := by rw [← w1]; exact segsWidth_indent _ _
    have e2 : (arg.depth + 2) * four sw = arg.depth * four sw + four sw + four sw := by
      rw [Nat.add_mul]; omega
    let B := segsWidth indent + (arg.depth + 2) * four sw
    have ht := docTree_of (chainLaw sw) (node := N) (a := IterChain.methodCallN) (s := ()) (by subst hN; rfl) rfl false indent outer
    have hT : IterChain.methodCallN.tree N (docKid (chainLaw sw) N) none ⟨false, indent, st⟩ =
        .concat t0 (.choice (callTree sw t1 f2)
          (.concat (.newline ind1) (.choice (callTree sw t1' f2') (callTree2 sw ind1 ind2 t1' t2)))) := by
      rw [← k0, ← k1, ← k1', ← k2, ← k2', ← k3]; subst hN; rfl
    refine ⟨_, ht.trans (congrArg _ hT), ?_, ?_⟩
    · rw [ChainExpr.cols, ChainExpr.depth]
      have hB1 : segsWidth indent + obj.depth * four sw ≤ segsWidth indent + max obj.depth (arg.depth + 2) * four sw :=
        Nat.add_le_add_left (Nat.mul_le_mul_right _ (by omega)) _
      have hB2 : segsWidth indent + (arg.depth + 2) * four sw ≤ segsWidth indent + max obj.depth (arg.depth + 2) * four sw :=
        Nat.add_le_add_left (Nat.mul_le_mul_right _ (by omega)) _
      generalize segsWidth indent + max obj.depth (arg.depth + 2) * four sw = B at hB1 hB2
      have lit : ∀ s, (NTree.text (P := chainDoc sw) ⟨s, sw s, (), false⟩).Sane B (sw s) := fun s => .text _
      have nl1 : (NTree.newline ind1).Sane B 0 := .newline (by omega)
      have nl2 : (NTree.newline ind2).Sane B 0 := .newline (by omega)
      have a0 := s0.mono hB1 (Nat.le_refl _)
      have a1 := s1.mono (B' := B) (by omega) (Nat.le_refl _)
      have a1' := s1'.mono (B' := B) (by omega) (Nat.le_refl _)
      have a2 := s2.mono (B' := B) (by omega) (Nat.le_refl _)
      have a2' := s2'.mono (B' := B) (by omega) (Nat.le_refl _)
      have a3 := s3.mono (B' := B) (by omega) (Nat.le_refl _)
      have b1 : (callTree sw t1 f2).Sane B (sw "." + sw method + sw "(" + arg.cols sw + sw ")") :=
        ((((lit ".").concat a1).concat (lit "(")).concat a2).concat (lit ")")
      have b2 : (callTree sw t1' f2').Sane B (sw "." + sw method + sw "(" + arg.cols sw + sw ")") :=
        ((((lit ".").concat a1').concat (lit "(")).concat a2').concat (lit ")")
      have b3 : (callTree2 sw ind1 ind2 t1' t2).Sane B (sw "." + sw method + sw "(" + arg.cols sw + sw ")") :=
        ((((((lit ".").concat a1').concat (lit "(")).concat (nl2.concat a3)).concat nl1).concat (lit ")")).mono
          (Nat.le_refl _) (by omega)
      have b4 := b2.choice b3 fun w k st h => by
        simp only [SecondsFit, NTree.seconds, List.flatMap_cons, List.append_assoc, List.cons_append, List.nil_append] at h ⊢
        have := fit_break (A := .text ⟨".", sw ".", (), false⟩ :: (t1'.seconds ++ [.text ⟨"(", sw "(", (), false⟩])) (ind := ind2)
          (V := t2.seconds ++ .nl ind1 :: .text ⟨")", sw ")", (), false⟩ :: k.flatMap NTree.seconds)
          (by simpa only [List.cons_append, List.append_assoc, List.nil_append] using h)
        simpa only [List.cons_append, List.append_assoc, List.nil_append] using this
      refine (a0.concat (b1.choice ((nl1.concat b4).mono (Nat.le_refl _) (by omega)) fun w k st h => ?_)).mono
        (Nat.le_refl _) (by omega)
      exact secondsFit_newline h
    · have lit : ∀ s, (NTree.text (P := chainDoc sw) ⟨s, sw s, (), false⟩).Inline (sw s) s := fun s => .text _
      have := l0.concat (((((lit ".").concat l1).concat (lit "(")).concat l2).concat (lit ")") |>.choice
        (.concat (.newline ind1) (.choice (callTree sw t1' f2') (callTree2 sw ind1 ind2 t1' t2))))
      rw [ChainExpr.cols, ChainExpr.source]
      simpa only [String.append_assoc, Nat.add_assoc] using this
  | closure v body ihb =>
    intro next indent outer
    obtain ⟨b, next1, hb⟩ : ∃ b n, body.build next = (b, n) := ⟨_, _, rfl⟩
    have hbuild : (ChainExpr.closure v body).build next = (.closure (next1 + 1) (.var next1 v) b, next1 + 2) := by
      simp [ChainExpr.build, hb]
    have hb' : b = (body.build next).1 := by rw [hb]
    rw [hbuild]
    dsimp only
    generalize hN : IterChain.closure (next1 + 1) (.var next1 v) b = N
    have c0 : (chainDoc sw).childAt N 0 = .ok (.var next1 v) := by subst hN; rfl
    have c1 : (chainDoc sw).childAt N 1 = .ok b := by subst hN; rfl
    let st : Unit := enterStyle (P := chainDoc sw) outer ()
    let ind1 : List (Segment (chainDoc sw)) := indent ++ [⟨String.ofList (List.replicate 4 ' '), four sw, st⟩]
    obtain ⟨t0, k0, s0, l0⟩ := (kid_sane (chainLaw sw) (ind := indent) (style := st) c0 rfl (hvar _ _ indent _)).1
    obtain ⟨t1, k1, s1, l1⟩ := (kid_sane (chainLaw sw) (ind := indent) (style := st) c1 rfl (by rw [hb']; exact ihb next indent _)).1
    obtain ⟨t1', k1', s1', l1'⟩ := (kid_sane (chainLaw sw) (ind := ind1) (style := st) c1 rfl (by rw [hb']; exact ihb next ind1 _)).1
    have w1 : segsWidth ind1 = segsWidth indent + four sw := segsWidth_indent _ _
    have e2 : (body.depth + 1) * four sw = body.depth * four sw + four sw := by rw [Nat.add_mul]; omega
    have ht := docTree_of (chainLaw sw) (node := N) (a := IterChain.closureN) (s := ()) (by subst hN; rfl) rfl false indent outer
    have hT : IterChain.closureN.tree N (docKid (chainLaw sw) N) none ⟨false, indent, st⟩ =
        .choice
          (.concat (.concat (.concat (.concat (.text ⟨"|", sw "|", (), false⟩) t0) (.text ⟨"| { ", sw "| { ", (), false⟩)) t1)
            (.text ⟨" }", sw " }", (), false⟩))
          (.concat (.concat (.concat (.concat (.concat (.text ⟨"|", sw "|", (), false⟩) t0) (.text ⟨"| {", sw "| {", (), false⟩))
            (.concat (.newline ind1) t1')) (.newline indent)) (.text ⟨"}", sw "}", (), false⟩)) := by
      rw [← k0, ← k1, ← k1']; subst hN; rfl
    refine ⟨_, ht.trans (congrArg _ hT), ?_, ?_⟩
    · rw [ChainExpr.cols, ChainExpr.depth, e2]
      generalize hB : segsWidth indent + (body.depth * four sw + four sw) = B
      have lit : ∀ s, (NTree.text (P := chainDoc sw) ⟨s, sw s, (), false⟩).Sane B (sw s) := fun s => .text _
      have nl0 : (NTree.newline indent).Sane B 0 := .newline (by omega)
      have nl1 : (NTree.newline ind1).Sane B 0 := .newline (by omega)
      have a0 := s0.mono (B' := B) (by omega) (Nat.le_refl _)
      have a1 := s1.mono (B' := B) (by omega) (Nat.le_refl _)
      have a1' := s1'.mono (B' := B) (by omega) (Nat.le_refl _)
      refine (((((lit "|").concat a0).concat (lit "| { ")).concat a1).concat (lit " }")).choice
        (((((((lit "|").concat a0).concat (lit "| {")).concat (nl1.concat a1')).concat nl0).concat (lit "}")).mono
          (Nat.le_refl _) ?_) fun w k st h => ?_
      · have := hsw.1
        have := hsw.2.1
        omega
      · simp only [SecondsFit, NTree.seconds, List.flatMap_cons, List.append_assoc, List.cons_append, List.nil_append] at h ⊢
        exact fit_break_text (A := .text ⟨"|", sw "|", (), false⟩ :: t0.seconds)
          (x := ⟨"| { ", sw "| { ", (), false⟩) (y := ⟨"| {", sw "| {", (), false⟩) hsw.1 h
    · have lit : ∀ s, (NTree.text (P := chainDoc sw) ⟨s, sw s, (), false⟩).Inline (sw s) s := fun s => .text _
      have := ((((lit "|").concat l0).concat (lit "| { ")).concat l1).concat (lit " }") |>.choice
          (.concat (.concat (.concat (.concat (.concat (.text ⟨"|", sw "|", (), false⟩) t0) (.text ⟨"| {", sw "| {", (), false⟩))
            (.concat (.newline ind1) t1')) (.newline indent)) (.text ⟨"}", sw "}", (), false⟩))
      rw [ChainExpr.cols, ChainExpr.source]
      exact this
  | times a b iha ihb =>
    intro next indent outer
    obtain ⟨a', next1, ha⟩ : ∃ a' n, a.build next = (a', n) := ⟨_, _, rfl⟩
    obtain ⟨b', next2, hb⟩ : ∃ b' n, b.build next1 = (b', n) := ⟨_, _, rfl⟩
    have hbuild : (ChainExpr.times a b).build next = (.times next2 a' b', next2 + 1) := by
      simp [ChainExpr.build, ha, hb]
    have ha' : a' = (a.build next).1 := by rw [ha]
    have hb' : b' = (b.build next1).1 := by rw [hb]
    rw [hbuild]
    dsimp only
    generalize hN : IterChain.times next2 a' b' = N
    have c0 : (chainDoc sw).childAt N 0 = .ok a' := by subst hN; rfl
    have c1 : (chainDoc sw).childAt N 1 = .ok b' := by subst hN; rfl
    let st : Unit := enterStyle (P := chainDoc sw) outer ()
    obtain ⟨t0, k0, s0, l0⟩ := (kid_sane (chainLaw sw) (ind := indent) (style := st) c0 rfl (by rw [ha']; exact iha next indent _)).1
    obtain ⟨t1, k1, s1, l1⟩ := (kid_sane (chainLaw sw) (ind := indent) (style := st) c1 rfl (by rw [hb']; exact ihb next1 indent _)).1
    have ht := docTree_of (chainLaw sw) (node := N) (a := IterChain.timesN) (s := ()) (by subst hN; rfl) rfl false indent outer
    have hT : IterChain.timesN.tree N (docKid (chainLaw sw) N) none ⟨false, indent, st⟩ =
        .concat (.concat t0 (.text ⟨" * ", sw " * ", (), false⟩)) t1 := by
      rw [← k0, ← k1]; subst hN; rfl
    refine ⟨_, ht.trans (congrArg _ hT), ?_, ?_⟩
    · rw [ChainExpr.cols, ChainExpr.depth]
      have a0 := s0.mono (Nat.add_le_add_left (Nat.mul_le_mul_right (four sw) (Nat.le_max_left a.depth b.depth)) _) (Nat.le_refl _)
      have a1 := s1.mono (Nat.add_le_add_left (Nat.mul_le_mul_right (four sw) (Nat.le_max_right a.depth b.depth)) _) (Nat.le_refl _)
      exact (a0.concat (.text _)).concat a1
    · exact (l0.concat (.text _)).concat l1

/-- The counter only counts up. -/
theorem ChainExpr.build_mono (e : ChainExpr) : ∀ next, next ≤ (e.build next).2 := by
  induction e with
  | var name => intro next; simp [ChainExpr.build]
  | methodCall obj method arg iho iha =>
    intro next
    have h1 := iho next
    have h2 := iha (obj.build next).2
    simp only [ChainExpr.build]
    omega
  | closure v body ih =>
    intro next
    have h1 := ih next
    simp only [ChainExpr.build]
    omega
  | times a b iha ihb =>
    intro next
    have h1 := iha next
    have h2 := ihb (a.build next).2
    simp only [ChainExpr.build]
    omega

/-- A child of a program is built as some program is, with a smaller id. -/
theorem chain_kid {e : ChainExpr} {next i : Nat} {c} (h : (chainDoc sw).childAt (e.build next).1 i = .ok c) :
    ∃ (e' : ChainExpr) (next' : Nat), c = (e'.build next').1 ∧ c.id < (e.build next).1.id := by
  obtain ⟨slice, h1, h2⟩ := chain_childAt h
  have h2 := List.mem_of_getElem? h2
  have key : ∀ (e' : ChainExpr) (n : Nat) m, (e'.build n).2 ≤ m → (e'.build n).1.id < m := fun e' n m hm =>
    Nat.lt_of_lt_of_le (chain_ids e' n) hm
  cases e with
  | var name => cases h1
  | methodCall obj method arg =>
    simp only [ChainExpr.build, IterChain.contents, Sum.inr.injEq] at h1
    subst h1
    simp only [List.mem_cons, List.not_mem_nil, or_false] at h2
    have := ChainExpr.build_mono arg (obj.build next).2
    rcases h2 with rfl | rfl | rfl
    · exact ⟨obj, next, rfl, key _ _ _ (by simp only [ChainExpr.build, IterChain.id]; omega)⟩
    · exact ⟨.var method, _, rfl, key (.var method) _ _ (by simp only [ChainExpr.build, IterChain.id]; omega)⟩
    · exact ⟨arg, _, rfl, key _ _ _ (by simp only [ChainExpr.build, IterChain.id]; omega)⟩
  | closure v body =>
    simp only [ChainExpr.build, IterChain.contents, Sum.inr.injEq] at h1
    subst h1
    simp only [List.mem_cons, List.not_mem_nil, or_false] at h2
    rcases h2 with rfl | rfl
    · exact ⟨.var v, _, rfl, key (.var v) _ _ (by simp only [ChainExpr.build, IterChain.id]; omega)⟩
    · exact ⟨body, _, rfl, key _ _ _ (by simp only [ChainExpr.build, IterChain.id]; omega)⟩
  | times a b =>
    simp only [ChainExpr.build, IterChain.contents, Sum.inr.injEq] at h1
    subst h1
    simp only [List.mem_cons, List.not_mem_nil, or_false] at h2
    have := ChainExpr.build_mono b (a.build next).2
    rcases h2 with rfl | rfl
    · exact ⟨a, next, rfl, key _ _ _ (by simp only [ChainExpr.build, IterChain.id]; omega)⟩
    · exact ⟨b, _, rfl, key _ _ _ (by simp only [ChainExpr.build, IterChain.id]; omega)⟩

theorem chain_within {e : ChainExpr} {next : Nat} {q} (h : (chainDoc sw).Within (e.build next).1 q) :
    ∃ (e' : ChainExpr) (next' : Nat), q = (e'.build next').1 := by
  refine PrettyDoc.Within.induct (P := chainDoc sw) (Φ := fun q => ∃ (e' : ChainExpr) (next' : Nat), q = (e'.build next').1)
    ⟨e, next, rfl⟩ ?_ h
  rintro p q ⟨e', n', rfl⟩ ⟨i, hi⟩
  obtain ⟨e2, n2, h1, _⟩ := chain_kid hi
  exact ⟨e2, n2, h1⟩

theorem chain_idsOnPaths (e : ChainExpr) (next : Nat) : (chainDoc sw).IdsOnPaths (e.build next).1 := by
  refine idsOnPaths_of_rank (fun i => i) ?_ (fun p => ⟨_, rfl⟩)
  rintro p q i j hp ⟨k, hk⟩ hi hj
  obtain ⟨e', n', rfl⟩ := chain_within hp
  obtain ⟨_, _, _, hlt⟩ := chain_kid hk
  cases hi; cases hj
  exact hlt

theorem chain_walkable (d : IterChain) : (chainDoc sw).Walkable d where
  count q _ := ⟨_, rfl⟩
  child q n i _ h hi := by
    have h' : q.numChildren = some n := by injection h
    unfold IterChain.numChildren at h'
    simp only [IterChain.unwrapChild]
    split at h'
    · cases h'
    · rename_i slice hs
      have : slice.length = n := by simpa using h'
      simp [List.getElem?_eq_getElem (show i < slice.length by omega)]

/-- Every node is displayed. -/
theorem chain_reach (d : IterChain) {path : List Nat} (hp : PathIn (chainDoc sw) d path) {nt} {style}
    (ht : docTree (chainLaw sw) d false [] style = .ok nt) : nt.Reach path := by
  refine docTree_reach (chainLaw sw) (fun _ => True) (fun _ _ _ _ _ => trivial) ?_ path d trivial hp false [] style nt ht
  rintro node i child a ⟨flat, ind, st⟩ - hc ha
  obtain ⟨slice, h1, h2⟩ := chain_childAt hc
  have K := fun j c => docKid_has (chainLaw sw) node j c
  injection ha with ha
  subst ha
  cases node with
  | var id s => cases h1
  | methodCall id o m a =>
    cases h1
    rcases i with _ | _ | _ | i
    · exact .inl (K _ _)
    · cases flat
      · exact .inr ⟨.inl (.inl (.inl (.inr (K _ _)))), .inr ⟨.inl (.inl (.inl (.inr (K _ _)))), .inl (.inl (.inl (.inl (.inr (K _ _)))))⟩⟩
      · exact .inr (.inl (.inl (.inl (.inr (K _ _)))))
    · cases flat
      · exact .inr ⟨.inl (.inr (K _ _)), .inr ⟨.inl (.inr (K _ _)), .inl (.inl (.inr (.inr (K _ _))))⟩⟩
      · exact .inr (.inl (.inr (K _ _)))
    · simp at h2
  | closure id v b =>
    cases h1
    rcases i with _ | _ | i
    · cases flat
      · exact ⟨.inl (.inl (.inl (.inr (K _ _)))), .inl (.inl (.inl (.inl (.inr (K _ _)))))⟩
      · exact .inl (.inl (.inl (.inr (K _ _))))
    · cases flat
      · exact ⟨.inl (.inr (K _ _)), .inl (.inl (.inr (.inr (K _ _))))⟩
      · exact .inl (.inr (K _ _))
    · simp at h2
  | times id a b =>
    cases h1
    rcases i with _ | _ | i
    · exact .inl (.inl (K _ _))
    · exact .inr (K _ _)
    · simp at h2

/-- Both options of every choice show the same, but for white space. -/
theorem chain_steady (d : IterChain) : d.notn.Steady visible := by
  intro e
  cases d
  · trivial
  · simp [IterChain.notn, IterChain.methodCallN, IterChain.callSingle, IterChain.callMulti, HAdd.hAdd, Add.add, HOr.hOr, HXor.hXor, Notation.nest, Notation.Agrees, Notation.ink, kept, isWhitespace]
  · simp [IterChain.notn, IterChain.closureN, HAdd.hAdd, Add.add, HOr.hOr, HXor.hXor, Notation.nest, Notation.Agrees, Notation.ink, kept, isWhitespace]
  · simp [IterChain.notn, IterChain.timesN, HAdd.hAdd, Add.add, Notation.Agrees]

/-- What a program shows, if that does not depend on the choices, is its source. -/
theorem chain_ink (keep : Char → Bool) (e : ChainExpr) : ∀ next, docInk keep (chainLaw sw) (e.build next).1 = kept keep e.source := by
  have hv : ∀ id s, docInk keep (chainLaw sw) (.var id s) = kept keep s := fun id s => by rw [docInk_eq]; rfl
  induction e with
  | var name => intro next; exact hv _ _
  | methodCall obj method arg iho iha =>
    intro next
    rw [docInk_eq]
    simp only [ChainExpr.source, kept_append]
    rw [← iho next, ← iha (obj.build next).2, ← hv (arg.build (obj.build next).2).2 method]
    refine Eq.trans (b := docInk keep (chainLaw sw) (obj.build next).1 ++ ((((kept keep "." ++
      docInk keep (chainLaw sw) (.var (arg.build (obj.build next).2).2 method)) ++ kept keep "(") ++
      docInk keep (chainLaw sw) (arg.build (obj.build next).2).1) ++ kept keep ")")) rfl ?_
    simp only [List.append_assoc]
  | closure v body ih =>
    intro next
    rw [docInk_eq]
    simp only [ChainExpr.source, kept_append]
    rw [← ih next, ← hv (body.build next).2 v]
    rfl
  | times a b iha ihb =>
    intro next
    rw [docInk_eq]
    simp only [ChainExpr.source, kept_append]
    rw [← iha next, ← ihb (a.build next).2]
    rfl


theorem chain_root (hsw : Narrower sw) (e : ChainExpr) (next : Nat) : ∃ id t,
    rootTree (chainLaw sw) (e.build next).1 none = .ok (id, t) ∧
      t.Sane (e.depth * four sw) (e.cols sw) ∧ t.Inline (e.cols sw) e.source := by
  obtain ⟨t, h1, h2, h3⟩ := chain_tree hsw e next [] none
  refine ⟨(e.build next).1.id, t, ?_, ?_, h3⟩
  · unfold rootTree; rw [h1]; rfl
  · simpa [segsWidth] using h2

/-! ### Ruby -/

theorem ruby_childAt {d : Ruby} {i : Nat} {c} (h : (rubyDoc sw).childAt d i = .ok c) :
    ∃ slice, d.contents = .inr slice ∧ slice[i]? = some c := by
  simp only [PrettyDoc.childAt, Ruby.numChildren] at h
  cases hd : d.contents with
  | inl s => simp [hd] at h
  | inr slice =>
    refine ⟨slice, rfl, ?_⟩
    simp only [hd] at h
    split at h
    · rename_i hi
      unfold Ruby.unwrapChild at h
      simp only [hd, List.getElem?_eq_getElem hi] at h ⊢
      injection h with h
      rw [h]
    · cases h

theorem ruby_contents {d : Ruby} {slice} (h : d.contents = .inr slice) {i c} (hc : slice[i]? = some c) :
    (rubyDoc sw).childAt d i = .ok c := by
  have hi : i < slice.length := by
    rcases Nat.lt_or_ge i slice.length with hi | hi
    · exact hi
    · rw [List.getElem?_eq_none hi] at hc; cases hc
  simp only [PrettyDoc.childAt, Ruby.numChildren]
  rw [List.getElem?_eq_getElem hi] at hc
  simp [h, hi, Ruby.unwrapChild]
  exact Option.some.inj hc

theorem ruby_size {d : Ruby} {slice} (h : d.contents = .inr slice) {c} (hc : c ∈ slice) : sizeOf c < sizeOf d := by
  cases d <;> simp only [Ruby.contents, reduceCtorEq, Sum.inr.injEq] at h
  all_goals
    subst h
    simp only [List.mem_cons, List.not_mem_nil, or_false] at hc
    rcases hc with rfl | rfl | rfl
  all_goals
    simp +arith

/-- These documents obey the contract. -/
theorem rubyLaw (sw : String → Nat) : (rubyDoc sw).Lawful where
  wf := Subrelation.wf (r := fun a b : Ruby => sizeOf a < sizeOf b)
    (fun ⟨_, h⟩ => by
      obtain ⟨slice, h1, h2⟩ := ruby_childAt h
      exact ruby_size h1 (List.mem_of_getElem? h2))
    (InvImage.wf sizeOf Nat.lt_wfRel.wf)
  valid p a h := by
    injection h with h
    subst h
    have h1 : Ruby.varN.Valid := by decide
    have h2 : Ruby.methodCallN.Valid := by decide
    have h3 : Ruby.doLoopN.Valid := by decide
    cases p
    · exact h1
    · exact h2
    · exact h3
  last p m h := by
    have h' : p.numChildren = some (m + 1) := by injection h
    simp [h']
  prev p n' i c h1 h2 h3 := rfl
  id_no_panic p := by simp
  notn_no_panic p := by simp
  condition_no_panic p _ _ := by simp
  lookupStyle_no_panic p _ _ := by simp
  nodeStyle_no_panic p := by simp
  numChildren_no_panic p := by simp
  unwrapText_no_panic p h := by
    have h' : p.numChildren = none := by injection h
    unfold Ruby.numChildren at h'
    simp only [Ruby.unwrapText]
    split at h' <;> simp_all
  unwrapChild_no_panic p n i h hi := by
    have h' : p.numChildren = some n := by injection h
    unfold Ruby.numChildren at h'
    simp only [Ruby.unwrapChild]
    split at h'
    · cases h'
    · rename_i slice hs
      have : slice.length = n := by simpa using h'
      simp [List.getElem?_eq_getElem (show i < slice.length by omega)]

theorem ruby_ids (e : RubyExpr) (next : Nat) : (e.build next).1.id < (e.build next).2 := by
  cases e <;> simp [RubyExpr.build, Ruby.id]

theorem ruby_tree (hsw : Narrower sw) (e : RubyExpr) : ∀ next indent outer, ∃ t,
    docTree (rubyLaw sw) (e.build next).1 false indent outer = .ok t ∧
      t.Sane (segsWidth indent + e.depth * four sw) (e.cols sw) ∧ t.Inline (e.cols sw) e.source := by
  have hvar : ∀ id name indent outer, ∃ t, docTree (rubyLaw sw) (.var id name) false indent outer = .ok t ∧
      t.Sane (segsWidth indent) (sw name) ∧ t.Inline (sw name) name := by
    intro id name indent outer
    exact ⟨_, docTree_of (rubyLaw sw) (a := Ruby.varN) (s := ()) rfl rfl _ _ _, .text _, .text _⟩
  induction e with
  | var name =>
    intro next indent outer
    obtain ⟨t, h1, h2, h3⟩ := hvar next name indent outer
    exact ⟨t, h1, h2.mono (by omega) (Nat.le_refl _), h3⟩
  | methodCall obj method arg iho iha =>
    intro next indent outer
    obtain ⟨o, next1, ho⟩ : ∃ o n, obj.build next = (o, n) := ⟨_, _, rfl⟩
    obtain ⟨a, next2, ha⟩ : ∃ a n, arg.build next1 = (a, n) := ⟨_, _, rfl⟩
    have hb : (RubyExpr.methodCall obj method arg).build next =
        (.methodCall (next2 + 1) o (.var next2 method) a, next2 + 2) := by
      simp [RubyExpr.build, ho, ha]
    have ho' : o = (obj.build next).1 := by rw [ho]
    have ha' : a = (arg.build next1).1 := by rw [ha]
    rw [hb]
    dsimp only
    generalize hN : Ruby.methodCall (next2 + 1) o (.var next2 method) a = N
    have c0 : (rubyDoc sw).childAt N 0 = .ok o := by subst hN; rfl
    have c1 : (rubyDoc sw).childAt N 1 = .ok (.var next2 method) := by subst hN; rfl
    have c2 : (rubyDoc sw).childAt N 2 = .ok a := by subst hN; rfl
    let st : Unit := enterStyle (P := rubyDoc sw) outer ()
    let ind1 : List (Segment (rubyDoc sw)) := indent ++ [⟨String.ofList (List.replicate 4 ' '), four sw, st⟩]
    let ind2 : List (Segment (rubyDoc sw)) := ind1 ++ [⟨String.ofList (List.replicate 4 ' '), four sw, st⟩]
    obtain ⟨t0, k0, s0, l0⟩ := (kid_sane (rubyLaw sw) (ind := indent) (style := st) c0 rfl (by rw [ho']; exact iho next indent _)).1
    obtain ⟨t1, k1, s1, l1⟩ := (kid_sane (rubyLaw sw) (ind := indent) (style := st) c1 rfl (hvar _ _ indent _)).1
    obtain ⟨t1', k1', s1', l1'⟩ := (kid_sane (rubyLaw sw) (ind := ind1) (style := st) c1 rfl (hvar _ _ ind1 _)).1
    obtain ⟨t2, k2, s2, l2⟩ := (kid_sane (rubyLaw sw) (ind := indent) (style := st) c2 rfl (by rw [ha']; exact iha next1 indent _)).1
    obtain ⟨t2', k2', s2', l2'⟩ := (kid_sane (rubyLaw sw) (ind := ind1) (style := st) c2 rfl (by rw [ha']; exact iha next1 ind1 _)).1
    obtain ⟨t3, k3, s3, l3⟩ := (kid_sane (rubyLaw sw) (ind := ind2) (style := st) c2 rfl (by rw [ha']; exact iha next1 ind2 _)).1
    have w1 : segsWidth ind1 = segsWidth indent + four sw := segsWidth_indent _ _
    have w2 : segsWidth ind2 = segsWidth indent + four sw + four sw := by rw [← w1]; exact segsWidth_indent _ _
    have e2 : (arg.depth + 2) * four sw = arg.depth * four sw + four sw + four sw := by
      rw [Nat.add_mul]; omega
    have ht := docTree_of (rubyLaw sw) (node := N) (a := Ruby.methodCallN) (s := ()) (by subst hN; rfl) rfl false indent outer
    have hT : Ruby.methodCallN.tree N (docKid (rubyLaw sw) N) none ⟨false, indent, st⟩ =
        .concat t0 (.choice
          (.concat (.concat (.concat (.text ⟨".", sw ".", (), false⟩) t1) (.text ⟨" ", sw " ", (), false⟩)) t2)
          (.concat (.newline ind1) (.choice
            (.concat (.concat (.concat (.text ⟨".", sw ".", (), false⟩) t1') (.text ⟨" ", sw " ", (), false⟩)) t2')
            (.concat (.concat (.text ⟨".", sw ".", (), false⟩) t1') (.concat (.newline ind2) t3))))) := by
      rw [← k0, ← k1, ← k1', ← k2, ← k2', ← k3]; subst hN; rfl
    refine ⟨_, ht.trans (congrArg _ hT), ?_, ?_⟩
    · rw [RubyExpr.cols, RubyExpr.depth]
      have hB1 : segsWidth indent + obj.depth * four sw ≤ segsWidth indent + max obj.depth (arg.depth + 2) * four sw :=
        Nat.add_le_add_left (Nat.mul_le_mul_right _ (by omega)) _
      have hB2 : segsWidth indent + (arg.depth + 2) * four sw ≤ segsWidth indent + max obj.depth (arg.depth + 2) * four sw :=
        Nat.add_le_add_left (Nat.mul_le_mul_right _ (by omega)) _
      generalize segsWidth indent + max obj.depth (arg.depth + 2) * four sw = B at hB1 hB2
      have lit : ∀ s, (NTree.text (P := rubyDoc sw) ⟨s, sw s, (), false⟩).Sane B (sw s) := fun s => .text _
      have nl1 : (NTree.newline ind1).Sane B 0 := .newline (by omega)
      have nl2 : (NTree.newline ind2).Sane B 0 := .newline (by omega)
      have a0 := s0.mono hB1 (Nat.le_refl _)
      have a1 := s1.mono (B' := B) (by omega) (Nat.le_refl _)
      have a1' := s1'.mono (B' := B) (by omega) (Nat.le_refl _)
      have a2 := s2.mono (B' := B) (by omega) (Nat.le_refl _)
      have a2' := s2'.mono (B' := B) (by omega) (Nat.le_refl _)
      have a3 := s3.mono (B' := B) (by omega) (Nat.le_refl _)
      have b1 := (((lit ".").concat a1).concat (lit " ")).concat a2
      have b2 := (((lit ".").concat a1').concat (lit " ")).concat a2'
      have b3 := (((lit ".").concat a1').concat (nl2.concat a3)).mono (Nat.le_refl _)
        (show _ ≤ sw "." + sw method + sw " " + arg.cols sw by omega)
      have b4 := b2.choice b3 fun w k st h => by
        simp only [SecondsFit, NTree.seconds, List.flatMap_cons, List.append_assoc, List.cons_append, List.nil_append] at h ⊢
        exact fit_break (A := .text ⟨".", sw ".", (), false⟩ :: t1'.seconds) h
      refine (a0.concat (b1.choice ((nl1.concat b4).mono (Nat.le_refl _) (by omega)) fun w k st h => ?_)).mono
        (Nat.le_refl _) (by omega)
      exact secondsFit_newline h
    · have lit : ∀ s, (NTree.text (P := rubyDoc sw) ⟨s, sw s, (), false⟩).Inline (sw s) s := fun s => .text _
      have := l0.concat ((((lit ".").concat l1).concat (lit " ")).concat l2 |>.choice
        (.concat (.newline ind1) (.choice
            (.concat (.concat (.concat (.text ⟨".", sw ".", (), false⟩) t1') (.text ⟨" ", sw " ", (), false⟩)) t2')
            (.concat (.concat (.text ⟨".", sw ".", (), false⟩) t1') (.concat (.newline ind2) t3)))))
      rw [RubyExpr.cols, RubyExpr.source]
      simpa only [String.append_assoc, Nat.add_assoc] using this
  | doLoop v body ihb =>
    intro next indent outer
    obtain ⟨b, next1, hb⟩ : ∃ b n, body.build next = (b, n) := ⟨_, _, rfl⟩
    have hbuild : (RubyExpr.doLoop v body).build next = (.doLoop (next1 + 1) (.var next1 v) b, next1 + 2) := by
      simp [RubyExpr.build, hb]
    have hb' : b = (body.build next).1 := by rw [hb]
    rw [hbuild]
    dsimp only
    generalize hN : Ruby.doLoop (next1 + 1) (.var next1 v) b = N
    have c0 : (rubyDoc sw).childAt N 0 = .ok (.var next1 v) := by subst hN; rfl
    have c1 : (rubyDoc sw).childAt N 1 = .ok b := by subst hN; rfl
    let st : Unit := enterStyle (P := rubyDoc sw) outer ()
    let ind1 : List (Segment (rubyDoc sw)) := indent ++ [⟨String.ofList (List.replicate 4 ' '), four sw, st⟩]
    obtain ⟨t0, k0, s0, l0⟩ := (kid_sane (rubyLaw sw) (ind := indent) (style := st) c0 rfl (hvar _ _ indent _)).1
    obtain ⟨t1, k1, s1, l1⟩ := (kid_sane (rubyLaw sw) (ind := indent) (style := st) c1 rfl (by rw [hb']; exact ihb next indent _)).2
    obtain ⟨t1', k1', s1', l1'⟩ := (kid_sane (rubyLaw sw) (ind := ind1) (style := st) c1 rfl (by rw [hb']; exact ihb next ind1 _)).1
    have w1 : segsWidth ind1 = segsWidth indent + four sw := segsWidth_indent _ _
    have e2 : (body.depth + 1) * four sw = body.depth * four sw + four sw := by rw [Nat.add_mul]; omega
    have ht := docTree_of (rubyLaw sw) (node := N) (a := Ruby.doLoopN) (s := ()) (by subst hN; rfl) rfl false indent outer
    have hT : Ruby.doLoopN.tree N (docKid (rubyLaw sw) N) none ⟨false, indent, st⟩ =
        .choice
          (.concat (.concat (.concat (.concat (.text ⟨"do |", sw "do |", (), false⟩) t0) (.text ⟨"| ", sw "| ", (), false⟩)) t1)
            (.text ⟨" end", sw " end", (), false⟩))
          (.concat (.concat (.concat (.concat (.concat (.text ⟨"do |", sw "do |", (), false⟩) t0) (.text ⟨"|", sw "|", (), false⟩))
            (.concat (.newline ind1) t1')) (.newline indent)) (.text ⟨"end", sw "end", (), false⟩)) := by
      rw [← k0, ← k1, ← k1']; subst hN; rfl
    refine ⟨_, ht.trans (congrArg _ hT), ?_, ?_⟩
    · rw [RubyExpr.cols, RubyExpr.depth, e2]
      generalize hB : segsWidth indent + (body.depth * four sw + four sw) = B
      have lit : ∀ s, (NTree.text (P := rubyDoc sw) ⟨s, sw s, (), false⟩).Sane B (sw s) := fun s => .text _
      have nl0 : (NTree.newline indent).Sane B 0 := .newline (by omega)
      have nl1 : (NTree.newline ind1).Sane B 0 := .newline (by omega)
      have a0 := s0.mono (B' := B) (by omega) (Nat.le_refl _)
      have a1 := s1.mono (B' := B) (by omega) (Nat.le_refl _)
      have a1' := s1'.mono (B' := B) (by omega) (Nat.le_refl _)
      refine (((((lit "do |").concat a0).concat (lit "| ")).concat a1).concat (lit " end")).choice
        (((((((lit "do |").concat a0).concat (lit "|")).concat (nl1.concat a1')).concat nl0).concat (lit "end")).mono
          (Nat.le_refl _) ?_) fun w k st h => ?_
      · have := hsw.2.2.1
        have := hsw.2.2.2
        omega
      · simp only [SecondsFit, NTree.seconds, List.flatMap_cons, List.append_assoc, List.cons_append, List.nil_append] at h ⊢
        exact fit_break_text (A := .text ⟨"do |", sw "do |", (), false⟩ :: t0.seconds)
          (x := ⟨"| ", sw "| ", (), false⟩) (y := ⟨"|", sw "|", (), false⟩) hsw.2.2.1 h
    · have lit : ∀ s, (NTree.text (P := rubyDoc sw) ⟨s, sw s, (), false⟩).Inline (sw s) s := fun s => .text _
      have := ((((lit "do |").concat l0).concat (lit "| ")).concat l1).concat (lit " end") |>.choice
          (.concat (.concat (.concat (.concat (.concat (.text ⟨"do |", sw "do |", (), false⟩) t0) (.text ⟨"|", sw "|", (), false⟩))
            (.concat (.newline ind1) t1')) (.newline indent)) (.text ⟨"end", sw "end", (), false⟩))
      rw [RubyExpr.cols, RubyExpr.source]
      exact this

/-- The counter only counts up. -/
theorem RubyExpr.build_mono (e : RubyExpr) : ∀ next, next ≤ (e.build next).2 := by
  induction e with
  | var name => intro next; simp [RubyExpr.build]
  | methodCall obj method arg iho iha =>
    intro next
    have h1 := iho next
    have h2 := iha (obj.build next).2
    simp only [RubyExpr.build]
    omega
  | doLoop v body ih =>
    intro next
    have h1 := ih next
    simp only [RubyExpr.build]
    omega

/-- A child of a program is built as some program is, with a smaller id. -/
theorem ruby_kid {e : RubyExpr} {next i : Nat} {c} (h : (rubyDoc sw).childAt (e.build next).1 i = .ok c) :
    ∃ (e' : RubyExpr) (next' : Nat), c = (e'.build next').1 ∧ c.id < (e.build next).1.id := by
  obtain ⟨slice, h1, h2⟩ := ruby_childAt h
  have h2 := List.mem_of_getElem? h2
  have key : ∀ (e' : RubyExpr) (n : Nat) m, (e'.build n).2 ≤ m → (e'.build n).1.id < m := fun e' n m hm =>
    Nat.lt_of_lt_of_le (ruby_ids e' n) hm
  cases e with
  | var name => cases h1
  | methodCall obj method arg =>
    simp only [RubyExpr.build, Ruby.contents, Sum.inr.injEq] at h1
    subst h1
    simp only [List.mem_cons, List.not_mem_nil, or_false] at h2
    have := RubyExpr.build_mono arg (obj.build next).2
    rcases h2 with rfl | rfl | rfl
    · exact ⟨obj, next, rfl, key _ _ _ (by simp only [RubyExpr.build, Ruby.id]; omega)⟩
    · exact ⟨.var method, _, rfl, key (.var method) _ _ (by simp only [RubyExpr.build, Ruby.id]; omega)⟩
    · exact ⟨arg, _, rfl, key _ _ _ (by simp only [RubyExpr.build, Ruby.id]; omega)⟩
  | doLoop v body =>
    simp only [RubyExpr.build, Ruby.contents, Sum.inr.injEq] at h1
    subst h1
    simp only [List.mem_cons, List.not_mem_nil, or_false] at h2
    rcases h2 with rfl | rfl
    · exact ⟨.var v, _, rfl, key (.var v) _ _ (by simp only [RubyExpr.build, Ruby.id]; omega)⟩
    · exact ⟨body, _, rfl, key _ _ _ (by simp only [RubyExpr.build, Ruby.id]; omega)⟩

theorem ruby_within {e : RubyExpr} {next : Nat} {q} (h : (rubyDoc sw).Within (e.build next).1 q) :
    ∃ (e' : RubyExpr) (next' : Nat), q = (e'.build next').1 := by
  refine PrettyDoc.Within.induct (P := rubyDoc sw) (Φ := fun q => ∃ (e' : RubyExpr) (next' : Nat), q = (e'.build next').1)
    ⟨e, next, rfl⟩ ?_ h
  rintro p q ⟨e', n', rfl⟩ ⟨i, hi⟩
  obtain ⟨e2, n2, h1, _⟩ := ruby_kid hi
  exact ⟨e2, n2, h1⟩

theorem ruby_idsOnPaths (e : RubyExpr) (next : Nat) : (rubyDoc sw).IdsOnPaths (e.build next).1 := by
  refine idsOnPaths_of_rank (fun i => i) ?_ (fun p => ⟨_, rfl⟩)
  rintro p q i j hp ⟨k, hk⟩ hi hj
  obtain ⟨e', n', rfl⟩ := ruby_within hp
  obtain ⟨_, _, _, hlt⟩ := ruby_kid hk
  cases hi; cases hj
  exact hlt

theorem ruby_walkable (d : Ruby) : (rubyDoc sw).Walkable d where
  count q _ := ⟨_, rfl⟩
  child q n i _ h hi := by
    have h' : q.numChildren = some n := by injection h
    unfold Ruby.numChildren at h'
    simp only [Ruby.unwrapChild]
    split at h'
    · cases h'
    · rename_i slice hs
      have : slice.length = n := by simpa using h'
      simp [List.getElem?_eq_getElem (show i < slice.length by omega)]

/-- Every node is displayed. -/
theorem ruby_reach (d : Ruby) {path : List Nat} (hp : PathIn (rubyDoc sw) d path) {nt} {style}
    (ht : docTree (rubyLaw sw) d false [] style = .ok nt) : nt.Reach path := by
  refine docTree_reach (rubyLaw sw) (fun _ => True) (fun _ _ _ _ _ => trivial) ?_ path d trivial hp false [] style nt ht
  rintro node i child a ⟨flat, ind, st⟩ - hc ha
  obtain ⟨slice, h1, h2⟩ := ruby_childAt hc
  have K := fun j c => docKid_has (rubyLaw sw) node j c
  injection ha with ha
  subst ha
  cases node with
  | var id s => cases h1
  | methodCall id o m a =>
    cases h1
    rcases i with _ | _ | _ | i
    · exact .inl (K _ _)
    · cases flat
      · exact .inr ⟨.inl (.inl (.inr (K _ _))), .inr ⟨.inl (.inl (.inr (K _ _))), .inl (.inr (K _ _))⟩⟩
      · exact .inr (.inl (.inl (.inr (K _ _))))
    · cases flat
      · exact .inr ⟨.inr (K _ _), .inr ⟨.inr (K _ _), .inr (.inr (K _ _))⟩⟩
      · exact .inr (.inr (K _ _))
    · simp at h2
  | doLoop id v b =>
    cases h1
    rcases i with _ | _ | i
    · cases flat
      · exact ⟨.inl (.inl (.inl (.inr (K _ _)))), .inl (.inl (.inl (.inl (.inr (K _ _)))))⟩
      · exact .inl (.inl (.inl (.inr (K _ _))))
    · cases flat
      · exact ⟨.inl (.inr (K _ _)), .inl (.inl (.inr (.inr (K _ _))))⟩
      · exact .inl (.inr (K _ _))
    · simp at h2

/-- Both options of every choice show the same, but for white space. -/
theorem ruby_steady (d : Ruby) : d.notn.Steady visible := by
  intro e
  cases d
  · trivial
  · simp [Ruby.notn, Ruby.methodCallN, Ruby.callSingle, Ruby.callMulti, HAdd.hAdd, Add.add, HOr.hOr, HXor.hXor, Notation.nest, Notation.Agrees, Notation.ink, kept, isWhitespace]
  · simp [Ruby.notn, Ruby.doLoopN, HAdd.hAdd, Add.add, HOr.hOr, HXor.hXor, Notation.nest, Notation.Agrees, Notation.ink, kept, isWhitespace]

/-- What a program shows, if that does not depend on the choices, is its source. -/
theorem ruby_ink (keep : Char → Bool) (e : RubyExpr) : ∀ next, docInk keep (rubyLaw sw) (e.build next).1 = kept keep e.source := by
  have hv : ∀ id s, docInk keep (rubyLaw sw) (.var id s) = kept keep s := fun id s => by rw [docInk_eq]; rfl
  induction e with
  | var name => intro next; exact hv _ _
  | methodCall obj method arg iho iha =>
    intro next
    rw [docInk_eq]
    simp only [RubyExpr.source, kept_append]
    rw [← iho next, ← iha (obj.build next).2, ← hv (arg.build (obj.build next).2).2 method]
    refine Eq.trans (b := docInk keep (rubyLaw sw) (obj.build next).1 ++ (((kept keep "." ++
      docInk keep (rubyLaw sw) (.var (arg.build (obj.build next).2).2 method)) ++ kept keep " ") ++
      docInk keep (rubyLaw sw) (arg.build (obj.build next).2).1)) rfl ?_
    simp only [List.append_assoc]
  | doLoop v body ih =>
    intro next
    rw [docInk_eq]
    simp only [RubyExpr.source, kept_append]
    rw [← ih next, ← hv (body.build next).2 v]
    rfl


theorem ruby_root (hsw : Narrower sw) (e : RubyExpr) (next : Nat) : ∃ id t,
    rootTree (rubyLaw sw) (e.build next).1 none = .ok (id, t) ∧
      t.Sane (e.depth * four sw) (e.cols sw) ∧ t.Inline (e.cols sw) e.source := by
  obtain ⟨t, h1, h2, h3⟩ := ruby_tree hsw e next [] none
  refine ⟨(e.build next).1.id, t, ?_, ?_, h3⟩
  · unfold rootTree; rw [h1]; rfl
  · simpa [segsWidth] using h2

end
end PPP
