import Verif.Proofs.ResumeGives
/-
A document of two parts, one above the other: what its iterators give.
-/
namespace PPP
variable {P : PrettyDoc}

theorem withSome_inv {c : P.Node} {s' : P.Style} {d}
    (h : DCN.withOptionalStyle c (some s') = Exec.ofRes (.ok d)) :
    ∃ n s, call (P.notn c) = Exec.ofRes (.ok n) ∧ call (P.nodeStyle c) = Exec.ofRes (.ok s) ∧
      d = ⟨n, c, false, [], P.combine s' s, none⟩ := by
  unfold DCN.withOptionalStyle at h
  obtain ⟨n, h1, h⟩ := Exec.bind_ok_inv h
  obtain ⟨s, h2, h⟩ := Exec.bind_ok_inv h
  have h := Exec.ofRes_inj h
  simp only [Except.ok.injEq] at h
  exact ⟨n, s, h1, h2, h.symm⟩

theorem call_ok {E α : Type} (a : α) : call (E := E) (.ok a) = Exec.ofRes (.ok a) := rfl

theorem child_new {doc c : P.Node} {s : P.Style} {id a n i d}
    (hid : P.id doc = .ok id) (hn : P.numChildren doc = .ok (some n))
    (hi : normalizeChildIndex a n = some i) (hc : P.unwrapChild doc i = .ok c)
    (hd : DCN.withOptionalStyle c (some s) = Exec.ofRes (.ok d)) :
    Chunk.new (P := P) ⟨.child a, doc, false, [], s, none⟩ = Exec.ofRes (.ok ⟨.child i d, id⟩) := by
  obtain ⟨nn, ss, h1, h2, rfl⟩ := withSome_inv hd
  unfold Chunk.new
  rw [DCN.eval.eq_def]
  simp only [hid, hn, hi, hc, call_ok, Exec.ofRes_ok_bind, h1, h2, Exec.pure_eq]

/-- The chunks of a document with two parts. -/
structure TwoChunks (d d0 d1 : DCN P) (id : P.Id) (i j : Nat) (n0 n1 m0 m1 : DCN P) : Prop where
  top : Chunk.new d = Exec.ofRes (.ok ⟨.concat n0 n1, id⟩)
  right : Chunk.new n1 = Exec.ofRes (.ok ⟨.child j d1, id⟩)
  left : Chunk.new n0 = Exec.ofRes (.ok ⟨.concat m0 m1, id⟩)
  first : Chunk.new m0 = Exec.ofRes (.ok ⟨.child i d0, id⟩)
  nl : Chunk.new m1 = Exec.ofRes (.ok ⟨.newline [], id⟩)

theorem TwoParts.chunks {doc c0 c1 : P.Node} {s : P.Style} (h : TwoParts doc c0 c1 s) {d0 d1}
    (h0 : DCN.withOptionalStyle c0 (some s) = Exec.ofRes (.ok d0))
    (h1 : DCN.withOptionalStyle c1 (some s) = Exec.ofRes (.ok d1)) :
    ∃ d id i j n0 n1 m0 m1, DCN.withOptionalStyle doc none = Exec.ofRes (.ok d) ∧
      TwoChunks d d0 d1 id i j n0 n1 m0 m1 := by
  obtain ⟨⟨id, hid⟩, hs, a, b, n, i, j, hn, hnum, ha, hi, hb, hj⟩ := h
  have hx : ((.child a : Notation P.Label P.Cond) ^^^ (.child b : Notation P.Label P.Cond)) =
    .concat (.concat (.child a) .newline) (.child b) := rfl
  rw [hx] at hn
  refine ⟨⟨.concat (.concat (.child a) .newline) (.child b), doc, false, [], s, none⟩, id, i, j,
    ⟨.concat (.child a) .newline, doc, false, [], s, none⟩, ⟨.child b, doc, false, [], s, none⟩,
    ⟨.child a, doc, false, [], s, none⟩, ⟨.newline, doc, false, [], s, none⟩, ?_,
    ?_, child_new hid hnum hb hj h1, ?_, child_new hid hnum ha hi h0, ?_⟩
  · unfold DCN.withOptionalStyle
    simp only [hn, hs, call_ok, Exec.ofRes_ok_bind, Exec.pure_eq]
  all_goals
    unfold Chunk.new
    rw [DCN.eval.eq_def]
    simp only [hid, call_ok, Exec.ofRes_ok_bind, Exec.pure_eq]

theorem Block.new_nil (chunks : List (Chunk P)) :
    Block.new [] chunks = Exec.ofRes (.ok ⟨[], 0, false, chunks⟩) := by
  simp [Block.new, segsWidth, Exec.pure_eq]

theorem TwoChunks.expandFirst {d d0 d1 : DCN P} {id i j n0 n1 m0 m1}
    (h : TwoChunks d d0 d1 id i j n0 n1 m0 m1) :
    expandFirst [] (emptyBlock P) ⟨.concat n0 n1, id⟩ =
      Exec.ofRes (.ok ([⟨[], 0, false, [⟨.child j d1, id⟩]⟩], ⟨[], 0, false, [⟨.child i d0, id⟩]⟩)) := by
  unfold PPP.expandFirst emptyBlock
  rw [expandFirstLoop.eq_def]
  simp only [h.left, h.right, Exec.ofRes_ok_bind]
  rw [expandFirstLoop.eq_def]
  simp only
  rw [expandFirstLoop.eq_def]
  simp only [h.first, h.nl, Exec.ofRes_ok_bind]
  rw [expandFirstLoop.eq_def]
  simp only [Block.new_nil, Exec.ofRes_ok_bind]
  rw [expandFirstLoop.eq_def]
  simp only
  rw [expandFirstLoop.eq_def]
  rfl

theorem TwoChunks.expandLast {d d0 d1 : DCN P} {id i j n0 n1 m0 m1}
    (h : TwoChunks d d0 d1 id i j n0 n1 m0 m1) :
    expandLast [] (emptyBlock P) ⟨.concat n0 n1, id⟩ =
      Exec.ofRes (.ok ([⟨[], 0, false, [⟨.child i d0, id⟩]⟩], ⟨[], 0, false, [⟨.child j d1, id⟩]⟩)) := by
  unfold PPP.expandLast emptyBlock
  rw [expandLastLoop.eq_def]
  simp only [h.left, h.right, Exec.ofRes_ok_bind]
  rw [expandLastLoop.eq_def]
  simp only [h.first, h.nl, Exec.ofRes_ok_bind]
  rw [expandLastLoop.eq_def]
  simp only
  rw [expandLastLoop.eq_def]
  simp only [Block.new_nil, Exec.ofRes_ok_bind]
  rw [expandLastLoop.eq_def]
  simp only
  rw [expandLastLoop.eq_def]
  rfl

/-- The item that a call of `next` on a block with just a child gives. -/
theorem nextK_of_next {w : Nat} {id : P.Id} {j : Nat} {d c next block line next'}
    (hc : Chunk.new d = Exec.ofRes (.ok c))
    (he : PPP.expandFirst [] (emptyBlock P) c = Exec.ofRes (.ok (next, block)))
    (hl : printNextLoop w next block = Exec.ofRes (.ok (line, next'))) :
    nextK .down w [⟨[], 0, false, [⟨.child j d, id⟩]⟩] = Exec.ofRes (.ok (some (.ok line), next')) := by
  have hag := printNextLoop_ag w [] (⟨[], 0, false, [⟨.child j d, id⟩]⟩ : Block P) (.ok (line, next'))
    (by
      rw [printNextLoop.eq_def]
      have he' : PPP.expandFirst [] (⟨[], 0, false, []⟩ : Block P) c = Exec.ofRes (.ok (next, block)) := he
      simp only [hc, Exec.ofRes_ok_bind, he', hl]
      rfl)
  unfold nextK
  simp only at hag ⊢
  rw [hag]
  rfl

theorem nextK_of_prev {w : Nat} {id : P.Id} {j : Nat} {d c prev block block' prev'}
    (hc : Chunk.new d = Exec.ofRes (.ok c))
    (he : PPP.expandLast [] (emptyBlock P) c = Exec.ofRes (.ok (prev, block)))
    (hl : seekEndLoop w 0 prev block = Exec.ofRes (.ok (prev', block'))) :
    nextK .up w [⟨[], 0, false, [⟨.child j d, id⟩]⟩] =
      Exec.ofRes (.ok (some (.ok ⟨block'.segments⟩), prev')) := by
  have hp := (seekEndLoop_prints w prev block).ok hl
  have hag := printPrevLoop_ag w [] (⟨[], 0, false, [⟨.child j d, id⟩]⟩ : Block P)
    (.ok (⟨block'.segments⟩, prev'))
    (by
      rw [printPrevLoop.eq_def]
      have he' : PPP.expandLast [] (⟨[], 0, false, []⟩ : Block P) c = Exec.ofRes (.ok (prev, block)) := he
      simp only [hc, Exec.ofRes_ok_bind, he', hp]
      rfl)
  unfold nextK
  simp only at hag ⊢
  rw [hag]
  rfl

theorem two_parts_down {doc c0 c1 : P.Node} {s : P.Style} (h : TwoParts doc c0 c1 s) {w : Nat} {r0 r1}
    (h0 : prettyPrint c0 w [] .start (some s) = Exec.ofRes (.ok r0))
    (h1 : prettyPrint c1 w [] .start (some s) = Exec.ofRes (.ok r1)) {items0 items1}
    (g0 : r0.Gives .down items0) (g1 : r1.Gives .down items1) :
    ∃ r, prettyPrint doc w [] .start none = Exec.ofRes (.ok r) ∧ r.focused = r0.focused ∧
      r.Gives .down (items0 ++ .ok r1.focused.toLine :: items1) := by
  obtain ⟨d0, c0', next0, block0, line0, next0', a1, a2, a3, a4, rfl⟩ := start_inv h0
  obtain ⟨d1, c1', next1, block1, line1, next1', b1, b2, b3, b4, rfl⟩ := start_inv h1
  obtain ⟨d, id, i, j, n0, n1, m0, m1, e1, e2⟩ := h.chunks a1 b1
  rw [Printed.gives_iff] at g0 g1
  simp only at g0 g1
  refine ⟨_, start_of e1 e2.top e2.expandFirst (line := line0)
    (next' := next0' ++ [⟨[], 0, false, [⟨.child j d1, id⟩]⟩]) ?_, rfl, ?_⟩
  · rw [printNextLoop.eq_def]
    have a3' := (expandFirstLoop_frame [⟨[], 0, false, [⟨.child j d1, id⟩]⟩] [] (emptyBlock P) [c0']).ok a3
    have a4' := (printNextLoop_frame w [⟨[], 0, false, [⟨.child j d1, id⟩]⟩] next0 block0).ok a4
    simp only [List.nil_append] at a3' a4'
    have a3'' : PPP.expandFirst [⟨[], 0, false, [⟨.child j d1, id⟩]⟩] (⟨[], 0, false, []⟩ : Block P) c0' =
      Exec.ofRes (.ok (next0 ++ [⟨[], 0, false, [⟨.child j d1, id⟩]⟩], block0)) := a3'
    simp only [a2, Exec.ofRes_ok_bind, a3'', a4']
  · rw [Printed.gives_iff]
    simp only
    refine g0.append (.cons (s' := next1') ?_ g1)
    have := nextK_of_next (j := j) (id := id) b2 b3 b4
    rw [this]
    simp [FocusedLine.toLine]

theorem two_parts_up {doc c0 c1 : P.Node} {s : P.Style} (h : TwoParts doc c0 c1 s) {w : Nat} {r0 r1}
    (h0 : prettyPrint c0 w [] .end (some s) = Exec.ofRes (.ok r0))
    (h1 : prettyPrint c1 w [] .end (some s) = Exec.ofRes (.ok r1)) {items0 items1}
    (g0 : r0.Gives .up items0) (g1 : r1.Gives .up items1) :
    ∃ r, prettyPrint doc w [] .end none = Exec.ofRes (.ok r) ∧ r.focused = r1.focused ∧
      r.Gives .up (items1 ++ .ok r0.focused.toLine :: items0) := by
  obtain ⟨d0, c0', prev0, block0, prev0', block0', a1, a2, a3, a4, rfl⟩ := end_inv h0
  obtain ⟨d1, c1', prev1, block1, prev1', block1', b1, b2, b3, b4, rfl⟩ := end_inv h1
  obtain ⟨d, id, i, j, n0, n1, m0, m1, e1, e2⟩ := h.chunks a1 b1
  rw [Printed.gives_iff] at g0 g1
  simp only at g0 g1
  refine ⟨_, end_of e1 e2.top e2.expandLast (block' := block1')
    (prev' := prev1' ++ [⟨[], 0, false, [⟨.child i d0, id⟩]⟩]) ?_, rfl, ?_⟩
  · rw [seekEndLoop.eq_def]
    have b3' := (expandLastLoop_frame [⟨[], 0, false, [⟨.child i d0, id⟩]⟩] [] (emptyBlock P) [] [c1']).ok b3
    have b4' := (seekEndLoop_frame w 0 [⟨[], 0, false, [⟨.child i d0, id⟩]⟩] prev1 block1).ok b4
    simp only [List.nil_append] at b3' b4'
    have b3'' : PPP.expandLast [⟨[], 0, false, [⟨.child i d0, id⟩]⟩] (⟨[], 0, false, []⟩ : Block P) c1' =
      Exec.ofRes (.ok (prev1 ++ [⟨[], 0, false, [⟨.child i d0, id⟩]⟩], block1)) := b3'
    simp only [List.length_cons, List.length_nil, gt_iff_lt, Nat.zero_lt_succ, if_true, b2,
      Exec.ofRes_ok_bind, b3'', b4']
  · rw [Printed.gives_iff]
    simp only
    refine g1.append (.cons (s' := prev0') ?_ g0)
    have := nextK_of_prev (j := i) (id := id) a2 a3 a4
    rw [this]
    simp [FocusedLine.toLine]

end PPP
