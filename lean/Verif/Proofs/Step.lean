import Verif.Proofs.Expand
/-
One step of the printing and seeking loops.
-/
namespace PPP
variable {P : PrettyDoc}

theorem D_none_of_lt {w : Nat} {k} {pv : List (BSpec P)} {segs st xs} (h : lt w xs k st = none) :
    AS.D w k ⟨pv, segs, st, xs⟩ = none := by
  unfold AS.D
  cases hx : lay w xs k st with
  | error _ => cases prevLines w pv <;> rfl
  | ok r => simp [lt, hx] at h

theorem RestR.kequiv {next : List (Block P)} {tail} (h : RestR next tail) (items : List (Item P)) :
    KEquiv (trees (items ++ tail)) (trees items) := by
  cases h with
  | nil => simp; exact .refl _
  | cons => rw [trees_append]; exact KEquiv.newline _ _ _

theorem fitsLine_congr {w : Nat} {st} {k k' : List (NTree P)} (h : KEquiv k k') :
    fitsLine w st k = fitsLine w st k' := by simp [fitsLine, h (w - st.col) st.eol]

variable (Q : Pred P)

/-- The failures that laying out can add to those of the document. -/
structure QOk : Prop where
  overflow : Q .overflow
  eol : Q (.err .textAfterEndOfLine)

theorem FirstR.with_chunks {next : List (Block P)} {block : Block P} {segs st ys}
    (h : FirstR next block segs st ys) {c cs} (hc : block.chunks = c :: cs) :
    ∃ x ys', ys = x :: ys' ∧ ChunkR c x ∧ x.2.Atomic ∧
      FirstR next { block with chunks := cs } segs st ys' := by
  obtain ⟨items, tail, rfl, h1, h2⟩ := h.items
  rw [hc] at h1
  cases h1 with
  | cons hx h1 => exact ⟨_, _, rfl, hx.1, hx.2, h.segs, h.col, h.eol, _, _, rfl, h1, h2⟩

theorem BlockR.with_chunks {block : Block P} {segs st ys}
    (h : BlockR block ⟨segs, st, ys⟩) {c cs} (hc : block.chunks = c :: cs) :
    ∃ x ys', ys = x :: ys' ∧ ChunkR c x ∧ x.2.Atomic ∧
      BlockR { block with chunks := cs } ⟨segs, st, ys'⟩ := by
  have h1 := h.chunks
  rw [hc] at h1
  cases h1 with
  | cons hx h1 => exact ⟨_, _, rfl, hx.1, hx.2, h.segs, h.col, h.eol, h1⟩

theorem FirstR.nil {next : List (Block P)} {block : Block P} {segs st ys}
    (h : FirstR next block segs st ys) (hc : block.chunks = []) : RestR next ys := by
  obtain ⟨items, tail, rfl, h1, h2⟩ := h.items
  rw [hc] at h1
  cases h1 with
  | nil => exact h2

theorem pushText_sat (hQ : QOk Q) {b : Block P} {t : Textual P} {st : LineSt}
    (hc : b.prefixLen = st.col) (he : b.atEol = st.eol) :
    Sat (b.pushText t)
      (fun b' => st.eol = false ∧ st.col + t.width ≤ maxWidth ∧
        b' = { b with segments := b.segments ++ [t.segment], prefixLen := st.col + t.width })
      (fun e => Q e ∧ ∀ w id xs k pv segs,
        AS.D w k ⟨pv, segs, st, (id, .text t) :: xs⟩ = none) := by
  unfold Block.pushText
  rw [hc, he]
  by_cases h1 : st.eol = true
  · simp only [h1, if_true]
    exact ⟨hQ.eol, fun w id xs k pv segs => D_none_of_lt (by simp [lt_text, h1])⟩
  · rw [if_neg h1]
    by_cases h2 : st.col + t.width ≤ maxWidth
    · rw [if_pos h2]
      exact ⟨by simpa using h1, h2, rfl⟩
    · rw [if_neg h2]
      exact ⟨hQ.overflow, fun w id xs k pv segs => D_none_of_lt (by simp [lt_text, h1, h2])⟩

theorem first_text (hQ : QOk Q) {next : List (Block P)} {b : Block P} {t : Textual P} {segs st ys}
    (hf : FirstR next b segs st ys) :
    Sat (b.pushText t)
      (fun b' => st.eol = false ∧ st.col + t.width ≤ maxWidth ∧
        FirstR next b' (segs ++ [t.segment]) ⟨st.col + t.width, false⟩ ys)
      (fun e => Q e ∧ ∀ w id xs k pv segs,
        AS.D w k ⟨pv, segs, st, (id, .text t) :: xs⟩ = none) := by
  refine (pushText_sat Q hQ hf.col hf.eol).mono ?_ (fun _ h => h)
  rintro b' ⟨h1, h2, rfl⟩
  exact ⟨h1, h2, by rw [hf.segs], rfl, by rw [hf.eol, h1], hf.items⟩

theorem last_text (hQ : QOk Q) {b : Block P} {t : Textual P} {segs st ys}
    (hf : BlockR b ⟨segs, st, ys⟩) :
    Sat (b.pushText t)
      (fun b' => st.eol = false ∧ st.col + t.width ≤ maxWidth ∧
        BlockR b' ⟨segs ++ [t.segment], ⟨st.col + t.width, false⟩, ys⟩)
      (fun e => Q e ∧ ∀ w id xs k pv segs,
        AS.D w k ⟨pv, segs, st, (id, .text t) :: xs⟩ = none) := by
  refine (pushText_sat Q hQ hf.col hf.eol).mono ?_ (fun _ h => h)
  rintro b' ⟨h1, h2, rfl⟩
  exact ⟨h1, h2, by rw [hf.segs], rfl, by rw [hf.eol, h1], hf.chunks⟩

theorem first_child (hQ : QOk Q) {next : List (Block P)} {block : Block P} {note : DCN P}
    {segs st ys id i cid t} (hr : Rep note cid t) (hf : FirstR next block segs st ys)
    (hfail : (NTree.child i cid t).FailIn Q) :
    Sat (Chunk.new note >>= fun c => expandFirst next block c)
      (fun r => ∃ c s, cid = .ok c ∧ t.spine = .ok s ∧ FirstR r.1 r.2 segs st (tag c s ++ ys))
      (fun e => Q e ∧ ∀ w k pv, AS.D w k ⟨pv, segs, st, (id, .child i cid t) :: ys⟩ = none) := by
  refine Sat.bind' (Chunk.new_sat hr) ?_ ?_
  · rintro c ⟨cd, rfl, hc⟩
    refine (expandFirst_sat Q hQ.overflow hc hf hfail.2).mono ?_ ?_
    · rintro r ⟨s, h1, h2⟩; exact ⟨cd, s, rfl, h1, h2⟩
    · rintro e ⟨h1, f, h2⟩
      exact ⟨h1, fun w k pv => D_none_of_lt (by rw [lt_child_ok]; exact lt_spine_error w cd h2 _ _ _)⟩
  · rintro e (rfl | rfl)
    · exact ⟨hfail.1 _ rfl, fun w k pv => D_none_of_lt (lt_child_error _ _ _ _ _ _ _ _)⟩
    · refine ⟨hfail.2, fun w k pv => D_none_of_lt ?_⟩
      match cid with
      | .error f => exact lt_child_error _ _ _ _ _ _ _ _
      | .ok c => rw [lt_child_ok, lt_cons, lt_single]; rfl

theorem D_choice_none {w : Nat} {k} {pv : List (BSpec P)} {segs st id a b xs} {e : Fail P.Err}
    (h : a.check = .error e ∨ fitsLine w st (a :: (trees xs ++ k)) = .error e ∨
        (a.check = .ok () ∧ fitsLine w st (a :: (trees xs ++ k)) = .ok false ∧ b = .fail e)) :
    AS.D w k ⟨pv, segs, st, (id, .choice a b) :: xs⟩ = none := by
  apply D_none_of_lt
  unfold lt
  rw [lay_choice]
  rcases h with h | h | ⟨h1, h2, rfl⟩
  · simp [h]
  · cases a.check <;> simp [h]
  · simp [h1, h2, lay, NTree.layout]

theorem first_choice (hQ : QOk Q) {w : Nat} {next : List (Block P)} {block : Block P} {a b : DCN P}
    {segs st ys id ta tb} (ha : Rep a (.ok id) ta) (hb : Rep b (.ok id) tb)
    (hf : FirstR next block segs st ys)
    (hfail : (NTree.choice ta tb).FailIn Q) (hys : AllFailIn Q ys) :
    Sat (choose w block a b >>= fun c => expandFirst next block c)
      (fun r => ∃ rr s, ta.check = .ok () ∧ fitsLine w st (ta :: (trees ys ++ [])) = .ok rr ∧
        (if rr then ta else tb).spine = .ok s ∧ FirstR r.1 r.2 segs st (tag id s ++ ys))
      (fun e => Q e ∧ ∀ pv, AS.D w [] ⟨pv, segs, st, (id, .choice ta tb) :: ys⟩ = none) := by
  obtain ⟨items, tail, hys', h1, h2⟩ := hf.items
  have hk : fitsLine w st (ta :: trees items) = fitsLine w st (ta :: (trees ys ++ [])) := by
    rw [List.append_nil, hys']
    exact fitsLine_congr ((h2.kequiv items).cons ta).symm
  have hitems : AllFailIn Q items := by rw [hys'] at hys; exact hys.left
  have hbr : BlockR block ⟨segs, st, items⟩ := ⟨hf.segs, hf.col, hf.eol, h1⟩
  refine Sat.bind' (choose_sat Q hbr ha hb hfail hitems) ?_ ?_
  · rintro c ⟨r, hc1, hc2, hc3⟩
    rw [hk] at hc2
    have hfi : (if r then ta else tb).FailIn Q := by
      cases r
      · exact hfail.2
      · exact hfail.1
    refine (expandFirst_sat Q hQ.overflow hc3 hf hfi).mono ?_ ?_
    · rintro x ⟨s, g1, g2⟩; exact ⟨r, s, hc1, hc2, g1, g2⟩
    · rintro e ⟨g1, f, g2⟩
      refine ⟨g1, fun pv => ?_⟩
      rw [D_choice hc1 hc2]
      exact D_none_of_lt (lt_spine_error w id g2 _ _ _)
  · rintro e ⟨g1, g2⟩
    rw [hk] at g2
    exact ⟨g1, fun pv => D_choice_none g2⟩

theorem last_child (hQ : QOk Q) {prev : List (Block P)} {block : Block P} {note : DCN P}
    {segs st xs after pv id i cid t} (hr : Rep note cid t) (hp : All2 BlockR prev pv)
    (hf : BlockR block ⟨segs, st, xs ++ after⟩)
    (hfail : (NTree.child i cid t).FailIn Q) :
    Sat (Chunk.new note >>= fun c => expandLast prev block c)
      (fun r => ∃ c s pv' b', cid = .ok c ∧ t.spine = .ok s ∧
        Splits ⟨segs, st, tag c s⟩ pv' b' ∧ All2 BlockR r.1 (pv' ++ pv) ∧
        BlockR r.2 ⟨b'.segs, b'.st, b'.items ++ xs ++ after⟩)
      (fun e => Q e ∧ ∀ w k, AS.D w k ⟨pv, segs, st, (id, .child i cid t) :: xs⟩ = none) := by
  refine Sat.bind' (Chunk.new_sat hr) ?_ ?_
  · rintro c ⟨cd, rfl, hc⟩
    refine (expandLast_sat Q hQ.overflow hc hp hf hfail.2).mono ?_ ?_
    · rintro r ⟨s, pv', b', h1, h2, h3, h4⟩
      exact ⟨cd, s, pv', b', rfl, h1, h2, h3, by simpa using h4⟩
    · rintro e ⟨h1, f, h2⟩
      exact ⟨h1, fun w k => D_none_of_lt (by rw [lt_child_ok]; exact lt_spine_error w cd h2 _ _ _)⟩
  · rintro e (rfl | rfl)
    · exact ⟨hfail.1 _ rfl, fun w k => D_none_of_lt (lt_child_error _ _ _ _ _ _ _ _)⟩
    · refine ⟨hfail.2, fun w k => D_none_of_lt ?_⟩
      match cid with
      | .error f => exact lt_child_error _ _ _ _ _ _ _ _
      | .ok c => rw [lt_child_ok, lt_cons, lt_single]; rfl

theorem last_choice (hQ : QOk Q) {w : Nat} {prev : List (Block P)} {block : Block P} {a b : DCN P}
    {segs st xs after pv id ta tb} (ha : Rep a (.ok id) ta) (hb : Rep b (.ok id) tb)
    (hp : All2 BlockR prev pv) (hf : BlockR block ⟨segs, st, xs ++ after⟩)
    (hfail : (NTree.choice ta tb).FailIn Q) (hys : AllFailIn Q (xs ++ after)) :
    Sat (choose w block a b >>= fun c => expandLast prev block c)
      (fun r => ∃ rr s pv' b', ta.check = .ok () ∧
        fitsLine w st (ta :: (trees xs ++ trees after)) = .ok rr ∧
        (if rr then ta else tb).spine = .ok s ∧
        Splits ⟨segs, st, tag id s⟩ pv' b' ∧ All2 BlockR r.1 (pv' ++ pv) ∧
        BlockR r.2 ⟨b'.segs, b'.st, b'.items ++ xs ++ after⟩)
      (fun e => Q e ∧
        AS.D w (trees after) ⟨pv, segs, st, (id, .choice ta tb) :: xs⟩ = none) := by
  refine Sat.bind' (choose_sat Q hf ha hb hfail hys) ?_ ?_
  · rintro c ⟨r, hc1, hc2, hc3⟩
    rw [trees_append] at hc2
    have hfi : (if r then ta else tb).FailIn Q := by
      cases r
      · exact hfail.2
      · exact hfail.1
    refine (expandLast_sat Q hQ.overflow hc3 hp hf hfi).mono ?_ ?_
    · rintro x ⟨s, pv', b', g1, g2, g3, g4⟩
      exact ⟨r, s, pv', b', hc1, hc2, g1, g2, g3, by simpa using g4⟩
    · rintro e ⟨g1, f, g2⟩
      refine ⟨g1, ?_⟩
      rw [D_choice hc1 hc2]
      exact D_none_of_lt (lt_spine_error w id g2 _ _ _)
  · rintro e ⟨g1, g2⟩
    rw [trees_append] at g2
    exact ⟨g1, D_choice_none g2⟩

/-- Appending items to both sides of a split. -/
theorem Splits.append {b : BSpec P} {pv' b'} (h : Splits b pv' b') (ys : List (Item P)) :
    Splits { b with items := b.items ++ ys } pv' { b' with items := b'.items ++ ys } := by
  induction h with
  | refl b => exact .refl _
  | step hw _ ih => simpa using Splits.step hw ih

theorem last_child_adv {w k} {pv pv' : List (BSpec P)} {segs st xs b' id i c t s}
    (hs : t.spine = .ok s) (h : Splits ⟨segs, st, tag c s⟩ pv' b') :
    Adv w k ⟨pv, segs, st, (id, .child i (.ok c) t) :: xs⟩
      ⟨pv' ++ pv, b'.segs, b'.st, b'.items ++ xs⟩ :=
  (AdvR.child.trans (AdvR.spine hs)).trans ((h.append xs).adv w k pv)

theorem last_choice_adv {w k} {pv pv' : List (BSpec P)} {segs st xs b' id a b r s}
    (hc : a.check = .ok ()) (hl : fitsLine w st (a :: (trees xs ++ k)) = .ok r)
    (hs : (if r then a else b).spine = .ok s) (h : Splits ⟨segs, st, tag id s⟩ pv' b') :
    Adv w k ⟨pv, segs, st, (id, .choice a b) :: xs⟩
      ⟨pv' ++ pv, b'.segs, b'.st, b'.items ++ xs⟩ :=
  ((AdvR.choice hc hl).trans (AdvR.spine hs)).trans ((h.append xs).adv w k pv)

theorem sizes_tag_spine {t : NTree P} {s} (h : t.spine = .ok s) (id : P.Id) :
    sizes (trees (tag id s)) ≤ t.size := by
  rw [trees_tag]; exact NTree.spine_sizes h

theorem size_ite_lt {a b : NTree P} (r : Bool) : (if r then a else b).size < (NTree.choice a b).size := by
  cases r <;> simp [NTree.size] <;> omega

theorem failIn_ite {a b : NTree P} {r : Bool} (h : (NTree.choice a b).FailIn Q) :
    (if r then a else b).FailIn Q := by
  cases r
  · exact h.2
  · exact h.1

end PPP
