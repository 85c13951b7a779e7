import Verif.Proofs.ErrKind
import Verif.Proofs.Stuck
/-
Documents in which no text can come after an end-of-line mark, however choices are taken and wherever
looking at the document fails.
-/
namespace PPP
variable {P : PrettyDoc}

/-- `t.EolOut e e'`: after displaying `t`, an end-of-line mark may be pending (`e' = true`) or not,
    when it is before (`e`). -/
def NTree.EolOut : NTree P → Bool → Bool → Prop
  | .fail _, _, _ => False
  | .empty, e, e' => e' = e
  | .mark, e, e' => e' = e
  | .text _, e, e' => e' = e
  | .eol, _, e' => e' = true
  | .newline _, _, e' => e' = false
  | .concat a b, e, e' => ∃ m, a.EolOut e m ∧ b.EolOut m e'
  | .choice a b, e, e' => a.EolOut e e' ∨ b.EolOut e e'
  | .child _ _ t, e, e' => t.EolOut e e'

/-- No text of `t` comes after an end-of-line mark, when one may be pending before (`e`). -/
def NTree.EolSafe : NTree P → Bool → Prop
  | .text _, e => e = false
  | .concat a b, e => a.EolSafe e ∧ ∀ m, a.EolOut e m → b.EolSafe m
  | .choice a b, e => a.EolSafe e ∧ b.EolSafe e
  | .child _ _ t, e => t.EolSafe e
  | _, _ => True

/-- The same for a sequence of trees. -/
def SeqSafe : List (NTree P) → Bool → Prop
  | [], _ => True
  | t :: k, e => t.EolSafe e ∧ ∀ m, t.EolOut e m → SeqSafe k m

/-- The status after a sequence of trees. -/
def SeqOut : List (NTree P) → Bool → Bool → Prop
  | [], e, e' => e' = e
  | t :: k, e, e' => ∃ m, t.EolOut e m ∧ SeqOut k m e'

theorem seqOut_append {xs ys : List (NTree P)} : ∀ {e e'}, SeqOut (xs ++ ys) e e' ↔
    ∃ m, SeqOut xs e m ∧ SeqOut ys m e' := by
  induction xs with
  | nil => intro e e'; simp [SeqOut]
  | cons t xs ih =>
    intro e e'
    simp only [List.cons_append, SeqOut, ih]
    constructor
    · rintro ⟨m, h1, m', h2, h3⟩; exact ⟨m', ⟨m, h1, h2⟩, h3⟩
    · rintro ⟨m', ⟨m, h1, h2⟩, h3⟩; exact ⟨m, h1, m', h2, h3⟩

theorem seqSafe_append {xs ys : List (NTree P)} : ∀ {e}, SeqSafe (xs ++ ys) e ↔
    SeqSafe xs e ∧ ∀ m, SeqOut xs e m → SeqSafe ys m := by
  induction xs with
  | nil => intro e; simp [SeqSafe, SeqOut]
  | cons t xs ih =>
    intro e
    simp only [List.cons_append, SeqSafe, SeqOut, ih]
    constructor
    · rintro ⟨h1, h2⟩
      exact ⟨⟨h1, fun m hm => (h2 m hm).1⟩, fun m' ⟨m, hm, hm'⟩ => (h2 m hm).2 m' hm'⟩
    · rintro ⟨⟨h1, h2⟩, h3⟩
      exact ⟨h1, fun m hm => ⟨h2 m hm, fun m' hm' => h3 m' ⟨m, hm, hm'⟩⟩⟩

theorem spine_out {t : NTree P} : ∀ {s}, t.spine = .ok s → ∀ {e e'}, SeqOut s e e' ↔ t.EolOut e e' := by
  induction t with
  | concat a b iha ihb =>
    intro s h e e'
    obtain ⟨sa, sb, ha, hb, rfl⟩ := NTree.spine_concat_ok h
    rw [seqOut_append]
    simp only [iha ha, ihb hb, NTree.EolOut]
  | newline ind =>
    intro s h e e'; simp [NTree.spine] at h; split at h <;> simp at h; subst h; simp [SeqOut]
  | _ => intro s h e e'; simp [NTree.spine] at h; try (subst h; simp [SeqOut, NTree.EolOut])

theorem spine_safe {t : NTree P} : ∀ {s}, t.spine = .ok s → ∀ {e}, t.EolSafe e → SeqSafe s e := by
  induction t with
  | concat a b iha ihb =>
    intro s h e hs
    obtain ⟨sa, sb, ha, hb, rfl⟩ := NTree.spine_concat_ok h
    rw [seqSafe_append]
    exact ⟨iha ha hs.1, fun m hm => ihb hb (hs.2 m ((spine_out ha).1 hm))⟩
  | newline ind =>
    intro s h e hs; simp [NTree.spine] at h; split at h <;> simp at h; subst h; simp [SeqSafe, NTree.EolSafe]
  | _ => intro s h e hs; simp [NTree.spine] at h; try (subst h; simp [SeqSafe]; try exact hs)

/-- Replace the first tree by its spine. -/
theorem SeqSafe.spine {id : P.Id} {t : NTree P} {s xs e} (h : t.spine = .ok s)
    (hs : SeqSafe (t :: trees xs) e) : SeqSafe (trees (tag id s ++ xs)) e := by
  rw [trees_append, trees_tag, seqSafe_append]
  exact ⟨spine_safe h hs.1, fun m hm => hs.2 m ((spine_out h).1 hm)⟩

/-- Anything but a text after an end-of-line mark. -/
def notEol (P : PrettyDoc) : Pred P := ⟨fun e => e ≠ .err .textAfterEndOfLine, fun _ => True, fun _ => True⟩

theorem printNextLoop_safe (w : Nat) (n : Nat) :
    ∀ {next : List (Block P)} {block : Block P} {segs st ys},
    FirstR next block segs st ys → AllFailIn (notEol P) ys → SeqSafe (trees ys) st.eol → sizes (trees ys) ≤ n →
    Sat (printNextLoop w next block)
      (fun r => ∃ e' tail, RestR r.2 tail ∧ AllFailIn (notEol P) tail ∧ SeqSafe (trees tail) e' ∧
        sizes (trees tail) ≤ sizes (trees ys))
      (fun e => e ≠ .err .textAfterEndOfLine) := by
  induction n with
  | zero =>
    intro next block segs st ys hf hfail hg hn
    rw [printNextLoop.eq_def]
    cases hc : block.chunks with
    | nil =>
      simp only [Block.print, hc]
      exact ⟨st.eol, ys, hf.nil hc, hfail, hg, Nat.le_refl _⟩
    | cons c cs =>
      obtain ⟨x, ys', rfl, _⟩ := hf.with_chunks hc
      have := x.2.size_pos; simp at hn; omega
  | succ n ih =>
    intro next block segs st ys hf hfail hg hn
    rw [printNextLoop.eq_def]
    cases hc : block.chunks with
    | nil =>
      simp only [Block.print, hc]
      exact ⟨st.eol, ys, hf.nil hc, hfail, hg, Nat.le_refl _⟩
    | cons c cs =>
      obtain ⟨⟨id, t⟩, ys, rfl, ⟨hid, hcr⟩, hat, hf'⟩ := hf.with_chunks hc
      obtain ⟨cn, cid⟩ := c
      simp only at hid hcr hat
      subst hid
      simp only [trees_cons, sizes_cons] at hn
      have hhead : t.FailIn (notEol P) := hfail.head
      have hys : AllFailIn (notEol P) ys := hfail.tail
      rw [trees_cons] at hg
      have step : ∀ {next' : List (Block P)} {block' : Block P} {segs' st' ys'},
          FirstR next' block' segs' st' ys' → AllFailIn (notEol P) ys' → SeqSafe (trees ys') st'.eol →
          sizes (trees ys') < t.size + sizes (trees ys) →
          Sat (printNextLoop w next' block')
            (fun r => ∃ e' tail, RestR r.2 tail ∧ AllFailIn (notEol P) tail ∧ SeqSafe (trees tail) e' ∧
              sizes (trees tail) ≤ sizes (trees ((cid, t) :: ys)))
            (fun e => e ≠ .err .textAfterEndOfLine) := by
        rintro next' block' segs' st' ys' h1 h2 h3 h4
        refine (ih h1 h2 h3 (by omega)).mono ?_ (fun _ h => h)
        rintro r ⟨e', tail, g1, g2, g3, g6⟩
        refine ⟨e', tail, g1, g2, g3, ?_⟩
        simp only [trees_cons, sizes_cons]; omega
      simp only []
      cases hcr with
      | empty => exact hat.elim
      | newline => exact hat.elim
      | concat => exact hat.elim
      | mark => exact step hf' hys (hg.2 _ rfl) (by simp [NTree.size])
      | eol =>
        exact step (st' := ⟨st.col, true⟩) ⟨hf'.segs, hf'.col, rfl, hf'.items⟩ hys (hg.2 _ rfl)
          (by simp [NTree.size])
      | @text t =>
        have hcol : block.prefixLen = st.col := hf'.col
        have heol : block.atEol = st.eol := hf'.eol
        unfold Block.pushText
        simp only [hcol, heol]
        have h3 : st.eol = false := hg.1
        rw [if_neg (by simp [h3])]
        by_cases h4 : st.col + t.width ≤ maxWidth
        · rw [if_pos h4, Exec.pure_bind']
          refine step (segs' := segs ++ [⟨t.str, t.width, t.style⟩]) (st' := ⟨st.col + t.width, st.eol⟩) ?_ hys
            (hg.2 _ rfl) (by simp [NTree.size])
          exact ⟨by rw [← hf'.segs], rfl, rfl, hf'.items⟩
        · rw [if_neg h4]
          intro h; cases h
      | @child i note cd t hr =>
        refine Sat.bind' (Chunk.new_sat hr) ?_ ?_
        · rintro c ⟨cd, rfl, hc⟩
          refine Sat.bind' (expandFirst_sat (notEol P) (by simp [notEol]) hc hf' hhead.2) ?_ ?_
          · rintro ⟨next', block'⟩ ⟨s, g1, g2⟩
            have hsz := sizes_tag_spine g1 cd
            refine step g2 ((NTree.FailIn.spine hhead.2 g1 cd).append hys) (SeqSafe.spine g1 hg) ?_
            simp only at hsz
            simp only [trees_append, sizes_append, NTree.size]; omega
          · rintro e ⟨he, _⟩; exact he
        · rintro e (rfl | rfl)
          · exact hhead.1 _ rfl
          · exact hhead.2
      | @choice a b ta tb ha hb =>
        have hitems := hf'.items
        obtain ⟨items, tail, hys', q1, q2⟩ := hitems
        have hnf : AllFailIn (notEol P) items := by
          rw [hys'] at hys
          exact fun x hx => hys x (by simp [hx])
        refine Sat.bind' (choose_sat (w := w) (notEol P)
          (⟨hf'.segs, hf'.col, hf'.eol, q1⟩ : BlockR _ ⟨segs, st, items⟩) ha hb hhead hnf) ?_ ?_
        · rintro c ⟨r, g1, g2, g3⟩
          have hfr : (if r then ta else tb).FailIn (notEol P) := by
            cases r
            · exact hhead.2
            · exact hhead.1
          have hgr : SeqSafe ((if r then ta else tb) :: trees ys) st.eol := by
            cases r
            · exact ⟨hg.1.2, fun m hm => hg.2 m (.inr hm)⟩
            · exact ⟨hg.1.1, fun m hm => hg.2 m (.inl hm)⟩
          refine Sat.bind' (expandFirst_sat (notEol P) (by simp [notEol]) g3 hf' hfr) ?_ ?_
          · rintro ⟨next', block'⟩ ⟨s, m1, m2⟩
            have hsz := sizes_tag_spine m1 cid
            have hlt := size_ite_lt (a := ta) (b := tb) r
            refine step m2 ((NTree.FailIn.spine hfr m1 cid).append hys) (SeqSafe.spine m1 hgr) ?_
            simp only [trees_append, sizes_append]; simp only at hsz; omega
          · rintro e ⟨he, _⟩; exact he
        · rintro e ⟨he, _⟩
          exact he

theorem toStringLoop_safe (w : Nat) (n : Nat) : ∀ {p : Printer P} {tail e0 s}, p.width = w →
    RestR p.next tail → AllFailIn (notEol P) tail → SeqSafe (trees tail) e0 → sizes (trees tail) ≤ n →
    Sat (toStringLoop s p) (fun _ => True) (fun e => e ≠ .err .textAfterEndOfLine) := by
  induction n with
  | zero =>
    intro p tail st s hw hr hn hg hsz
    rcases hr.uncons with ⟨h1, rfl⟩ | ⟨b, bs, id, ys', h1, rfl, _⟩
    · rw [toStringLoop.eq_def]
      simp only [Printer.nextDown, Printer.printNextLine, h1]
      trivial
    · simp [NTree.size] at hsz
  | succ n ih =>
    intro p tail st s hw hr hn hg hsz
    rcases hr.uncons with ⟨h1, rfl⟩ | ⟨b, bs, id, ys', h1, rfl, h2, h3⟩
    · rw [toStringLoop.eq_def]
      simp only [Printer.nextDown, Printer.printNextLine, h1]
      trivial
    · rw [toStringLoop.eq_def]
      simp only [Printer.nextDown, Printer.printNextLine, h1, hw, bind_assoc]
      rw [trees_cons] at hg
      refine Sat.bind' (printNextLoop_safe w _ h3 hn.tail (hg.2 false rfl) (Nat.le_refl _)) ?_ ?_
      · rintro ⟨line, next'⟩ ⟨e', tail', k1, k2, k3, k6⟩
        simp only [trees_cons, sizes_cons, NTree.size] at hsz
        simp only [Exec.pure_bind']
        exact ih (p := ⟨w, p.prev, next'⟩) rfl k1 k2 k3 (by omega)
      · intro e he
        exact he

/-- Printing a whole document in which no text can come after an end-of-line mark never reports one. -/
theorem toString_safe (law : P.Lawful) {doc : P.Node} {id t} (w : Nat)
    (hr : rootTree law doc none = .ok (id, t)) (hn : t.FailIn (notEol P)) (hg : t.EolSafe false) :
    Sat (prettyPrintToString doc w) (fun _ => True) (fun e => e ≠ .err .textAfterEndOfLine) := by
  obtain ⟨d, hd, hrep⟩ := rootTree_rep law doc none hr
  unfold prettyPrintToString prettyPrint
  have hnew : Printer.new (P := P) w = Exec.ofRes (.ok ⟨w, [], [⟨[], 0, false, []⟩]⟩) := by
    simp [Printer.new, Block.new, segsWidth, Exec.pure_eq]
  rw [hnew]
  simp only [Exec.ofRes_ok_bind, bind_assoc]
  unfold Printer.seek
  simp only [bind_assoc]
  rw [hd, Exec.ofRes_ok_bind]
  refine Sat.bind' (Chunk.new_sat_ok hrep) ?_ ?_
  · intro chunk hc
    simp only [Printer.seekPath, Exec.pure_bind', Printer.seekStart, bind_assoc]
    refine Sat.bind' (expandFirst_sat (notEol P) (by simp [notEol]) (ys := []) hc
      (⟨rfl, rfl, rfl, [], [], rfl, .nil, .nil⟩ :
        FirstR [] ⟨[], 0, false, []⟩ [] ⟨0, false⟩ []) hn) ?_ ?_
    · rintro ⟨next', block'⟩ ⟨s, h1, h2⟩
      simp only [Exec.pure_bind']
      simp only [Printer.printNextLine, bind_assoc]
      refine Sat.bind' (printNextLoop_safe w _ h2 ((NTree.FailIn.spine hn h1 id).append (fun x hx => by simp at hx))
        (SeqSafe.spine (xs := []) h1 ⟨hg, fun m hm => trivial⟩) (Nat.le_refl _)) ?_ ?_
      · rintro ⟨line, next''⟩ ⟨e', tail', k1, k2, k3, k6⟩
        simp only [Exec.pure_bind']
        rw [h2.segs]
        simp only [List.length_nil, Nat.not_lt_zero, gt_iff_lt, if_false]
        exact toStringLoop_safe w _ (p := ⟨w, _, next''⟩) rfl k1 k2 k3 (Nat.le_refl _)
      · intro e he; exact he
    · rintro e ⟨he, _⟩
      exact he
  · rintro e rfl
    exact hn

end PPP
