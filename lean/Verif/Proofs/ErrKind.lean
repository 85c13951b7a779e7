import Verif.Proofs.GreedyLines
import Verif.Proofs.Main
import Verif.Proofs.Toks
/-
Which error a print from the start of the document reports (C15, C36).
-/
namespace PPP
variable {P : PrettyDoc}

/-- What is wrong with displaying a token in a given state, if anything. -/
def tokDefect (st : LineSt) : Tok P → Option (Fail P.Err)
  | .text x =>
    if st.eol then some (.err .textAfterEndOfLine)
    else if st.col + x.width ≤ maxWidth then none
    else some .overflow
  | .nl ind => if segsWidth ind ≤ maxWidth then none else some .overflow
  | _ => none

/-- Some token (not necessarily the first one) has a defect of the kind `e`. -/
def HasDefect (st : LineSt) (T : List (Tok P)) (e : Fail P.Err) : Prop :=
  ∃ A tok C, T = A ++ tok :: C ∧ tokDefect (lineAfter st A) tok = some e

theorem HasDefect.after {st : LineSt} {A T : List (Tok P)} {e} (h : HasDefect (lineAfter st A) T e) :
    HasDefect st (A ++ T) e := by
  obtain ⟨B, tok, C, rfl, h⟩ := h
  exact ⟨A ++ B, tok, C, by simp, by rw [lineAfter_append]; exact h⟩

theorem HasDefect.append {st : LineSt} {A T : List (Tok P)} {e} (h : HasDefect st A e) :
    HasDefect st (A ++ T) e := by
  obtain ⟨B, tok, C, rfl, h⟩ := h
  exact ⟨B, tok, C ++ T, by simp, h⟩

theorem lineAfter_width_le (cur : List (Segment P)) (e : Bool) (T : List (Tok P)) :
    ∃ l ∈ linesFrom cur T, (lineAfter ⟨segsWidth cur, e⟩ T).col = segsWidth l :=
  ⟨_, List.getLast_mem (linesFrom_ne_nil cur T), linesFrom_lastCol cur e T⟩

theorem linesFrom_prefix_wide {A C : List (Tok P)} {n : Nat} : ∀ {cur : List (Segment P)},
    (∃ l ∈ linesFrom cur A, n < segsWidth l) → ∃ l ∈ linesFrom cur (A ++ C), n < segsWidth l := by
  induction A with
  | nil =>
    rintro cur ⟨l, hl, hw⟩
    simp [linesFrom] at hl
    subst hl
    obtain ⟨l', ls, _, h⟩ := linesFrom_head l C
    refine ⟨l ++ l', by simp [h], ?_⟩
    simp [segsWidth] at hw ⊢
    omega
  | cons t A ih =>
    rintro cur ⟨l, hl, hw⟩
    cases t with
    | text x => exact ih ⟨l, hl, hw⟩
    | eol => exact ih ⟨l, hl, hw⟩
    | mark i => exact ih ⟨l, hl, hw⟩
    | nl ind =>
      simp only [linesFrom, List.mem_cons, List.cons_append] at hl ⊢
      rcases hl with rfl | hl
      · exact ⟨l, .inl rfl, hw⟩
      · obtain ⟨l', h1, h2⟩ := ih ⟨l, hl, hw⟩
        exact ⟨l', .inr h1, h2⟩

theorem hasDefect_overflow {T : List (Tok P)} (h : HasDefect ⟨0, false⟩ T .overflow) : TooWide T := by
  obtain ⟨A, tok, C, rfl, h⟩ := h
  have hs : A ++ tok :: C = (A ++ [tok]) ++ C := by simp
  unfold TooWide
  rw [hs]
  refine linesFrom_prefix_wide ?_
  have hc : (lineAfter ⟨0, false⟩ (A ++ [tok])).col > maxWidth := by
    rw [lineAfter_append]
    cases tok with
    | text x =>
      simp only [tokDefect] at h
      split at h
      · simp at h
      · split at h
        · simp at h
        · simp [lineAfter]; omega
    | nl ind =>
      simp only [tokDefect] at h
      split at h
      · simp at h
      · simp [lineAfter]; omega
    | eol => simp [tokDefect] at h
    | mark i => simp [tokDefect] at h
  obtain ⟨l, h1, h2⟩ := lineAfter_width_le [] false (A ++ [tok])
  refine ⟨l, h1, ?_⟩
  rw [← h2]
  exact hc

theorem hasDefect_eol {T : List (Tok P)} (h : HasDefect ⟨0, false⟩ T (.err .textAfterEndOfLine)) :
    EolDefect T := by
  obtain ⟨A, tok, C, rfl, h⟩ := h
  cases tok with
  | text x =>
    simp only [tokDefect] at h
    split at h
    · rename_i he
      rw [lineAfter_eol_iff] at he
      rcases he with he | ⟨he, _⟩
      · unfold lastLine at he
        rw [List.mem_reverse] at he
        obtain ⟨X, Y, hXY⟩ := List.mem_iff_append.1 he
        have hno : ∀ ind : List (Segment P), .nl ind ∉ X := by
          intro ind hX
          have : (Tok.nl ind : Tok P) ∈ A.reverse.takeWhile Tok.notNl := by rw [hXY]; simp [hX]
          have hall := List.all_takeWhile (p := Tok.notNl) (l := A.reverse)
          rw [List.all_eq_true] at hall
          have := hall _ this
          simp [Tok.notNl] at this
        obtain ⟨Z, hZ⟩ : ∃ Z, A.reverse = (X ++ .eol :: Y) ++ Z :=
          ⟨A.reverse.dropWhile Tok.notNl, by rw [← hXY]; exact (List.takeWhile_append_dropWhile).symm⟩
        have hA : A = Z.reverse ++ Y.reverse ++ .eol :: X.reverse := by
          have := congrArg List.reverse hZ
          simpa using this
        refine ⟨Z.reverse ++ Y.reverse, X.reverse, x, C, by rw [hA], ?_⟩
        intro ind
        simpa using hno ind
      · simp at he
    · split at h <;> simp at h
  | nl ind => simp [tokDefect] at h
  | eol => simp [tokDefect] at h
  | mark i => simp [tokDefect] at h

theorem hasDefect_kinds {st : LineSt} {T : List (Tok P)} {e} (h : HasDefect st T e) :
    e = .overflow ∨ e = .err .textAfterEndOfLine := by
  obtain ⟨A, tok, C, _, h⟩ := h
  cases tok with
  | text x =>
    simp only [tokDefect] at h
    split at h
    · simp at h; exact .inr h.symm
    · split at h
      · simp at h
      · simp at h; exact .inl h.symm
  | nl ind =>
    simp only [tokDefect] at h
    split at h
    · simp at h
    · simp at h; exact .inl h.symm
  | eol => simp [tokDefect] at h
  | mark i => simp [tokDefect] at h

/-! ### Greedy layouts of sequences -/

/-- The greedy layout of a sequence of trees. -/
inductive GL (w : Nat) : List (Item P) → LineSt → List (Tok P) → Prop where
  | nil {st} : GL w [] st []
  | cons {id t xs st st' T U} : Greedy w id t (trees xs) st st' T → GL w xs st' U →
      GL w ((id, t) :: xs) st (erase T ++ U)

theorem greedy_congr {w : Nat} {id : P.Id} {t k st st' T} (h : Greedy w id t k st st' T) :
    ∀ {k'}, k.flatMap NTree.seconds = k'.flatMap NTree.seconds → Greedy w id t k' st st' T := by
  induction h with
  | empty => intros; exact .empty
  | mark => intros; exact .mark
  | eol => intros; exact .eol
  | newline => intros; exact .newline
  | text => intros; exact .text
  | child _ ih => intro k' hk; exact .child (ih hk)
  | concat _ _ iha ihb => intro k' hk; exact .concat (iha (by simp [hk])) (ihb hk)
  | choice_first hf _ ih => intro k' hk; exact .choice_first (by simpa [SecondsFit, hk] using hf) (ih hk)
  | choice_second hf _ ih => intro k' hk; exact .choice_second (by simpa [SecondsFit, hk] using hf) (ih hk)

theorem spine_seconds {t : NTree P} : ∀ {s}, t.spine = .ok s → s.flatMap NTree.seconds = t.seconds := by
  induction t with
  | concat a b iha ihb =>
    intro s h
    obtain ⟨sa, sb, ha, hb, rfl⟩ := NTree.spine_concat_ok h
    simp [NTree.seconds, iha ha, ihb hb]
  | newline ind =>
    intro s h; simp [NTree.spine] at h; split at h <;> simp at h; subst h; simp
  | _ => intro s h; simp [NTree.spine] at h; try (subst h; simp [NTree.seconds])

theorem GL.spine {w : Nat} {id : P.Id} {t : NTree P} : ∀ {s xs st T}, t.spine = .ok s →
    GL w ((id, t) :: xs) st T → GL w (tag id s ++ xs) st T := by
  induction t with
  | concat a b iha ihb =>
    intro s xs st T h hg
    obtain ⟨sa, sb, ha, hb, rfl⟩ := NTree.spine_concat_ok h
    cases hg with
    | cons h1 h2 =>
      cases h1 with
      | concat g1 g2 =>
        rw [erase_append, List.append_assoc, tag_append, List.append_assoc]
        refine iha ha (.cons (greedy_congr g1 ?_) (ihb hb (.cons g2 h2)))
        simp [trees_append, trees_tag, spine_seconds hb]
  | newline ind =>
    intro s xs st T h hg; simp [NTree.spine] at h; split at h <;> simp at h; subst h; exact hg
  | empty =>
    intro s xs st T h hg; simp [NTree.spine] at h; subst h
    cases hg with
    | cons h1 h2 => cases h1; exact h2
  | fail f => intro s xs st T h hg; simp [NTree.spine] at h
  | _ => intro s xs st T h hg; simp [NTree.spine] at h; subst h; exact hg

theorem greedy_spine_error {w : Nat} {id : P.Id} {t : NTree P} (hn : t.NoFail) : ∀ {f k st st' T},
    t.spine = .error f → Greedy w id t k st st' T → HasDefect st (erase T) .overflow := by
  induction t with
  | fail f => exact hn.elim
  | newline ind =>
    intro f k st st' T h hg
    simp only [NTree.spine] at h
    split at h
    · simp at h
    · rename_i hw
      cases hg
      exact ⟨[], .nl ind, [], rfl, by simp [tokDefect, hw]⟩
  | concat a b iha ihb =>
    intro f k st st' T h hg
    cases hg with
    | concat h1 h2 =>
      rw [erase_append]
      cases ha : a.spine with
      | error f => exact (iha hn.1 ha h1).append
      | ok sa =>
        cases hb : b.spine with
        | error f =>
          refine HasDefect.after ?_
          rw [← greedy_lineAfter h1]
          exact ihb hn.2 hb h2
        | ok sb => simp [NTree.spine, ha, hb, Except.bind_eq] at h
  | _ => intro f k st st' T h; simp [NTree.spine] at h

/-! ### The downward loops -/

/-- Only overflows. -/
def ovf (P : PrettyDoc) : Pred P := ⟨fun e => e = .overflow, fun _ => True, fun _ => True⟩

theorem noFail_failIn {t : NTree P} (hn : t.NoFail) (Q : Fail P.Err → Prop) :
    t.FailIn ⟨Q, fun _ => True, fun _ => True⟩ := by
  induction t with
  | fail f => exact hn.elim
  | concat a b iha ihb => exact ⟨iha hn.1, ihb hn.2⟩
  | choice a b iha ihb => exact ⟨iha hn.1, ihb hn.2⟩
  | child i id t ih =>
    obtain ⟨⟨i, rfl⟩, h⟩ := hn
    exact ⟨by simp, ih h⟩
  | _ => trivial

/-- None of the items can fail. -/
def AllNoFail (xs : List (Item P)) : Prop := ∀ x ∈ xs, x.2.NoFail

theorem AllNoFail.failIn {xs : List (Item P)} (h : AllNoFail xs) (Q : Fail P.Err → Prop) :
    AllFailIn ⟨Q, fun _ => True, fun _ => True⟩ xs := fun x hx => noFail_failIn (h x hx) Q

theorem spine_noFail {t : NTree P} (hn : t.NoFail) : ∀ {s}, t.spine = .ok s → ∀ id, AllNoFail (tag id s) := by
  induction t with
  | concat a b iha ihb =>
    intro s h id
    obtain ⟨sa, sb, ha, hb, rfl⟩ := NTree.spine_concat_ok h
    rw [tag_append]
    intro x hx
    rcases List.mem_append.1 hx with hx | hx
    · exact iha hn.1 ha id x hx
    · exact ihb hn.2 hb id x hx
  | newline ind =>
    intro s h id; simp [NTree.spine] at h; split at h <;> simp at h; subst h
    intro x hx; simp at hx; subst hx; trivial
  | fail f => exact hn.elim
  | empty => intro s h id; simp [NTree.spine] at h; subst h; intro x hx; simp at hx
  | _ =>
    intro s h id; simp [NTree.spine] at h; subst h
    intro x hx; simp at hx; subst hx; exact hn

theorem AllNoFail.append {xs ys : List (Item P)} (h : AllNoFail xs) (h' : AllNoFail ys) :
    AllNoFail (xs ++ ys) := by
  intro x hx
  rcases List.mem_append.1 hx with hx | hx
  · exact h x hx
  · exact h' x hx

theorem printNextLoop_err (w : Nat) (n : Nat) :
    ∀ {next : List (Block P)} {block : Block P} {segs st ys T},
    FirstR next block segs st ys → AllNoFail ys → GL w ys st T → sizes (trees ys) ≤ n →
    Sat (printNextLoop w next block)
      (fun r => ∃ st' tail T1 T2, RestR r.2 tail ∧ AllNoFail tail ∧ GL w tail st' T2 ∧ T = T1 ++ T2 ∧
        lineAfter st T1 = st' ∧ sizes (trees tail) ≤ sizes (trees ys))
      (fun e => HasDefect st T e) := by
  induction n with
  | zero =>
    intro next block segs st ys T hf hfail hg hn
    rw [printNextLoop.eq_def]
    cases hc : block.chunks with
    | nil =>
      simp only [Block.print, hc]
      exact ⟨st, ys, [], T, hf.nil hc, hfail, hg, rfl, rfl, Nat.le_refl _⟩
    | cons c cs =>
      obtain ⟨x, ys', rfl, _⟩ := hf.with_chunks hc
      have := x.2.size_pos; simp at hn; omega
  | succ n ih =>
    intro next block segs st ys T hf hfail hg hn
    rw [printNextLoop.eq_def]
    cases hc : block.chunks with
    | nil =>
      simp only [Block.print, hc]
      exact ⟨st, ys, [], T, hf.nil hc, hfail, hg, rfl, rfl, Nat.le_refl _⟩
    | cons c cs =>
      obtain ⟨⟨id, t⟩, ys, rfl, ⟨hid, hcr⟩, hat, hf'⟩ := hf.with_chunks hc
      obtain ⟨cn, cid⟩ := c
      simp only at hid hcr hat
      subst hid
      simp only [trees_cons, sizes_cons] at hn
      have hhead : t.NoFail := hfail (cid, t) (by simp)
      have hys : AllNoFail ys := fun x hx => hfail x (by simp [hx])
      have step : ∀ {next' : List (Block P)} {block' : Block P} {segs' st' ys' T1 T'},
          FirstR next' block' segs' st' ys' → AllNoFail ys' → GL w ys' st' T' →
          sizes (trees ys') < t.size + sizes (trees ys) → T = T1 ++ T' → lineAfter st T1 = st' →
          Sat (printNextLoop w next' block')
            (fun r => ∃ st' tail T1 T2, RestR r.2 tail ∧ AllNoFail tail ∧ GL w tail st' T2 ∧
              T = T1 ++ T2 ∧ lineAfter st T1 = st' ∧
              sizes (trees tail) ≤ sizes (trees ((cid, t) :: ys)))
            (fun e => HasDefect st T e) := by
        rintro next' block' segs' st' ys' T1 T' h1 h2 h3 h4 rfl rfl
        refine (ih h1 h2 h3 (by omega)).mono ?_ ?_
        · rintro r ⟨st2, tail, U1, U2, g1, g2, g3, rfl, g5, g6⟩
          refine ⟨st2, tail, T1 ++ U1, U2, g1, g2, g3, by simp, by rw [lineAfter_append]; exact g5, ?_⟩
          simp only [trees_cons, sizes_cons]; omega
        · intro e he
          exact he.after
      simp only []
      cases hcr with
      | empty => exact hat.elim
      | newline => exact hat.elim
      | concat => exact hat.elim
      | mark =>
        cases hg with
        | cons h1 h2 =>
          cases h1
          exact step hf' hys h2 (by simp [NTree.size]) rfl rfl
      | eol =>
        cases hg with
        | cons h1 h2 =>
          cases h1
          exact step (st' := ⟨st.col, true⟩) ⟨hf'.segs, hf'.col, rfl, hf'.items⟩ hys h2
            (by simp [NTree.size]) rfl rfl
      | @text t =>
        cases hg with
        | cons h1 h2 =>
          cases h1
          have hcol : block.prefixLen = st.col := hf'.col
          have heol : block.atEol = st.eol := hf'.eol
          unfold Block.pushText
          simp only [hcol, heol]
          by_cases h3 : st.eol = true
          · simp only [h3, if_true]
            exact ⟨[], .text t, _, rfl, by simp [tokDefect, lineAfter, h3]⟩
          · rw [if_neg h3]
            by_cases h4 : st.col + t.width ≤ maxWidth
            · rw [if_pos h4, Exec.pure_bind']
              refine step (segs' := segs ++ [⟨t.str, t.width, t.style⟩]) ?_ hys h2 (by simp [NTree.size]) rfl rfl
              exact ⟨by rw [← hf'.segs], rfl, rfl, hf'.items⟩
            · rw [if_neg h4]
              exact ⟨[], .text t, _, rfl, by simp [tokDefect, lineAfter, h3, h4]⟩
      | @child i note cd t hr =>
        obtain ⟨⟨cd, rfl⟩, hnt⟩ := hhead
        cases hg with
        | cons h1 h2 =>
          cases h1 with
          | child h1 =>
            refine Sat.bind' (Chunk.new_sat hr) ?_ ?_
            · rintro c ⟨_, hcd, hc⟩
              injection hcd with hcd
              subst hcd
              refine Sat.bind' (expandFirst_sat (ovf P) rfl hc hf' (noFail_failIn hnt _)) ?_ ?_
              · rintro ⟨next', block'⟩ ⟨s, g1, g2⟩
                have hsz := sizes_tag_spine g1 cd
                refine step g2 ((spine_noFail hnt g1 cd).append hys) (GL.spine g1 (.cons h1 h2)) ?_
                  (T1 := []) rfl rfl
                simp only at hsz
                simp only [trees_append, sizes_append, NTree.size]; omega
              · rintro e ⟨he, f, g1⟩
                change e = .overflow at he
                subst he
                exact (greedy_spine_error hnt g1 h1).append
            · rintro e (he | rfl)
              · simp at he
              · exact hnt.elim
      | @choice a b ta tb ha hb =>
        have hitems := hf'.items
        obtain ⟨items, tail, hys', q1, q2⟩ := hitems
        have hk : fitsLine w st (ta :: trees items) = fitsLine w st (ta :: trees ys) := by
          rw [hys']
          exact fitsLine_congr ((q2.kequiv items).cons ta).symm
        have hnf : AllNoFail items := by
          rw [hys'] at hys
          exact fun x hx => hys x (by simp [hx])
        refine Sat.bind' (choose_sat (w := w) ⟨fun _ => False, fun _ => True, fun _ => True⟩
          (⟨hf'.segs, hf'.col, hf'.eol, q1⟩ : BlockR _ ⟨segs, st, items⟩) ha hb
          (noFail_failIn (t := .choice ta tb) hhead _) (hnf.failIn _)) ?_ ?_
        · rintro c ⟨r, g1, g2, g3⟩
          rw [hk] at g2
          have hg' : GL w ((cid, if r then ta else tb) :: ys) st T := by
            have hspec := fitsLine_spec g2
            cases hg with
            | cons h1 h2 =>
              cases h1 with
              | choice_first hf1 h1 =>
                rw [hspec.1 hf1, if_pos rfl]
                have := GL.cons h1 h2
                exact this
              | choice_second hf1 h1 =>
                have hr : r = false := by
                  cases r with
                  | false => rfl
                  | true => exact absurd (hspec.2 rfl) hf1
                rw [hr, if_neg (by simp)]
                have := GL.cons h1 h2
                exact this
          have hnr : (if r then ta else tb).NoFail := by
            cases r
            · exact hhead.2
            · exact hhead.1
          refine Sat.bind' (expandFirst_sat (ovf P) rfl g3 hf' (noFail_failIn hnr _)) ?_ ?_
          · rintro ⟨next', block'⟩ ⟨s, m1, m2⟩
            have hsz := sizes_tag_spine m1 cid
            have hlt := size_ite_lt (a := ta) (b := tb) r
            refine step m2 ((spine_noFail hnr m1 cid).append hys) (GL.spine m1 hg') ?_ (T1 := []) rfl rfl
            simp only [trees_append, sizes_append]; simp only at hsz; omega
          · rintro e ⟨he, f, m1⟩
            change e = .overflow at he
            subst he
            cases hg' with
            | cons h1 h2 => exact (greedy_spine_error hnr m1 h1).append
        · rintro e ⟨he, _⟩
          exact he.elim

theorem toStringLoop_err (w : Nat) (n : Nat) : ∀ {p : Printer P} {tail st T s}, p.width = w →
    RestR p.next tail → AllNoFail tail → GL w tail st T → sizes (trees tail) ≤ n →
    Sat (toStringLoop s p) (fun _ => True) (fun e => HasDefect st T e) := by
  induction n with
  | zero =>
    intro p tail st T s hw hr hn hg hsz
    rcases hr.uncons with ⟨h1, rfl⟩ | ⟨b, bs, id, ys', h1, rfl, _⟩
    · rw [toStringLoop.eq_def]
      simp only [Printer.nextDown, Printer.printNextLine, h1]
      trivial
    · simp [NTree.size] at hsz
  | succ n ih =>
    intro p tail st T s hw hr hn hg hsz
    rcases hr.uncons with ⟨h1, rfl⟩ | ⟨b, bs, id, ys', h1, rfl, h2, h3⟩
    · rw [toStringLoop.eq_def]
      simp only [Printer.nextDown, Printer.printNextLine, h1]
      trivial
    · rw [toStringLoop.eq_def]
      simp only [Printer.nextDown, Printer.printNextLine, h1, hw, bind_assoc]
      cases hg with
      | cons g1 g2 =>
        cases g1
        refine Sat.bind' (printNextLoop_err w _ h3 (fun x hx => hn x (by simp [hx])) g2 (Nat.le_refl _)) ?_ ?_
        · rintro ⟨line, next'⟩ ⟨st', tail', T1, T2, k1, k2, k3, rfl, rfl, k6⟩
          simp only [trees_cons, sizes_cons, NTree.size] at hsz
          simp only [Exec.pure_bind']
          refine (ih (p := ⟨w, p.prev, next'⟩) rfl k1 k2 k3 (by omega)).mono (fun _ h => h) ?_
          intro e he
          exact HasDefect.after (A := [.nl b.segments]) (he.after (A := T1))
        · intro e he
          exact he.after (A := [.nl b.segments])

/-- A print of a whole document that matches its notations fails only with a defect of its greedy
    layout. -/
theorem toString_err (law : P.Lawful) {doc : P.Node} {id t} (w : Nat)
    (hr : rootTree law doc none = .ok (id, t)) (hn : t.NoFail) {T} (hg : GreedyDoc w id t T) :
    Sat (prettyPrintToString doc w) (fun _ => True) (fun e => HasDefect ⟨0, false⟩ (erase T) e) := by
  obtain ⟨d, hd, hrep⟩ := rootTree_rep law doc none hr
  obtain ⟨stf, hg⟩ := hg
  unfold prettyPrintToString prettyPrint
  have hnew : Printer.new (P := P) w = Exec.ofRes (.ok ⟨w, [], [⟨[], 0, false, []⟩]⟩) := by
    simp [Printer.new, Block.new, segsWidth, Exec.pure_eq]
  rw [hnew]
  simp only [Exec.ofRes_ok_bind, bind_assoc]
  unfold Printer.seek
  simp only [bind_assoc]
  rw [hd, Exec.ofRes_ok_bind]
  refine Sat.bind' (Chunk.new_sat_ok hrep) ?_ ?_
  · intro chunk hc
    simp only [Printer.seekPath, Exec.pure_bind', Printer.seekStart, bind_assoc]
    refine Sat.bind' (expandFirst_sat (ovf P) rfl (ys := []) hc
      (⟨rfl, rfl, rfl, [], [], rfl, .nil, .nil⟩ :
        FirstR [] ⟨[], 0, false, []⟩ [] ⟨0, false⟩ []) (noFail_failIn hn _)) ?_ ?_
    · rintro ⟨next', block'⟩ ⟨s, h1, h2⟩
      simp only [Exec.pure_bind']
      simp only [Printer.printNextLine, bind_assoc]
      have hgl : GL w ((id, t) :: []) ⟨0, false⟩ (erase T ++ []) := .cons hg .nil
      rw [List.append_nil] at hgl
      refine Sat.bind' (printNextLoop_err w _ h2 ((spine_noFail hn h1 id).append (fun x hx => by simp at hx))
        (GL.spine h1 hgl) (Nat.le_refl _)) ?_ ?_
      · rintro ⟨line, next''⟩ ⟨st', tail', T1, T2, k1, k2, k3, k4, rfl, k6⟩
        simp only [Exec.pure_bind']
        rw [h2.segs]
        simp only [List.length_nil, Nat.not_lt_zero, gt_iff_lt, if_false]
        refine (toStringLoop_err w _ (p := ⟨w, _, next''⟩) rfl k1 k2 k3 (Nat.le_refl _)).mono (fun _ h => h) ?_
        intro e he
        rw [k4]
        exact he.after
      · intro e he; exact he
    · rintro e ⟨he, f, h1⟩
      change e = .overflow at he
      subst he
      exact greedy_spine_error hn h1 hg
  · rintro e rfl
    exact hn.elim

end PPP
