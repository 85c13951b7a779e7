import Verif.Proofs.OraclePp
/-
The oracle printer always stops; and what it prints is the layout, even of documents that do not match
their notations.
-/
namespace PPP
variable {P : PrettyDoc}

theorem NTree.SecondsOk.check {t : NTree P} (h : t.SecondsOk) : t.check = .ok () := by
  cases t <;> first | rfl | exact absurd h (by simp [NTree.SecondsOk])

theorem fit_secondsOk {t : NTree P} (h : t.SecondsOk) : ∀ rem e, ∃ o, t.fit rem e = .ok o := by
  induction t with
  | fail f => exact absurd h (by simp [NTree.SecondsOk])
  | text x =>
    intro rem e
    simp only [NTree.fit]
    split
    · exact ⟨_, rfl⟩
    · split <;> exact ⟨_, rfl⟩
  | child i c t ih => intro rem e; exact ih h rem e
  | choice a b _ ihb => intro rem e; exact ihb h rem e
  | concat a b iha ihb =>
    intro rem e
    obtain ⟨oa, ha⟩ := iha h.1 rem e
    simp only [NTree.fit, h.1.check, h.2.check, ha, Except.bind_eq]
    cases oa with
    | done r => exact ⟨_, rfl⟩
    | more r' e' => exact ihb h.2 r' e'
  | _ => intro rem e; exact ⟨_, rfl⟩

theorem fitK_secondsOk {k : List (NTree P)} (h : ∀ t ∈ k, t.SecondsOk) : ∀ rem e, ∃ r, fitK k rem e = .ok r := by
  induction k with
  | nil => intro rem e; exact ⟨_, rfl⟩
  | cons t k ih =>
    intro rem e
    obtain ⟨o, ho⟩ := fit_secondsOk (h t (by simp)) rem e
    simp only [fitK, ho, Except.bind_eq]
    cases o with
    | done r => exact ⟨_, rfl⟩
    | more r' e' => exact ih (fun t ht => h t (by simp [ht])) r' e'

theorem fitsLine_secondsOk {k : List (NTree P)} (h : ∀ t ∈ k, t.SecondsOk) (w st) :
    ∃ r, fitsLine w st k = .ok r ∧ (SecondsFit w st k ↔ r = true) := by
  have : ∃ r, fitsLine w st k = .ok r := by
    unfold fitsLine
    split
    · exact fitK_secondsOk h _ _
    · exact ⟨_, rfl⟩
  obtain ⟨r, hr⟩ := this
  exact ⟨r, hr, fitsLine_spec hr⟩

/-- The recorded widths of a tree are the widths of the strings. -/
def NTree.Widths (t : NTree P) : Prop :=
  t.FailIn ⟨fun _ => True, fun x => x.width = P.strWidth x.str, fun ind => ∀ s ∈ ind, s.width = P.strWidth s.str⟩

theorem NTree.Widths.toks {t : NTree P} {U} (ho : Opt t U) : t.Widths → ∀ x ∈ U, WidthTok x := by
  induction ho with
  | empty => intro _ x hx; simp at hx
  | noMark => intro _ x hx; simp at hx
  | mark => intro _ x hx; simp at hx; subst hx; trivial
  | eol => intro _ x hx; simp at hx; subst hx; trivial
  | newline => intro h x hx; simp at hx; subst hx; exact h
  | text => intro h x hx; simp at hx; subst hx; exact h
  | child _ ih => intro h; exact ih h.2
  | concat _ _ iha ihb =>
    intro h x hx
    rcases List.mem_append.1 hx with hx | hx
    · exact iha h.1 x hx
    · exact ihb h.2 x hx
  | choice_first _ ih => intro h; exact ih h.1
  | choice_second _ ih => intro h; exact ih h.2

theorem Shows.lastLineLen' (hsw : WidthsAdd P.strWidth) {pre : OLayout} {A : List (Tok P)} (h : pre.Shows A)
    (hA : ∀ x ∈ A, WidthTok x) (hw : (lineAfter ⟨0, false⟩ A).col ≤ maxWidth) :
    pre.lastLineLen (E := P.Err) P.strWidth = Exec.ofRes (.ok (lineAfter ⟨0, false⟩ A).col) := by
  have hne := linesFrom_ne_nil [] A
  have hmem : (linesOf A).getLast hne ∈ linesOf A := List.getLast_mem hne
  rw [lineAfter_col] at hw ⊢
  unfold OLayout.lastLineLen
  have hl : (linesOf A).getLast? = some ((linesOf A).getLast hne) := List.getLast?_eq_some_getLast hne
  rw [h.1, List.getLast?_map, hl]
  change pure (P.strWidth (segsString _)) = _
  rw [strWidth_segs hsw _ (widthTok_lines hA (by simp) _ hmem) hw]
  rfl

theorem oracleFits_sat {w : Nat} {st : LineSt} {r : Option Nat} {T : List (Tok P)}
    (hw : w < oracleMaxWidth) {pre : OLayout} (he : pre.endsWithEol = st.eol) (hz : NoZero st.eol T)
    (hr : SameLen r (V T)) :
    Sat (oracleFits (E := P.Err) pre w st.col r) (fun b => (LineFits w st T ↔ b = true)) (fun _ => True) := by
  rw [V_lineFits hz]
  cases r with
  | none =>
    refine Sat.pure ⟨?_, by simp⟩
    rintro ⟨n, hn, _⟩
    rw [hn] at hr
    exact absurd hr (by simp [SameLen])
  | some a =>
    cases hV : V T with
    | none => rw [hV] at hr; exact absurd hr (by simp [SameLen])
    | some b =>
      rw [hV] at hr
      simp only [SameLen] at hr
      have hmx : oracleMaxWidth = 10000 := rfl
      simp only [oracleFits]
      rw [he]
      split
      · rename_i hc
        refine Sat.pure ⟨?_, by simp⟩
        rintro ⟨n, hn, h1, h2⟩
        simp only [Option.some.injEq] at hn
        subst hn
        exact absurd ⟨hc.1, by omega⟩ h1
      · rename_i hc
        unfold addWidths
        split
        · refine Sat.pure ?_
          rw [decide_eq_true_iff]
          constructor
          · rintro ⟨n, hn, h1, h2⟩
            simp only [Option.some.injEq] at hn
            omega
          · intro h
            exact ⟨b, rfl, fun h' => hc ⟨h'.1, by omega⟩, by omega⟩
        · exact Sat.overflowing trivial

/-! ### Termination -/

theorem addWidths_stops (a b : Nat) : Sat (addWidths (E := P.Err) a b) (fun _ => True) (fun _ => True) := by
  unfold addWidths
  split
  · exact Sat.pure trivial
  · exact Sat.overflowing trivial

theorem firstLineLen_stops (t : NTree P) : ∀ {rid} {c : CN P} (sfx : Option Nat), CNRep rid c t →
    Sat (firstLineLen c sfx) (fun _ => True) (fun _ => True) := by
  induction t with
  | fail f => intro rid c sfx hc; cases hc
  | empty => intro rid c sfx hc; cases hc; unfold firstLineLen; exact Sat.pure trivial
  | mark => intro rid c sfx hc; cases hc; unfold firstLineLen; exact Sat.pure trivial
  | newline ind => intro rid c sfx hc; cases hc; unfold firstLineLen; exact Sat.pure trivial
  | eol =>
    intro rid c sfx hc; cases hc; unfold firstLineLen
    split <;> exact Sat.pure trivial
  | text x =>
    intro rid c sfx hc; cases hc; unfold firstLineLen
    cases sfx with
    | none => exact Sat.pure trivial
    | some w => exact Sat.bind' (addWidths_stops _ _) (fun _ _ => Sat.pure trivial) (fun _ _ => trivial)
  | child i id t ih =>
    intro rid c sfx hc
    cases hc with
    | child hr =>
      unfold firstLineLen
      exact Sat.bind' hr.eval_sat (fun x hx => ih sfx hx.2) (fun _ _ => trivial)
  | choice a b iha ihb =>
    intro rid c sfx hc
    cases hc with
    | choice ha hb =>
      unfold firstLineLen
      exact Sat.bind' hb.eval_sat (fun x hx => ihb sfx hx.2) (fun _ _ => trivial)
  | concat a b iha ihb =>
    intro rid c sfx hc
    cases hc with
    | concat ha hb =>
      unfold firstLineLen
      refine Sat.bind' hb.eval_sat (fun y hy => ?_) (fun _ _ => trivial)
      refine Sat.bind' (ihb sfx hy.2) (fun s _ => ?_) (fun _ _ => trivial)
      exact Sat.bind' ha.eval_sat (fun x hx => iha _ hx.2) (fun _ _ => trivial)

theorem oraclePp_stops (w : Nat) (t : NTree P) : ∀ (rid : Res P.Err P.Id) (c : CN P) (pre : OLayout) (sfx : Option Nat), CNRep rid c t →
    Sat (oraclePp pre c sfx w) (fun _ => True) (fun _ => True) := by
  by_cases hw : w < oracleMaxWidth
  swap
  · intro rid c pre sfx _
    unfold oraclePp
    rw [if_neg hw]
    exact Sat.panicking trivial
  induction t with
  | fail f => intro rid c pre sfx hc; cases hc
  | empty => intro rid c pre sfx hc; cases hc; unfold oraclePp; rw [exec_ite hw]; exact Sat.pure trivial
  | mark => intro rid c pre sfx hc; cases hc; unfold oraclePp; rw [exec_ite hw]; exact Sat.pure trivial
  | newline ind => intro rid c pre sfx hc; cases hc; unfold oraclePp; rw [exec_ite hw]; exact Sat.pure trivial
  | eol => intro rid c pre sfx hc; cases hc; unfold oraclePp; rw [exec_ite hw]; exact Sat.pure trivial
  | text x =>
    intro rid c pre sfx hc; cases hc; unfold oraclePp; rw [exec_ite hw]
    simp only [OLayout.appendText]
    split
    · exact Sat.panicking trivial
    · split
      · exact Sat.panicking trivial
      · exact Sat.pure trivial
  | child i id t ih =>
    intro rid c pre sfx hc
    cases hc with
    | child hr =>
      rw [oraclePp.eq_def]; simp only [exec_ite hw]
      exact Sat.bind' hr.eval_sat (fun x hx => ih _ _ pre sfx hx.2) (fun _ _ => trivial)
  | concat a b iha ihb =>
    intro rid c pre sfx hc
    cases hc with
    | concat ha hb =>
      rw [oraclePp.eq_def]; simp only [exec_ite hw]
      refine Sat.bind' ha.eval_sat (fun x hx => ?_) (fun _ _ => trivial)
      refine Sat.bind' hb.eval_sat (fun y hy => ?_) (fun _ _ => trivial)
      refine Sat.bind' (firstLineLen_stops b sfx hy.2) (fun s _ => ?_) (fun _ _ => trivial)
      exact Sat.bind' (iha _ _ _ _ hx.2) (fun pre' _ => ihb _ _ _ _ hy.2) (fun _ _ => trivial)
  | choice a b iha ihb =>
    intro rid c pre sfx hc
    cases hc with
    | choice ha hb =>
      rw [oraclePp.eq_def]; simp only [exec_ite hw]
      refine Sat.bind' ha.eval_sat (fun x hx => ?_) (fun _ _ => trivial)
      refine Sat.bind' (mid := fun _ => True) (er' := fun _ => True) ?_ (fun n _ => ?_) (fun _ _ => trivial)
      · unfold OLayout.lastLineLen
        split
        · exact Sat.panicking trivial
        · exact Sat.pure trivial
      refine Sat.bind' (firstLineLen_stops a sfx hx.2) (fun s _ => ?_) (fun _ _ => trivial)
      refine Sat.bind' (mid := fun _ => True) (er' := fun _ => True) ?_ (fun f _ => ?_) (fun _ _ => trivial)
      · unfold oracleFits
        split
        · exact Sat.pure trivial
        · split
          · exact Sat.pure trivial
          · exact Sat.bind' (addWidths_stops _ _) (fun _ _ => Sat.pure trivial) (fun _ _ => trivial)
      cases f with
      | true => exact iha _ _ pre sfx hx.2
      | false =>
        simp only [Bool.false_eq_true, if_false]
        exact Sat.bind' hb.eval_sat (fun y hy => ihb _ _ pre sfx hy.2) (fun _ _ => trivial)

/-! ### What is printed -/

theorem oraclePp_sat (hsw : WidthsAdd P.strWidth) {w : Nat} (hw : w < oracleMaxWidth) (t : NTree P) :
    ∀ {id : P.Id} {k st rid} {c : CN P} {pre : OLayout} {sfx : Option Nat} {A : List (Tok P)},
    CNRep rid c t → t.Widths → t.IdsOk → (∀ t ∈ k, t.SecondsOk) → SameLen sfx (V (k.flatMap NTree.seconds)) →
    Clamped sfx → ZeroFree st.eol t k → pre.Shows A → st = lineAfter ⟨0, false⟩ A → (∀ x ∈ A, WidthTok x) →
    st.col ≤ maxWidth →
    Sat (oraclePp pre c sfx w)
      (fun pre' => (∃ st' L, t.layout w id k st = .ok (st', L) ∧ pre'.Shows (A ++ L.toks) ∧ st'.col ≤ maxWidth ∧
          EolClean st.eol L.toks) ∨
        t.layout w id k st = .error .overflow)
      (fun _ => True) := by
  induction t with
  | fail f => intro id k st rid c pre sfx A hc; cases hc
  | empty =>
    intro id k st rid c pre sfx A hc ht hi hk hs hcl hz hpre hst hA hcol
    cases hc
    unfold oraclePp
    rw [exec_ite hw]
    exact Sat.pure (.inl ⟨st, .empty, rfl, by simpa [LTree.toks] using hpre, hcol, trivial⟩)
  | mark =>
    intro id k st rid c pre sfx A hc ht hi hk hs hcl hz hpre hst hA hcol
    cases hc
    unfold oraclePp
    rw [exec_ite hw]
    refine Sat.pure (.inl ⟨st, .mark id, rfl, ?_, hcol, trivial⟩)
    refine ⟨?_, ?_⟩
    · obtain ⟨ls, cur, h1, h2⟩ := linesOf_snoc_split A
      rw [h2, hpre.1, h1]
      simp [LTree.toks, linesFrom]
    · rw [lineAfter_append]; exact hpre.2
  | eol =>
    intro id k st rid c pre sfx A hc ht hi hk hs hcl hz hpre hst hA hcol
    cases hc
    unfold oraclePp
    rw [exec_ite hw]
    refine Sat.pure (.inl ⟨_, .eol, rfl, ?_, hcol, trivial⟩)
    refine ⟨?_, ?_⟩
    · obtain ⟨ls, cur, h1, h2⟩ := linesOf_snoc_split A
      rw [h2]
      change pre.lines = _
      rw [hpre.1, h1]
      simp [LTree.toks, linesFrom]
    · rw [lineAfter_append]; rfl
  | newline ind =>
    intro id k st rid c pre sfx A hc ht hi hk hs hcl hz hpre hst hA hcol
    cases hc with
    | @newline ind =>
    unfold oraclePp
    rw [exec_ite hw]
    refine Sat.pure ?_
    by_cases hm : segsWidth ind.reverse ≤ maxWidth
    · exact .inl ⟨_, _, if_pos hm, Shows.appendNewline hpre _, hm, trivial⟩
    · exact .inr (if_neg hm)
  | text x =>
    intro id k st rid c pre sfx A hc ht hi hk hs hcl hz hpre hst hA hcol
    cases hc
    have h := Shows.appendText hpre x
    have hpp : oraclePp pre (.textual x) sfx w = pre.appendText x.str := by
      unfold oraclePp
      exact exec_ite hw _
    rw [hpp]
    split at h
    · exact Sat.of_eq_error h trivial
    · rename_i he
      obtain ⟨pre', h1, h2⟩ := h
      refine Sat.of_eq_ok h1 ?_
      rw [← hst] at he
      by_cases hm : st.col + x.width ≤ maxWidth
      · exact .inl ⟨⟨st.col + x.width, false⟩, .text x, by simp [NTree.layout, he, hm], h2, hm, by simpa using he, trivial⟩
      · exact .inr (by simp [NTree.layout, he, hm])
  | child i cid t ih =>
    intro id k st rid c pre sfx A hc ht hi hk hs hcl hz hpre hst hA hcol
    cases hc with
    | child hr =>
      obtain ⟨⟨ci, rfl⟩, hi⟩ := hi
      rw [oraclePp.eq_def]
      simp only [exec_ite hw]
      refine Sat.bind' hr.eval_sat ?_ (fun _ _ => trivial)
      rintro x ⟨_, hx⟩
      refine (ih (id := ci) hx ht.2 hi hk hs hcl (fun U V hU hV => hz U V (.child hU) hV) hpre hst hA hcol).mono ?_
        (fun _ _ => trivial)
      rintro pre' (⟨st', L, h1, h2, h3, h4⟩ | h1)
      · exact .inl ⟨st', .child id i ci L, by simp [NTree.layout, h1, Except.bind_eq], h2, h3, h4⟩
      · exact .inr (by simp [NTree.layout, h1, Except.bind_eq])
  | concat a b iha ihb =>
    intro id k st rid c pre sfx A hc ht hi hk hs hcl hz hpre hst hA hcol
    cases hc with
    | concat hra hrb =>
      rw [oraclePp.eq_def]
      simp only [exec_ite hw]
      refine Sat.bind' hra.eval_sat ?_ (fun _ _ => trivial)
      rintro x ⟨_, hcx⟩
      refine Sat.bind' hrb.eval_sat ?_ (fun _ _ => trivial)
      rintro y ⟨_, hcy⟩
      refine Sat.bind' (firstLineLen_sat b 0 hcy hs hcl) ?_ (fun _ _ => trivial)
      rintro r ⟨hr1, hr2, _⟩
      refine Sat.bind' (iha (id := id) (k := b :: k) (sfx := r.map (min · oracleMaxWidth)) hcx ht.1 hi.1 (by
          intro t ht'
          rcases List.mem_cons.1 ht' with rfl | ht'
          · exact hr1
          · exact hk t ht') (by rw [List.flatMap_cons]; exact hr2.clamp) (clamped_map r) hz.left hpre hst hA hcol)
        ?_ (fun _ _ => trivial)
      rintro pre1 (⟨st1, L1, h1, h2, h3, h4⟩ | h1)
      · obtain ⟨T1, hg, hT⟩ := layout_greedy w a h1
        have hopt := greedy_opt hg
        have hla := greedy_lineAfter hg
        rw [hT] at hopt hla
        have hA' : ∀ x ∈ A ++ L1.toks, WidthTok x := by
          intro x hx
          rcases List.mem_append.1 hx with hx | hx
          · exact hA x hx
          · exact NTree.Widths.toks hopt ht.1 x hx
        refine (ihb (id := id) (k := k) (st := st1) hcy ht.2 hi.2 hk hs hcl ?_ h2 ?_ hA' h3).mono ?_ (fun _ _ => trivial)
        · rw [hla]; exact hz.right hopt h4
        · rw [lineAfter_append, ← hst]; exact hla
        · rintro pre2 (⟨st2, L2, g1, g2, g3, g4⟩ | g1)
          · refine .inl ⟨st2, .concat L1 L2, by simp [NTree.layout, h1, g1, Except.bind_eq], ?_, g3, ?_⟩
            · simpa [LTree.toks] using g2
            · refine (eolClean_append _ _ st).2 ⟨h4, ?_⟩
              rw [← hla]
              exact g4
          · exact .inr (by simp [NTree.layout, h1, g1, Except.bind_eq])
      · -- the layout overflows already
        have hov : (NTree.concat a b).layout w id k st = .error .overflow := by
          simp [NTree.layout, h1, Except.bind_eq]
        rw [hov]
        exact (oraclePp_stops w b _ _ pre1 sfx hcy).mono (fun _ _ => .inr rfl) (fun _ _ => trivial)
  | choice a b iha ihb =>
    intro id k st rid c pre sfx A hc ht hi hk hs hcl hz hpre hst hA hcol
    cases hc with
    | choice hra hrb =>
      rw [oraclePp.eq_def]
      simp only [exec_ite hw]
      refine Sat.bind' hra.eval_sat ?_ (fun _ _ => trivial)
      rintro x ⟨hchk, hcx⟩
      have hl := Shows.lastLineLen' hsw hpre hA (hst ▸ hcol)
      rw [← hst] at hl
      rw [hl, Exec.ofRes_ok_bind]
      refine Sat.bind' (firstLineLen_sat a 0 hcx hs hcl) ?_ (fun _ _ => trivial)
      rintro r ⟨hr1, hr2, _⟩
      refine Sat.bind' (oracleFits_sat hw (by rw [hpre.2, hst])
        (hz _ _ (.choice_first hr1.opt) (optK_seconds hk)) hr2) ?_ (fun _ _ => trivial)
      intro f hf
      obtain ⟨f', hf1, hf2⟩ := fitsLine_secondsOk (k := a :: k) (by
          intro t ht'
          rcases List.mem_cons.1 ht' with rfl | ht'
          · exact hr1
          · exact hk t ht') w st
      have hff : f' = f := by
        unfold SecondsFit at hf2
        rw [List.flatMap_cons] at hf2
        have := hf.symm.trans hf2
        cases f <;> cases f' <;> simp at this ⊢
      subst hff
      have hlay : (NTree.choice a b).layout w id k st = if f' then a.layout w id k st else b.layout w id k st := by
        simp only [NTree.layout, hchk, hf1, Except.bind_eq]
      rw [hlay]
      cases f' with
      | true =>
        simp only [if_true, Exec.pure_bind']
        exact iha (id := id) hcx ht.1 hi.1 hk hs hcl (fun U V hU hV => hz U V (.choice_first hU) hV) hpre hst hA hcol
      | false =>
        simp only [Bool.false_eq_true, if_false]
        refine Sat.bind' hrb.eval_sat ?_ (fun _ _ => trivial)
        rintro y ⟨_, hcy⟩
        exact ihb (id := id) hcy ht.2 hi.2 hk hs hcl (fun U V hU hV => hz U V (.choice_second hU) hV) hpre hst hA hcol

end PPP
