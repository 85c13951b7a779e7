import Verif.Proofs.OracleSound
import Verif.Props.Layout
/-
C09: the oracle printer and the real one agree.
-/
namespace PPP
variable {P : PrettyDoc}

theorem NTree.FailIn.imp {Q Q' : Pred P} {t : NTree P} (h : t.FailIn Q) (h1 : ∀ f, Q.fail f → Q'.fail f)
    (h2 : ∀ x, Q.text x → Q'.text x) (h3 : ∀ i, Q.nl i → Q'.nl i) : t.FailIn Q' := by
  induction t with
  | fail f => exact h1 _ h
  | text x => exact h2 _ h
  | newline ind => exact h3 _ h
  | concat a b iha ihb => exact ⟨iha h.1, ihb h.2⟩
  | choice a b iha ihb => exact ⟨iha h.1, ihb h.2⟩
  | child i id t ih => exact ⟨fun f hf => h1 _ (h.1 f hf), ih h.2⟩
  | _ => trivial

theorem rootTree_widths (law : P.Lawful) {doc : P.Node} {style id t} (hr : rootTree law doc style = .ok (id, t)) :
    t.Widths := by
  have h := rootTree_failIn law doc style
  rw [hr] at h
  exact h.imp (fun _ _ => trivial) (fun _ hx => hx.1) (fun _ hx => hx)

theorem display_eq (ls : List String) : OLayout.display ls = "\n".intercalate ls := by
  cases ls with
  | nil => rfl
  | cons l ls => exact (intercalate_cons' l ls).symm

theorem unwrapping_ok {E α : Type} (a : α) : unwrapping (Exec.ofRes (.ok a) : Exec E α) = Exec.ofRes (.ok a) := rfl
theorem unwrapping_panic {E α : Type} :
    unwrapping (Exec.ofRes (.error .panic) : Exec E α) = Exec.ofRes (.error .panic) := rfl

theorem unwrapping_err {E α : Type} (e) :
    unwrapping (Exec.ofRes (.error (.err e)) : Exec E α) = Exec.ofRes (.error .panic) := rfl

/-- How the oracle starts. -/
theorem oracle_start (law : P.Lawful) {doc : P.Node} {id t} (hr : rootTree law doc none = .ok (id, t)) (w : Nat) :
    (∃ f, t = .fail f ∧ oracularPrettyPrint doc w = unwrapping (Exec.ofRes (.error f))) ∨
    (∃ c, CNRep (.ok id) c t ∧ oracularPrettyPrint doc w =
      unwrapping (oraclePp OLayout.empty c (some 0) w) >>= fun l => pure (OLayout.display l.lines)) := by
  obtain ⟨d, hd, hrep⟩ := rootTree_rep law doc none hr
  unfold oracularPrettyPrint DCN.new
  rw [hd, unwrapping_ok, Exec.ofRes_ok_bind]
  rcases hrep.cases' with ⟨f, he, rfl⟩ | ⟨c, he, hc⟩
  · refine .inl ⟨f, rfl, ?_⟩
    rw [he]
    cases f <;> rfl
  · refine .inr ⟨c, hc, ?_⟩
    rw [he, unwrapping_ok, Exec.ofRes_ok_bind]

theorem oshows_empty : OLayout.empty.Shows (P := P) [] := ⟨rfl, rfl⟩

theorem zeroFree_root {id : P.Id} {t : NTree P} (hi : t.IdsOk)
    (hz : ∀ T, Resolves id t T → ¬ ZeroAfterEol (erase T)) : ZeroFree false t [] := by
  intro U V hU hV
  cases hV
  obtain ⟨T, h1, h2⟩ := hU.resolves hi id
  refine h2 false [] ?_
  rw [List.append_nil]
  exact noZero_of_not _ (hz T h1)

/-- **C09**, one direction for all documents, also for those that do not match their notations: what the
    oracle prints is what the printer prints (unless the layout has a line that is too wide for `u16`). -/
theorem C09_oracle_right (law : P.Lawful) (hsw : WidthsAdd P.strWidth) {doc : P.Node} {id t}
    (hr : rootTree law doc none = .ok (id, t)) (hi : t.IdsOk) {w : Nat} {s : String}
    (hz : ∀ T, Resolves id t T → ¬ ZeroAfterEol (erase T))
    (h : oracularPrettyPrint doc w = Exec.ofRes (.ok s)) :
    prettyPrintToString doc w = Exec.ofRes (.ok s) ∨ docLayout law doc w none = .error .overflow := by
  rcases oracle_start law hr w with ⟨f, rfl, ho⟩ | ⟨c, hc, ho⟩
  · rw [h] at ho
    cases f <;> exact absurd (Exec.ofRes_inj ho) (by simp)
  rw [h] at ho
  by_cases hw : w < oracleMaxWidth
  swap
  · unfold oraclePp at ho
    rw [if_neg hw] at ho
    exact absurd (Exec.ofRes_inj ho) (by simp)
  have hs := oraclePp_sat hsw hw t (id := id) (k := []) (st := ⟨0, false⟩) (pre := OLayout.empty) (sfx := some 0)
    (A := []) hc (rootTree_widths law hr) hi (by simp) (SameLen.refl _) (by intro n hn; simp at hn; omega)
    (zeroFree_root hi hz) oshows_empty rfl (by simp) (by simp)
  rcases hs.exists_res with ⟨pre', h1, h2⟩ | ⟨e, h1, _⟩
  · rw [h1, unwrapping_ok, Exec.ofRes_ok_bind] at ho
    have hs := Exec.ofRes_inj ho
    simp only [Except.ok.injEq] at hs
    rcases h2 with ⟨st', L, g1, g2, _⟩ | g1
    · refine .inl ((C01_to_string_iff law doc w s).2 ⟨id, L, ?_, ?_⟩)
      · unfold docLayout NTree.layoutDoc
        simp [hr, g1, Except.bind_eq]
      · rw [hs, g2.1, display_eq]
        rfl
    · refine .inr ?_
      unfold docLayout NTree.layoutDoc
      simp [hr, g1, Except.bind_eq]
  · rw [h1] at ho
    cases e <;> exact absurd (Exec.ofRes_inj ho) (by simp)

/-- **C09**: for documents that match their notations, in which no way of taking choices displays a text
    without width as the first one after an `EndOfLine`, and whose texts (`m`) and lines (`b`) stay below the numeric
    limits of the oracle: either the two printers print the same string, or the document displays a text
    after an `EndOfLine`, and then the oracle panics and the printer returns that error. -/
theorem C09_agree (law : P.Lawful) (hsw : WidthsAdd P.strWidth) {doc : P.Node} {id t}
    (hr : rootTree law doc none = .ok (id, t)) (hn : t.NoFail) {w m b : Nat} (hw : w < 10000)
    (hz : ∀ T, Resolves id t T → ¬ ZeroAfterEol (erase T)) (hm : t.TextsWithin m)
    (hb : ∀ T, GreedyDoc w id t T → ∀ l ∈ linesOf (erase T), segsWidth l ≤ b) (hmb : m + b ≤ 55535) :
    (∃ s, oracularPrettyPrint doc w = Exec.ofRes (.ok s) ∧ prettyPrintToString doc w = Exec.ofRes (.ok s)) ∨
      (oracularPrettyPrint doc w = Exec.ofRes (.error .panic) ∧
        prettyPrintToString doc w = Exec.ofRes (.error (.err .textAfterEndOfLine))) := by
  obtain ⟨T, hg, _⟩ := C10_greedy_exists_unique (w := w) (id := id) hn
  obtain ⟨st, hg'⟩ := hg
  have hg : GreedyDoc w id t T := ⟨st, hg'⟩
  have hmx : oracleMaxWidth = 10000 := rfl
  have hmw : maxWidth = 65535 := rfl
  rcases oracle_start law hr w with ⟨f, rfl, _⟩ | ⟨c, hc, ho⟩
  · exact absurd hn (by simp [NTree.NoFail])
  have h := oraclePp_greedy hsw (m := m) (B := b) (by omega) (by omega) hg' hc ⟨hn, hm, rootTree_widths law hr⟩
    (by simp) (sfx := some 0) (SameLen.refl _) (by intro n hn; simp at hn; omega)
    (zeroFree_root hn.idsOk hz) oshows_empty rfl (by simp) (hb T hg)
  have hnw : ¬ TooWide (erase T) := by
    rintro ⟨l, hl, hlw⟩
    have := hb T hg l hl
    omega
  rcases h with ⟨pre', h1, h2, _⟩ | ⟨h1, h2⟩
  · rw [h1] at ho
    have ho' : oracularPrettyPrint doc w = Exec.ofRes (.ok (linesString (linesOf (erase T)))) := by
      rw [ho, unwrapping_ok, Exec.ofRes_ok_bind, h2.1, display_eq]
      rfl
    rcases C15_outcomes law hr hn hg with ⟨g, _⟩ | ⟨g1, g2⟩ | ⟨_, g⟩
    · exact .inl ⟨_, ho', g⟩
    · exfalso
      rcases C09_oracle_right law hsw hr hn.idsOk hz ho' with g | g
      · rw [g] at g1
        exact absurd (Exec.ofRes_inj g1) (by simp)
      · have hd := docLayout_of_greedy law hr hn hg
        rw [g] at hd
        split at hd
        · rename_i f hf
          simp only [Except.error.injEq] at hd
          subst hd
          exact hnw (defect_tooWide [] false _ hf)
        · obtain ⟨L, hL, _⟩ := hd
          simp at hL
    · exact absurd g hnw
  · rw [h1] at ho
    refine .inr ⟨ho, ?_⟩
    rcases C15_outcomes law hr hn hg with ⟨_, _, g⟩ | ⟨g, _⟩ | ⟨_, g⟩
    · exact absurd h2 g
    · exact g
    · exact absurd g hnw

/-- **C09**, as an equivalence. -/
theorem C09_agree_iff (law : P.Lawful) (hsw : WidthsAdd P.strWidth) {doc : P.Node} {id t}
    (hr : rootTree law doc none = .ok (id, t)) (hn : t.NoFail) {w m b : Nat} (hw : w < 10000)
    (hz : ∀ T, Resolves id t T → ¬ ZeroAfterEol (erase T)) (hm : t.TextsWithin m)
    (hb : ∀ T, GreedyDoc w id t T → ∀ l ∈ linesOf (erase T), segsWidth l ≤ b) (hmb : m + b ≤ 55535) (s : String) :
    oracularPrettyPrint doc w = Exec.ofRes (.ok s) ↔ prettyPrintToString doc w = Exec.ofRes (.ok s) := by
  rcases C09_agree law hsw hr hn hw hz hm hb hmb with ⟨s', h1, h2⟩ | ⟨h1, h2⟩
  · rw [h1, h2]
  · rw [h1, h2]
    constructor <;> intro h <;> exact absurd (Exec.ofRes_inj h) (by simp)

/-- The condition about texts without width holds if there are no such texts. -/
theorem C09_texts_wide {id : P.Id} {t : NTree P} (h : t.TextsWide) :
    ∀ T, Resolves id t T → ¬ ZeroAfterEol (erase T) := by
  have key : ∀ {id : P.Id} {t : NTree P} {T}, Resolves id t T → t.TextsWide → ∀ x, .text x ∈ erase T → 0 < x.width := by
    intro id t T hr
    induction hr with
    | empty => intro _ x hx; simp [erase] at hx
    | mark => intro _ x hx; simp [erase] at hx
    | eol => intro _ x hx; simp [erase] at hx
    | newline => intro _ x hx; simp [erase] at hx
    | text => intro h x hx; simp [erase] at hx; subst hx; exact h
    | child _ ih => exact ih
    | concat _ _ iha ihb =>
      intro h x hx
      rw [erase_append] at hx
      rcases List.mem_append.1 hx with hx | hx
      · exact iha h.1 x hx
      · exact ihb h.2 x hx
    | choice_first _ ih => intro h x hx; exact ih h.1 x hx
    | choice_second _ ih => intro h x hx; exact ih h.2 x hx
  rintro T hr ⟨A, B, x, C, hT, _, _, hx⟩
  have := key hr h x (by rw [hT]; simp)
  omega

/-- The condition about texts without width holds if there is no `EndOfLine`. -/
theorem C09_no_eol {id : P.Id} {t : NTree P} (h : t.NoEol) :
    ∀ T, Resolves id t T → ¬ ZeroAfterEol (erase T) := by
  have key : ∀ {id : P.Id} {t : NTree P} {T}, Resolves id t T → t.NoEol → .eol ∉ erase T := by
    intro id t T hr
    induction hr with
    | empty => intro _ hx; simp [erase] at hx
    | mark => intro _ hx; simp [erase] at hx
    | eol => intro h; exact h.elim
    | newline => intro _ hx; simp [erase] at hx
    | text => intro _ hx; simp [erase] at hx
    | child _ ih => exact ih
    | concat _ _ iha ihb =>
      intro h hx
      rw [erase_append] at hx
      rcases List.mem_append.1 hx with hx | hx
      · exact iha h.1 hx
      · exact ihb h.2 hx
    | choice_first _ ih => intro h hx; exact ih h.1 hx
    | choice_second _ ih => intro h hx; exact ih h.2 hx
  rintro T hr ⟨A, B, x, C, hT, _, _, hx⟩
  exact key hr h (by rw [hT]; simp)

/-- The oracle always stops: with a string, or by panicking (also when an addition overflows); it never
    returns an error. -/
theorem C09_oracle_total (law : P.Lawful) {doc : P.Node} {id t} (hr : rootTree law doc none = .ok (id, t)) (w : Nat) :
    (∃ s, oracularPrettyPrint doc w = Exec.ofRes (.ok s)) ∨
      oracularPrettyPrint doc w = Exec.ofRes (.error .panic) ∨
      oracularPrettyPrint doc w = Exec.ofRes (.error .overflow) := by
  rcases oracle_start law hr w with ⟨f, rfl, ho⟩ | ⟨c, hc, ho⟩
  · rw [ho]
    cases f with
    | err e => exact .inr (.inl rfl)
    | panic => exact .inr (.inl rfl)
    | overflow => exact .inr (.inr rfl)
  · rw [ho]
    rcases (oraclePp_stops w t _ _ OLayout.empty (some 0) hc).exists_res with ⟨a, h, _⟩ | ⟨f, h, _⟩
    · rw [h]; exact .inl ⟨_, rfl⟩
    · rw [h]
      cases f with
      | err e => exact .inr (.inl rfl)
      | panic => exact .inr (.inl rfl)
      | overflow => exact .inr (.inr rfl)

/-- At widths of 10000 and more, the oracle panics, for every document whose root can be looked at. -/
theorem C09_width_limit (law : P.Lawful) {doc : P.Node} {id t} (hr : rootTree law doc none = .ok (id, t))
    (hn : t.check = .ok ()) {w : Nat} (hw : 10000 ≤ w) :
    oracularPrettyPrint doc w = Exec.ofRes (.error .panic) := by
  rcases oracle_start law hr w with ⟨f, rfl, ho⟩ | ⟨c, hc, ho⟩
  · simp [NTree.check] at hn
  · rw [ho]
    have hmx : oracleMaxWidth = 10000 := rfl
    unfold oraclePp
    rw [if_neg (by omega)]
    rfl

/-! ### Examples -/

namespace Ex

theorem exWidthsAdd : WidthsAdd exP.strWidth :=
  ⟨rfl, fun a b _ => String.length_append a b⟩

theorem greedy_of_layout {w : Nat} {L : LTree exP} (hL : docLayout exLaw exDoc w none = .ok (nid 3, L)) :
    ∀ T, GreedyDoc w (nid 3) exTree T → erase T = L.toks := by
  intro T hT
  obtain ⟨t, T', h1, h2, h3, _⟩ := docLayout_greedy exLaw hL
  rw [exTree_eq] at h1
  simp only [Except.ok.injEq, Prod.mk.injEq, true_and] at h1
  subst h1
  obtain ⟨T0, _, hu⟩ := C10_greedy_exists_unique (w := w) (id := nid 3) exTree_noFail
  rw [hu T hT, ← hu T' h2, h3]

/-- The hypotheses of C09 are met by the example, and the oracle prints it on two lines at width 8. -/
example : oracularPrettyPrint (P := exP) exDoc 8 = Exec.ofRes (.ok "[aa,\nbbb]") := by
  refine (C09_agree_iff exLaw exWidthsAdd exTree_eq exTree_noFail (m := 3) (b := 4) (by decide)
    (C09_texts_wide (by simp [exTree, listTree, NTree.TextsWide, lit, txt]))
    (by simp [exTree, listTree, NTree.TextsWithin, lit, txt]) ?_ (by decide) _).2
    ((C10_iff exLaw _ exTree_eq exTree_noFail).2 ⟨_, exGreedy8, (printable_iff _).2 rfl, rfl⟩)
  intro T hT
  rw [greedy_of_layout exLayout_narrow T hT]
  intro l hl
  have hl' : l = [⟨"[", 1, ()⟩, ⟨"aa", 2, ()⟩, ⟨",", 1, ()⟩] ∨ l = [⟨"bbb", 3, ()⟩, ⟨"]", 1, ()⟩] := by
    simpa [exNarrow, LTree.toks, linesOf, linesFrom, Textual.segment, lit, txt] using hl
  rcases hl' with rfl | rfl <;> decide

/-- `lit("//") + eol + child(0)`, and a child `lit("") | nl`. -/
def zeroN : TreeNotation := ⟨.choice (.literal "") .newline, by decide⟩
/-- A document with a text without width that may follow an `EndOfLine`. -/
def zeroDoc : Tree Unit := Tree.newBranch 3 eolN [Tree.newBranch 1 zeroN []]
/-- Its tree. -/
def zeroTree : NTree exP :=
  .concat (.concat (.text (lit "//" 2)) .eol) (.child 0 (.ok (nid 1)) (.choice (.text (lit "" 0)) (.newline [])))

theorem zeroTree_eq : rootTree exLaw zeroDoc none = .ok (nid 3, zeroTree) := by
  have h0 : docKid exLaw zeroDoc 0 ⟨false, [], ()⟩ =
      .child 0 (.ok (nid 1)) (.choice (.text (lit "" 0)) (.newline [])) := by
    refine docKid_of exLaw (child := Tree.newBranch 1 zeroN []) rfl ?_
    rw [docTree_of exLaw (a := zeroN.1) (s := ()) rfl rfl]
    rfl
  have ht : ∀ kid, eolN.1.tree (P := exP) zeroDoc kid none ⟨false, [], ()⟩ =
    .concat (.concat (.text (lit "//" 2)) .eol) (kid 0 ⟨false, [], ()⟩) := fun _ => rfl
  unfold rootTree
  rw [docTree_of exLaw (a := eolN.1) (s := ()) rfl rfl]
  change Except.ok (nid 3, eolN.1.tree (P := exP) zeroDoc (docKid exLaw zeroDoc) none ⟨false, [], ()⟩) = _
  rw [ht]
  simp only [zeroTree, h0]

/-- Without the condition about texts without width, the two printers disagree: the printer breaks the
    line, but the oracle thinks that the empty text fits, and panics. -/
theorem C09_zero_width_disagree :
    prettyPrintToString (P := exP) zeroDoc 80 = Exec.ofRes (.ok "//\n") ∧
      oracularPrettyPrint (P := exP) zeroDoc 80 = Exec.ofRes (.error .panic) := by
  constructor
  · rw [C01_to_string_iff exLaw]
    refine ⟨nid 3, ?_⟩
    unfold docLayout
    rw [zeroTree_eq]
    exact ⟨_, rfl, rfl⟩
  · have hn : zeroTree.NoFail := by simp [zeroTree, NTree.NoFail]
    have hw : 80 < oracleMaxWidth := by decide
    rcases oracle_start exLaw zeroTree_eq 80 with ⟨f, h, _⟩ | ⟨c, hc, ho⟩
    · cases h
    rw [ho]
    cases hc with
    | concat hra hrb =>
    obtain ⟨x, hx, hcx⟩ := hra.eval_ok hn.1
    obtain ⟨y, hy, hcy⟩ := hrb.eval_ok hn.2
    cases hcx with
    | concat hr1 hr2 =>
    obtain ⟨x1, hx1, hc1⟩ := hr1.eval_ok hn.1.1
    obtain ⟨x2, hx2, hc2⟩ := hr2.eval_ok hn.1.2
    cases hc1
    cases hc2
    cases hcy with
    | @child _ d3 _ _ hr3 =>
    obtain ⟨y1, hy1, hc3⟩ := hr3.eval_ok hn.2.2
    cases hc3 with
    | choice hr4 hr5 =>
    obtain ⟨y2, hy2, hc4⟩ := hr4.eval_ok hn.2.2.1
    obtain ⟨y3, hy3, hc5⟩ := hr5.eval_ok hn.2.2.2
    cases hc4
    have e2 : ∀ s, firstLineLen (P := exP) (.endOfLine) s = Exec.ofRes (.ok (match s with
        | some 0 => some 0
        | _ => none)) := by
      intro s
      rw [firstLineLen.eq_def]
      match s with
      | none => rfl
      | some 0 => rfl
      | some (_ + 1) => rfl
    have e3 : ∀ s ind, firstLineLen (P := exP) (.newline ind) s = Exec.ofRes (.ok (some 0)) := by
      intro s ind; rw [firstLineLen.eq_def]; rfl
    have e3' : ∀ s, firstLineLen y3 s = Exec.ofRes (.ok (some 0)) := by
      intro s
      generalize hz : (NTree.newline [] : NTree exP) = z at hc5
      cases hc5 <;> first | cases hz | exact e3 _ _
    have e4 : firstLineLen (P := exP) (.textual (lit "" 0)) (some 0) = Exec.ofRes (.ok (some 0)) := by
      rw [firstLineLen.eq_def]; rfl
    have e1 : ∀ s, firstLineLen (.child 0 d3) s = Exec.ofRes (.ok (some 0)) := by
      intro s
      rw [firstLineLen.eq_def]
      simp only [hy1, Exec.ofRes_ok_bind]
      rw [firstLineLen.eq_def]
      simp only [hy3, Exec.ofRes_ok_bind]
      exact e3' s
    rw [oraclePp.eq_def]
    simp only [exec_ite hw, hx, hy, Exec.ofRes_ok_bind, e1, Option.map]
    rw [oraclePp.eq_def]
    simp only [exec_ite hw, hx1, hx2, Exec.ofRes_ok_bind, e2]
    rw [oraclePp.eq_def]
    simp only [exec_ite hw, OLayout.appendText, OLayout.empty, List.getLast?_singleton, Exec.pure_bind',
      Bool.false_eq_true, if_false]
    rw [oraclePp.eq_def]
    simp only [exec_ite hw, Exec.pure_bind']
    rw [oraclePp.eq_def]
    simp only [exec_ite hw, hy1, Exec.ofRes_ok_bind]
    rw [oraclePp.eq_def]
    simp only [exec_ite hw, hy2, Exec.ofRes_ok_bind, e4]
    have e5 : ∀ l : OLayout, l.endsWithEol = true →
        oraclePp (P := exP) l (.textual (lit "" 0)) (some 0) 80 = Exec.ofRes (.error .panic) := by
      intro l hl
      rw [oraclePp.eq_def]
      simp only [exec_ite hw, OLayout.appendText, hl, if_true]
      rfl
    have e6 : oracleFits (E := exP.Err) { lines := [""].dropLast ++ ["" ++ (lit "//" 2).str], endsWithEol := true } 80
        2 (some 0) = Exec.ofRes (.ok true) := rfl
    have e7 : OLayout.lastLineLen (E := exP.Err) String.length
        { lines := [""].dropLast ++ ["" ++ (lit "//" 2).str], endsWithEol := true } = Exec.ofRes (.ok 2) := rfl
    rw [e7, Exec.ofRes_ok_bind, e6]
    simp only [Exec.ofRes_ok_bind, if_true, Exec.pure_bind']
    rw [e5 _ rfl]
    rfl

end Ex

end PPP
