import Verif.Proofs.OracleTest
import Verif.Props.Generate
import Verif.Props.Json
/-
C63: the repository's test of the printer against the oracle passes, for notations of all sizes.
-/
namespace PPP
variable {P : PrettyDoc}

/-- **C63**, the helpers of the test suite: let `doc` be a document all of whose nodes can be reached and are
    displayed, with ids that are distinct along paths, and on which the oracle and the printer agree.  Then
    the checks without an expectation pass, and those with an expectation pass exactly if the expected
    lines are what is printed. -/
theorem C63_assert_pp (law : P.Lawful) {doc : P.Node} (hwk : P.Walkable doc) (hids : P.IdsOnPaths doc) {w : Nat} {s : String}
    (ho : oracularPrettyPrint doc w = Exec.ofRes (.ok s)) (hp : prettyPrintToString doc w = Exec.ofRes (.ok s))
    (hd : ∀ id L, docLayout law doc w none = .ok (id, L) → ∀ path, PathIn P doc path → ∃ l, L.locate id path = .ok l) :
    assertPpWithoutExpectation doc w = Exec.ofRes (.ok ()) ∧
      ∀ lines, assertPp doc w lines = Exec.ofRes (.ok ()) ↔ "\n".intercalate lines = s := by
  obtain ⟨id, L, hL, rfl⟩ := (C01_to_string_iff law _ _ s).1 hp
  have hf : ∀ path, PathIn P doc path → ∀ target, target = .start ∨ target = .end →
      ∃ o, printAll doc w path target none = Exec.ofRes (.ok o) ∧ linesString o.lines = linesString (linesOf L.toks) := by
    intro path hpath target ht
    obtain ⟨l, hl⟩ := hd id L hL path hpath
    obtain ⟨o, hpr⟩ : ∃ o, printAll doc w path target none = Exec.ofRes (.ok o) := by
      rcases ht with rfl | rfl
      · obtain ⟨o, h1, _⟩ := C03_start law hids hL hl
        exact ⟨o, h1⟩
      · obtain ⟨o, h1, _⟩ := C04_end law hids hL hl
        exact ⟨o, h1⟩
    refine ⟨o, hpr, ?_⟩
    obtain ⟨id', L', hL', _, _, h3⟩ := C02_focus_independent law (.inl (by rcases ht with rfl | rfl <;> simp)) hpr
    rw [hL] at hL'
    simp only [Except.ok.injEq, Prod.mk.injEq] at hL'
    obtain ⟨rfl, rfl⟩ := hL'
    rw [h3 (by rcases ht with rfl | rfl <;> simp)]
  refine ⟨(assertPpImpl_ok law hwk ho hp hf none).2 (by simp), fun lines => ?_⟩
  unfold assertPp
  rw [assertPpImpl_ok law hwk ho hp hf (some lines)]
  simp

/-- **C63**, conversely: if the checks pass, then the oracle and the printer agree, from every focus that was
    tried, and the expected lines are what they print. -/
theorem C63_detects (law : P.Lawful) {doc : P.Node} (hwk : P.Walkable doc) {w : Nat} {expected : Option (List String)}
    (h : assertPpImpl doc w expected = Exec.ofRes (.ok ())) :
    ∃ s, oracularPrettyPrint doc w = Exec.ofRes (.ok s) ∧ prettyPrintToString doc w = Exec.ofRes (.ok s) ∧
      (∀ lines, expected = some lines → "\n".intercalate lines = s) ∧
      ∀ path, PathIn P doc path → ∀ target, target = .start ∨ target = .end →
        ∃ o, printAll doc w path target none = Exec.ofRes (.ok o) ∧ linesString o.lines = s :=
  assertPpImpl_inv law hwk h

/-! ### One node -/

theorem resolves_text_inv {id : P.Id} {t T} (h : Resolves id (.text t) T) : T = [.tok (.text t)] := by cases h; rfl

theorem resolves_newline_inv {id : P.Id} {ind T} (h : Resolves id (.newline ind) T) : T = [.tok (.nl ind)] := by
  cases h; rfl

theorem resolves_concat_inv {id : P.Id} {a b T} (h : Resolves id (.concat a b) T) :
    ∃ A B, T = A ++ B ∧ Resolves id a A ∧ Resolves id b B := by
  cases h with
  | concat h1 h2 => exact ⟨_, _, rfl, h1, h2⟩

theorem resolves_choice_inv {id : P.Id} {a b T} (h : Resolves id (.choice a b) T) :
    (∃ A, erase T = erase A ∧ Resolves id a A) ∨ ∃ B, erase T = erase B ∧ Resolves id b B := by
  cases h with
  | @choice_first _ _ _ A h => exact .inl ⟨A, rfl, h⟩
  | @choice_second _ _ _ B h => exact .inr ⟨B, rfl, h⟩

theorem pathIn_childless {doc : P.Node} {path} (h : PathIn P doc path) (hc : ∀ c, ¬ P.ChildOf c doc) : path = [] := by
  cases h with
  | nil => rfl
  | cons h _ => exact absurd ⟨_, h⟩ (hc _)

section
variable {sw : String → Nat}

theorem simpleLaw (sw : String → Nat) : (simpleDoc sw).Lawful where
  wf := ⟨fun n => ⟨_, fun m ⟨i, h⟩ => by simp [PrettyDoc.childAt] at h⟩⟩
  valid p a h := by injection h with h; subst h; exact p.2
  last p m h := by cases h
  prev p n' i c h1 h2 h3 := rfl
  id_no_panic p := by simp
  notn_no_panic p := by simp
  condition_no_panic p _ _ := by simp
  lookupStyle_no_panic p _ _ := by simp
  nodeStyle_no_panic p := by simp
  numChildren_no_panic p := by simp
  unwrapText_no_panic p h := by simp at h
  unwrapChild_no_panic p n i h hi := by simp at h; omega

theorem simple_childless (doc c : (simpleDoc sw).Node) : ¬ (simpleDoc sw).ChildOf c doc := by
  rintro ⟨i, h⟩
  simp [PrettyDoc.childAt] at h

theorem simple_below (doc c : (simpleDoc sw).Node) : ¬ (simpleDoc sw).Below c doc := by
  intro h
  cases h with
  | single h => exact simple_childless _ _ h
  | tail _ h => exact simple_childless _ _ h

theorem simple_ids (doc : (simpleDoc sw).Node) : (simpleDoc sw).IdsOnPaths doc :=
  fun _ _ _ _ hb => absurd hb (simple_below _ _)

theorem simple_walkable (doc : (simpleDoc sw).Node) : (simpleDoc sw).Walkable doc :=
  ⟨fun _ _ => ⟨_, rfl⟩, fun _ _ _ _ h hi => by simp at h; omega⟩

theorem simple_tree (doc : (simpleDoc sw).Node) : rootTree (simpleLaw sw) doc none =
    .ok (0, Notation.tree (P := simpleDoc sw) doc (docKid (simpleLaw sw) doc) doc.1 none ⟨false, [], ()⟩) := by
  unfold rootTree
  rw [docTree_of (simpleLaw sw) (a := doc.1) (s := ()) rfl rfl]
  rfl

theorem made_selfContained {n : Nat} {x} (h : Made n x) : x.SelfContained := by
  induction h with
  | empty | newline | endOfLine | a | bb | cccc => trivial
  | flat _ ih => exact ih
  | nest _ ih => exact ⟨trivial, ih⟩
  | concat _ _ ih1 ih2 => exact ⟨ih1, ih2⟩
  | choice _ _ ih1 ih2 => exact ⟨ih1, ih2⟩

/-- The widths that the notations of the test need. -/
structure TestWidths (sw : String → Nat) : Prop where
  adds : WidthsAdd sw
  a : sw "a" = 1
  bb : sw "bb" = 2
  cccc : sw "cccc" = 4
  spaces : sw "  " = 2

theorem made_tree (hsw : TestWidths sw) {n : Nat} {x} (h : Made n x) {node} {kid} :
    ∀ c, (Notation.tree (P := simpleDoc sw) node kid x none c).NoFail ∧
      (Notation.tree (P := simpleDoc sw) node kid x none c).TextsWide ∧
      (Notation.tree (P := simpleDoc sw) node kid x none c).TextsWithin 4 ∧
      ∀ id T, Resolves id (Notation.tree (P := simpleDoc sw) node kid x none c) T →
        toksWidth (erase T) ≤ 4 * n ∧
        ∀ ind, .nl ind ∈ erase T → segsWidth ind + toksWidth (erase T) ≤ segsWidth c.indent + 4 * n := by
  induction h with
  | empty =>
    intro c
    refine ⟨trivial, trivial, trivial, ?_⟩
    intro id T hT
    cases hT
    simp [erase, toksWidth]
  | newline =>
    intro c
    refine ⟨trivial, trivial, trivial, ?_⟩
    intro id T hT
    cases hT
    simp [erase, toksWidth]
  | endOfLine =>
    intro c
    refine ⟨trivial, trivial, trivial, ?_⟩
    intro id T hT
    cases hT
    simp [erase, toksWidth]
  | a =>
    intro c
    have h1 := hsw.a
    simp only [Notation.tree, NTree.NoFail, NTree.TextsWide, NTree.TextsWithin, h1]
    refine ⟨trivial, by omega, by omega, ?_⟩
    intro id T hT
    rw [resolves_text_inv hT]
    simp [erase, toksWidth]
  | bb =>
    intro c
    have h1 := hsw.bb
    simp only [Notation.tree, NTree.NoFail, NTree.TextsWide, NTree.TextsWithin, h1]
    refine ⟨trivial, by omega, by omega, ?_⟩
    intro id T hT
    rw [resolves_text_inv hT]
    simp [erase, toksWidth]
  | cccc =>
    intro c
    have h1 := hsw.cccc
    simp only [Notation.tree, NTree.NoFail, NTree.TextsWide, NTree.TextsWithin, h1]
    refine ⟨trivial, by omega, by omega, ?_⟩
    intro id T hT
    rw [resolves_text_inv hT]
    simp [erase, toksWidth]
  | flat _ ih =>
    intro c
    simp only [Notation.tree]
    obtain ⟨h1, h2, h3, h4⟩ := ih { c with flat := true }
    refine ⟨h1, h2, h3, fun id T hT => ?_⟩
    obtain ⟨h5, h6⟩ := h4 id T hT
    refine ⟨by omega, fun ind hi => ?_⟩
    have := h6 ind hi
    dsimp only at this
    omega
  | @nest n x _ ih =>
    intro c
    have hsp : String.ofList (List.replicate 2 ' ') = "  " := rfl
    simp only [Notation.nest, Notation.tree, hsp, hsw.spaces]
    obtain ⟨h1, h2, h3, h4⟩ := ih { c with indent := c.indent ++ [⟨"  ", 2, c.style⟩] }
    refine ⟨⟨trivial, h1⟩, ⟨trivial, h2⟩, ⟨trivial, h3⟩, fun id T hT => ?_⟩
    obtain ⟨A, B, rfl, hA, hB⟩ := resolves_concat_inv hT
    · rw [resolves_newline_inv hA]
      obtain ⟨h5, h6⟩ := h4 id B hB
      have hw : segsWidth (c.indent ++ [⟨"  ", 2, c.style⟩]) = segsWidth c.indent + 2 := by simp [segsWidth]
      simp only [List.cons_append, List.nil_append, erase]
      have ht : toksWidth (Tok.nl (P := simpleDoc sw) (c.indent ++ [⟨"  ", 2, c.style⟩]) :: erase B) = toksWidth (erase B) := by
        simp [toksWidth]
      rw [ht]
      refine ⟨by omega, fun ind hi => ?_⟩
      simp only [List.mem_cons, Tok.nl.injEq] at hi
      rcases hi with rfl | hi
      · omega
      · have := h6 ind hi
        dsimp only at this
        omega
  | @concat m n x y _ _ ih1 ih2 =>
    intro c
    simp only [Notation.tree]
    obtain ⟨h1, h2, h3, h4⟩ := ih1 c
    obtain ⟨g1, g2, g3, g4⟩ := ih2 c
    refine ⟨⟨h1, g1⟩, ⟨h2, g2⟩, ⟨h3, g3⟩, fun id T hT => ?_⟩
    obtain ⟨A, B, rfl, hA, hB⟩ := resolves_concat_inv hT
    · obtain ⟨h5, h6⟩ := h4 id A hA
      obtain ⟨g5, g6⟩ := g4 id B hB
      rw [erase_append]
      have ht : toksWidth (erase A ++ erase B) = toksWidth (erase A) + toksWidth (erase B) := by simp [toksWidth]
      rw [ht]
      refine ⟨by omega, fun ind hi => ?_⟩
      rcases List.mem_append.1 hi with hi | hi
      · have := h6 ind hi; omega
      · have := g6 ind hi; omega
  | @choice m n x y _ _ ih1 ih2 =>
    intro c
    simp only [Notation.tree]
    obtain ⟨h1, h2, h3, h4⟩ := ih1 c
    obtain ⟨g1, g2, g3, g4⟩ := ih2 c
    have w1 : ∀ id T, Resolves id (Notation.tree (P := simpleDoc sw) node kid x none c) T →
        toksWidth (erase T) ≤ 4 * (m + n + 1) ∧
        ∀ ind, .nl ind ∈ erase T → segsWidth ind + toksWidth (erase T) ≤ segsWidth c.indent + 4 * (m + n + 1) := by
      intro id T hT
      obtain ⟨h5, h6⟩ := h4 id T hT
      exact ⟨by omega, fun ind hi => by have := h6 ind hi; omega⟩
    have w2 : ∀ id T, Resolves id (Notation.tree (P := simpleDoc sw) node kid y none c) T →
        toksWidth (erase T) ≤ 4 * (m + n + 1) ∧
        ∀ ind, .nl ind ∈ erase T → segsWidth ind + toksWidth (erase T) ≤ segsWidth c.indent + 4 * (m + n + 1) := by
      intro id T hT
      obtain ⟨h5, h6⟩ := g4 id T hT
      exact ⟨by omega, fun ind hi => by have := h6 ind hi; omega⟩
    split
    · exact ⟨h1, h2, h3, w1⟩
    · refine ⟨⟨h1, g1⟩, ⟨h2, g2⟩, ⟨h3, g3⟩, fun id T hT => ?_⟩
      rcases resolves_choice_inv hT with ⟨A, e, hA⟩ | ⟨B, e, hB⟩
      · rw [e]; exact w1 id _ hA
      · rw [e]; exact w2 id _ hB

theorem linesFrom_width {M : Nat} : ∀ (T : List (Tok P)) (cur : List (Segment P)), segsWidth cur + toksWidth T ≤ M →
    (∀ ind, .nl ind ∈ T → segsWidth ind + toksWidth T ≤ M) → ∀ l ∈ linesFrom cur T, segsWidth l ≤ M := by
  intro T
  induction T with
  | nil => intro cur h _ l hl; simp [linesFrom] at hl; subst hl; omega
  | cons t T ih =>
    intro cur h1 h2 l hl
    cases t with
    | text t =>
      have hw : toksWidth (Tok.text t :: T) = t.width + toksWidth T := by simp [toksWidth]
      rw [hw] at h1
      refine ih (cur ++ [t.segment]) ?_ (fun ind hi => ?_) l hl
      · have : segsWidth (cur ++ [t.segment]) = segsWidth cur + t.width := by simp [segsWidth, Textual.segment]
        omega
      · have := h2 ind (by simp [hi]); omega
    | nl ind =>
      have hw : toksWidth (Tok.nl ind :: T) = toksWidth T := by simp [toksWidth]
      rw [hw] at h1 h2
      simp only [linesFrom, List.mem_cons] at hl
      rcases hl with rfl | hl
      · omega
      · exact ih ind (h2 ind (by simp)) (fun i hi => h2 i (by simp [hi])) l hl
    | eol =>
      have hw : toksWidth (Tok.eol :: T) = toksWidth T := by simp [toksWidth]
      rw [hw] at h1 h2
      exact ih cur h1 (fun i hi => h2 i (by simp [hi])) l hl
    | mark id =>
      have hw : toksWidth (Tok.mark id :: T) = toksWidth T := by simp [toksWidth]
      rw [hw] at h1 h2
      exact ih cur h1 (fun i hi => h2 i (by simp [hi])) l hl

/-- **C63.**  For every notation made of the parts that the test uses, of any size up to 13000, that is accepted
    by `validate`, and every width below 10000: the oracle prints it, and `pretty_print_to_string` prints
    the same. -/
theorem C63_agree (hsw : TestWidths sw) {n : Nat} {x : Notation Unit Unit} (hx : Made n x) (hn : n ≤ 13000) (hv : x.Valid)
    {w : Nat} (hw : w < 10000) :
    ∃ s, oracularPrettyPrint (P := simpleDoc sw) ⟨x, hv⟩ w = Exec.ofRes (.ok s) ∧
      prettyPrintToString (P := simpleDoc sw) ⟨x, hv⟩ w = Exec.ofRes (.ok s) := by
  have hr := simple_tree (sw := sw) ⟨x, hv⟩
  obtain ⟨h1, h2, h3, h4⟩ := made_tree hsw hx (node := ⟨x, hv⟩) (kid := docKid (simpleLaw sw) ⟨x, hv⟩) ⟨false, [], ()⟩
  rcases C09_agree (simpleLaw sw) hsw.adds hr h1 hw (C09_texts_wide h2) h3 (b := 4 * n) (by
      rintro T ⟨st, hT⟩
      obtain ⟨h5, h6⟩ := h4 0 T (greedy_resolves hT)
      exact linesFrom_width _ _ (by simpa [segsWidth] using h5) (by simpa [segsWidth] using h6)) (by omega) with h | ⟨_, h⟩
  · exact h
  · exact absurd h (C22_valid_no_text_after_eol (simpleLaw sw) (doc := (⟨x, hv⟩ : (simpleDoc sw).Node)) (a := x) rfl (made_selfContained hx) w)

/-- **C63**: so the checks of the test suite pass. -/
theorem C63_passes (hsw : TestWidths sw) {n : Nat} {x : Notation Unit Unit} (hx : Made n x) (hn : n ≤ 13000) (hv : x.Valid)
    {w : Nat} (hw : w < 10000) :
    assertPpWithoutExpectation (P := simpleDoc sw) ⟨x, hv⟩ w = Exec.ofRes (.ok ()) := by
  obtain ⟨s, h1, h2⟩ := C63_agree hsw hx hn hv hw
  refine (C63_assert_pp (simpleLaw sw) (simple_walkable _) (simple_ids _) h1 h2 ?_).1
  intro id L _ path hp
  rw [pathIn_childless hp fun c => simple_childless _ _]
  exact ⟨_, rfl⟩

/-- **C63**, the loop of the test: for any list of such notations, valid or not. -/
theorem C63_loop (hsw : TestWidths sw) {notations : List (Notation Unit Unit)}
    (h : ∀ x ∈ notations, ∃ n, Made n x ∧ n ≤ 13000) :
    oracleTestLoop sw notations = Exec.ofRes (.ok ()) := by
  refine forM_ok _ fun x hx => ?_
  obtain ⟨n, h1, h2⟩ := h x hx
  unfold simpleTryNew
  by_cases hv : x.Valid
  · rw [dif_pos hv]
    refine forM_ok _ fun w hw => ?_
    refine C63_passes hsw h1 h2 hv ?_
    simp only [List.mem_range'_1] at hw
    omega
  · rw [dif_neg hv]
    rfl

/-- **C63**, conversely: for whatever notations, if the loop of the test passes then the oracle and the printer agree
    on all of them that are valid, at the widths 1 to 8. -/
theorem C63_loop_detects {notations : List (Notation Unit Unit)} (h : oracleTestLoop sw notations = Exec.ofRes (.ok ()))
    {x : Notation Unit Unit} (hx : x ∈ notations) (hv : x.Valid) {w : Nat} (h1 : 1 ≤ w) (h2 : w ≤ 8) :
    ∃ s, oracularPrettyPrint (P := simpleDoc sw) ⟨x, hv⟩ w = Exec.ofRes (.ok s) ∧
      prettyPrintToString (P := simpleDoc sw) ⟨x, hv⟩ w = Exec.ofRes (.ok s) := by
  have g := forM_inv _ h x hx
  unfold simpleTryNew at g
  rw [dif_pos hv] at g
  have g := forM_inv _ g w (by simp only [List.mem_range'_1]; omega)
  obtain ⟨s, g1, g2, _⟩ := C63_detects (simpleLaw sw) (simple_walkable _) g
  exact ⟨s, g1, g2⟩

theorem random_made {σ : Type} {pick : σ → Nat → Option (Nat × σ)}
    (hpick : ∀ s max, 0 < max → ∃ n s', pick s max = some (n, s') ∧ n < max) {size : Nat} (hs : 0 < size) :
    ∀ (count : Nat) (s : σ), ∃ as, generateRandom pick (notationGen size) count s = some as ∧
      as.length = count ∧ ∀ x ∈ as, Made size x := by
  intro count
  induction count with
  | zero => intro s; exact ⟨[], rfl, rfl, by simp⟩
  | succ count ih =>
    intro s
    obtain ⟨a, s', h1, h2⟩ := C62_random hpick (notationGen_proper size hs) s
    obtain ⟨as, h3, h3', h4⟩ := ih s'
    refine ⟨a :: as, by simp [generateRandom, h1, h3], by simp [h3'], ?_⟩
    intro x hx
    rcases List.mem_cons.1 hx with rfl | hx
    · exact (notationGen_values _ _).1 h2
    · exact h4 x hx

/-- **C63**: the whole test passes, whatever numbers the random number generator returns (in the ranges that it
    is asked for). -/
theorem C63_oracle_tests (hsw : TestWidths sw) {σ : Type} {pick : σ → Nat → Option (Nat × σ)}
    (hpick : ∀ s max, 0 < max → ∃ n s', pick s max = some (n, s') ∧ n < max) (seed : σ) :
    oracleTests sw pick seed = Exec.ofRes (.ok ()) := by
  obtain ⟨a, ha, ha'⟩ := C62_up_to_size (gen := notationGen) (fun n hn => (C62_notations hn).1) 6
  obtain ⟨b, hb, -, hb'⟩ := random_made hpick (size := 10) (by omega) 1000 seed
  obtain ⟨c, hc, -, hc'⟩ := random_made hpick (size := 20) (by omega) 1000 seed
  obtain ⟨d, hd, -, hd'⟩ := random_made hpick (size := 30) (by omega) 1000 seed
  obtain ⟨e, he, -, he'⟩ := random_made hpick (size := 50) (by omega) 200 seed
  unfold oracleTests
  simp only [ha, hb, hc, hd, he, Option.bind_eq_bind, Option.bind_some]
  refine C63_loop hsw ?_
  intro x hx
  simp only [List.mem_append] at hx
  rcases hx with (((hx | hx) | hx) | hx) | hx
  · obtain ⟨n, _, h2, h3⟩ := (ha' x).1 hx
    exact ⟨n, (notationGen_values n x).1 h3, by omega⟩
  · exact ⟨10, hb' x hx, by omega⟩
  · exact ⟨20, hc' x hx, by omega⟩
  · exact ⟨30, hd' x hx, by omega⟩
  · exact ⟨50, he' x hx, by omega⟩

/-- **C63**, conversely: the test tries all notations made of its parts with a size below 6 (and, besides, 3200 random ones
    of the sizes 10, 20, 30 and 50): if it passes, then on each of them that is valid the oracle and the
    printer agree, at the widths 1 to 8. -/
theorem C63_oracle_tests_detect {σ : Type} {pick : σ → Nat → Option (Nat × σ)}
    (hpick : ∀ s max, 0 < max → ∃ n s', pick s max = some (n, s') ∧ n < max) (seed : σ) :
    ∃ random : List (Notation Unit Unit), random.length = 3200 ∧
      (∀ x ∈ random, ∃ n, (n = 10 ∨ n = 20 ∨ n = 30 ∨ n = 50) ∧ Made n x) ∧
      (oracleTests sw pick seed = Exec.ofRes (.ok ()) →
        ∀ x : Notation Unit Unit, ((∃ n, 0 < n ∧ n < 6 ∧ Made n x) ∨ x ∈ random) → ∀ hv : x.Valid, ∀ w, 1 ≤ w → w ≤ 8 →
          ∃ s, oracularPrettyPrint (P := simpleDoc sw) ⟨x, hv⟩ w = Exec.ofRes (.ok s) ∧
            prettyPrintToString (P := simpleDoc sw) ⟨x, hv⟩ w = Exec.ofRes (.ok s)) := by
  obtain ⟨a, ha, ha'⟩ := C62_up_to_size (gen := notationGen) (fun n hn => (C62_notations hn).1) 6
  obtain ⟨b, hb, lb, hb'⟩ := random_made hpick (size := 10) (by omega) 1000 seed
  obtain ⟨c, hc, lc, hc'⟩ := random_made hpick (size := 20) (by omega) 1000 seed
  obtain ⟨d, hd, ld, hd'⟩ := random_made hpick (size := 30) (by omega) 1000 seed
  obtain ⟨e, he, le, he'⟩ := random_made hpick (size := 50) (by omega) 200 seed
  refine ⟨b ++ c ++ d ++ e, by simp only [List.length_append]; omega, ?_, ?_⟩
  · intro x hx
    simp only [List.mem_append] at hx
    rcases hx with ((hx | hx) | hx) | hx
    · exact ⟨10, by omega, hb' x hx⟩
    · exact ⟨20, by omega, hc' x hx⟩
    · exact ⟨30, by omega, hd' x hx⟩
    · exact ⟨50, by omega, he' x hx⟩
  · intro h x hx hv w h1 h2
    unfold oracleTests at h
    simp only [ha, hb, hc, hd, he, Option.bind_eq_bind, Option.bind_some] at h
    refine C63_loop_detects h ?_ hv h1 h2
    rcases hx with ⟨n, g1, g2, g3⟩ | hx
    · have := (ha' x).2 ⟨n, by omega, by omega, (notationGen_values n x).2 g3⟩
      simp [this]
    · simp only [List.mem_append] at hx ⊢
      tauto

end

/-! ### Examples -/

namespace Ex

theorem lengthWidths : TestWidths String.length :=
  ⟨⟨rfl, fun a b _ => String.length_append a b⟩, rfl, rfl, rfl, rfl⟩

/-- The test, with a "random" picker that always picks the largest number. -/
example : oracleTests String.length (fun (s : Nat) max => some (max - 1, s + 1)) 0 = Exec.ofRes (.ok ()) :=
  C63_oracle_tests lengthWidths (fun s max h => ⟨max - 1, s + 1, rfl, by omega⟩) 0

/-- A valid notation that was made. -/
example : ∃ s, oracularPrettyPrint (P := simpleDoc String.length)
      ⟨.concat (.literal "a") (.choice (.literal "bb") (.nest 2 (.literal "cccc"))), by decide⟩ 2 = Exec.ofRes (.ok s) ∧
    prettyPrintToString (P := simpleDoc String.length)
      ⟨.concat (.literal "a") (.choice (.literal "bb") (.nest 2 (.literal "cccc"))), by decide⟩ 2 = Exec.ofRes (.ok s) :=
  C63_agree lengthWidths (.concat (m := 1) (n := 4) .a (.choice (m := 1) (n := 2) .bb (.nest (n := 1) .cccc))) (by omega) _ (by omega)

end Ex
end PPP
