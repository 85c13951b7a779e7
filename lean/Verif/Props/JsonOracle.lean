import Verif.Proofs.JsonOracle
/-
C69: the printer passes the test against the oracle on every JSON document.
-/
namespace PPP
variable {sw : String → Nat} {m : Nat}

/-- **C69**: on every JSON document, with or without comments, the oracle and the printer agree, at every width
    below 10000.  `m` bounds the widths of the texts, and `b` those of the lines that are printed. -/
theorem C69_agree {e : Json} (h : e.Document anyText anyText) (hj : JsonWidths sw m) (ht : e.TextsWithin sw m)
    {w b : Nat} (hw : w < 10000) {id} {L : LTree (basicDoc sw)}
    (hL : docLayout (basicLaw sw) e.build w none = .ok (id, L)) (hb : ∀ l ∈ linesOf L.toks, segsWidth l ≤ b)
    (hmb : m + b ≤ 55535) :
    ∃ s, oracularPrettyPrint (P := basicDoc sw) e.build w = Exec.ofRes (.ok s) ∧
      prettyPrintToString (P := basicDoc sw) e.build w = Exec.ofRes (.ok s) := by
  obtain ⟨nt, T, h1, h2, h3, h4, _⟩ := json_layout (sw := sw) (C := False) (fun _ _ h => h.elim) (fun _ _ h => h.elim) h w none
  obtain ⟨nt', e', hd, hs⟩ := json_scanned hj e ht e.build rfl false [] none
  have hn : nt' = nt := by
    have := (rootTree_inv (basicLaw sw) h1).1
    rw [hd] at this
    simpa using this
  subst hn
  have hlines : ∀ T, GreedyDoc (P := basicDoc sw) w e.rootId nt' T → ∀ l ∈ linesOf (erase T), segsWidth l ≤ b := by
    intro T' hT'
    obtain ⟨nt2, T2, g1, g2, g3, _⟩ := docLayout_greedy (basicLaw sw) hL
    rw [h1] at g1
    simp only [Except.ok.injEq, Prod.mk.injEq] at g1
    obtain ⟨rfl, rfl⟩ := g1
    obtain ⟨T0, _, hu⟩ := C10_greedy_exists_unique (P := basicDoc sw) (w := w) (id := e.rootId) h2
    rw [hu T' hT', ← hu T2 g2, g3]
    exact hb
  rcases C09_agree (basicLaw sw) hj.adds h1 h2 hw (fun T hT => hs.not_zero hT) hs.within hlines hmb with hok | ⟨_, herr⟩
  · exact hok
  · exact absurd herr (C33_no_error h w _)

/-- **C69**, the repository's own test: `assert_pp` compares the oracle with the printer, started at the
    beginning and at the end of every node.  It passes on every JSON document, exactly if the lines that are
    expected are those of the document. -/
theorem C69_assert_pp {e : Json} (h : e.Document anyText anyText) (ho : e.Ordered) (hj : JsonWidths sw m)
    (ht : e.TextsWithin sw m) {w b : Nat} (hw : w < 10000) {id} {L : LTree (basicDoc sw)}
    (hL : docLayout (basicLaw sw) e.build w none = .ok (id, L)) (hb : ∀ l ∈ linesOf L.toks, segsWidth l ≤ b)
    (hmb : m + b ≤ 55535) :
    assertPpWithoutExpectation (P := basicDoc sw) e.build w = Exec.ofRes (.ok ()) ∧
      ∀ lines, assertPp (P := basicDoc sw) e.build w lines = Exec.ofRes (.ok ()) ↔
        prettyPrintToString (P := basicDoc sw) e.build w = Exec.ofRes (.ok ("\n".intercalate lines)) := by
  obtain ⟨s, h1, h2⟩ := C69_agree h hj ht hw hL hb hmb
  obtain ⟨g1, g2⟩ := C63_assert_pp (basicLaw sw) (tree_walkable _) (document_node (sw := sw) h ho).ids h1 h2
    (fun id' L' hL' path hp => json_locate h ho hL' hp)
  refine ⟨g1, fun lines => (g2 lines).trans ?_⟩
  rw [h2]
  constructor
  · intro hs; rw [hs]
  · intro hs
    have := Exec.ofRes_inj hs
    simp only [Except.ok.injEq] at this
    exact this.symm

/-- **C69**: the same, for a document whose ids come from the counter. -/
theorem C69_counter {e : Json} {next : Nat} (h : (e.assign next).1.Document anyText anyText) (hj : JsonWidths sw m)
    (ht : (e.assign next).1.TextsWithin sw m) {w b : Nat} (hw : w < 10000) {id} {L : LTree (basicDoc sw)}
    (hL : docLayout (basicLaw sw) (e.assign next).1.build w none = .ok (id, L))
    (hb : ∀ l ∈ linesOf L.toks, segsWidth l ≤ b) (hmb : m + b ≤ 55535) :
    assertPpWithoutExpectation (P := basicDoc sw) (e.assign next).1.build w = Exec.ofRes (.ok ()) :=
  (C69_assert_pp h (C33_ids e next) hj ht hw hL hb hmb).1

/-! ### A concrete case -/

namespace Ex

theorem lengthJson : JsonWidths String.length 5 where
  adds := lengthWidths.adds
  some := by decide
  within := by decide

/-- `[true, // hi]`: the comment forces line breaks, and the test passes. -/
theorem C69_example : assertPp (P := basicDoc String.length) jsonDocIds.build 80 ["[", "    true", "    // hi", "]"] =
    Exec.ofRes (.ok ()) := by
  have hdoc : jsonDocIds.Document anyText anyText := by
    refine .value (.array 3 ?_)
    intro e he hc
    change e ∈ [Json.bool 0 true, Json.comment 2 _ " hi"] at he
    simp only [List.mem_cons, List.not_mem_nil, or_false] at he
    rcases he with rfl | rfl
    · exact .bool 0 true
    · simp [Json.isComment] at hc
  obtain ⟨id, L, hL, hs⟩ := (C01_to_string_iff (basicLaw String.length) _ _ _).1 jsonPrinted
  have hL' := hL
  unfold docLayout at hL'
  rw [jsonRoot] at hL'
  refine ((C69_assert_pp (m := 5) (b := 10) hdoc (C33_ids jsonDoc 0) lengthJson ?_ (by omega) hL ?_ (by omega)).2 _).2 ?_
  · change _ ∧ _ ∧ True
    refine ⟨?_, ?_, trivial⟩
    · trivial
    · change ∀ word ∈ splitWhitespace [] " hi".toList, (String.ofList word).length ≤ 5
      decide
  · have : L.toks = _ := congrArg (fun r => r.2.toks) (Except.ok.inj hL').symm
    rw [this]
    decide
  · exact jsonPrinted

end Ex

end PPP
