import Verif.Proofs.Reference
/-
C64: the printer, which only looks to the end of the line, prints what the author's reference implementation
prints, which looks at the whole finished layout.
-/
namespace PPP
variable {P : PrettyDoc}

/-- There is exactly one reference layout. -/
theorem C64_exists_unique {w : Nat} {id : P.Id} {t : NTree P} (hn : t.NoFail) :
    ∃ T, Finishes w [] [(id, t)] T ∧ ∀ T', Finishes w [] [(id, t)] T' → T' = T := by
  obtain ⟨T, h⟩ := finishes_total (w := w) (id := id) (k := []) hn (fun _ => ⟨[], .nil⟩) []
  exact ⟨T, h, finishes_unique h⟩

/-- **C64.**  If the choices obey the documented requirement, then the greedy layout, which takes a first option
    if the rest of the line fits with second options, is the reference layout, which takes a first option if
    the line fits in the finished layout. -/
theorem C64_ideal {w : Nat} {id : P.Id} {t : NTree P} (hn : t.NoFail) (hc : t.GoodChoices w) (T : List (GTok P)) :
    GreedyDoc w id t T ↔ Finishes w [] [(id, t)] T := by
  have key : ∀ T, GreedyDoc w id t T → Finishes w [] [(id, t)] T := by
    rintro T ⟨st, hg⟩
    have := greedy_finishes hg [] rfl hn hc (by simp) (fun _ => ⟨[], .nil⟩) [] [] rfl .nil
    simpa using this
  refine ⟨key T, fun h => ?_⟩
  obtain ⟨T', h1, _⟩ := C10_greedy_exists_unique (w := w) (id := id) hn
  rw [finishes_unique (key T' h1) _ h]
  exact h1

/-- **C64**, for printing: a document that matches its notations, and whose choices obey the documented
    requirement, prints as `s` exactly when its reference layout has no defect and its lines are `s`. -/
theorem C64_printed (law : P.Lawful) {doc : P.Node} {w : Nat} {id t} (s : String)
    (hr : rootTree law doc none = .ok (id, t)) (hn : t.NoFail) (hc : t.GoodChoices w) :
    prettyPrintToString doc w = Exec.ofRes (.ok s) ↔
      ∃ T, Finishes w [] [(id, t)] T ∧ Printable (erase T) ∧ s = linesString (linesOf (erase T)) := by
  rw [C10_iff law s hr hn]
  simp only [C64_ideal hn hc]

/-- One half needs no requirement: if the rest of the line fits with second options, then it fits in the
    reference layout.  So the printer is never less careful than the reference. -/
theorem C64_first_is_safe {w : Nat} {B : List (GTok P)} {k A} (h : Finishes w B k A)
    (hs : SecondsFit w (lineAfter ⟨0, false⟩ (erase B)) (k.map (·.2))) : FitsFrom w (erase B) (erase A) :=
  fitsFrom_iff.2 (finishes_fits h hs)

namespace Ref

/-- **C64**: the author's two reference implementations are the same function. -/
theorem C64_same_reference (w : Nat) (d : Doc) : ppCont w d 0 id = (ppTree d).resolve w := by
  rw [ppCont_eq, resolveIn_id]

theorem plain_validateRec {d : Doc} (h : d.Plain) : ∀ ctx, d.notation.validateRec {} ctx = .ok {} := by
  induction d with
  | err | flat => exact h.elim
  | empty | text | newline => intro ctx; rfl
  | indent i x ih => intro ctx; exact ih h ctx
  | concat x y ih1 ih2 =>
    intro ctx
    simp only [Doc.notation, Notation.validateRec, ih1 h.1 ctx]
    exact ih2 h.2 ctx
  | choice x y ih1 ih2 =>
    intro ctx
    simp only [Doc.notation, Notation.validateRec, ih1 h.1 ctx, ih2 h.2 ctx]
    rfl

theorem plain_valid {d : Doc} (h : d.Plain) : d.notation.Valid := by
  unfold Notation.Valid Notation.validate
  rw [plain_validateRec h]
  rfl

/-- The document as a document of the printer: one node, with the document as its notation. -/
def Doc.node (d : Doc) (h : d.Plain) : (simpleDoc String.length).Node := ⟨d.notation, plain_valid h⟩

/-- The tree of a document. -/
def Doc.tree (d : Doc) (h : d.Plain) : NTree (simpleDoc String.length) :=
  Notation.tree (P := simpleDoc String.length) (d.node h) (docKid (simpleLaw String.length) (d.node h)) d.notation none
    ⟨false, [], ()⟩

theorem plain_noFail {d : Doc} (h : d.Plain) {node kid} : ∀ c,
    (Notation.tree (P := simpleDoc String.length) node kid d.notation none c).NoFail := by
  induction d with
  | err | flat => exact h.elim
  | empty | text | newline => intro c; trivial
  | indent i x ih => intro c; exact ih h _
  | concat x y ih1 ih2 => intro c; exact ⟨ih1 h.1 c, ih2 h.2 c⟩
  | choice x y ih1 ih2 =>
    intro c
    simp only [Doc.notation, Notation.tree]
    split
    · exact ih1 h.1 c
    · exact ⟨ih1 h.1 c, ih2 h.2 c⟩

/-- **C64**, for the reference implementation: it succeeds on all documents without `Err` and `Flat`.  If the
    choices of the document obey the documented requirement, then the printer prints what the
    reference implementation prints, unless that has a line of more than 65535 characters.  (The width of a
    string is its length, as in the reference implementation.) -/
theorem C64_reference {d : Doc} (h : d.Plain) (w : Nat) :
    ∃ ls, ppCont w d 0 id = .lines ls ∧ prettyCont w d = "\n".intercalate ls ∧
      ((d.tree h).GoodChoices w → ∀ s, prettyPrintToString (d.node h) w = Exec.ofRes (.ok s) ↔
        s = prettyCont w d ∧ ∀ l ∈ ls, l.length ≤ maxWidth) := by
  obtain ⟨T, h1, h2, h3⟩ := ppCont_finishes (w := w) h (d.node h) (docKid (simpleLaw String.length) (d.node h)) 0
    ⟨false, [], ()⟩ rfl (by simp) 0 id [] [] rfl (by simp [erase]) (by
      intro U ls _ _ hs
      refine ⟨[], .nil, by simp [erase], ?_⟩
      have h0 : ∀ ls, indented (segsString (P := simpleDoc String.length) []) ls = ls := by
        intro ls
        cases ls with
        | nil => rfl
        | cons l ls => simp [indented, segsString]
      rw [h0] at hs
      simp [hs])
  simp only [List.nil_append] at h3
  refine ⟨strs T, h3, by simp [prettyCont, h3, Layout.display], ?_⟩
  intro hc s
  rw [C64_printed (simpleLaw String.length) s (simple_tree (d.node h)) (plain_noFail h _) hc]
  have hp : prettyCont w d = linesString (linesOf (erase T)) := by
    simp [prettyCont, h3, Layout.display, linesString, strs]
  have hd : Printable (erase T) ↔ ∀ l ∈ strs T, l.length ≤ maxWidth := by
    unfold Printable TooWide
    have hne : ¬ EolDefect (erase T) := by
      rintro ⟨A, B, x, C, hT, _⟩
      exact h2 .eol (by rw [hT]; simp)
    have hl := linesFrom_plain (cur := []) (by simp) h2
    simp only [hne, not_false_eq_true, and_true, not_exists, not_and, Nat.not_lt, strs, List.mem_map,
      forall_exists_index, and_imp, forall_apply_eq_imp_iff₂]
    constructor
    · intro g l hm
      rw [← segs_length (hl l hm)]
      exact g l hm
    · intro g l hm
      rw [segs_length (hl l hm)]
      exact g l hm
  constructor
  · rintro ⟨T', g1, g2, g3⟩
    rw [finishes_unique h1 _ g1] at g2 g3
    exact ⟨by rw [hp, g3], hd.1 g2⟩
  · rintro ⟨rfl, g⟩
    exact ⟨T, h1, hd.2 g, hp⟩

/-! ### Examples -/

namespace Ex

/-- `("aaa" | "a" newline) "b" newline ("ccc" | "c")`. -/
def good : Doc :=
  .concat (.choice (.text "aaa") (.concat (.text "a") .newline))
    (.concat (.text "b") (.concat .newline (.choice (.text "ccc") (.text "c"))))

theorem good_plain : good.Plain := by simp [good, Doc.Plain]

theorem good_choices (w : Nat) : (good.tree good_plain).GoodChoices w := by
  refine ⟨⟨trivial, ⟨trivial, trivial⟩, ?_⟩, trivial, trivial, trivial, trivial, ?_⟩
  · intro k st
    simp only [secondsFit_cons, NTree.seconds, Notation.tree, Doc.notation, List.cons_append, List.nil_append,
      lineFits_text, lineFits_nl]
    rintro ⟨h1, h2⟩
    refine ⟨h1, ?_⟩
    have := LineFits.col h2
    have e1 : "aaa".length = 3 := rfl
    have e2 : "a".length = 1 := rfl
    simp only at this ⊢
    omega
  · intro k st
    simp only [secondsFit_cons, NTree.seconds, Notation.tree, Doc.notation, List.cons_append, List.nil_append,
      lineFits_text]
    rintro ⟨h1, h2⟩
    refine ⟨h1, ?_⟩
    have e1 : "ccc".length = 3 := rfl
    have e2 : "c".length = 1 := rfl
    unfold LineFits at h2 ⊢
    refine ⟨?_, h2.2⟩
    have := h2.1
    simp only at this ⊢
    omega

example : prettyPrintToString (good.node good_plain) 4 = Exec.ofRes (.ok "aaab\nccc") := by
  obtain ⟨ls, h1, h2, h3⟩ := C64_reference good_plain 4
  have e : ppCont 4 good 0 id = .lines ["aaab", "ccc"] := by rfl
  rw [e] at h1
  obtain rfl : ["aaab", "ccc"] = ls := by injection h1
  refine (h3 (good_choices 4) _).2 ⟨by rw [h2]; rfl, by decide⟩

example : prettyPrintToString (good.node good_plain) 3 = Exec.ofRes (.ok "a\nb\nccc") := by
  obtain ⟨ls, h1, h2, h3⟩ := C64_reference good_plain 3
  have e : ppCont 3 good 0 id = .lines ["a", "b", "ccc"] := by rfl
  rw [e] at h1
  obtain rfl : ["a", "b", "ccc"] = ls := by injection h1
  refine (h3 (good_choices 3) _).2 ⟨by rw [h2]; rfl, by decide⟩

/-- `("aa" | "a" newline) ("b" | "bbb")`: the second choice does not obey the requirement. -/
def bad : Doc :=
  .concat (.choice (.text "aa") (.concat (.text "a") .newline)) (.choice (.text "b") (.text "bbb"))

theorem bad_plain : bad.Plain := by simp [bad, Doc.Plain]

end Ex

/-- The requirement is needed: without it, the printer and the reference implementation print different things. -/
theorem C64_requirement_needed : prettyCont 3 Ex.bad = "aab" ∧
    prettyPrintToString (Ex.bad.node Ex.bad_plain) 3 = Exec.ofRes (.ok "a\nb") := by
  refine ⟨rfl, ?_⟩
  rw [C01_to_string_iff (simpleLaw String.length)]
  unfold docLayout
  rw [simple_tree]
  exact ⟨_, _, rfl, rfl⟩

end Ref
end PPP
