import Verif.Proofs.JsonLines
import Verif.Props.JsonRoots
/-
C76: how JSON is laid out.
-/
namespace PPP
variable {sw : String → Nat} {w : Nat} {okString okNumber : String → Prop}

/-- **C76.**  How a JSON document is printed, at every width: the printed text consists of the lines of a formatter that is
    given in Spec/JsonFormat.lean.  Printing succeeds with this text, unless a line is wider than the printer can count. -/
theorem C76_layout {e : Json} (h : e.Document okString okNumber) (s : String) :
    prettyPrintToString (P := basicDoc sw) e.build w = Exec.ofRes (.ok s) ↔
      s = "\n".intercalate ((e.docLines sw w).map Word.str) ∧ ∀ l ∈ e.docLines sw w, l.width ≤ maxWidth := by
  cases h with
  | value h =>
    have : e.docLines sw w = e.lines sw w 0 .none .none := by
      cases e with
      | roots => cases h
      | _ => rfl
    rw [this]
    exact item_prints (.inr (.inl h)) s
  | roots id h =>
    rename_i es
    cases es with
    | nil =>
      rw [C51_roots_empty]
      have hd : (Json.roots id []).docLines sw w = [Word.none] := rfl
      rw [hd]
      constructor
      · intro h
        have := Exec.ofRes_inj h
        injection this with this
        subst this
        simp [Word.none]
      · rintro ⟨rfl, _⟩
        rfl
    | cons e es =>
      have hi : ∀ x ∈ e :: es, x.Item okString okNumber := by
        intro x hx
        by_cases hc : x.isComment = true
        · exact .inl hc
        · exact .inr (.inl (h x hx (by simpa using hc)))
      have hd : (Json.roots id (e :: es)).docLines sw w = (e :: es).flatMap (Json.lines sw w 0 .none .none) := rfl
      rw [C51_roots (by simp), hd]
      generalize hes : e :: es = l at hi ⊢
      have hl : l ≠ [] := by rw [← hes]; simp
      clear hes hd h
      have key : ∀ (l : List Json) (texts : List String), (∀ x ∈ l, x.Item okString okNumber) →
          (List.Forall₂ (fun (e : Json) t => prettyPrintToString (P := basicDoc sw) e.build w = Exec.ofRes (.ok t)) l texts ↔
            texts = l.map (fun x => "\n".intercalate ((x.lines sw w 0 .none .none).map Word.str)) ∧
            ∀ x ∈ l.flatMap (Json.lines sw w 0 .none .none), x.width ≤ maxWidth) := by
        intro l
        induction l with
        | nil => intro texts _; cases texts <;> simp
        | cons a l ih =>
          intro texts hi
          have ha := hi a (by simp)
          cases texts with
          | nil => simp
          | cons t texts =>
            rw [List.forall₂_cons, ih texts (fun x hx => hi x (by simp [hx])), item_prints ha t]
            simp only [List.map_cons, List.cons.injEq, List.flatMap_cons, List.mem_append]
            constructor
            · rintro ⟨⟨h1, h2⟩, h3, h4⟩
              exact ⟨⟨h1, h3⟩, fun x hx => hx.elim (h2 x) (h4 x)⟩
            · rintro ⟨⟨h1, h3⟩, h⟩
              exact ⟨⟨h1, fun x hx => h x (.inl hx)⟩, h3, fun x hx => h x (.inr hx)⟩
      have join : ∀ (l : List Json), l ≠ [] → (∀ x ∈ l, x.Item okString okNumber) →
          "\n".intercalate (l.map (fun x => "\n".intercalate ((x.lines sw w 0 .none .none).map Word.str))) =
            "\n".intercalate ((l.flatMap (Json.lines sw w 0 .none .none)).map Word.str) := by
        intro l
        induction l with
        | nil => intro h; exact absurd rfl h
        | cons a l ih =>
          intro _ hi
          cases l with
          | nil => simp
          | cons b l =>
            have := ih (by simp) (fun x hx => hi x (by simp [hx]))
            rw [List.map_cons, List.map_cons, intercalate_cons_cons, ← List.map_cons (f := fun (x : Json) => "\n".intercalate ((x.lines sw w 0 .none .none).map Word.str)), this, List.flatMap_cons (x := a),
              List.map_append]
            have hne := lines_ne_nil (sw := sw) (w := w) (hi a (by simp)) 0 .none .none
            have hne' : ((b :: l).flatMap (Json.lines sw w 0 .none .none)).map Word.str ≠ [] := by
              have := lines_ne_nil (sw := sw) (w := w) (hi b (by simp)) 0 .none .none
              simp [this]
            have app : ∀ (A B : List String), A ≠ [] → B ≠ [] → "\n".intercalate (A ++ B) = "\n".intercalate A ++ "\n" ++ "\n".intercalate B := by
              intro A B hA hB
              induction A with
              | nil => exact absurd rfl hA
              | cons x A ihA =>
                cases A with
                | nil =>
                  obtain ⟨y, B, rfl⟩ := List.exists_cons_of_ne_nil hB
                  rw [List.singleton_append, intercalate_cons_cons]
                  simp
                | cons y A =>
                  rw [List.cons_append, List.cons_append, intercalate_cons_cons, ← List.cons_append, ihA (by simp), intercalate_cons_cons]
                  simp only [String.append_assoc]
            rw [app _ _ (by simpa using hne) hne']
      constructor
      · rintro ⟨texts, h1, rfl⟩
        obtain ⟨rfl, h2⟩ := (key l texts hi).1 h1
        exact ⟨join l hl hi, h2⟩
      · rintro ⟨rfl, h⟩
        exact ⟨_, (key l _ hi).2 ⟨rfl, h⟩, (join l hl hi).symm⟩

/-- **C76.**  A value without comments that fits on one line is printed on one line. -/
theorem C76_one_line {e : Json} (h : e.Value okString okNumber) {x : Word} (hx : e.oneLine sw = some x) (hw : x.width ≤ w)
    (hm : x.width ≤ maxWidth) : prettyPrintToString (P := basicDoc sw) e.build w = Exec.ofRes (.ok x.str) := by
  have key : e.docLines sw w = [x] := by
    have hd : e.docLines sw w = e.lines sw w 0 .none .none := by
      cases e with
      | roots => cases h
      | _ => rfl
    rw [hd]
    cases h with
    | null id => rw [Json.oneLine] at hx; cases hx; rw [Json.lines]; simp
    | bool id b => rw [Json.oneLine] at hx; cases hx; rw [Json.lines]; simp
    | string id _ => rw [Json.oneLine] at hx; cases hx; rw [Json.lines]; simp
    | number id _ => rw [Json.oneLine] at hx; cases hx; rw [Json.lines]; simp
    | array id _ =>
      rename_i es _
      rw [Json.lines]
      split
      · rename_i he
        simp only [List.isEmpty_iff] at he
        subst he
        rw [Json.oneLine, Json.oneLines] at hx
        simp at hx
        simpa using hx
      · simp [bracketLines, hx, hw]
    | object id _ _ _ =>
      rename_i es _ _ _
      rw [Json.lines]
      split
      · rename_i he
        simp only [List.isEmpty_iff] at he
        subst he
        rw [Json.oneLine, Json.oneLines] at hx
        simp at hx
        simpa using hx
      · simp [bracketLines, hx, hw]
  rw [C76_layout (.value h), key]
  simp [hm]

namespace Ex

/-- `{"a": [1, 2], "b": [// x y z⏎ 3]}`, with a comment in it. -/
def fmtJson : Json :=
  .object 9 [.pair 5 4 "a" (.array 3 [.number 1 "1", .number 2 "2"]),
    .pair 8 7 "b" (.array 6 [.comment 10 (fun i => 11 + i) "x  y z", .number 14 "3"])]

/-- It is a document. -/
theorem fmtJson_ok : fmtJson.Document (fun _ => True) (fun _ => True) := by
  refine .value (.object _ ?_ ?_ ?_)
  · intro e he _
    simp only [List.mem_cons, List.not_mem_nil, or_false] at he
    rcases he with rfl | rfl <;> rfl
  · intros; trivial
  · intro pid keyId key v hv
    simp only [List.mem_cons, List.not_mem_nil, or_false, Json.pair.injEq] at hv
    rcases hv with ⟨_, _, _, rfl⟩ | ⟨_, _, _, rfl⟩
    · refine .array _ fun e he _ => ?_
      simp only [List.mem_cons, List.not_mem_nil, or_false] at he
      rcases he with rfl | rfl <;> exact .number _ trivial
    · refine .array _ fun e he hc => ?_
      simp only [List.mem_cons, List.not_mem_nil, or_false] at he
      rcases he with rfl | rfl
      · cases hc
      · exact .number _ trivial

/-- Its lines, in 14 columns. -/
theorem fmtJson_lines : (fmtJson.docLines String.length 14).map Word.str =
    ["{", "    \"a\": [", "        1,", "        2", "    ],", "    \"b\": [", "        // x y", "        // z", "        3", "    ]", "}"] := by
  decide +kernel

/-- Its lines, in 30 columns. -/
theorem fmtJson_lines_wide : (fmtJson.docLines String.length 30).map Word.str =
    ["{", "    \"a\": [1, 2],", "    \"b\": [", "        // x y z", "        3", "    ]", "}"] := by
  decide +kernel

/-- C76 is about this document. -/
example : prettyPrintToString (P := basicDoc String.length) fmtJson.build 30 = Exec.ofRes (.ok
    "{\n    \"a\": [1, 2],\n    \"b\": [\n        // x y z\n        3\n    ]\n}") := by
  rw [C76_layout fmtJson_ok, fmtJson_lines_wide]
  refine ⟨by decide +kernel, ?_⟩
  have : (fmtJson.docLines String.length 30).all (fun l => decide (l.width ≤ maxWidth)) = true := by decide +kernel
  simpa [List.all_eq_true] using this

end Ex

end PPP
