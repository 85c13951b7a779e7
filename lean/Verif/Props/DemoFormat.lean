import Verif.Spec.DemoFormat
import Verif.Props.Demo
import Verif.Props.JsonFormat
/-
C54: what the demo program shows, exactly.
-/
namespace PPP
variable {sw : String → Nat}

theorem Serde.expr_isComment (v : Serde) (next : Nat) : (v.expr next).1.isComment = false := by
  cases v <;> rfl

theorem Serde.json_isComment (v : Serde) : v.json.isComment = false := by
  cases v <;> rfl

theorem Serde.exprs_any (vs : List Serde) (next : Nat) :
    ((Serde.exprs vs next).1.any fun e => !e.isComment) = (Serde.jsons vs).any fun e => !e.isComment := by
  cases vs with
  | nil => rfl
  | cons v vs => simp [Serde.exprs, Serde.jsons, Serde.expr_isComment, Serde.json_isComment]

theorem Serde.pairs_any (es : List (String × Serde)) (next : Nat) :
    ((Serde.pairs es next).1.any fun e => !e.isComment) = (Serde.jsonEntries es).any fun e => !e.isComment := by
  cases es with
  | nil => rfl
  | cons e es => rfl

theorem Serde.exprs_empty (vs : List Serde) (next : Nat) : (Serde.exprs vs next).1.isEmpty = (Serde.jsons vs).isEmpty := by
  cases vs <;> rfl

theorem Serde.pairs_empty (es : List (String × Serde)) (next : Nat) :
    (Serde.pairs es next).1.isEmpty = (Serde.jsonEntries es).isEmpty := by
  cases es <;> rfl

mutual
theorem Serde.expr_oneLine : ∀ (v : Serde) next, (v.expr next).1.oneLine sw = v.json.oneLine sw
  | .null, _ => by simp only [Serde.expr, Serde.json, Json.oneLine]
  | .bool _, _ => by simp only [Serde.expr, Serde.json, Json.oneLine]
  | .number _, _ => by simp only [Serde.expr, Serde.json, Json.oneLine]
  | .string _, _ => by simp only [Serde.expr, Serde.json, Json.oneLine]
  | .array vs, next => by simp only [Serde.expr, Serde.json, Json.oneLine, Serde.exprs_oneLine vs next]
  | .object es, next => by simp only [Serde.expr, Serde.json, Json.oneLine, Serde.pairs_oneLine es next]
theorem Serde.exprs_oneLine : ∀ (vs : List Serde) next, Json.oneLines sw (Serde.exprs vs next).1 = Json.oneLines sw (Serde.jsons vs)
  | [], _ => rfl
  | [v], next => by simpa only [Serde.exprs, Serde.jsons, Json.oneLines] using Serde.expr_oneLine v next
  | v :: v' :: vs, next => by
    have h1 := Serde.expr_oneLine v next
    have h2 := Serde.exprs_oneLine (v' :: vs) (v.expr next).2
    simp only [Serde.exprs, Serde.jsons, Json.oneLines] at h2 ⊢
    rw [h1, h2]
theorem Serde.pairs_oneLine : ∀ (es : List (String × Serde)) next,
    Json.oneLines sw (Serde.pairs es next).1 = Json.oneLines sw (Serde.jsonEntries es)
  | [], _ => rfl
  | [(key, v)], next => by
    have h1 := Serde.expr_oneLine v next
    simp only [Serde.pairs, Serde.jsonEntries, Json.oneLines, Json.oneLine]
    rw [h1]
  | (key, v) :: (key', v') :: es, next => by
    have h1 := Serde.expr_oneLine v next
    have h2 := Serde.pairs_oneLine ((key', v') :: es) ((v.expr next).2 + 2)
    simp only [Serde.pairs, Serde.jsonEntries, Json.oneLines, Json.oneLine] at h2 ⊢
    rw [h1, h2]
end

mutual
theorem Serde.expr_lines : ∀ (v : Serde) next (w k : Nat) pre post, (v.expr next).1.lines sw w k pre post = v.json.lines sw w k pre post
  | .null, _, _, _, _, _ => by simp only [Serde.expr, Serde.json, Json.lines]
  | .bool _, _, _, _, _, _ => by simp only [Serde.expr, Serde.json, Json.lines]
  | .number _, _, _, _, _, _ => by simp only [Serde.expr, Serde.json, Json.lines]
  | .string _, _, _, _, _, _ => by simp only [Serde.expr, Serde.json, Json.lines]
  | .array vs, next, w, k, pre, post => by
    have h1 := Serde.exprs_oneLine (sw := sw) vs next
    have h2 := Serde.exprs_lines vs next w (k + 1)
    simp only [Serde.expr, Serde.json, Json.lines, Json.oneLine, h1, h2, Serde.exprs_empty]
  | .object es, next, w, k, pre, post => by
    have h1 := Serde.pairs_oneLine (sw := sw) es next
    have h2 := Serde.pairs_lines es next w (k + 1)
    simp only [Serde.expr, Serde.json, Json.lines, Json.oneLine, h1, h2, Serde.pairs_empty]
theorem Serde.exprs_lines : ∀ (vs : List Serde) next (w k : Nat),
    Json.entryLines sw w k (Serde.exprs vs next).1 = Json.entryLines sw w k (Serde.jsons vs)
  | [], _, _, _ => by simp only [Serde.exprs, Serde.jsons]
  | v :: vs, next, w, k => by
    have h1 := Serde.expr_lines v next w k
    have h2 := Serde.exprs_lines vs (v.expr next).2 w k
    simp only [Serde.exprs, Serde.jsons, Json.entryLines, h1, h2, Serde.expr_isComment, Serde.json_isComment, Serde.exprs_any]
theorem Serde.pairs_lines : ∀ (es : List (String × Serde)) next (w k : Nat),
    Json.entryLines sw w k (Serde.pairs es next).1 = Json.entryLines sw w k (Serde.jsonEntries es)
  | [], _, _, _ => by simp only [Serde.pairs, Serde.jsonEntries]
  | (key, v) :: es, next, w, k => by
    have h1 := Serde.expr_lines v next w k
    have h2 := Serde.pairs_lines es ((v.expr next).2 + 2) w k
    simp only [Serde.pairs, Serde.jsonEntries, Json.entryLines, Json.lines, h1, h2, Serde.pairs_any]
    rfl
end

theorem Serde.json_docLines (v : Serde) (next w : Nat) : (v.expr next).1.docLines sw w = v.json.docLines sw w := by
  have h1 : (v.expr next).1.docLines sw w = (v.expr next).1.lines sw w 0 .none .none := by cases v <;> rfl
  have h2 : v.json.docLines sw w = v.json.lines sw w 0 .none .none := by cases v <;> rfl
  rw [h1, h2, Serde.expr_lines]

/-- **C54.**  The demo program succeeds exactly if no line of the plain formatter is too wide to be counted. -/
theorem C54_succeeds (v : Serde) (w next : Nat) :
    (∃ out, demoMain sw v w next = Exec.ofRes (.ok out)) ↔ ∀ l ∈ v.json.docLines sw w, l.width ≤ maxWidth := by
  have hdoc : (v.expr next).1.Document anyText anyText := .value (expr_value v next (Serde.texts_any v))
  have key := C76_layout (sw := sw) (w := w) hdoc
  have hd : (jsonToDoc v next).1 = (v.expr next).1.build := congrArg Prod.fst (jsonToDoc_expr v next)
  rw [Serde.json_docLines, ← hd] at key
  constructor
  · rintro ⟨out, h⟩
    rcases C54_outcome (sw := sw) v w next with ⟨_, s, _, h2⟩ | ⟨h1, _⟩
    · exact ((key s).1 h2).2
    · rw [h1] at h
      exact absurd (Exec.ofRes_inj h) (by simp)
  · intro hl
    rcases C54_outcome (sw := sw) v w next with ⟨out, _, h1, _⟩ | ⟨_, h2⟩
    · exact ⟨out, h1⟩
    · have := (key _).2 ⟨rfl, hl⟩
      rw [this] at h2
      exact absurd (Exec.ofRes_inj h2) (by simp)

/-- **C54.**  If no string has an `ESC` in it, the text that the terminal shows consists of the lines of the plain formatter in
    Spec/JsonFormat.lean, and an empty line. -/
theorem C54_formatted {v : Serde} (hv : v.Texts NoEsc NoEsc) {w next : Nat} {out : String}
    (h : demoMain sw v w next = Exec.ofRes (.ok out)) :
    screenText out = "\n".intercalate ((v.json.docLines sw w).map Word.str) ++ "\n\n" := by
  obtain ⟨s, h1, h2⟩ := C54_text hv h
  have hdoc : (v.expr next).1.Document anyText anyText := .value (expr_value v next (Serde.texts_any v))
  have hd : (jsonToDoc v next).1 = (v.expr next).1.build := congrArg Prod.fst (jsonToDoc_expr v next)
  rw [hd] at h1
  rw [h2, ((C76_layout hdoc s).1 h1).1, Serde.json_docLines]

namespace Ex

/-- What the demo program shows for `demoJson` in 20 columns. -/
example {next : Nat} : ∃ out, demoMain String.length demoJson 20 next = Exec.ofRes (.ok out) ∧
    screenText out = "{\n    \"a\": [\n        1,\n        -2.5e3\n    ],\n    \"b\\\"\": null\n}\n\n" := by
  obtain ⟨out, h⟩ := (C54_succeeds (sw := String.length) demoJson 20 next).2 (by decide +kernel)
  refine ⟨out, h, ?_⟩
  have hv : demoJson.Texts NoEsc NoEsc := by
    refine .object ?_ ?_ <;> simp only [List.mem_cons, List.not_mem_nil, or_false, forall_eq_or_imp, forall_eq]
    · decide
    · refine ⟨.array ?_, .null⟩
      simp only [List.mem_cons, List.not_mem_nil, or_false, forall_eq_or_imp, forall_eq]
      exact ⟨.number (by decide), .number (by decide)⟩
  rw [C54_formatted hv h]
  decide +kernel

end Ex
end PPP
