import Verif.Proofs.Reformat
/-
C75: formatting JSON is canonical.
-/
namespace PPP
variable {S : Type} {combine : S → S → S} {fromLabel : String → S} {sw : String → Nat}

/-- C75.  The ids of the nodes of a tree do not matter for its text. -/
theorem C75_tree_ids {t u : Tree S} (h : t.SameButIds u) (w : Nat) :
    prettyPrintToString (P := treeDoc S combine fromLabel sw) t w =
      prettyPrintToString (P := treeDoc S combine fromLabel sw) u w := by
  have law := treeDoc_lawful combine fromLabel sw
  have H : ∀ t : Tree S, prettyPrintToString (P := treeDoc S combine fromLabel sw) (t.mapIds fun _ => 0) w =
      prettyPrintToString (P := treeDoc S combine fromLabel sw) t w := by
    intro t
    obtain ⟨r, h1, h2⟩ := C49_to_string law (treeIds_respects combine fromLabel sw fun _ => 0) t w
    have h2 : prettyPrintToString (P := treeDoc S combine fromLabel sw) (t.mapIds fun _ => 0) w = _ := h2
    rw [h1, h2]
    cases r with
    | ok s => rfl
    | error e => exact congrArg (fun e => Exec.ofRes (.error e)) (Fail.rename_id e)
  rw [← H t, ← H u, show t.mapIds _ = _ from h]

/-- C75.  The same calls of the `json_*` functions make documents with the same text, at every width, whatever
    ids the nodes get. -/
theorem C75_same_calls {e e' : Json} (h : e.SameCalls e') (w : Nat) :
    prettyPrintToString (P := basicDoc sw) e.build w = prettyPrintToString (P := basicDoc sw) e'.build w :=
  C75_tree_ids (build_same h) w

/-- **C75.**  JSON documents without comments that stand for the same value have the same text, at every
    width. -/
theorem C75_same_value {e e' : Json} (h : e.Value anyText anyText) (h' : e'.Value anyText anyText)
    (hc : e.CommentFree) (hc' : e'.CommentFree) (hv : e.val = e'.val) (w : Nat) :
    prettyPrintToString (P := basicDoc sw) e.build w = prettyPrintToString (P := basicDoc sw) e'.build w :=
  C75_same_calls (sameCalls_of_val e e' h h' hc hc' hv) w

/-- **C75.**  Reformatting: print a document without comments at one width, read the text, turn the value into
    a document again, and print it at another width: the text is the same as when the first document is
    printed at this width.  In particular (`w' = w`), text that has been formatted is not changed by
    formatting it again. -/
theorem C75_reformat {e : Json} (h : e.Value Escaped NumberText) (hc : e.CommentFree) {w : Nat} {s : String}
    (hs : prettyPrintToString (P := basicDoc sw) e.build w = Exec.ofRes (.ok s)) :
    ∃ v : Serde, readJson s = some v.val ∧ ∀ w' next,
      prettyPrintToString (P := basicDoc sw) (jsonToDoc v next).1 w' =
        prettyPrintToString (P := basicDoc sw) e.build w' := by
  obtain ⟨v, hv⟩ := serde_of_val e.val
  refine ⟨v, by rw [hv]; exact C51_round_trip h hs, fun w' next => ?_⟩
  rw [jsonToDoc_expr]
  exact C75_same_value (expr_value v next (Serde.texts_any v)) (h.mono (fun _ _ => trivial) fun _ _ => trivial)
    (expr_commentFree v next) hc ((expr_val v next).trans hv) w'

/-- **C75.**  A document with comments loses them when its text is read.  But from then on, nothing changes
    any more: the text of the value, read and formatted again, is the same. -/
theorem C75_settles {e : Json} (h : e.Value Escaped NumberText) {w : Nat} {s : String}
    (hs : prettyPrintToString (P := basicDoc sw) e.build w = Exec.ofRes (.ok s)) {v : Serde}
    (hv : readJson s = some v.val) {w' next : Nat} {s' : String}
    (hs' : prettyPrintToString (P := basicDoc sw) (jsonToDoc v next).1 w' = Exec.ofRes (.ok s')) {v' : Serde}
    (hv' : readJson s' = some v'.val) (next' : Nat) :
    v'.val = v.val ∧
    prettyPrintToString (P := basicDoc sw) (jsonToDoc v' next').1 w' = Exec.ofRes (.ok s') := by
  have h1 := C51_round_trip h hs
  rw [hv] at h1
  have h2 := expr_value v next (texts_of_val v e h (Option.some.inj h1))
  rw [jsonToDoc_expr] at hs'
  have h3 := C51_round_trip h2 hs'
  rw [hv', expr_val] at h3
  refine ⟨Option.some.inj h3, ?_⟩
  rw [← hs', jsonToDoc_expr]
  exact C75_same_value (expr_value v' next' (Serde.texts_any v')) (h2.mono (fun _ _ => trivial) fun _ _ => trivial)
    (expr_commentFree v' next') (expr_commentFree v next)
    ((expr_val v' next').trans ((Option.some.inj h3).trans (expr_val v next).symm)) w'

/-! ### The demo program -/

theorem prettyPrintJson_ids {t u : Tree BasicStyle} (h : t.SameButIds u) (w : Nat) :
    (linesToString (sw := sw) <$> prettyPrintJson (P := basicDoc sw) t w) =
      linesToString (sw := sw) <$> prettyPrintJson (P := basicDoc sw) u w := by
  have law := basicLaw sw
  have H : ∀ t : Tree BasicStyle, prettyPrintJson (P := basicDoc sw) (t.mapIds fun _ => 0) w =
      prettyPrintJson (P := basicDoc sw) t w := by
    intro t
    have h1 := prettyPrintJson_rn (treeIds_respects BasicStyle.combine BasicStyle.fromLabel sw fun _ => 0) t w
    have hl : ∀ l : Line (basicDoc sw),
        Line.rename (treeIds BasicStyle.combine BasicStyle.fromLabel sw fun _ => 0) l = l := by
      intro ⟨segs⟩
      show Line.mk (segs.map _) = _
      congr 1
      conv => rhs; rw [← List.map_id segs]
      rfl
    have hp := prettyPrintJson_layout law t w
    cases hd : docLayout law t w none with
    | error e =>
      rw [hd] at hp
      obtain ⟨f, h2, _⟩ := hp
      have := h1.res h2
      rw [h2]
      refine Eq.trans this ?_
      exact congrArg (fun e => Exec.ofRes (.error e)) (Fail.rename_id f)
    | ok r =>
      obtain ⟨id, L⟩ := r
      rw [hd] at hp
      obtain ⟨lines, h2, _⟩ := hp
      have := h1.res h2
      rw [h2]
      refine Eq.trans this ?_
      refine congrArg (fun ls => Exec.ofRes (.ok ls)) ?_
      rw [show Line.rename _ = fun l => l from funext hl]
      exact List.map_id lines
  rw [← H t, ← H u, show t.mapIds _ = _ from h]

/-- **C75.**  The demo program shows the same for the same value, colours included, whatever the counter for
    the ids was. -/
theorem C75_demo {v v' : Serde} (h : v.val = v'.val) (w next next' : Nat) :
    demoMain sw v w next = demoMain sw v' w next' := by
  have hs : (jsonToDoc v next).1.SameButIds (jsonToDoc v' next').1 := by
    rw [jsonToDoc_expr, jsonToDoc_expr]
    exact build_same (sameCalls_of_val _ _ (expr_value v next (Serde.texts_any v))
      (expr_value v' next' (Serde.texts_any v')) (expr_commentFree v next) (expr_commentFree v' next')
      ((expr_val v next).trans (h.trans (expr_val v' next').symm)))
  have := congrArg (fun x => (x >>= fun s => pure (s ++ "\n") : Exec Empty String)) (prettyPrintJson_ids (sw := sw) hs w)
  simpa [demoMain_eq] using this

/-- **C75.**  Give the demo program the text that it shows: it shows the same again.  (The reader keeps strings
    as they are written between the quotes.  serde does so too if there is no backslash in them.) -/
theorem C75_demo_again {v : Serde} (hv : v.Texts (fun s => NoEsc s ∧ Escaped s) NumberText) {w next : Nat}
    {out : String} (h : demoMain sw v w next = Exec.ofRes (.ok out)) {v' : Serde}
    (hv' : readJson (screenText out) = some v'.val) (next' : Nat) :
    demoMain sw v' w next' = Exec.ofRes (.ok out) := by
  rw [C54_round_trip hv h] at hv'
  rw [← h]
  exact C75_demo (Option.some.inj hv').symm w next' next

/-! ### Examples -/

namespace Ex

/-- `{"a": [1, true], "b": null}`, with ids as if the calls had been made in this order ... -/
def objA : Json := .object 8 [.pair 4 3 "a" (.array 2 [.number 0 "1", .bool 1 true]), .pair 7 6 "b" (.null 5)]
/-- ... and when the value of `b` has been made first, after some other nodes. -/
def objB : Json := .object 30 [.pair 28 27 "a" (.array 26 [.number 24 "1", .bool 25 true]), .pair 23 22 "b" (.null 21)]

theorem objA_value : objA.Value Escaped NumberText := by
  refine .object _ ?_ ?_ ?_
  · intro e he _
    simp only [List.mem_cons, List.not_mem_nil, or_false] at he
    rcases he with rfl | rfl <;> rfl
  · intro p k key v he
    simp only [List.mem_cons, List.not_mem_nil, or_false, Json.pair.injEq] at he
    rcases he with ⟨_, _, rfl, _⟩ | ⟨_, _, rfl, _⟩ <;> exact ⟨by decide, rfl⟩
  · intro p k key v he
    simp only [List.mem_cons, List.not_mem_nil, or_false, Json.pair.injEq] at he
    rcases he with ⟨_, _, _, rfl⟩ | ⟨_, _, _, rfl⟩
    · refine .array _ ?_
      intro e he _
      simp only [List.mem_cons, List.not_mem_nil, or_false] at he
      rcases he with rfl | rfl
      · exact .number _ ⟨by decide, by decide⟩
      · exact .bool _ _
    · exact .null _

theorem objA_free : objA.CommentFree := by simp [objA, Json.CommentFree, Json.AllCommentFree]

theorem objAB : objA.SameCalls objB :=
  .object _ _ (.cons (.pair _ _ _ _ _ (.array _ _ (.cons (.number ..) (.cons (.bool ..) .nil))))
    (.cons (.pair _ _ _ _ _ (.null ..)) .nil))

/-- C75: they have the same text. -/
example (sw : String → Nat) (w : Nat) : prettyPrintToString (P := basicDoc sw) objA.build w =
    prettyPrintToString (P := basicDoc sw) objB.build w := C75_same_calls objAB w

/-- C75: however wide the text was that is read, the document made from it has the text that `objA` has. -/
example {sw : String → Nat} {w : Nat} {s : String}
    (hs : prettyPrintToString (P := basicDoc sw) objA.build w = Exec.ofRes (.ok s)) :
    ∃ v : Serde, readJson s = some v.val ∧
      prettyPrintToString (P := basicDoc sw) (jsonToDoc v 100).1 w = Exec.ofRes (.ok s) := by
  obtain ⟨v, h1, h2⟩ := C75_reformat objA_value objA_free hs
  exact ⟨v, h1, (h2 w 100).trans hs⟩

/-- C75 with a comment: the text of `jsonDocIds` is read as `[true]`. -/
example {next w' : Nat} {s' : String} {v' : Serde}
    (hs' : prettyPrintToString (P := basicDoc String.length) (jsonToDoc (.array [.bool true]) next).1 w' =
      Exec.ofRes (.ok s')) (hv' : readJson s' = some v'.val) :
    prettyPrintToString (P := basicDoc String.length) (jsonToDoc v' 0).1 w' = Exec.ofRes (.ok s') := by
  have hval : jsonDocIds.Value Escaped NumberText := by
    refine .array 3 ?_
    intro e he hc
    simp only [List.mem_cons, List.not_mem_nil, or_false] at he
    rcases he with rfl | rfl
    · exact .bool _ _
    · simp [Json.isComment] at hc
  exact (C75_settles hval jsonPrinted (v := .array [.bool true]) (C51_round_trip hval jsonPrinted) hs' hv' 0).2

end Ex
end PPP
