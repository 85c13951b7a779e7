import Verif.Props.Json
import Verif.Spec.JsonRead
/-
C51: what is printed can be read back.
-/
namespace PPP
variable {sw : String → Nat}

/-! ### Words, strings and numbers -/

theorem readWord_append (w cs : List Char) : readWord w (w ++ cs) = some cs := by
  simp [readWord]

theorem readWord_one (c d : Char) (cs : List Char) :
    readWord [c] (d :: cs) = if c = d then some cs else none := by
  by_cases h : c = d <;> simp [readWord, List.isPrefixOf, h]

theorem readWord_ne {c d : Char} {w cs : List Char} (h : c ≠ d) : readWord (c :: w) (d :: cs) = none := by
  simp [readWord, List.isPrefixOf, h]

theorem readString_escaped (r : List Char) : ∀ (s : List Char) (esc : Bool), EscapedFrom esc s →
    readString esc (s ++ '"' :: r) = some (s, r) := by
  intro s
  induction s with
  | nil => intro esc h; simp only [EscapedFrom] at h; subst h; simp [readString]
  | cons c s ih =>
    intro esc h
    simp only [EscapedFrom] at h
    simp only [List.cons_append, readString]
    split at h
    · rename_i he
      rw [if_pos he, ih _ h]
      rfl
    · rename_i he
      rw [if_neg he]
      split at h
      · rename_i hc
        subst hc
        rw [if_neg (by decide), if_pos rfl, ih _ h]
        rfl
      · rename_i hc
        rw [if_neg h.1, if_neg hc, ih _ h.2]
        rfl

/-- Escaped texts can be put between quotes. -/
theorem Escaped.quotable {s : String} (h : Escaped s) : Quotable s := by
  have key : ∀ (s : List Char) (esc : Bool), EscapedFrom esc s →
      lexRun (if esc then .esc else .str) s = (s, .str) := by
    intro s
    induction s with
    | nil => intro esc h; simp only [EscapedFrom] at h; subst h; rfl
    | cons c s ih =>
      intro esc h
      simp only [EscapedFrom] at h
      split at h
      · rename_i he
        subst he
        have := ih _ h
        simp only [if_false, Bool.false_eq_true] at this
        simp [lexRun, lexStep, this]
      · rename_i he
        simp only [he, if_false, Bool.false_eq_true]
        split at h
        · rename_i hc
          subst hc
          have := ih _ h
          simp only [if_true] at this
          simp [lexRun, lexStep, this]
        · rename_i hc
          have := ih _ h.2
          simp only [if_false, Bool.false_eq_true] at this
          simp [lexRun, lexStep, h.1, hc, this]
  exact key s.toList false h

theorem isNumChar_cases {c : Char} (h : isNumChar c = true) :
    c.isDigit = true ∨ c = '+' ∨ c = '-' ∨ c = '.' ∨ c = 'e' ∨ c = 'E' := by
  simpa [isNumChar] using h

/-- Numbers have no white space, quotes or slashes. -/
theorem NumberText.plain {s : String} (h : NumberText s) : PlainNumber s := by
  intro c hc
  rcases isNumChar_cases (h.2 c hc) with hd | rfl | rfl | rfl | rfl | rfl
  · have key : ∀ d : Char, d.isDigit = false → c ≠ d := by
      intro d hd' h; subst h; rw [hd] at hd'; simp at hd'
    refine ⟨?_, key _ (by decide), key _ (by decide)⟩
    have h1 := key ' ' (by decide)
    have h2 := key '\n' (by decide)
    have h3 := key '\r' (by decide)
    have h4 := key '\t' (by decide)
    simp [isJsonSpace, h1, h2, h3, h4]
  all_goals decide

/-- A rest of a text that does not go on with a number. -/
def NumEnd (r : List Char) : Prop := ∀ c r', r = c :: r' → isNumChar c = false

theorem takeWhile_num {s r : List Char} (h : ∀ c ∈ s, isNumChar c = true) (hr : NumEnd r) :
    (s ++ r).takeWhile isNumChar = s ∧ (s ++ r).dropWhile isNumChar = r := by
  induction s with
  | nil =>
    cases r with
    | nil => exact ⟨rfl, rfl⟩
    | cons c r => simp [hr c r rfl]
  | cons c s ih =>
    obtain ⟨h1, h2⟩ := ih fun d hd => h d (by simp [hd])
    simp [h c (by simp), h1, h2]

/-! ### Values -/

/-- The first character of a value. -/
theorem compact_head {e : Json} (h : e.Value Escaped NumberText) :
    ∃ c cs, e.compact = c :: cs ∧ c ≠ ']' ∧ c ≠ '}' ∧ c ≠ ',' := by
  cases h with
  | null => exact ⟨'n', _, rfl, by decide, by decide, by decide⟩
  | bool id b =>
    cases b
    · exact ⟨'f', _, rfl, by decide, by decide, by decide⟩
    · exact ⟨'t', _, rfl, by decide, by decide, by decide⟩
  | string => exact ⟨'"', _, rfl, by decide, by decide, by decide⟩
  | array => exact ⟨'[', _, rfl, by decide, by decide, by decide⟩
  | object => exact ⟨'{', _, rfl, by decide, by decide, by decide⟩
  | number id hs =>
    rename_i s
    simp only [Json.compact]
    cases hl : s.toList with
    | nil => exact (hs.1 hl).elim
    | cons c cs =>
      have := hs.2 c (by rw [hl]; simp)
      refine ⟨c, cs, rfl, ?_, ?_, ?_⟩ <;> (intro hc; subst hc; revert this; decide)

theorem compact_len {e : Json} (h : e.Value Escaped NumberText) : 1 ≤ e.compact.length := by
  obtain ⟨c, cs, h, _⟩ := compact_head h
  rw [h]; simp

theorem vals_nil (es : List Json) (h : Json.compacts es = []) : Json.vals es = [] := by
  induction es with
  | nil => rfl
  | cons e es ih =>
    simp only [Json.compacts, Json.vals] at h ⊢
    split at h
    · rename_i hc; rw [if_pos hc]; exact ih h
    · simp at h

theorem entries_nil (es : List Json) (hp : ∀ e ∈ es, e.isComment = false → e.isPair = true)
    (h : Json.compacts es = []) : Json.entries es = [] := by
  induction es with
  | nil => rfl
  | cons e es ih =>
    simp only [Json.compacts] at h
    split at h
    · rename_i hc
      cases e <;> simp [Json.isComment] at hc
      exact ih (fun e he => hp e (by simp [he])) h
    · simp at h

theorem readNumber {n : Nat} {s r : List Char} (hs : s ≠ []) (h : ∀ c ∈ s, isNumChar c = true) (hr : NumEnd r) :
    readValue (n + 1) (s ++ r) = some (.num (String.ofList s), r) := by
  obtain ⟨h1, h2⟩ := takeWhile_num h hr
  cases s with
  | nil => exact (hs rfl).elim
  | cons c s =>
    have hc := h c (by simp)
    have key : ∀ d, isNumChar d = false → d ≠ c := by intro d hd h; subst h; rw [hc] at hd; simp at hd
    have e1 : readWord ['"'] (c :: s ++ r) = none := readWord_ne (key _ (by decide))
    have e2 : readWord ['['] (c :: s ++ r) = none := readWord_ne (key _ (by decide))
    have e3 : readWord ['{'] (c :: s ++ r) = none := readWord_ne (key _ (by decide))
    have e4 : readWord "null".toList (c :: s ++ r) = none := readWord_ne (key _ (by decide))
    have e5 : readWord "true".toList (c :: s ++ r) = none := readWord_ne (key _ (by decide))
    have e6 : readWord "false".toList (c :: s ++ r) = none := readWord_ne (key _ (by decide))
    simp only [readValue, e1, e2, e3, e4, e5, e6, h1, h2]

theorem intercalate_cons_ne {α : Type} (sep x : List α) {xs : List (List α)} (h : xs ≠ []) :
    sep.intercalate (x :: xs) = x ++ sep ++ sep.intercalate xs := by
  cases xs with
  | nil => exact (h rfl).elim
  | cons y ys => simp [List.intercalate, List.intersperse]

theorem intercalate_one {α : Type} (sep x : List α) : sep.intercalate [x] = x := by
  simp [List.intercalate, List.intersperse]

/-- The first character of the elements of an array. -/
theorem compacts_head (es : List Json) (h : ∀ e ∈ es, e.isComment = false → e.Value Escaped NumberText)
    (hne : Json.compacts es ≠ []) : ∃ c cs, [','].intercalate (Json.compacts es) = c :: cs ∧ c ≠ ']' := by
  induction es with
  | nil => exact (hne rfl).elim
  | cons e es ih =>
    simp only [Json.compacts] at hne ⊢
    split
    · rename_i hc
      rw [if_pos hc] at hne
      exact ih (fun e he => h e (by simp [he])) hne
    · rename_i hc
      obtain ⟨c, cs, h1, h2, _⟩ := compact_head (h e (by simp) (by simpa using hc))
      by_cases hes : Json.compacts es = []
      · rw [hes, intercalate_one, h1]; exact ⟨c, cs, rfl, h2⟩
      · rw [intercalate_cons_ne _ _ hes, h1]; exact ⟨c, _, rfl, h2⟩

/-- The first character of the entries of an object. -/
theorem compacts_head' (es : List Json) (hp : ∀ e ∈ es, e.isComment = false → e.isPair = true)
    (hne : Json.compacts es ≠ []) : ∃ cs, [','].intercalate (Json.compacts es) = '"' :: cs := by
  induction es with
  | nil => exact (hne rfl).elim
  | cons e es ih =>
    simp only [Json.compacts] at hne ⊢
    split
    · rename_i hc
      rw [if_pos hc] at hne
      exact ih (fun e he => hp e (by simp [he])) hne
    · rename_i hc
      have hpe := hp e (by simp) (by simpa using hc)
      cases e <;> simp [Json.isPair] at hpe
      by_cases hes : Json.compacts es = []
      · rw [hes, intercalate_one]; exact ⟨_, rfl⟩
      · rw [intercalate_cons_ne _ _ hes]; exact ⟨_, rfl⟩

theorem numEnd_of {c : Char} (r : List Char) (h : isNumChar c = false) : NumEnd (c :: r) := by
  intro d r' he
  simp only [List.cons.injEq] at he
  rw [← he.1]; exact h

mutual
theorem readValue_compact (e : Json) (h : e.Value Escaped NumberText) : ∀ n r, NumEnd r →
    e.compact.length ≤ n → readValue n (e.compact ++ r) = some (e.val, r) := by
  intro n r hr hn
  have := compact_len h
  obtain ⟨n, rfl⟩ : ∃ m, n = m + 1 := ⟨n - 1, by omega⟩
  cases e with
  | null id =>
    simp only [Json.compact, Json.val]
    rw [readValue]
    rfl
  | bool id b =>
    cases b
    · simp only [Json.compact, Json.val]
      rw [readValue]
      rfl
    · simp only [Json.compact, Json.val]
      rw [readValue]
      rfl
  | string id s =>
    cases h with
    | string _ h =>
    simp only [Json.compact, Json.val]
    rw [readValue]
    simp only [List.cons_append, readWord_one, if_true, List.append_assoc, List.nil_append,
      readString_escaped r s.toList false h, Option.map_some, String.ofList_toList]
  | number id s =>
    cases h with
    | number _ h =>
    simp only [Json.compact, Json.val]
    rw [readNumber h.1 h.2 hr, String.ofList_toList]
  | array id es =>
    cases h with
    | array _ h =>
    simp only [Json.compact, List.length_append, List.length_cons, List.length_nil] at hn
    simp only [Json.compact, Json.val, List.cons_append, List.append_assoc, List.nil_append]
    rw [readValue]
    by_cases hne : Json.compacts es = []
    · rw [hne, vals_nil es hne]
      rfl
    · have h1 := readElems_compact es h hne n r (by omega)
      have h2 : readWord [']'] ([','].intercalate (Json.compacts es) ++ ']' :: r) = none := by
        obtain ⟨c, cs, h, hc⟩ := compacts_head es h hne
        rw [h]
        exact readWord_ne (Ne.symm hc)
      simp only [readWord_one, if_true, h2, h1]
      rfl
  | object id es =>
    cases h with
    | object _ hp hk h =>
    simp only [Json.compact, List.length_append, List.length_cons, List.length_nil] at hn
    simp only [Json.compact, Json.val, List.cons_append, List.append_assoc, List.nil_append]
    rw [readValue]
    by_cases hne : Json.compacts es = []
    · rw [hne, entries_nil es hp hne]
      rfl
    · have h1 := readEntries_compact es hp hk h hne n r (by omega)
      have h2 : readWord ['}'] ([','].intercalate (Json.compacts es) ++ '}' :: r) = none := by
        obtain ⟨cs, h⟩ := compacts_head' es hp hne
        rw [h]
        exact readWord_ne (by decide)
      simp only [readWord_one, if_true, h2, h1]
      rfl
  | pair => nomatch h
  | comment => nomatch h
  | roots => nomatch h
theorem readElems_compact (es : List Json) (h : ∀ e ∈ es, e.isComment = false → e.Value Escaped NumberText)
    (hne : Json.compacts es ≠ []) : ∀ n r, ([','].intercalate (Json.compacts es)).length + 1 ≤ n →
    readElems n ([','].intercalate (Json.compacts es) ++ ']' :: r) = some (Json.vals es, r) := by
  intro n r hn
  cases es with
  | nil => exact (hne rfl).elim
  | cons e es =>
    by_cases hc : e.isComment = true
    · simp only [Json.compacts, Json.vals, hc, if_true] at hne hn ⊢
      exact readElems_compact es (fun e he => h e (by simp [he])) hne n r hn
    · have hv := h e (by simp) (by simpa using hc)
      have hlen := compact_len hv
      obtain ⟨n, rfl⟩ : ∃ m, n = m + 1 := ⟨n - 1, by omega⟩
      simp only [Json.compacts, Json.vals, hc, if_false, Bool.false_eq_true] at hne hn ⊢
      by_cases hes : Json.compacts es = []
      · rw [hes, intercalate_one] at hn ⊢
        rw [readElems, readValue_compact e hv n _ (numEnd_of _ (by decide)) (by omega)]
        simp only [Option.bind_some]
        rw [readWord_one, readWord_one, if_neg (by decide), if_pos rfl, vals_nil es hes]
        rfl
      · rw [intercalate_cons_ne _ _ hes] at hn ⊢
        simp only [List.append_assoc, List.length_append, List.length_cons, List.length_nil, List.cons_append,
          List.nil_append] at hn ⊢
        rw [readElems, readValue_compact e hv n _ (numEnd_of _ (by decide)) (by omega)]
        simp only [Option.bind_some]
        rw [readWord_one, if_pos rfl]
        simp only
        rw [readElems_compact es (fun e he => h e (by simp [he])) hes n r (by omega)]
        rfl
theorem readEntries_compact (es : List Json) (hp : ∀ e ∈ es, e.isComment = false → e.isPair = true)
    (hk : ∀ pid keyId key v, Json.pair pid keyId key v ∈ es → Escaped key)
    (h : ∀ pid keyId key v, Json.pair pid keyId key v ∈ es → v.Value Escaped NumberText)
    (hne : Json.compacts es ≠ []) : ∀ n r, ([','].intercalate (Json.compacts es)).length + 1 ≤ n →
    readEntries n ([','].intercalate (Json.compacts es) ++ '}' :: r) = some (Json.entries es, r) := by
  intro n r hn
  cases es with
  | nil => exact (hne rfl).elim
  | cons e es =>
    have hp' : ∀ e ∈ es, e.isComment = false → e.isPair = true := fun e he => hp e (by simp [he])
    have hk' : ∀ pid keyId key v, Json.pair pid keyId key v ∈ es → Escaped key :=
      fun a b c d he => hk a b c d (by simp [he])
    have h' : ∀ pid keyId key v, Json.pair pid keyId key v ∈ es → v.Value Escaped NumberText :=
      fun a b c d he => h a b c d (by simp [he])
    cases e with
    | comment _ _ _ =>
      simp only [Json.compacts, Json.isComment, if_true] at hne hn ⊢
      exact readEntries_compact es hp' hk' h' hne n r hn
    | pair pid keyId key v =>
      have hv := h pid keyId key v (by simp)
      have hkey := hk pid keyId key v (by simp)
      have hlen := compact_len hv
      obtain ⟨n, rfl⟩ : ∃ m, n = m + 1 := ⟨n - 1, by omega⟩
      simp only [Json.compacts, Json.entries, Json.isComment, if_false, Bool.false_eq_true] at hne hn ⊢
      by_cases hes : Json.compacts es = []
      · rw [hes, intercalate_one] at hn ⊢
        simp only [Json.compact, List.append_assoc, List.length_append, List.length_cons, List.length_nil,
          List.cons_append, List.nil_append] at hn ⊢
        rw [readEntries, readWord_one, if_pos rfl]
        simp only [Option.bind_some]
        rw [readString_escaped _ key.toList false hkey]
        simp only [Option.bind_some]
        rw [readWord_one, if_pos rfl]
        simp only [Option.bind_some]
        rw [readValue_compact v hv n _ (numEnd_of _ (by decide)) (by omega)]
        simp only [Option.bind_some]
        rw [readWord_one, readWord_one, if_neg (by decide), if_pos rfl, entries_nil es hp' hes,
          String.ofList_toList]
        rfl
      · rw [intercalate_cons_ne _ _ hes] at hn ⊢
        simp only [Json.compact, List.append_assoc, List.length_append, List.length_cons, List.length_nil,
          List.cons_append, List.nil_append] at hn ⊢
        rw [readEntries, readWord_one, if_pos rfl]
        simp only [Option.bind_some]
        rw [readString_escaped _ key.toList false hkey]
        simp only [Option.bind_some]
        rw [readWord_one, if_pos rfl]
        simp only [Option.bind_some]
        rw [readValue_compact v hv n _ (numEnd_of _ (by decide)) (by omega)]
        simp only [Option.bind_some]
        rw [readWord_one, if_pos rfl]
        simp only
        rw [readEntries_compact es hp' hk' h' hes n r (by omega), String.ofList_toList]
        rfl
    | _ => exact absurd (hp _ List.mem_cons_self rfl) (by simp [Json.isPair])
end

theorem Json.Value.mono {A B A' B' : String → Prop} (hA : ∀ s, A s → A' s) (hB : ∀ s, B s → B' s) {e : Json}
    (h : e.Value A B) : e.Value A' B' := by
  induction h with
  | null id => exact .null id
  | bool id b => exact .bool id b
  | string id h => exact .string id (hA _ h)
  | number id h => exact .number id (hB _ h)
  | array id _ ih => exact .array id ih
  | object id hp hk _ ih => exact .object id hp (fun a b c d h => hA _ (hk a b c d h)) ih

/-- **C51.**  Print a JSON value at any width, and read the printed text: one gets the value back. -/
theorem C51_round_trip {e : Json} (h : e.Value Escaped NumberText) {w : Nat} {s : String}
    (hs : prettyPrintToString (P := basicDoc sw) e.build w = Exec.ofRes (.ok s)) :
    readJson s = some e.val := by
  have h1 := C34_content (.value (h.mono (fun _ h => h.quotable) (fun _ h => h.plain))) hs
  have h2 := readValue_compact e h e.compact.length [] (by intro c r h; simp at h) (Nat.le_refl _)
  rw [List.append_nil] at h2
  unfold readJson
  rw [h1]
  simp only [String.toList_ofList, h2]

/-- **C51.**  Different values are printed differently, also at different widths, and whatever the
    comments are. -/
theorem C51_injective {e e' : Json} (h : e.Value Escaped NumberText) (h' : e'.Value Escaped NumberText)
    {w w' : Nat} {s : String} (hs : prettyPrintToString (P := basicDoc sw) e.build w = Exec.ofRes (.ok s))
    (hs' : prettyPrintToString (P := basicDoc sw) e'.build w' = Exec.ofRes (.ok s)) : e.val = e'.val := by
  have h1 := C51_round_trip h hs
  rw [C51_round_trip h' hs'] at h1
  simp only [Option.some.injEq] at h1
  exact h1.symm

namespace Ex

/-- `jsonDoc` (see Props/Json.lean) is printed on four lines; they are read as `[true]`. -/
example : readJson "[\n    true\n    // hi\n]" = some (.arr [.bool true]) := by
  refine C51_round_trip (e := jsonDocIds) ?_ jsonPrinted
  refine .array 3 ?_
  intro e he hc
  change e ∈ [Json.bool 0 true, Json.comment 2 _ " hi"] at he
  simp only [List.mem_cons, List.not_mem_nil, or_false] at he
  rcases he with rfl | rfl
  · exact .bool 0 true
  · simp [Json.isComment] at hc

/-- `{"a": [1, -2.5e3], "b\"": {}}` with a comment in it. -/
def nestedJson : Json :=
  .object 9 [.pair 4 3 "a" (.array 2 [.number 0 "1", .number 1 "-2.5e3"]), .comment 5 (fun _ => 6) "x",
    .pair 8 7 "b\\\"" (.object 6 [])]

/-- It meets the hypothesis of C51. -/
theorem nestedJson_ok : nestedJson.Value Escaped NumberText := by
  refine .object 9 ?_ ?_ ?_
  · intro e he
    simp only [List.mem_cons, List.not_mem_nil, or_false] at he
    rcases he with rfl | rfl | rfl <;> simp [Json.isComment, Json.isPair]
  · intro a b key v he
    simp only [List.mem_cons, List.not_mem_nil, or_false, Json.pair.injEq, reduceCtorEq, false_or] at he
    rcases he with ⟨_, _, rfl, _⟩ | ⟨_, _, rfl, _⟩
    · simp [Escaped, EscapedFrom]
    · simp [Escaped, EscapedFrom]
  · intro a b key v he
    simp only [List.mem_cons, List.not_mem_nil, or_false, Json.pair.injEq, reduceCtorEq, false_or] at he
    rcases he with ⟨_, _, _, rfl⟩ | ⟨_, _, _, rfl⟩
    · refine .array 2 ?_
      intro e he _
      simp only [List.mem_cons, List.not_mem_nil, or_false] at he
      rcases he with rfl | rfl
      · exact .number _ ⟨by decide, by decide⟩
      · exact .number _ ⟨by decide, by decide⟩
    · exact .object _ (by simp) (by simp) (by simp)

/-- So at every width at which no line is too long for the column counter, it prints and is read back. -/
example (w : Nat) {s : String}
    (hs : prettyPrintToString (P := basicDoc String.length) nestedJson.build w = Exec.ofRes (.ok s)) :
    readJson s = some (.obj [("a", .arr [.num "1", .num "-2.5e3"]), ("b\\\"", .obj [])]) :=
  C51_round_trip nestedJson_ok hs

end Ex

end PPP
