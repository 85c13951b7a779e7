import Verif.Proofs.JsonWork
import Verif.Props.Work
/-
C57: printing a JSON document takes a number of steps that is linear in its size and in its depth.
-/
namespace PPP
open Counted
variable {sw : String → Nat}

/-- The work of printing a JSON document is linear in the number of its nodes, times its depth; at every width. -/
theorem C57_work (e : Json) (w : Nat) :
    docWork (basicLaw sw) e.build w ≤ 64 * (e.size * (1 + 2 * e.depth)) := by
  have := (json_cheap (sw := sw) e e.build rfl).work 0 w (fun _ => 0) (fun _ => Nat.zero_le _)
  rw [Nat.add_zero, Nat.add_zero (1 + 2 * e.depth)] at this
  unfold docWork
  omega

/-- So printing it to a string takes at most 768 steps per node and level of nesting. -/
theorem C57_to_string (e : Json) (scan w : Nat) :
    (prettyPrintToStringC (P := basicDoc sw) scan e.build w).EndsWithin (768 * (e.size * (1 + 2 * e.depth)) + 11) := by
  obtain ⟨n, r, h1, h2⟩ := C55_to_string (basicLaw sw) scan e.build w
  have := C57_work (sw := sw) e w
  exact ⟨n, r, h1, by omega⟩

/-- And so does every session, at whatever node it starts and whatever lines are asked for, plus a step for
    every line asked for (if the chunks that `seek_child` scans are not counted). -/
theorem C57_session (e : Json) (w : Nat) (path : List Nat) (target : FocusTarget) (style : Option BasicStyle)
    (asks : List Ask) :
    (sessionC (P := basicDoc sw) 0 e.build w path target style asks).EndsWithin
      (768 * (e.size * (1 + 2 * e.depth)) + 10 + asks.length) := by
  obtain ⟨n, r, h1, h2⟩ := C55_session (basicLaw sw) e.build w path target style asks
  have := C57_work (sw := sw) e w
  exact ⟨n, r, h1, by omega⟩

/-- All steps counted, from the root. -/
theorem C57_session_root (e : Json) (scan w : Nat) (target : FocusTarget) (style : Option BasicStyle)
    (asks : List Ask) :
    (sessionC (P := basicDoc sw) scan e.build w [] target style asks).EndsWithin
      (768 * (e.size * (1 + 2 * e.depth)) + 10 + asks.length) := by
  obtain ⟨n, r, h1, h2⟩ := C55_session_root (basicLaw sw) scan e.build w target style asks
  have := C57_work (sw := sw) e w
  exact ⟨n, r, h1, by omega⟩

/-! ### Examples -/

/-- `[ // two words` / `1, {"a": [null]} ]`. -/
def exCostJson : Json :=
  .array 8 [.comment 2 (fun i => i) "two words", .number 3 "1", .object 7 [.pair 6 4 "a" (.array 5 [.null 0])]]

example : exCostJson.size = 10 ∧ exCostJson.depth = 3 := by decide

/-- `n` nested arrays with a `null` in the middle. -/
def nestJson : Nat → Json
  | 0 => .null 0
  | n + 1 => .array (n + 1) [nestJson n]

theorem nestJson_size (n : Nat) : (nestJson n).size = n + 1 ∧ (nestJson n).depth = n := by
  induction n with
  | zero => exact ⟨rfl, rfl⟩
  | succ n ih => simp only [nestJson, Json.size, Json.sizes, Json.depth, Json.depths, ih]; omega

/-- The notation of `n` nested arrays has `2 ^ n` layouts, but printing it is quadratic in `n` (as its output is:
    the lines of the largest layout are indented by up to `4 n` columns). -/
example (n scan w : Nat) : (prettyPrintToStringC (P := basicDoc sw) scan (nestJson n).build w).EndsWithin
    (768 * ((n + 1) * (1 + 2 * n)) + 11) := by
  have := C57_to_string (sw := sw) (nestJson n) scan w
  rw [(nestJson_size n).1, (nestJson_size n).2] at this
  exact this

/-- An array of `n` numbers: the number of steps is linear. -/
example (n scan w : Nat) : (prettyPrintToStringC (P := basicDoc sw) scan
    (Json.array (n + 1) ((List.range n).map fun i => .number i (toString i))).build w).EndsWithin
    (2304 * (n + 1) + 11) := by
  have h := C57_to_string (sw := sw) (Json.array (n + 1) ((List.range n).map fun i => .number i (toString i))) scan w
  have hs : ∀ l : List Nat, Json.sizes (l.map fun i => .number i (toString i)) = l.length ∧
      Json.depths (l.map fun i => .number i (toString i)) = 0 := by
    intro l
    induction l with
    | nil => exact ⟨rfl, rfl⟩
    | cons a l ih => simp only [List.map_cons, Json.sizes, Json.depths, Json.size, Json.depth, List.length_cons, ih]; omega
  simp only [Json.size, Json.depth, (hs _).1, (hs _).2, List.length_range] at h
  obtain ⟨k, r, h1, h2⟩ := h
  exact ⟨k, r, h1, by omega⟩

end PPP
