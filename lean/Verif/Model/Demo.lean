import Verif.Model.Json
import Verif.Model.Printer
/-
The demo program, a JSON formatter — /repo/examples/json.rs.

Modelled are `json_to_doc`, `pretty_print_json`, `lines_to_string`, and what `main` prints to the terminal.
Not modelled are the command line, reading the file with serde, and the timings that are printed to stderr.
`unwrap` (82-90) ends the program on an error: here, the error is the result.
-/
namespace PPP

/-- `serde_json::Value`.  A number is given by the text of its `f64` (`f64::to_string` is not modelled).
    The entries of an object are in the order of `serde_json::Map`'s iterator. -/
inductive Serde where
  | null
  | bool (b : Bool)
  | number (text : String)
  | string (s : String)
  | array (elems : List Serde)
  | object (entries : List (String × Serde))

mutual
/-- `json_to_doc` — /repo/examples/json.rs:24-40.  `next` is the thread-local counter for the ids of the
    nodes (/repo/src/doc_examples/tree.rs:14-22); the new value of it is returned too. -/
def jsonToDoc : Serde → (next : Nat) → Tree BasicStyle × Nat
  | .null, next => (jsonNull next, next + 1)
  | .bool b, next => (jsonBool next b, next + 1)
  | .number text, next => (jsonNumber next text, next + 1)
  | .string s, next => (jsonString next s, next + 1)
  | .array elems, next =>
    let (docs, next) := jsonToDocs elems next
    (jsonArray next docs, next + 1)
  | .object entries, next =>
    let (docs, next) := jsonToPairs entries next
    (jsonObject next docs, next + 1)
/-- `elems.into_iter().map(json_to_doc).collect()` — /repo/examples/json.rs:32. -/
def jsonToDocs : List Serde → (next : Nat) → List (Tree BasicStyle) × Nat
  | [], next => ([], next)
  | v :: vs, next =>
    let (doc, next) := jsonToDoc v next
    let (docs, next) := jsonToDocs vs next
    (doc :: docs, next)
/-- `entries.into_iter().map(|(key, val)| json_object_pair(&key, json_to_doc(val))).collect()` —
    /repo/examples/json.rs:33-38. -/
def jsonToPairs : List (String × Serde) → (next : Nat) → List (Tree BasicStyle) × Nat
  | [], next => ([], next)
  | (key, v) :: es, next =>
    let (doc, next) := jsonToDoc v next
    let pair := jsonPair (next + 1) next key doc
    let (docs, next) := jsonToPairs es (next + 2)
    (pair :: docs, next)
end

/-- `pretty_print_json` — /repo/examples/json.rs:42-51 (for any document). -/
def prettyPrintJson {P : PrettyDoc} (doc : P.Node) (width : Nat) : Exec P.Err (List (Line P)) := do
  let r ← prettyPrint doc width [] .start none
  let nextLines ← drain Printer.nextDown r.down
  pure (r.focused.toLine :: nextLines)

/-- `Fg(color)` of the crate `termion` 3.0, formatted: the escape sequence `ESC [ 3 8 ; 5 ; n m`. -/
def termionFg : Color → String
  | .black => "\x1b[38;5;0m"
  | .red => "\x1b[38;5;1m"
  | .green => "\x1b[38;5;2m"
  | .yellow => "\x1b[38;5;3m"
  | .blue => "\x1b[38;5;4m"
  | .magenta => "\x1b[38;5;5m"
  | .cyan => "\x1b[38;5;6m"
  | .white => "\x1b[38;5;7m"

/-- `Fg(Reset)` of the crate `termion`, formatted. -/
def termionReset : String := "\x1b[39m"

/-- The inner loop of `lines_to_string` — /repo/examples/json.rs:61-73. -/
def segmentsToString {sw : String → Nat} : List (Segment (basicDoc sw)) → String
  | [] => ""
  | segment :: segments =>
    termionFg (BasicStyle.color segment.style) ++ segment.str ++ segmentsToString segments

/-- The outer loop of `lines_to_string` — /repo/examples/json.rs:60-75. -/
def linesToStringLoop {sw : String → Nat} : List (Line (basicDoc sw)) → String
  | [] => ""
  | line :: lines => segmentsToString line.segments ++ "\n" ++ linesToStringLoop lines

/-- `lines_to_string` — /repo/examples/json.rs:53-79.  Writing to a `String` does not fail. -/
def linesToString {sw : String → Nat} (lines : List (Line (basicDoc sw))) : String :=
  linesToStringLoop lines ++ termionReset

/-- `main` — /repo/examples/json.rs:92-145: what is printed to the terminal (`println!` in 122), given the
    value that was read. -/
def demoMain (sw : String → Nat) (json : Serde) (width next : Nat) : Exec Empty String := do
  let doc := (jsonToDoc json next).1
  let lines ← prettyPrintJson (P := basicDoc sw) doc width
  pure (linesToString lines ++ "\n")

end PPP
