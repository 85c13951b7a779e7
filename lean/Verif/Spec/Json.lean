import Verif.Model.Json
/-
Specification, part 10: which expressions are JSON, and what text they stand for.
-/
namespace PPP

/-! ### JSON values -/

/-- A call of `json_comment`. -/
def Json.isComment : Json → Bool
  | .comment _ _ _ => true
  | _ => false

/-- A call of `json_object_pair`. -/
def Json.isPair : Json → Bool
  | .pair _ _ _ _ => true
  | _ => false

/-- `Json.Value okString okNumber e`: `e` is a JSON value built as documented: arrays hold values and
    comments, objects hold key-value pairs and comments.  All strings and keys satisfy `okString`, and
    the texts of all numbers satisfy `okNumber`. -/
inductive Json.Value (okString okNumber : String → Prop) : Json → Prop where
  | null (id) : Value okString okNumber (.null id)
  | bool (id b) : Value okString okNumber (.bool id b)
  | string (id) {s} : okString s → Value okString okNumber (.string id s)
  | number (id) {s} : okNumber s → Value okString okNumber (.number id s)
  | array (id) {es} : (∀ e ∈ es, e.isComment = false → Value okString okNumber e) →
      Value okString okNumber (.array id es)
  | object (id) {es} : (∀ e ∈ es, e.isComment = false → e.isPair = true) →
      (∀ pid keyId key v, Json.pair pid keyId key v ∈ es → okString key) →
      (∀ pid keyId key v, Json.pair pid keyId key v ∈ es → Value okString okNumber v) →
      Value okString okNumber (.object id es)

/-- A JSON document: a value, or any number of values and comments at the top level. -/
inductive Json.Document (okString okNumber : String → Prop) : Json → Prop where
  | value {e} : e.Value okString okNumber → Document okString okNumber e
  | roots (id) {es} : (∀ e ∈ es, e.isComment = false → e.Value okString okNumber) →
      Document okString okNumber (.roots id es)

/-! ### Ids

Every node gets the next value of a counter, when it is made.  The arguments of a call are made before
the node itself. -/

/-- The id of the node made by an expression. -/
def Json.rootId : Json → Nat
  | .null id | .bool id _ | .string id _ | .number id _ | .array id _ | .pair id _ _ _ | .object id _
  | .comment id _ _ | .roots id _ => id

mutual
/-- The id of every node is greater than those of its children. -/
def Json.Ordered : Json → Prop
  | .null _ | .bool _ _ | .string _ _ | .number _ _ => True
  | .array id es => Json.AllBelow id es
  | .pair id keyId _ v => keyId < id ∧ v.rootId < id ∧ v.Ordered
  | .object id es => Json.AllBelow id es
  | .comment id wordIds s => ∀ i, i < (splitWhitespace [] s.toList).length → wordIds i < id
  | .roots id es => Json.AllBelow id es
@[inherit_doc Json.Ordered]
def Json.AllBelow (id : Nat) : List Json → Prop
  | [] => True
  | e :: es => e.rootId < id ∧ e.Ordered ∧ Json.AllBelow id es
end

mutual
/-- Evaluate the calls of an expression from the inside out and from left to right, when `next` is the
    value of the counter: the same expression, annotated with the ids that the nodes get, and the new
    value of the counter. -/
def Json.assign : Json → (next : Nat) → Json × Nat
  | .null _, next => (.null next, next + 1)
  | .bool _ b, next => (.bool next b, next + 1)
  | .string _ s, next => (.string next s, next + 1)
  | .number _ s, next => (.number next s, next + 1)
  | .array _ es, next =>
    let (es, next) := Json.assigns es next
    (.array next es, next + 1)
  | .pair _ _ key v, next =>
    let (v, next) := v.assign next
    (.pair (next + 1) next key v, next + 2)
  | .object _ es, next =>
    let (es, next) := Json.assigns es next
    (.object next es, next + 1)
  | .comment _ _ s, next =>
    let n := (splitWhitespace [] s.toList).length
    (.comment (next + n) (fun i => next + i) s, next + n + 1)
  | .roots _ es, next =>
    let (es, next) := Json.assigns es next
    (.roots next es, next + 1)
@[inherit_doc Json.assign]
def Json.assigns : List Json → (next : Nat) → List Json × Nat
  | [], next => ([], next)
  | e :: es, next =>
    let (e, next) := e.assign next
    let (es, next) := Json.assigns es next
    (e :: es, next)
end

/-! ### The text of a value -/

mutual
/-- The JSON text of a value (or of a key-value pair), without white space and comments. -/
def Json.compact : Json → List Char
  | .null _ => "null".toList
  | .bool _ b => if b then "true".toList else "false".toList
  | .string _ s => '"' :: s.toList ++ ['"']
  | .number _ text => text.toList
  | .array _ es => '[' :: List.intercalate [','] (Json.compacts es) ++ [']']
  | .pair _ _ key v => '"' :: key.toList ++ ['"', ':'] ++ v.compact
  | .object _ es => '{' :: List.intercalate [','] (Json.compacts es) ++ ['}']
  | .comment _ _ _ => []
  | .roots _ es => (Json.compacts es).flatten
/-- The texts of several values, skipping comments. -/
def Json.compacts : List Json → List (List Char)
  | [] => []
  | e :: es => if e.isComment then Json.compacts es else e.compact :: Json.compacts es
end

/-! ### Removing white space and comments from a text -/

/-- Where we are in a text: outside of strings and comments, just after a slash, in a string, just
    after a backslash in a string, or in a comment (which ends at the end of the line). -/
inductive Lex where
  | normal | slash | str | esc | comment
  deriving Repr, DecidableEq

/-- White space of JSON. -/
def isJsonSpace (c : Char) : Bool := c = ' ' ∨ c = '\n' ∨ c = '\r' ∨ c = '\t'

/-- Read one character: what is kept, and where we are then. -/
def lexStep : Lex → Char → List Char × Lex
  | .normal, c =>
    if isJsonSpace c then ([], .normal)
    else if c = '"' then ([c], .str)
    else if c = '/' then ([], .slash)
    else ([c], .normal)
  | .slash, c => if c = '/' then ([], .comment) else (['/', c], .normal)
  | .str, c => if c = '"' then ([c], .normal) else if c = '\\' then ([c], .esc) else ([c], .str)
  | .esc, c => ([c], .str)
  | .comment, c => if c = '\n' then ([], .normal) else ([], .comment)

/-- Read some characters. -/
def lexRun (s : Lex) : List Char → List Char × Lex
  | [] => ([], s)
  | c :: cs => ((lexStep s c).1 ++ (lexRun (lexStep s c).2 cs).1, (lexRun (lexStep s c).2 cs).2)

/-- A text without its comments and its white space, except inside of strings. -/
def minify (s : String) : String := String.ofList (lexRun .normal s.toList).1

/-- The text can be put between quotes: for example, because all quotes and backslashes in it are escaped
    (see `Escaped` in Spec/JsonRead.lean).  (`json_string` does not escape its argument.) -/
def Quotable (s : String) : Prop := (lexRun .str s.toList) = (s.toList, .str)

/-- No white space, quotes or slashes. -/
def PlainNumber (s : String) : Prop := ∀ c ∈ s.toList, isJsonSpace c = false ∧ c ≠ '"' ∧ c ≠ '/'

end PPP
