import Verif.Spec.Json
/-
Specification: a reader for JSON text, independent of the printer.
-/
namespace PPP

/-- A JSON value.  A string is given by what is between its quotes, a number by its text. -/
inductive JVal where
  | null
  | bool (b : Bool)
  | str (s : String)
  | num (s : String)
  | arr (vs : List JVal)
  | obj (entries : List (String × JVal))

/-- A character that can be in a number. -/
def isNumChar (c : Char) : Bool := c.isDigit ∨ c = '+' ∨ c = '-' ∨ c = '.' ∨ c = 'e' ∨ c = 'E'

/-- The text of a number: what `f64::to_string` gives for finite numbers is of this form. -/
def NumberText (s : String) : Prop := s.toList ≠ [] ∧ ∀ c ∈ s.toList, isNumChar c = true

/-- All quotes in the text, and all backslashes, are escaped by a backslash (`esc`: there is one before
    the text). -/
def EscapedFrom (esc : Bool) : List Char → Prop
  | [] => esc = false
  | c :: cs =>
    if esc then EscapedFrom false cs
    else if c = '\\' then EscapedFrom true cs
    else c ≠ '"' ∧ EscapedFrom false cs

@[inherit_doc EscapedFrom]
def Escaped (s : String) : Prop := EscapedFrom false s.toList

/-! ### The reader

It reads text without white space and comments.  The results are what was read, and the rest of the
text. -/

/-- Read the word `w`. -/
def readWord (w cs : List Char) : Option (List Char) :=
  if w.isPrefixOf cs then some (cs.drop w.length) else none

/-- Read up to the next quote that is not escaped. -/
def readString (esc : Bool) : List Char → Option (List Char × List Char)
  | [] => none
  | c :: cs =>
    if esc then (readString false cs).map fun (s, r) => (c :: s, r)
    else if c = '"' then some ([], cs)
    else if c = '\\' then (readString true cs).map fun (s, r) => (c :: s, r)
    else (readString false cs).map fun (s, r) => (c :: s, r)

mutual
/-- Read a value; `n` is a bound on how deep the reader may go. -/
def readValue (n : Nat) (cs : List Char) : Option (JVal × List Char) :=
  match n with
  | 0 => none
  | n + 1 =>
    match readWord ['"'] cs with
    | some cs => (readString false cs).map fun (s, r) => (.str (String.ofList s), r)
    | none =>
      match readWord ['['] cs with
      | some cs =>
        match readWord [']'] cs with
        | some cs => some (.arr [], cs)
        | none => (readElems n cs).map fun (vs, r) => (.arr vs, r)
      | none =>
        match readWord ['{'] cs with
        | some cs =>
          match readWord ['}'] cs with
          | some cs => some (.obj [], cs)
          | none => (readEntries n cs).map fun (es, r) => (.obj es, r)
        | none =>
          match readWord "null".toList cs with
          | some cs => some (.null, cs)
          | none =>
            match readWord "true".toList cs with
            | some cs => some (.bool true, cs)
            | none =>
              match readWord "false".toList cs with
              | some cs => some (.bool false, cs)
              | none =>
                match cs.takeWhile isNumChar with
                | [] => none
                | c :: num => some (.num (String.ofList (c :: num)), cs.dropWhile isNumChar)
/-- Read at least one value, and the end of the array. -/
def readElems (n : Nat) (cs : List Char) : Option (List JVal × List Char) :=
  match n with
  | 0 => none
  | n + 1 =>
    (readValue n cs).bind fun (v, cs) =>
    match readWord [','] cs with
    | some cs => (readElems n cs).map fun (vs, r) => (v :: vs, r)
    | none => (readWord [']'] cs).map fun r => ([v], r)
/-- Read at least one key with its value, and the end of the object. -/
def readEntries (n : Nat) (cs : List Char) : Option (List (String × JVal) × List Char) :=
  match n with
  | 0 => none
  | n + 1 =>
    (readWord ['"'] cs).bind fun cs =>
    (readString false cs).bind fun (key, cs) =>
    (readWord [':'] cs).bind fun cs =>
    (readValue n cs).bind fun (v, cs) =>
    match readWord [','] cs with
    | some cs => (readEntries n cs).map fun (es, r) => ((String.ofList key, v) :: es, r)
    | none => (readWord ['}'] cs).map fun r => ([(String.ofList key, v)], r)
end

/-- Read a JSON text: remove white space and comments, and read one value, up to the end. -/
def readJson (s : String) : Option JVal :=
  let cs := (minify s).toList
  match readValue cs.length cs with
  | some (v, []) => some v
  | _ => none

/-! ### The value of an expression -/

mutual
/-- The value that an expression stands for: without ids and comments. -/
def Json.val : Json → JVal
  | .null _ => .null
  | .bool _ b => .bool b
  | .string _ s => .str s
  | .number _ text => .num text
  | .array _ es => .arr (Json.vals es)
  | .pair _ _ _ v => v.val
  | .object _ es => .obj (Json.entries es)
  | .comment _ _ _ => .null
  | .roots _ es => .arr (Json.vals es)
/-- The values of several expressions, skipping comments. -/
def Json.vals : List Json → List JVal
  | [] => []
  | e :: es => if e.isComment then Json.vals es else e.val :: Json.vals es
/-- The entries of an object, skipping comments. -/
def Json.entries : List Json → List (String × JVal)
  | [] => []
  | .pair _ _ key v :: es => (key, v.val) :: Json.entries es
  | _ :: es => Json.entries es
end

end PPP
