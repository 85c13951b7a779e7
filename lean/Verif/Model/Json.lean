import Verif.Model.Style
/-
The sample JSON documents — /repo/src/doc_examples/json.rs.
-/
namespace PPP

/-- Notations of trees, before validation. -/
private abbrev N := Notation String TreeCondition

/-- `JSON_NULL_NOTATION` — /repo/src/doc_examples/json.rs:17, 22-23. -/
def jsonNullN : TreeNotation := ⟨.style "green_bold" (.literal "null"), by decide⟩
/-- `JSON_TRUE_NOTATION` — /repo/src/doc_examples/json.rs:25-26. -/
def jsonTrueN : TreeNotation := ⟨.style "green_bold" (.literal "true"), by decide⟩
/-- `JSON_FALSE_NOTATION` — /repo/src/doc_examples/json.rs:28-29. -/
def jsonFalseN : TreeNotation := ⟨.style "green_bold" (.literal "false"), by decide⟩
/-- `JSON_STRING_NOTATION` — /repo/src/doc_examples/json.rs:31-35. -/
def jsonStringN : TreeNotation := ⟨.style "magenta" (.literal "\"" + .text + .literal "\""), by decide⟩
/-- `JSON_NUMBER_NOTATION` — /repo/src/doc_examples/json.rs:37-38. -/
def jsonNumberN : TreeNotation := ⟨.style "blue" .text, by decide⟩

/-- `single_seq` — /repo/src/doc_examples/json.rs:41-44 and 75-78. -/
def jsonSingleSeq : N := .fold (.flat (.child 0)) (.left + .literal ", " + .flat .right)
/-- `separator` — /repo/src/doc_examples/json.rs:47-52 and 81-86. -/
def jsonSeparator : N := .check .needsSeparator .leftChild (.literal ",") .empty
/-- The fold in `multi_seq` — /repo/src/doc_examples/json.rs:53-57 and 87-90.  In Rust, `+` binds
    stronger than `^`. -/
def jsonMultiFold : N := .fold (.child 0) ((.left + jsonSeparator) ^^^ .right)
/-- `array`, for `[` and `]` — /repo/src/doc_examples/json.rs:41-60. -/
def jsonArrayBody : N :=
  (.style "open" (.literal "[") + jsonSingleSeq + .style "close" (.literal "]")) |||
  ((.style "open" (.literal "[") + .nest 4 jsonMultiFold) ^^^ .style "close" (.literal "]"))
/-- `JSON_ARRAY_NOTATION` — /repo/src/doc_examples/json.rs:40-69. -/
def jsonArrayN : TreeNotation :=
  ⟨.count (.style "open" (.literal "[") + .focusMark + .style "close" (.literal "]")) jsonArrayBody jsonArrayBody,
   by decide⟩
/-- `JSON_OBJECT_PAIR_NOTATION` — /repo/src/doc_examples/json.rs:71-72. -/
def jsonPairN : TreeNotation := ⟨.child 0 + .literal ": " + .child 1, by decide⟩
/-- `object`, for `{` and `}` — /repo/src/doc_examples/json.rs:75-93. -/
def jsonObjectBody : N :=
  (.style "open" (.literal "{") + jsonSingleSeq + .style "close" (.literal "}")) |||
  ((.style "open" (.literal "{") + .nest 4 jsonMultiFold) ^^^ .style "close" (.literal "}"))
/-- `JSON_OBJECT_NOTATION` — /repo/src/doc_examples/json.rs:74-102. -/
def jsonObjectN : TreeNotation :=
  ⟨.count (.style "open" (.literal "{") + .focusMark + .style "close" (.literal "}")) jsonObjectBody jsonObjectBody,
   by decide⟩
/-- `comment_body` — /repo/src/doc_examples/json.rs:105-112. -/
def jsonCommentBody : N :=
  .count .focusMark (.child 0) (.fold (.child 0) (.left + (.literal " " ||| .newline) + .right))
/-- `JSON_COMMENT_NOTATION` — /repo/src/doc_examples/json.rs:104-118. -/
def jsonCommentN : TreeNotation :=
  ⟨.style "yellow" (.literal "// " + .indent "// " none jsonCommentBody + .endOfLine), by decide⟩
/-- `JSON_COMMENT_WORD_NOTATION` — /repo/src/doc_examples/json.rs:120. -/
def jsonWordN : TreeNotation := ⟨.text, by decide⟩
/-- `JSON_ROOTS_NOTATION` — /repo/src/doc_examples/json.rs:122-132. -/
def jsonRootsN : TreeNotation :=
  ⟨.count .focusMark (.child 0) (.fold (.child 0) (.left ^^^ .right)), by decide⟩

/-- `char::is_whitespace` of the Rust standard library: the Unicode property `White_Space`. -/
def isWhitespace (c : Char) : Bool :=
  (0x09 ≤ c.val ∧ c.val ≤ 0x0d) ∨ c.val = 0x20 ∨ c.val = 0x85 ∨ c.val = 0xa0 ∨ c.val = 0x1680 ∨
  (0x2000 ≤ c.val ∧ c.val ≤ 0x200a) ∨ c.val = 0x2028 ∨ c.val = 0x2029 ∨ c.val = 0x202f ∨
  c.val = 0x205f ∨ c.val = 0x3000

/-- `str::split_whitespace` of the Rust standard library: the maximal nonempty substrings without
    whitespace; `cur` is the part of the current word that has been read. -/
def splitWhitespace (cur : List Char) : List Char → List (List Char)
  | [] => if cur = [] then [] else [cur]
  | c :: cs =>
    if isWhitespace c then
      if cur = [] then splitWhitespace [] cs else cur :: splitWhitespace [] cs
    else splitWhitespace (cur ++ [c]) cs

/-- An expression made of calls of the `json_*` functions — /repo/src/doc_examples/json.rs:137-192.
    Each call is annotated with the id(s) that the thread-local counter gave to the nodes it made.
    A number is given by its text: `f64::to_string` is not modelled. -/
inductive Json where
  | null (id : Nat)
  | bool (id : Nat) (b : Bool)
  | string (id : Nat) (s : String)
  | number (id : Nat) (text : String)
  | array (id : Nat) (elements : List Json)
  | pair (id keyId : Nat) (key : String) (value : Json)
  | object (id : Nat) (entries : List Json)
  | comment (id : Nat) (wordIds : Nat → Nat) (s : String)
  | roots (id : Nat) (values : List Json)

/-- `json_null` — /repo/src/doc_examples/json.rs:144-146. -/
def jsonNull (id : Nat) : Tree BasicStyle := Tree.newBranch id jsonNullN []
/-- `json_bool` — /repo/src/doc_examples/json.rs:149-155. -/
def jsonBool (id : Nat) (b : Bool) : Tree BasicStyle :=
  if b then Tree.newBranch id jsonTrueN [] else Tree.newBranch id jsonFalseN []
/-- `json_string` — /repo/src/doc_examples/json.rs:158-160. -/
def jsonString (id : Nat) (s : String) : Tree BasicStyle := Tree.newText id jsonStringN s
/-- `json_number` — /repo/src/doc_examples/json.rs:163-165 — given the text of the number. -/
def jsonNumber (id : Nat) (text : String) : Tree BasicStyle := Tree.newText id jsonNumberN text
/-- `json_array` — /repo/src/doc_examples/json.rs:168-170. -/
def jsonArray (id : Nat) (elements : List (Tree BasicStyle)) : Tree BasicStyle :=
  Tree.newBranch id jsonArrayN elements
/-- `json_object_pair` — /repo/src/doc_examples/json.rs:173-175. -/
def jsonPair (id keyId : Nat) (key : String) (value : Tree BasicStyle) : Tree BasicStyle :=
  Tree.newBranch id jsonPairN [jsonString keyId key, value]
/-- `json_object` — /repo/src/doc_examples/json.rs:178-180. -/
def jsonObject (id : Nat) (entries : List (Tree BasicStyle)) : Tree BasicStyle :=
  Tree.newBranch id jsonObjectN entries
/-- `json_comment` — /repo/src/doc_examples/json.rs:183-192. -/
def jsonComment (id : Nat) (wordIds : Nat → Nat) (s : String) : Tree BasicStyle :=
  (Tree.newBranch id jsonCommentN
    ((splitWhitespace [] s.toList).mapIdx fun i word =>
      Tree.newText (wordIds i) jsonWordN (String.ofList word))).intoComment
/-- `json_roots` — /repo/src/doc_examples/json.rs:139-141. -/
def jsonRoots (id : Nat) (values : List (Tree BasicStyle)) : Tree BasicStyle :=
  Tree.newBranch id jsonRootsN values

mutual
/-- The document made by the calls. -/
def Json.build : Json → Tree BasicStyle
  | .null id => jsonNull id
  | .bool id b => jsonBool id b
  | .string id s => jsonString id s
  | .number id text => jsonNumber id text
  | .array id es => jsonArray id (Json.builds es)
  | .pair id keyId key v => jsonPair id keyId key v.build
  | .object id es => jsonObject id (Json.builds es)
  | .comment id wordIds s => jsonComment id wordIds s
  | .roots id vs => jsonRoots id (Json.builds vs)
/-- The documents made by several calls. -/
def Json.builds : List Json → List (Tree BasicStyle)
  | [] => []
  | e :: es => e.build :: Json.builds es
end

end PPP
