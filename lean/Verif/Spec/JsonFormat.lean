import Verif.Spec.Json
import Verif.Spec.Wrap
/-
Specification: a formatter for JSON, as a plain function that does not know about notations.
-/
namespace PPP

/-- A text, and the columns it takes. -/
def piece (sw : String → Nat) (s : String) : Word := ⟨s, sw s⟩

/-- No text. -/
def Word.none : Word := ⟨"", 0⟩

/-- One text after the other. -/
instance : Append Word := ⟨fun a b => ⟨a.str ++ b.str, a.width + b.width⟩⟩

/-- A string or a key, with its quotes. -/
def quoted (sw : String → Nat) (s : String) : Word := piece sw "\"" ++ piece sw s ++ piece sw "\""

/-- Four spaces for each level. -/
def levelIndent (sw : String → Nat) : Nat → Word
  | 0 => .none
  | k + 1 => levelIndent sw k ++ piece sw "    "

mutual
/-- An expression on one line.  `none`: there is a comment in it, so it cannot be on one line. -/
def Json.oneLine (sw : String → Nat) : Json → Option Word
  | .null _ => some (piece sw "null")
  | .bool _ b => some (piece sw (if b then "true" else "false"))
  | .string _ s => some (quoted sw s)
  | .number _ text => some (piece sw text)
  | .array _ es => (Json.oneLines sw es).map fun x => piece sw "[" ++ x ++ piece sw "]"
  | .pair _ _ key v => (v.oneLine sw).map fun x => quoted sw key ++ piece sw ": " ++ x
  | .object _ es => (Json.oneLines sw es).map fun x => piece sw "{" ++ x ++ piece sw "}"
  | .comment _ _ _ => none
  | .roots _ _ => none
/-- Expressions on one line, with commas and spaces between them. -/
def Json.oneLines (sw : String → Nat) : List Json → Option Word
  | [] => some .none
  | [e] => e.oneLine sw
  | e :: e' :: es =>
    (e.oneLine sw).bind fun x => (Json.oneLines sw (e' :: es)).map fun y => x ++ piece sw ", " ++ y
end

/-- The lines of a comment: the words fill the lines.  Every line starts with `// `; the first one comes after `pre`, and the
    others after `ind`. -/
def commentLines (sw : String → Nat) (w : Nat) (pre ind : Word) (s : String) : List Word :=
  match (splitWhitespace [] s.toList).map fun x => piece sw (String.ofList x) with
  | [] => [pre ++ piece sw "// "]
  | x :: xs =>
    let pre := pre ++ piece sw "// "
    let ind := ind ++ piece sw "// "
    let ls := fill w pre.width ind.width (sw " ") (x :: xs)
    List.zipWith Word.mk (wordLines pre.str ind.str ls) (linesCols pre.width ind.width (sw " ") ls)

/-- Brackets around something: on one line if that is possible and fits, and otherwise on lines of their own. -/
def bracketLines (w : Nat) (pre post ind l r : Word) (one : Option Word) (inner : List Word) : List Word :=
  match one with
  | some x => if (pre ++ x ++ post).width ≤ w then [pre ++ x ++ post] else (pre ++ l) :: inner ++ [ind ++ r ++ post]
  | none => (pre ++ l) :: inner ++ [ind ++ r ++ post]

mutual
/-- The lines of an expression at level `k`, when `pre` is before it on its first line (such as the indentation or a key), and
    `post` comes after it on its last line (such as a comma). -/
def Json.lines (sw : String → Nat) (w k : Nat) (pre post : Word) : Json → List Word
  | .null _ => [pre ++ piece sw "null" ++ post]
  | .bool _ b => [pre ++ piece sw (if b then "true" else "false") ++ post]
  | .string _ s => [pre ++ quoted sw s ++ post]
  | .number _ text => [pre ++ piece sw text ++ post]
  | .array id es =>
    if es.isEmpty then [pre ++ (piece sw "[" ++ piece sw "]") ++ post]
    else bracketLines w pre post (levelIndent sw k) (piece sw "[") (piece sw "]") (Json.oneLine sw (.array id es))
      (Json.entryLines sw w (k + 1) es)
  | .pair _ _ key v => v.lines sw w k (pre ++ (quoted sw key ++ piece sw ": ")) post
  | .object id es =>
    if es.isEmpty then [pre ++ (piece sw "{" ++ piece sw "}") ++ post]
    else bracketLines w pre post (levelIndent sw k) (piece sw "{") (piece sw "}") (Json.oneLine sw (.object id es))
      (Json.entryLines sw w (k + 1) es)
  | .comment _ _ s => commentLines sw w pre (levelIndent sw k) s
  | .roots _ _ => []
/-- The lines of the entries of an array or an object at level `k`.  A comma comes after each entry that is not a comment and
    that has such an entry after it. -/
def Json.entryLines (sw : String → Nat) (w k : Nat) : List Json → List Word
  | [] => []
  | e :: es =>
    e.lines sw w k (levelIndent sw k)
      (if e.isComment = false ∧ es.any (fun e => !e.isComment) = true then piece sw "," else .none) ++
    Json.entryLines sw w k es
end

/-- The lines of a document: several values and comments at the top level come one after the other. -/
def Json.docLines (sw : String → Nat) (w : Nat) : Json → List Word
  | .roots _ [] => [.none]
  | .roots _ (e :: es) => (e :: es).flatMap (Json.lines sw w 0 .none .none)
  | e => e.lines sw w 0 .none .none

end PPP
