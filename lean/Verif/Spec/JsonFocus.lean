import Verif.Spec.JsonFormat
import Verif.Spec.Output
/-
Specification: where the nodes of a JSON document are in the printed text.

This goes with the formatter of Spec/JsonFormat.lean.  A node is given by a path: the entries of an array or an object are
numbered from 0; the key of a pair is child 0, and its value is child 1; the words of a comment are numbered from 0.
-/
namespace PPP

mutual
/-- The expression that a path leads to.  (Words of comments are not expressions: see `Json.commentWordAt`.) -/
def Json.at : Json → List Nat → Option Json
  | e, [] => some e
  | .array _ es, i :: path => Json.entryAt es i path
  | .object _ es, i :: path => Json.entryAt es i path
  | .roots _ es, i :: path => Json.entryAt es i path
  | .pair _ keyId key _, [0] => some (.string keyId key)
  | .pair _ _ _ v, 1 :: path => v.at path
  | _, _ => none
/-- The expression that a path in entry `i` leads to. -/
def Json.entryAt : List Json → Nat → List Nat → Option Json
  | [], _, _ => none
  | e :: _, 0, path => e.at path
  | _ :: es, i + 1, path => Json.entryAt es i path
end

/-- The words of a comment. -/
def commentWords (s : String) : List String := (splitWhitespace [] s.toList).map String.ofList

/-- The word of a comment that a path leads to. -/
def Json.commentWordAt (e : Json) (path : List Nat) : Option String :=
  match e.at path.dropLast, path.getLast? with
  | some (.comment _ _ s), some i => (commentWords s)[i]?
  | _, _ => none

/-- Where a node is: the lines above it, what is to the left of it on its first line, and its own lines (the first one with
    what is to the left of it, and the last one without what is to the right of it). -/
structure Spot where
  above : List Word
  left : Word
  own : List Word
  deriving DecidableEq

/-- The place of a node that is on one line. -/
def Spot.inLine (left own : Word) : Spot := ⟨[], left, [left ++ own]⟩

/-- The place is below some more lines. -/
def Spot.below (ls : List Word) (p : Spot) : Spot := { p with above := ls ++ p.above }

/-- What is before the start or the end of a node: some lines, and the part of a line. -/
def Spot.upTo (p : Spot) : FocusTarget → Option (List Word)
  | .start => some (p.above ++ [p.left])
  | .end => some (p.above ++ p.own)
  | _ => none

mutual
/-- What is to the left of the node at the path, and its own text, if `pre` is to the left of the expression, which is all on
    one line. -/
def Json.leftOf (sw : String → Nat) (pre : Word) : Json → List Nat → Option (Word × Word)
  | e, [] => (e.oneLine sw).map fun x => (pre, x)
  | .array _ es, i :: path => Json.entryLeftOf sw (pre ++ piece sw "[") es i path
  | .object _ es, i :: path => Json.entryLeftOf sw (pre ++ piece sw "{") es i path
  | .pair _ _ key _, [0] => some (pre, quoted sw key)
  | .pair _ _ key v, 1 :: path => v.leftOf sw (pre ++ (quoted sw key ++ piece sw ": ")) path
  | _, _ => none
/-- The same, for a path in entry `i`. -/
def Json.entryLeftOf (sw : String → Nat) (pre : Word) : List Json → Nat → List Nat → Option (Word × Word)
  | [], _, _ => none
  | e :: _, 0, path => e.leftOf sw pre path
  | e :: es, i + 1, path => (e.oneLine sw).bind fun x => Json.entryLeftOf sw (pre ++ x ++ piece sw ", ") es i path
end

/-- If something is put in brackets, and on one line if possible, is it on one line? -/
def onOneLine (w : Nat) (pre post : Word) : Option Word → Bool
  | some x => (pre ++ x ++ post).width ≤ w
  | none => false

/-- The lines of an expression that is formatted at level `k`, with `pre` before it and `post` after it, as in `Json.lines`; but
    without `post` on the last one. -/
def Json.ownLines (sw : String → Nat) (w k : Nat) (pre post : Word) : Json → List Word
  | .null _ => [pre ++ piece sw "null"]
  | .bool _ b => [pre ++ piece sw (if b then "true" else "false")]
  | .string _ s => [pre ++ quoted sw s]
  | .number _ text => [pre ++ piece sw text]
  | .array id es =>
    if es.isEmpty then [pre ++ (piece sw "[" ++ piece sw "]")]
    else if onOneLine w pre post (Json.oneLine sw (.array id es)) then
      [pre ++ ((Json.oneLine sw (.array id es)).getD .none)]
    else (pre ++ piece sw "[") :: Json.entryLines sw w (k + 1) es ++ [levelIndent sw k ++ piece sw "]"]
  | .pair _ _ key v => v.ownLines sw w k (pre ++ (quoted sw key ++ piece sw ": ")) post
  | .object id es =>
    if es.isEmpty then [pre ++ (piece sw "{" ++ piece sw "}")]
    else if onOneLine w pre post (Json.oneLine sw (.object id es)) then
      [pre ++ ((Json.oneLine sw (.object id es)).getD .none)]
    else (pre ++ piece sw "{") :: Json.entryLines sw w (k + 1) es ++ [levelIndent sw k ++ piece sw "}"]
  | .comment _ _ s => commentLines sw w pre (levelIndent sw k) s
  | .roots _ _ => []

/-- The place of word `i` of some words that follow `cur` on its line, with a space before each of them, as far as they fit in the
    width; the words that do not fit start new lines, which start with `ind`. -/
def wordPlace (sw : String → Nat) (w : Nat) (ind : Word) : (cur : Word) → List Word → Nat → Option Spot
  | _, [], _ => none
  | cur, x :: xs, i =>
    if (cur ++ piece sw " " ++ x).width ≤ w then
      match i with
      | 0 => some (.inLine (cur ++ piece sw " ") x)
      | i + 1 => wordPlace sw w ind (cur ++ piece sw " " ++ x) xs i
    else
      (match i with
        | 0 => some (Spot.inLine ind x)
        | i + 1 => wordPlace sw w ind (ind ++ x) xs i).map (Spot.below [cur])

/-- The place of word `i` of a comment, when `pre` is before the comment and `ind` at the start of its other lines. -/
def commentPlace (sw : String → Nat) (w : Nat) (pre ind : Word) (s : String) (i : Nat) : Option Spot :=
  match (commentWords s).map (piece sw), i with
  | [], _ => none
  | x :: _, 0 => some (.inLine (pre ++ piece sw "// ") x)
  | x :: xs, i + 1 => wordPlace sw w (ind ++ piece sw "// ") (pre ++ piece sw "// " ++ x) xs i

mutual
/-- The place of the node at the path, if the expression is formatted at level `k`, with `pre` before it and `post` after it, as
    in `Json.lines`. -/
def Json.place (sw : String → Nat) (w k : Nat) (pre post : Word) : Json → List Nat → Option Spot
  | e, [] => some ⟨[], pre, e.ownLines sw w k pre post⟩
  | .array id es, i :: path =>
    if onOneLine w pre post (Json.oneLine sw (.array id es)) then
      (Json.entryLeftOf sw (pre ++ piece sw "[") es i path).map fun (x, y) => .inLine x y
    else (Json.entryPlace sw w (k + 1) es i path).map (Spot.below [pre ++ piece sw "["])
  | .object id es, i :: path =>
    if onOneLine w pre post (Json.oneLine sw (.object id es)) then
      (Json.entryLeftOf sw (pre ++ piece sw "{") es i path).map fun (x, y) => .inLine x y
    else (Json.entryPlace sw w (k + 1) es i path).map (Spot.below [pre ++ piece sw "{"])
  | .pair _ _ key _, [0] => some (.inLine pre (quoted sw key))
  | .pair _ _ key v, 1 :: path => v.place sw w k (pre ++ (quoted sw key ++ piece sw ": ")) post path
  | .comment _ _ s, [i] => commentPlace sw w pre (levelIndent sw k) s i
  | _, _ => none
/-- The same, for a path in entry `i` of entries that are on lines of their own: above it are the lines of the entries before
    it, as in `Json.entryLines`. -/
def Json.entryPlace (sw : String → Nat) (w k : Nat) : List Json → Nat → List Nat → Option Spot
  | [], _, _ => none
  | e :: es, 0, path =>
    e.place sw w k (levelIndent sw k)
      (if e.isComment = false ∧ es.any (fun e => !e.isComment) = true then piece sw "," else .none) path
  | e :: es, i + 1, path => (Json.entryPlace sw w k es i path).map (Spot.below
    (e.lines sw w k (levelIndent sw k)
      (if e.isComment = false ∧ es.any (fun e => !e.isComment) = true then piece sw "," else .none)))
end

/-- The place of the node at the path, in a document: several values and comments at the top level come one after the other. -/
def Json.docPlace (sw : String → Nat) (w : Nat) : Json → List Nat → Option Spot
  | .roots id es, [] => some ⟨[], .none, (Json.roots id es).docLines sw w⟩
  | .roots _ es, i :: path => (es[i]?).bind fun e => (e.place sw w 0 .none .none path).map
    (Spot.below ((es.take i).flatMap (Json.lines sw w 0 .none .none)))
  | e, path => e.place sw w 0 .none .none path

/-- Line number `k` (from 0), or nothing if there is no such line. -/
def wordAt (ls : List Word) (k : Int) : String :=
  if 0 ≤ k then ((ls[k.toNat]?).map Word.str).getD "" else ""

/-- Going from node to child along a path. -/
inductive Walks (P : PrettyDoc) : P.Node → List Nat → P.Node → Prop where
  | nil {a} : Walks P a [] a
  | cons {a b c i path} : P.childAt a i = .ok b → Walks P b path c → Walks P a (i :: path) c

end PPP
