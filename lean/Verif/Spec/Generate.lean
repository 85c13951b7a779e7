import Verif.Model.Generate
/-
Specification, part 34: what the generators of test inputs should generate.
-/
namespace PPP

/-- All that a generator can return when every number picked is in the range asked for, with the numbers
    tried from the smallest to the largest. -/
def Gen.values {α : Type} : Gen α → List α
  | .ret a => [a]
  | .panic => []
  | .pick max k => (List.range max).flatMap fun n => (k n).values

/-- The generator never panics, and never asks for a number out of an empty range, as long as the numbers
    picked are in the range asked for. -/
def Gen.Proper {α : Type} : Gen α → Prop
  | .ret _ => True
  | .panic => False
  | .pick max k => 0 < max ∧ ∀ n, n < max → (k n).Proper

/-- The notations made of these parts, with their sizes: empty, newline, end of line, three literals,
    flattening, nesting by two spaces, concatenations and choices.  Each part counts as one. -/
inductive Made : Nat → Notation Unit Unit → Prop where
  | empty : Made 1 .empty
  | newline : Made 1 .newline
  | endOfLine : Made 1 .endOfLine
  | a : Made 1 (.literal "a")
  | bb : Made 1 (.literal "bb")
  | cccc : Made 1 (.literal "cccc")
  | flat {n x} : Made n x → Made (n + 1) (.flat x)
  | nest {n x} : Made n x → Made (n + 1) (.nest 2 x)
  | concat {m n x y} : Made m x → Made n y → Made (m + n + 1) (.concat x y)
  | choice {m n x y} : Made m x → Made n y → Made (m + n + 1) (.choice x y)

mutual
/-- The number of nodes of a tree. -/
def GTree.size : GTree → Nat
  | .node ts => GTree.sizes ts + 1
/-- The number of nodes of some trees. -/
def GTree.sizes : List GTree → Nat
  | [] => 0
  | t :: ts => t.size + GTree.sizes ts
end

/-- Call `next` a number of times; the results.  `none`: one of them panics. -/
def GenAll.nexts {α : Type} : Nat → GenAll α → Option (List (Option α))
  | 0, _ => some []
  | n + 1, s =>
    match s.next with
    | none => none
    | some (r, s) =>
      match GenAll.nexts n s with
      | none => none
      | some rs => some (r :: rs)

end PPP
