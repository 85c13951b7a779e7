import Verif.Model.Printer
import Verif.Model.Oracle
import Verif.Model.Generate
import Verif.Model.Validate
/-
The test of the printer against the oracle — /repo/tests/standard/pretty_testing.rs and
/repo/tests/standard/oracle_tests.rs.
-/
namespace PPP

/-- `SimpleDoc` — /repo/tests/standard/pretty_testing.rs:6-61: a single node with a validated notation.
    `sw` is `str_width`. -/
@[reducible] def simpleDoc (sw : String → Nat) : PrettyDoc where
  Node := { n : Notation Unit Unit // n.Valid }
  Id := Nat
  Style := Unit
  Label := Unit
  Cond := Unit
  Err := Empty
  decId := inferInstance
  combine _ _ := ()
  strWidth := sw
  id _ := .ok 0
  notn n := .ok n.1
  condition _ _ := .ok false
  lookupStyle _ _ := .ok ()
  nodeStyle _ := .ok ()
  numChildren _ := .ok (some 0)
  unwrapText _ := .error .panic
  unwrapChild _ _ := .error .panic
  unwrapLastChild _ := .error .panic
  unwrapPrevSibling _ _ _ := .error .panic

/-- `SimpleDoc::try_new` — /repo/tests/standard/pretty_testing.rs:19-21. -/
def simpleTryNew (n : Notation Unit Unit) : Option { n : Notation Unit Unit // n.Valid } :=
  if h : n.Valid then some ⟨n, h⟩ else none

variable {P : PrettyDoc}

/-- `compare_lines` — /repo/tests/standard/pretty_testing.rs:64-73: panics if the texts are different.
    (The error messages are left out.) -/
def compareLines {E : Type} (expected actual : String) : Exec E Unit :=
  if actual ≠ expected then panicking else pure ()

/-- `print_above_and_below` — /repo/tests/standard/pretty_testing.rs:74-93. -/
def printAboveAndBelow (doc : P.Node) (width : Nat) (path : List Nat) (target : FocusTarget) :
    Exec P.Err (List String × String × String × List String) := do
  let r ← unwrapping (prettyPrint doc width path target none)
  let linesAbove ← unwrapping (drain Printer.nextUp r.up)
  let linesBelow ← unwrapping (drain Printer.nextDown r.down)
  pure ((linesAbove.map Line.toString).reverse, r.focused.toLeftString, r.focused.toRightString,
    linesBelow.map Line.toString)

/-- `recur` in `all_paths` — /repo/tests/standard/pretty_testing.rs:96-103: the paths that it adds. -/
def allPathsRec (doc : P.Node) (path : List Nat) : Exec P.Err (List (List Nat)) := do
  let n ← unwrapping (call (P.numChildren doc))
  let parts ← (List.range (n.getD 0)).mapM fun i => do
    let child ← unwrapping (call (P.unwrapChild doc i))
    allPathsRec child (path ++ [i])
  pure (path :: parts.flatten)
partial_fixpoint

/-- `all_paths` — /repo/tests/standard/pretty_testing.rs:95-108. -/
def allPaths (doc : P.Node) : Exec P.Err (List (List Nat)) := allPathsRec doc []

/-- `concat_lines` — /repo/tests/standard/pretty_testing.rs:191-202. -/
def concatLines (linesAbove : List String) (left right : String) (linesBelow : List String) : List String :=
  linesAbove ++ [left ++ right] ++ linesBelow

/-- `assert_pp_impl` — /repo/tests/standard/pretty_testing.rs:142-189.  (The printed string is cut at its
    newlines and joined again in the code, which gives the same string.) -/
def assertPpImpl (doc : P.Node) (width : Nat) (expectedLines : Option (List String)) : Exec P.Err Unit := do
  let oracleResult ← oracularPrettyPrint doc width
  match expectedLines with
  | some lines => compareLines oracleResult ("\n".intercalate lines)
  | none => pure ()
  let lines ← unwrapping (prettyPrintToString doc width)
  compareLines oracleResult lines
  let paths ← allPaths doc
  paths.forM fun path =>
    [FocusTarget.start, FocusTarget.end].forM fun target => do
      let (linesAbove, left, right, linesBelow) ← printAboveAndBelow doc width path target
      compareLines oracleResult ("\n".intercalate (concatLines linesAbove left right linesBelow))

/-- `assert_pp` — /repo/tests/standard/pretty_testing.rs:132-135. -/
def assertPp (doc : P.Node) (width : Nat) (expectedLines : List String) : Exec P.Err Unit :=
  assertPpImpl doc width (some expectedLines)

/-- `assert_pp_without_expectation` — /repo/tests/standard/pretty_testing.rs:137-140. -/
def assertPpWithoutExpectation (doc : P.Node) (width : Nat) : Exec P.Err Unit := assertPpImpl doc width none

/-- The loop of `oracle_tests` — /repo/tests/standard/oracle_tests.rs:67-76. -/
def oracleTestLoop (sw : String → Nat) (notations : List (Notation Unit Unit)) : Exec Empty Unit :=
  notations.forM fun notn =>
    match simpleTryNew notn with
    | none => pure ()
    | some doc => (List.range' 1 8).forM fun width => assertPpWithoutExpectation (P := simpleDoc sw) doc width

/-- `generate_random(generator, size, seed).take(count)` — /repo/tests/standard/generative_testing.rs:26-65;
    `pick` is the random picker, as a function of its state. -/
def generateRandom {α σ : Type} (pick : σ → Nat → Option (Nat × σ)) (gen : Gen α) : Nat → σ → Option (List α)
  | 0, _ => some []
  | count + 1, s => do
    let (a, s) ← gen.runWith pick s
    let as ← generateRandom pick gen count s
    some (a :: as)

/-- `oracle_tests` — /repo/tests/standard/oracle_tests.rs:57-84.  `seed` is the state of a new random number
    generator (`[0; 32]` in all four cases).  A panic of a generator is a panic. -/
def oracleTests {σ : Type} (sw : String → Nat) (pick : σ → Nat → Option (Nat × σ)) (seed : σ) : Exec Empty Unit :=
  match (do
    let a ← generateAllUpToSize notationGen 6
    let b ← generateRandom pick (notationGen 10) 1000 seed
    let c ← generateRandom pick (notationGen 20) 1000 seed
    let d ← generateRandom pick (notationGen 30) 1000 seed
    let e ← generateRandom pick (notationGen 50) 200 seed
    some (a ++ b ++ c ++ d ++ e)) with
  | none => panicking
  | some notations => oracleTestLoop sw notations

end PPP
