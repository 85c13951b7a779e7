import Verif.Model.Printer
import Verif.Model.Oracle
import Verif.Model.Json
/-
Running the model on the test suite of the repository — /repo/tests/standard/pretty_testing.rs.

Nothing here is a proof.  The Rust code could not be run; what its authors expect it to print is written
down in its tests.  The files in this directory run the *model* on these tests when they are built, and the
build fails if the model prints something else.
-/
namespace PPP.Tests

/-- The width of a character, as far as the tests need it: two columns for Chinese characters. -/
def charWidth (c : Char) : Nat := if 0x4e00 ≤ c.val ∧ c.val ≤ 0x9fff then 2 else 1

/-- `str_width` and `is_char_full_width` — /repo/src/geometry.rs:90-98 — as far as the tests need them. -/
def strWidth (s : String) : Nat := (s.toList.map charWidth).sum
def isFull (c : Char) : Bool := charWidth c == 2

/-- `SimpleDoc` — /repo/tests/standard/pretty_testing.rs:6-61. -/
@[reducible] def simpleDoc : PrettyDoc where
  Node := Notation Unit Unit
  Id := Nat
  Style := Unit
  Label := Unit
  Cond := Unit
  Err := Empty
  decId := inferInstance
  combine _ _ := ()
  strWidth := strWidth
  id _ := .ok 0
  notn n := .ok n
  condition _ _ := .ok false
  lookupStyle _ _ := .ok ()
  nodeStyle _ := .ok ()
  numChildren _ := .ok (some 0)
  unwrapText _ := .error .panic
  unwrapChild _ _ := .error .panic
  unwrapLastChild _ := .error .panic
  unwrapPrevSibling _ _ _ := .error .panic

variable {P : PrettyDoc}

def Fail.describe {E : Type} : Fail E → String
  | .panic => "panic"
  | .overflow => "overflow"
  | .err (.invalidPath _) => "InvalidPath"
  | .err (.textAfterEndOfLine) => "TextAfterEndOfLine"
  | .err _ => "another error"

/-- `unwrap()`. -/
def unwrap {E α : Type} (x : Exec E α) : IO α :=
  match x with
  | none => throw (.userError "does not terminate")
  | some (.error e) => throw (.userError (Fail.describe e))
  | some (.ok a) => pure a

def assertEq {α : Type} [BEq α] [ToString α] (message : String) (expected actual : α) : IO Unit :=
  unless expected == actual do
    throw (.userError s!"{message}\nEXPECTED:\n{expected}\nACTUAL:\n{actual}\n")

/-- `print_above_and_below` — /repo/tests/standard/pretty_testing.rs:74-93. -/
def printAboveAndBelow (doc : P.Node) (width : Nat) (path : List Nat) (target : FocusTarget) :
    IO (List String × String × String × List String) := do
  let r ← unwrap (prettyPrint doc width path target none)
  let above ← unwrap (drain Printer.nextUp r.up)
  let below ← unwrap (drain Printer.nextDown r.down)
  pure ((above.map Line.toString).reverse, r.focused.toLeftString, r.focused.toRightString,
    below.map Line.toString)

/-- `all_paths` — /repo/tests/standard/pretty_testing.rs:95-108. -/
partial def allPaths (doc : P.Node) : List (List Nat) :=
  match P.numChildren doc with
  | .ok (some n) => [] :: (List.range n).flatMap fun i =>
      match P.unwrapChild doc i with
      | .ok child => (allPaths child).map (i :: ·)
      | .error _ => []
  | _ => [[]]

/-- `concat_lines`, joined. -/
def concatLines (r : List String × String × String × List String) : String :=
  "\n".intercalate (r.1 ++ (r.2.1 ++ r.2.2.1) :: r.2.2.2)

/-- `assert_pp_impl` — /repo/tests/standard/pretty_testing.rs:144-190. -/
def assertPpImpl (doc : P.Node) (width : Nat) (expected : Option (List String)) : IO Unit := do
  let oracle ← unwrap (oracularPrettyPrint doc width)
  if let some lines := expected then
    assertEq "oracle" ("\n".intercalate lines) oracle
  assertEq "pretty_print_to_string" oracle (← unwrap (prettyPrintToString doc width))
  for path in allPaths doc do
    for target in [FocusTarget.start, FocusTarget.end] do
      assertEq s!"at {path}" oracle (concatLines (← printAboveAndBelow doc width path target))

/-- `assert_pp` — /repo/tests/standard/pretty_testing.rs:134-137. -/
def assertPp (P : PrettyDoc) (doc : P.Node) (width : Nat) (expected : List String) : IO Unit :=
  assertPpImpl doc width (some expected)

/-- `print_region` — /repo/tests/standard/pretty_testing.rs:110-131. -/
def printRegion (doc : P.Node) (width : Nat) (path : List Nat) (target : FocusTarget) (rows : Nat) :
    IO (List String) := do
  let r ← unwrap (prettyPrint doc width path target none)
  let (above, _) ← unwrap (takeLines Printer.nextUp (rows / 2) r.up)
  let (below, _) ← unwrap (takeLines Printer.nextDown (rows / 2 - 1) r.down)
  pure ((above.filterMap id |>.map Line.toString).reverse ++ r.focused.toString ::
    (below.filterMap id |>.map Line.toString))

/-- Insert a character at a byte offset (`String::insert`). -/
def insertAt (s : String) (bytes : Nat) (c : Char) : String :=
  let rec go (n : Nat) : List Char → List Char
    | [] => [c]
    | d :: ds => if n = 0 then c :: d :: ds else d :: go (n - d.utf8Size) ds
  String.ofList (go bytes s.toList)

/-- `assert_pp_seek` — /repo/tests/standard/pretty_testing.rs:205-237. -/
def assertPpSeek (P : PrettyDoc) (doc : P.Node) (width : Nat) (path : List Nat) (expected : List String) :
    IO Unit := do
  let r1 ← printAboveAndBelow doc width path .start
  let r2 ← printAboveAndBelow doc width path .end
  assertEq "seek" (concatLines r1) (concatLines r2)
  let lines := r1.1 ++ (r1.2.1 ++ r1.2.2.1) :: r1.2.2.2
  let lines := lines.modify r2.1.length fun l => insertAt l r2.2.1.utf8ByteSize ')'
  let lines := lines.modify r1.1.length fun l => insertAt l r1.2.1.utf8ByteSize '('
  assertEq "seek" ("\n".intercalate expected) ("\n".intercalate lines)

/-- `assert_pp_focus` — /repo/tests/standard/pretty_testing.rs:239-257. -/
def assertPpFocus (P : PrettyDoc) (doc : P.Node) (width : Nat) (path : List Nat) (target : FocusTarget)
    (expected : List String) : IO Unit := do
  let r ← printAboveAndBelow doc width path target
  assertEq "focus" ("\n".intercalate expected) (concatLines (r.1, r.2.1 ++ "|", r.2.2))

/-- `assert_pp_region` — /repo/tests/standard/pretty_testing.rs:259-274. -/
def assertPpRegion (P : PrettyDoc) (doc : P.Node) (width : Nat) (path : List Nat) (target : FocusTarget)
    (rows : Nat) (expected : List String) : IO Unit := do
  assertEq "region" ("\n".intercalate expected)
    ("\n".intercalate (← printRegion doc width path target rows))

/-- `#[should_panic(expected = ..)]`. -/
def shouldFail (message : String) (x : IO Unit) : IO Unit := do
  match ← x.toBaseIO with
  | .ok _ => throw (.userError "should fail")
  | .error e => assertEq "failure" message (toString e)

/-- `SimpleDoc::new(..)`, then `assert_pp`: the notation has to be valid. -/
def assertSimple (n : Notation Unit Unit) (width : Nat) (expected : List String) : IO Unit := do
  match n.validate with
  | .error _ => throw (.userError "Invalid notation")
  | .ok () => assertPp simpleDoc n width expected

/-- `SimpleDoc::cheat_validation(..)`, then `assert_pp`. -/
def assertCheat (n : Notation Unit Unit) (width : Nat) (expected : List String) : IO Unit :=
  assertPp simpleDoc n width expected

/-! ### Making trees

The thread-local counter of `doc_examples/tree.rs` is a state. -/

abbrev Make := StateM Nat
abbrev T := Tree BasicStyle
/-- `&Tree<BasicStyle>`. -/
abbrev treeP : PrettyDoc := basicDoc strWidth

def nextId : Make Nat := modifyGet fun n => (n, n + 1)
def make {α : Type} (x : Make α) : α := (x.run 0).1

def newText (n : TreeNotation) (s : String) : Make T := do pure (Tree.newText (← nextId) n s)
def newBranch (n : TreeNotation) (cs : List (Make T)) : Make T := do
  let cs ← cs.mapM id
  pure (Tree.newBranch (← nextId) n cs)

def jNull : Make T := do pure (jsonNull (← nextId))
def jBool (b : Bool) : Make T := do pure (jsonBool (← nextId) b)
def jString (s : String) : Make T := do pure (jsonString (← nextId) s)
def jNumber (s : String) : Make T := do pure (jsonNumber (← nextId) s)
def jArray (cs : List (Make T)) : Make T := do
  let cs ← cs.mapM id
  pure (jsonArray (← nextId) cs)
def jPair (key : String) (value : Make T) : Make T := do
  let value ← value
  let k ← nextId
  pure (jsonPair (← nextId) k key value)
def jObject (cs : List (Make T)) : Make T := do
  let cs ← cs.mapM id
  pure (jsonObject (← nextId) cs)
def jComment (s : String) : Make T := do
  let n ← get
  let k := (splitWhitespace [] s.toList).length
  set (n + k + 1)
  pure (jsonComment (n + k) (n + ·) s)
def jRoots (cs : List (Make T)) : Make T := do
  let cs ← cs.mapM id
  pure (jsonRoots (← nextId) cs)

end PPP.Tests
