import Verif.Model.OracleTest
/-
The helpers of the test suite that check where the focus is — /repo/tests/standard/pretty_testing.rs.
-/
namespace PPP
variable {P : PrettyDoc}

/-- `str::len` (std), as called at /repo/tests/standard/pretty_testing.rs:218-219: the length in bytes. -/
def byteLen (s : String) : Nat := (s.toList.map Char.utf8Size).sum

/-- `String::insert` (std), as called at /repo/tests/standard/pretty_testing.rs:230-231, on the characters of
    the string: `none` if the byte index `n` is out of bounds or inside of a character. -/
def insertChars (c : Char) : Nat → List Char → Option (List Char)
  | 0, cs => some (c :: cs)
  | _ + 1, [] => none
  | n + 1, d :: cs => if d.utf8Size ≤ n + 1 then (insertChars c (n + 1 - d.utf8Size) cs).map (d :: ·) else none

/-- `lines[row].insert(col, c)` — /repo/tests/standard/pretty_testing.rs:230-231.  Panics if there is no such
    row or if `col` is not at a boundary between characters. -/
def insertInto {E : Type} (lines : List String) (row col : Nat) (c : Char) : Exec E (List String) :=
  match lines[row]? with
  | none => panicking
  | some line =>
    match insertChars c col line.toList with
    | none => panicking
    | some cs => pure (lines.set row (String.ofList cs))

/-- `assert_pp_seek` — /repo/tests/standard/pretty_testing.rs:204-237. -/
def assertPpSeek (doc : P.Node) (width : Nat) (path : List Nat) (expectedLines : List String) : Exec P.Err Unit := do
  let (above1, left1, right1, below1) ← printAboveAndBelow doc width path .start
  let (above2, left2, right2, below2) ← printAboveAndBelow doc width path .end
  let startRow := above1.length
  let endRow := above2.length
  let startCol := byteLen left1
  let endCol := byteLen left2
  let lines1 := concatLines above1 left1 right1 below1
  let lines2 := concatLines above2 left2 right2 below2
  compareLines ("\n".intercalate lines1) ("\n".intercalate lines2)
  let linesWithFocus ← insertInto lines1 endRow endCol ')'
  let linesWithFocus ← insertInto linesWithFocus startRow startCol '('
  compareLines ("\n".intercalate expectedLines) ("\n".intercalate linesWithFocus)

/-- `assert_pp_focus` — /repo/tests/standard/pretty_testing.rs:239-257. -/
def assertPpFocus (doc : P.Node) (width : Nat) (path : List Nat) (target : FocusTarget)
    (expectedLines : List String) : Exec P.Err Unit := do
  let (above, left, right, below) ← printAboveAndBelow doc width path target
  let linesWithFocus := concatLines above (left ++ "|") right below
  compareLines ("\n".intercalate expectedLines) ("\n".intercalate linesWithFocus)

/-- `.take(n).collect()` on an iterator of lines — /repo/tests/standard/pretty_testing.rs:119-122, 125-128: stops
    after `n` lines, or after the first `None`. -/
def takeFirst (next : Printer P → Exec P.Err (Option (Line P) × Printer P)) :
    Nat → Printer P → Exec P.Err (List (Line P))
  | 0, _ => pure []
  | n + 1, p => do
    match ← next p with
    | (none, _) => pure []
    | (some line, p) => do
      let lines ← takeFirst next n p
      pure (line :: lines)

/-- `print_region` — /repo/tests/standard/pretty_testing.rs:110-130.  `rows / 2 - 1` panics (a subtraction with
    overflow, in a test build) when `rows` is less than 2. -/
def printRegion (doc : P.Node) (width : Nat) (path : List Nat) (target : FocusTarget) (rows : Nat) :
    Exec P.Err (List String) := do
  let r ← unwrapping (prettyPrint doc width path target none)
  let linesAbove ← unwrapping (takeFirst Printer.nextUp (rows / 2) r.up)
  let lines := (linesAbove.map Line.toString).reverse ++ [r.focused.toString]
  if rows / 2 = 0 then panicking else
  let linesBelow ← unwrapping (takeFirst Printer.nextDown (rows / 2 - 1) r.down)
  pure (lines ++ linesBelow.map Line.toString)

/-- `assert_pp_region` — /repo/tests/standard/pretty_testing.rs:259-274. -/
def assertPpRegion (doc : P.Node) (width : Nat) (path : List Nat) (target : FocusTarget) (rows : Nat)
    (expectedLines : List String) : Exec P.Err Unit := do
  let lines ← printRegion doc width path target rows
  compareLines ("\n".intercalate expectedLines) ("\n".intercalate lines)

end PPP
