import Verif.Tests.Harness
import Verif.Model.PlainText
/-
/repo/tests/standard/test_cases/panes.rs and the test in /repo/src/pane/divvy.rs, run on the model (tests, not
proofs).
-/
namespace PPP.Tests

/-- `SimpleLabel` and `get_content` — /repo/tests/standard/test_cases/panes.rs:17-27. -/
abbrev Label := Option (T × PrintingOptions)
abbrev PN := PaneNotation Label BasicStyle

def paneEnv : PaneEnv treeP Label := { getContent := id, isFull := isFull }

/-- What `display_pane` makes of an empty `PlainText`. -/
def display (width height : Nat) (n : PN) : IO PlainText :=
  match displayPane paneEnv n default width height with
  | none => throw (.userError "does not terminate")
  | some (_, .error _) => throw (.userError "fails")
  | some (calls, .ok ()) =>
    match (plainText BasicStyle).replay (.new width height) calls with
    | .ok s => pure s
    | .error e => nomatch e

/-- `pane_test_with_size` — /repo/tests/standard/test_cases/panes.rs:44-59. -/
def paneTestSize (width height : Nat) (n : PN) (expected : List String) : IO Unit := do
  assertEq "pane" (String.join (expected.map (· ++ "\n"))) (← display width height n).toString

/-- `pane_test` — /repo/tests/standard/test_cases/panes.rs:29-42. -/
def paneTest (n : PN) (expected : List String) : IO Unit := paneTestSize 7 7 n expected

def panes : List (PaneSize × PN) → Panes Label BasicStyle
  | [] => .nil
  | (size, n) :: rest => .cons size n (panes rest)
def horz (l : List (PaneSize × PN)) : PN := .horz (panes l)
def vert (l : List (PaneSize × PN)) : PN := .vert (panes l)
def fill (ch : Char) : PN := .fill ch

/-- /repo/tests/standard/test_cases/panes.rs:82-222. -/
def fillTests : IO Unit := do
  paneTest (fill 'a') (List.replicate 7 "aaaaaaa")
  paneTestSize 7 3 (fill '信') ["信信信 ", "信信信 ", "信信信 "]
  paneTestSize 6 3 (fill '信') ["信信信", "信信信", "信信信"]
  paneTestSize 1 3 (fill '信') [" ", " ", " "]
  paneTestSize 0 3 (fill '信') []
  let split : List (PaneSize × PN) :=
    [(.proportional 2, fill 'a'), (.proportional 3, fill 'b'), (.fixed 1, fill 'X'),
     (.proportional 2, fill 'd'), (.proportional 3, fill 'e'), (.fixed 1, fill 'Y')]
  paneTest (horz split) (List.replicate 7 "abbXdeY")
  paneTest (vert split) ["aaaaaaa", "bbbbbbb", "bbbbbbb", "XXXXXXX", "ddddddd", "eeeeeee", "YYYYYYY"]
  paneTest
    (horz [(.proportional 2, fill '|'),
      (.proportional 11, vert [(.proportional 2, fill 't'),
        (.proportional 5, vert [(.fixed 1, fill '='),
          (.fixed 3, horz [(.fixed 2, fill '*'), (.fixed 2, fill '@')]),
          (.fixed 1, fill '=')])]),
      (.fixed 1, vert [(.fixed 2, fill '|'), (.fixed 3, fill '!')])])
    ["|ttttt|", "|ttttt|", "|=====!", "|**@@ !", "|**@@ !", "|**@@", "|====="]
#eval fillTests

/-- `PrintingOptions` with most fields as in most tests. -/
def options (path : List Nat := []) (height : Rat := 0) (width : WidthStrategy := .full)
    (target : FocusTarget := .start) (setFocus : Bool := false) : PrintingOptions :=
  { focusPath := path, focusTarget := target, focusHeight := some height, widthStrategy := width, setFocus }

def docPane (doc : Make T) (o : PrintingOptions := options) : PN := .doc (some (make doc, o))

def blank (n : Nat) : List String := List.replicate n "       "

/-- /repo/tests/standard/test_cases/panes.rs:224-380.  The heights are the exact decimals, not the nearest `f32`. -/
def docTests : IO Unit := do
  let hello := jArray [jString "Hello", jString "world"]
  let narrow := ["[      ", "    \"He", "    \"wo", "]      "] ++ blank 3
  let wide := "[\"Hello" :: blank 6
  paneTest (docPane hello) narrow
  let one := docPane (jString "一二三")
  paneTestSize 8 3 one ["\"一二三\"", "        ", "        "]
  paneTestSize 7 3 one ["\"一二三", "       ", "       "]
  paneTestSize 6 3 one ["\"一二 ", "      ", "      "]
  paneTestSize 5 3 one ["\"一二", "     ", "     "]
  for (height, row) in ([(0, 0), (17/100, 1), (33/100, 2), (1/2, 3), (67/100, 4), (83/100, 5), (1, 6)] :
      List (Rat × Nat)) do
    paneTestSize 4 7 (docPane (jString "Hi") (options (height := height)))
      ((List.replicate 7 "    ").set row "\"Hi\"")
  paneTest (docPane hello (options (width := .full))) narrow
  paneTest (docPane hello (options (width := .fixed 80))) wide
  paneTest (docPane hello (options (width := .fixed 10))) narrow
  paneTest (docPane hello (options (width := .noMoreThan 80))) narrow
  paneTest (docPane hello (options (width := .noMoreThan 5))) narrow
#eval docTests

/-- `make_array` — /repo/tests/standard/test_cases/panes.rs:382-384. -/
def numbers (a b : Nat) : Make T := jArray ((List.range' a (b - a)).map fun n => jNumber (toString n))

/-- /repo/tests/standard/test_cases/panes.rs:386-627. -/
def seekTests : IO Unit := do
  let note (path : List Nat) (target : FocusTarget) :=
    docPane (numbers 0 8) (options (path := path) (height := 1/2) (target := target))
  paneTest (note [] .start) (blank 3 ++ ["[      ", "    0, ", "    1, ", "    2, "])
  paneTest (note [] .end) (["    5, ", "    6, ", "    7  ", "]      "] ++ blank 3)
  let around := ["       ", "[      ", "    0, ", "    1, ", "    2, ", "    3, ", "    4, "]
  paneTest (note [1] .start) around
  paneTest (note [1] .end) around
  let doc8 := docPane (numbers 0 6)
  let doc5 := docPane (numbers 6 9)
  let num := docPane (jNumber "42")
  let uni := docPane (jString "一1")
  paneTest (vert [(.proportional 1, doc8), (.dynamic, doc5)])
    ["[      ", "    0, ", "[      ", "    6, ", "    7, ", "    8  ", "]      "]
  paneTest (vert [(.proportional 1, doc5), (.dynamic, doc8)])
    ["[      ", "    0, ", "    1, ", "    2, ", "    3, ", "    4, ", "    5  "]
  paneTest (horz [(.proportional 1, doc8), (.dynamic, num)])
    ["[    42", "    0  ", "    1  ", "    2  ", "    3  ", "    4  ", "    5  "]
  paneTestSize 11 7 (horz [(.proportional 1, doc8), (.dynamic, uni)])
    ["[     \"一1\"", "    0,     ", "    1,     ", "    2,     ", "    3,     ", "    4,     ", "    5      "]
  paneTestSize 10 7 (horz [(.proportional 1, doc8), (.dynamic, uni)])
    ["[    \"一1\"", "    0     ", "    1     ", "    2     ", "    3     ", "    4     ", "    5     "]
  let doc := jArray [jString "Hello", jString "darkness,", jArray [jString "my", jString "old"], jString "friend"]
  let n := vert [(.fixed 3, fill '*'), (.proportional 1, horz [(.fixed 2, fill '#'),
    (.proportional 1, docPane doc (options [2, 0] (1/2) .full .end true))])]
  paneTestSize 20 12 n
    ["********************", "********************", "********************", "##                  ",
     "##[                 ", "##    \"Hello\",      ", "##    \"darkness,\",  ", "##    [\"my\", \"old\"],",
     "##    \"friend\"      ", "##]                 ", "##                  ", "##                  "]
  assertEq "focus (row, column)" [(7, 11)] (← display 20 12 n).focusPoints
#eval seekTests

/-- /repo/src/pane/divvy.rs:118-144. -/
def divvyTests : IO Unit := do
  let check (cookies : Nat) (hungers expected : List Nat) : IO Unit :=
    assertEq "divvy" (some expected) ((Divvier.new cookies (hungers.map .proportional)).finish [])
  check 0 [1, 1] [0, 0]
  check 1 [1, 1] [1, 0]
  check 2 [1, 1] [1, 1]
  check 3 [1, 1] [2, 1]
  check 4 [10, 11, 12] [1, 1, 2]
  check 5 [17] [5]
  check 5 [12, 10, 11] [2, 1, 2]
  check 5 [10, 10, 11] [2, 1, 2]
  check 5 [2, 0, 1] [3, 0, 2]
  check 61 [1, 2, 3] [10, 20, 31]
  check 34583 [55, 98, 55, 7, 12, 200] [4455, 7937, 4454, 567, 972, 16198]
#eval divvyTests

end PPP.Tests
