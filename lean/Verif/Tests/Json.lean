import Verif.Tests.Harness
/-
/repo/tests/standard/test_cases/json.rs and styles.rs, run on the model (tests, not proofs).
-/
namespace PPP.Tests

private def pp (x : Make T) := assertPp treeP (make x)

/-- /repo/tests/standard/test_cases/json.rs:15-212. -/
def json1 : IO Unit := do
  pp (jArray [jBool true, jNull, jBool false]) 80 ["[true, null, false]"]
  pp (jRoots [jComment
        "Truth is much too complicated to allow anything but approximations. — John Von Neumann",
      jArray [jBool true, jBool false]]) 40
    ["// Truth is much too complicated to", "// allow anything but approximations. —",
     "// John Von Neumann", "[true, false]"]
  let doc := make <| jObject [jPair "Name" (jString "Alice"), jPair "Age" (jNumber "42")]
  assertPp treeP doc 28 ["{\"Name\": \"Alice\", \"Age\": 42}"]
  assertPp treeP doc 27 ["{", "    \"Name\": \"Alice\",", "    \"Age\": 42", "}"]
  assertPpSeek treeP doc 27 [] ["({", "    \"Name\": \"Alice\",", "    \"Age\": 42", "})"]
  assertPpSeek treeP doc 27 [0] ["{", "    (\"Name\": \"Alice\"),", "    \"Age\": 42", "}"]
  assertPpSeek treeP doc 27 [0, 0] ["{", "    (\"Name\"): \"Alice\",", "    \"Age\": 42", "}"]
  assertPpSeek treeP doc 27 [1] ["{", "    \"Name\": \"Alice\",", "    (\"Age\": 42)", "}"]
  assertPpSeek treeP doc 27 [1, 1] ["{", "    \"Name\": \"Alice\",", "    \"Age\": (42)", "}"]
  let doc := make <| jObject [jPair "Cats" (jArray []), jPair "Dogs" (jArray [])]
  assertPpFocus treeP doc 17 [1, 1] .start ["{", "    \"Cats\": [],", "    \"Dogs\": |[]", "}"]
  assertPpFocus treeP doc 17 [1, 1] .end ["{", "    \"Cats\": [],", "    \"Dogs\": []|", "}"]
  assertPpFocus treeP doc 17 [1, 1] .mark ["{", "    \"Cats\": [],", "    \"Dogs\": [|]", "}"]
  assertPpFocus treeP doc 17 [1, 0] (.text 2) ["{", "    \"Cats\": [],", "    \"Do|gs\": []", "}"]
  assertPpFocus treeP doc 17 [1, 0] (.text 20) ["{", "    \"Cats\": [],", "    \"Dogs|\": []", "}"]
  let doc := make <| jObject [jPair "x" (jNumber "1"), jPair "y" (jNumber "2")]
  shouldFail "InvalidPath" (assertPpSeek treeP doc 80 [0, 2] [])
#eval json1

/-- /repo/tests/standard/test_cases/json.rs:214-220. -/
def favorites : Make T := jArray [jString "chocolate", jString "lemon", jString "almond"]
/-- /repo/tests/standard/test_cases/json.rs:222-228. -/
def object : Make T :=
  jObject [jPair "Name" (jString "Alice"), jPair "Age" (jNumber "42"), jPair "Favorites" favorites]

/-- /repo/tests/standard/test_cases/json.rs:230-384. -/
def json2 : IO Unit := do
  pp favorites 24 ["[", "    \"chocolate\",", "    \"lemon\",", "    \"almond\"", "]"]
  let fields :=
    ["        \"Name\": \"Alice\",", "        \"Age\": 42,", "        \"Favorites\": [",
     "            \"chocolate\",", "            \"lemon\",", "            \"almond\"", "        ]"]
  pp (jArray [object, object]) 40
    (["[", "    {"] ++ fields ++ ["    },", "    {"] ++ fields ++ ["    }", "]"])
  pp object 27
    ["{", "    \"Name\": \"Alice\",", "    \"Age\": 42,", "    \"Favorites\": [", "        \"chocolate\",",
     "        \"lemon\",", "        \"almond\"", "    ]", "}"]
  pp object 60
    ["{", "    \"Name\": \"Alice\",", "    \"Age\": 42,",
     "    \"Favorites\": [\"chocolate\", \"lemon\", \"almond\"]", "}"]
  pp (jArray [jNumber "1", jComment "two", jNumber "2", jNumber "3"]) 80
    ["[", "    1,", "    // two", "    2,", "    3", "]"]
  pp (jArray [jNumber "1", jComment "two", jNumber "2", jComment "three?", jComment "three.", jNumber "3"]) 10
    ["[", "    1,", "    // two", "    2,", "    // three?", "    // three.", "    3", "]"]
  pp (jArray [jNumber "1", jComment "two", jNumber "2", jNumber "3", jComment "^ three?", jComment "^ three."]) 20
    ["[", "    1,", "    // two", "    2,", "    3", "    // ^ three?", "    // ^ three.", "]"]
#eval json2

/-- /repo/tests/standard/test_cases/json.rs:10-13. -/
def numerals : List String :=
  ["one", "two", "three", "four", "five", "six", "seven", "eight", "nine", "ten", "eleven",
   "twelve", "thirteen", "fourteen", "fifteen", "sixteen"]

instance : Inhabited T := ⟨jsonNull 0⟩

/-- `make_json_tree` — /repo/tests/standard/test_cases/json.rs:386-399. -/
partial def jsonTree (i size : Nat) : Make T := do
  let cs ← (List.range size).mapM fun n => jsonTree (2 ^ n + i) n
  jObject [jPair "id" (jNumber (toString i)),
    jPair "children_lengths" (jArray ((numerals.take size).map fun s => jString ("child_number_" ++ s))),
    jPair "number_of_children" (jNumber (toString size)),
    jPair "children" (jArray (cs.map pure))]

/-- /repo/tests/standard/test_cases/json.rs:401-465. -/
def bigTree : IO Unit := do
  pp (jsonTree 0 2) 80
    ["{",
     "    \"id\": 0,",
     "    \"children_lengths\": [\"child_number_one\", \"child_number_two\"],",
     "    \"number_of_children\": 2,",
     "    \"children\": [",
     "        {",
     "            \"id\": 1,",
     "            \"children_lengths\": [],",
     "            \"number_of_children\": 0,",
     "            \"children\": []",
     "        },",
     "        {",
     "            \"id\": 2,",
     "            \"children_lengths\": [\"child_number_one\"],",
     "            \"number_of_children\": 1,",
     "            \"children\": [",
     "                {",
     "                    \"id\": 3,",
     "                    \"children_lengths\": [],",
     "                    \"number_of_children\": 0,",
     "                    \"children\": []",
     "                }",
     "            ]",
     "        }",
     "    ]",
     "}"]
  assertPpRegion treeP (make (jsonTree 0 16)) 120 [3, 1, 15, 3, 1, 10] .start 10
    ["                                }",
     "                            ]",
     "                        }",
     "                    ]",
     "                },",
     "                {",
     "                    \"id\": 33792,",
     "                    \"children_lengths\": [",
     "                        \"child_number_one\",",
     "                        \"child_number_two\","]
#eval bigTree

/-! ### styles.rs -/

/-- `RichChar::style_char` — /repo/tests/standard/test_cases/styles.rs:35-52. -/
def styleChar (s : BasicStyle) : Char :=
  let c := match s.color with
    | .white => 'w' | .black => 'k' | .red => 'r' | .green => 'g' | .yellow => 'y' | .blue => 'b'
    | .magenta => 'm' | .cyan => 'c'
  if s.bold then c.toUpper else c

/-- `print`, `display_text` and `display_styles` — /repo/tests/standard/test_cases/styles.rs:18-33, 54-93. -/
def printStyles (doc : T) (width : Nat) : IO (List String × List String) := do
  let r ← unwrap (prettyPrint (P := treeP) doc width [] .start (some BasicStyle.new))
  let above ← unwrap (drain Printer.nextUp r.up)
  let below ← unwrap (drain Printer.nextDown r.down)
  let lines := above.reverse ++ r.focused.toLine :: below
  pure (lines.map Line.toString, lines.map fun l =>
    String.ofList (l.segments.flatMap fun seg => seg.str.toList.map fun _ => styleChar seg.style))

/-- `make_json_object` — /repo/tests/standard/test_cases/styles.rs:104-129. -/
def styledObject : Make T := do
  let new := BasicStyle.new
  let brackets (t : T) : T :=
    (t.withStyleOverride "open" (new.setColor .cyan)).withStyleOverride "close" (new.setColor .blue)
  brackets <$> jObject [
    jPair "Name" (Tree.withStyle new.setBold <$> jString "Alice"),
    jPair "Age" (jNumber "42"),
    jPair "Pets" (jArray []),
    jPair "Favorites" ((brackets ∘ Tree.withStyle (new.setColor .red).setBold) <$>
      jArray [jString "chocolate", Tree.withStyle (new.setColor .yellow) <$> jString "lemon",
        jString "almond"])]

/-- /repo/tests/standard/test_cases/styles.rs:131-180. -/
def styles : IO Unit := do
  let (text, styles) ← printStyles (make styledObject) 27
  assertEq "text"
    ["{",
     "    \"Name\": \"Alice\",",
     "    \"Age\": 42,",
     "    \"Pets\": [],",
     "    \"Favorites\": [",
     "        \"chocolate\",",
     "        \"lemon\",",
     "        \"almond\"",
     "    ]",
     "}"] text
  assertEq "styles"
    ["c",
     "wwwwmmmmmmwwMMMMMMMw",
     "wwwwmmmmmwwbbw",
     "wwwwmmmmmmwwwww",
     "wwwwmmmmmmmmmmmwwC",
     "wwwwRRRRMMMMMMMMMMMR",
     "wwwwRRRRMMMMMMMR",
     "wwwwRRRRMMMMMMMM",
     "wwwwB",
     "b"] styles
  let (text, styles) ← printStyles (make styledObject) 90
  assertEq "text"
    ["{\"Name\": \"Alice\", \"Age\": 42, \"Pets\": [], \"Favorites\": [\"chocolate\", \"lemon\", \"almond\"]}"]
    text
  assertEq "styles"
    ["cmmmmmmwwMMMMMMMwwmmmmmwwbbwwmmmmmmwwwwwwmmmmmmmmmmmwwCMMMMMMMMMMMRRMMMMMMMRRMMMMMMMMBb"] styles
#eval styles

end PPP.Tests
