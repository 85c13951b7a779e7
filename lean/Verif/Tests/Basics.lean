import Verif.Tests.Harness
/-
/repo/tests/standard/test_cases/basics.rs, regressions.rs, children.rs, ruby_loop.rs, iter_chain.rs,
flow_wrap.rs and oracle_tests.rs, run on the model (tests, not proofs).

The documents of ruby_loop.rs, iter_chain.rs and flow_wrap.rs are implementations of `PrettyDoc` of their own,
without styles and conditions; here they are trees.
-/
namespace PPP.Tests

abbrev SN := Notation Unit Unit

/-- /repo/tests/standard/test_cases/basics.rs:4-106. -/
def basics : IO Unit := do
  let lit : String → SN := .literal
  let nl : SN := .newline
  let eol : SN := .endOfLine
  let flat : SN → SN := .flat
  assertSimple .empty 80 [""]
  assertSimple (lit "Hello world!") 80 ["Hello world!"]
  assertSimple (lit "Hello" + lit " world!") 80 ["Hello world!"]
  assertSimple (lit "Hello" ^^^ lit "world!") 80 ["Hello", "world!"]
  assertSimple (lit "Hello" + .nest 2 (lit "world!")) 80 ["Hello", "  world!"]
  assertSimple (lit "Hello" + .indent "// " none (nl + lit "world!")) 80 ["Hello", "// world!"]
  assertSimple (flat (lit "long" ||| (lit "a" ^^^ lit "b"))) 2 ["long"]
  let hello : SN := lit "Hello world!" ||| (lit "Hello" ^^^ lit "world!")
  assertSimple hello 12 ["Hello world!"]
  assertSimple hello 11 ["Hello", "world!"]
  assertCheat (eol + (lit "a" ||| nl)) 80 ["", ""]
  assertCheat ((eol + lit "a") ||| lit "b") 80 ["b"]
  assertSimple (eol + nl + (lit "a" ||| nl)) 80 ["", "a"]
  assertCheat ((eol ||| lit "a") + lit "b") 80 ["ab"]
  assertSimple ((lit "x" ^^^ flat nl) ||| lit "ok") 3 ["x", "", ""]
  assertSimple ((lit "a" ||| lit "bb") + ((lit "x" + nl + flat nl) ||| lit "yy")) 3 ["ax", "", ""]
  let doc := make <| jArray [jArray [jString "0.0", jString "0.1"], jString "1",
    jArray [jArray [jString "2.0.0"], jString "2.1"]]
  assertEq "all_paths" [[], [0], [0, 0], [0, 1], [1], [2], [2, 0], [2, 0, 0], [2, 1]]
    (allPaths (P := treeP) doc)
  -- regressions.rs
  assertSimple (lit "bb" + eol + (.empty ||| nl)) 1 ["bb", ""]
#eval basics

abbrev TN := Notation String TreeCondition

/-- /repo/tests/standard/test_cases/children.rs:11. -/
def textN : TreeNotation := ⟨.text, by decide⟩
/-- /repo/tests/standard/test_cases/children.rs:13-15. -/
def element (s : String) : Make T := newText textN s
/-- /repo/tests/standard/test_cases/children.rs:19-32. -/
def countN : TreeNotation :=
  ⟨.count (.literal "0") (.literal "1: " + .child 0)
    (.literal "n: " + .fold (.child 0) (.left + .literal ", " + .right)), by decide⟩
/-- /repo/tests/standard/test_cases/children.rs:53-63. -/
def foldN : TreeNotation :=
  ⟨((.literal "[" + .nest 2 (.fold (.literal "first: " + .child 0)
      ((.left : TN) ^^^ ((.literal "later: " + .right : TN))))) : TN) ^^^ (.literal "]" : TN), by decide⟩
/-- /repo/tests/standard/test_cases/children.rs:105-115. -/
def commentListN : TreeNotation :=
  ⟨.fold (.check .isComment (.child 0) (.literal "/* ") .empty + .child 0)
      (((.left + .check .isComment .leftChild (.literal " */") .empty) : TN) ^^^
        ((.check .isComment .rightChild (.literal "/* ") .empty + .right : TN))) +
    .check .isComment (.child (-1)) (.literal " */") .empty, by decide⟩
/-- /repo/tests/standard/test_cases/children.rs:147-148. -/
def negativeN : TreeNotation := ⟨.child (-1) + .child (-2) + .child (-3), by decide⟩

def comment (x : Make T) : Make T := Tree.intoComment <$> x

/-- /repo/tests/standard/test_cases/children.rs:17-156. -/
def children : IO Unit := do
  let pp (x : Make T) := assertPp treeP (make x)
  pp (newBranch countN []) 80 ["0"]
  pp (newBranch countN [element "aaaa"]) 80 ["1: aaaa"]
  pp (newBranch countN [element "aaaa", element "bbbb"]) 80 ["n: aaaa, bbbb"]
  pp (newBranch foldN [element "aaaa", element "bbbb", element "cccc"]) 80
    ["[", "  first: aaaa", "  later: bbbb", "  later: cccc", "]"]
  pp (newBranch foldN [element "aaaa"]) 80 ["[", "  first: aaaa", "]"]
  pp (newBranch foldN []) 80 ["[", "  ", "]"]
  pp (newBranch commentListN
      [comment (element "aaaa"), element "bbbb", element "cccc", comment (element "dddd")]) 80
    ["/* aaaa */", "bbbb", "cccc", "/* dddd */"]
  pp (newBranch commentListN [comment (element "aaaa")]) 80 ["/* aaaa */"]
  pp (newBranch negativeN [element "a", element "b", element "c"]) 80 ["cba"]
#eval children

/-- /repo/tests/standard/test_cases/ruby_loop.rs:21-28. -/
def rubyCallN : TreeNotation :=
  let single : TN := .literal "." + .child 1 + .literal " " + .child 2
  let multi : TN := .literal "." + .child 1 + .nest 4 (.child 2)
  ⟨.child 0 + (single ||| .nest 4 (single ||| multi)), by decide⟩
/-- /repo/tests/standard/test_cases/ruby_loop.rs:29-33. -/
def rubyLoopN : TreeNotation :=
  let single : TN := .literal "do |" + .child 0 + .literal "| " + .flat (.child 1) + .literal " end"
  let multi : TN := (.literal "do |" + .child 0 + .literal "|" + .nest 4 (.child 1) : TN) ^^^ (.literal "end" : TN)
  ⟨single ||| multi, by decide⟩

/-- /repo/tests/standard/test_cases/ruby_loop.rs:127-165. -/
def ruby : IO Unit := do
  let doc := make <| newBranch rubyCallN [element "(1..5)", element "each",
    newBranch rubyLoopN [element "i", element "puts i"]]
  assertPp treeP doc 30 ["(1..5).each do |i| puts i end"]
  assertPp treeP doc 20 ["(1..5).each do |i|", "    puts i", "end"]
  assertPp treeP doc 15 ["(1..5)", "    .each", "        do |i|", "            puts i", "        end"]
#eval ruby

/-- /repo/tests/standard/test_cases/iter_chain.rs:22-44. -/
def callN : TreeNotation :=
  let single : TN := .literal "." + .child 1 + .literal "(" + .flat (.child 2) + .literal ")"
  let multi : TN := (.literal "." + .child 1 + .literal "(" + .nest 4 (.child 2) : TN) ^^^ (.literal ")" : TN)
  ⟨.child 0 + (single ||| .nest 4 (single ||| multi)), by decide⟩
/-- /repo/tests/standard/test_cases/iter_chain.rs:45-49. -/
def closureN : TreeNotation :=
  let single : TN := .literal "|" + .child 0 + .literal "| { " + .child 1 + .literal " }"
  let multi : TN := (.literal "|" + .child 0 + .literal "| {" + .nest 4 (.child 1) : TN) ^^^ (.literal "}" : TN)
  ⟨single ||| multi, by decide⟩
/-- /repo/tests/standard/test_cases/iter_chain.rs:50-51. -/
def timesN : TreeNotation := ⟨.child 0 + .literal " * " + .child 1, by decide⟩

/-- /repo/tests/standard/test_cases/iter_chain.rs:150-251. -/
def iterChain : IO Unit := do
  let call (x : Make T) (m : String) (y : Make T) := newBranch callN [x, element m, y]
  let closure (v : String) (x : Make T) := newBranch closureN [element v, x]
  let times (x y : Make T) := newBranch timesN [x, y]
  let doc := make <| call (call (call (element "some_vec") "iter" (element "")) "map"
    (closure "elem" (times (element "elem") (element "elem")))) "collect" (element "")
  assertPp treeP doc 80 ["some_vec.iter().map(|elem| { elem * elem }).collect()"]
  assertPp treeP doc 50 ["some_vec.iter().map(|elem| { elem * elem })", "    .collect()"]
  assertPp treeP doc 40 ["some_vec.iter()", "    .map(|elem| { elem * elem })", "    .collect()"]
  assertPp treeP doc 30 ["some_vec.iter()", "    .map(", "        |elem| { elem * elem }", "    ).collect()"]
  let doc := make <| call (element "some_vec") "map" (closure "elem" (times (element "elem") (element "elem")))
  assertPp treeP doc 31 ["some_vec", "    .map(", "        |elem| { elem * elem }", "    )"]
  let doc := make <| call (call (element "some_vec") "call_the_map_method" (closure "elem" (element "elem")))
    "call_the_map_method" (closure "elem" (element "elem"))
  assertPp treeP doc 41
    ["some_vec", "    .call_the_map_method(|elem| { elem })", "    .call_the_map_method(|elem| { elem })"]
  assertPp treeP doc 35
    ["some_vec", "    .call_the_map_method(", "        |elem| { elem }", "    )",
     "    .call_the_map_method(", "        |elem| { elem }", "    )"]
#eval iterChain

/-- /repo/tests/standard/test_cases/flow_wrap.rs:26-38. -/
def wordsN : TreeNotation :=
  ⟨.count (.literal "") (.literal "    " + .child 0)
    (.literal "    " + .fold (.child 0)
      (.left + .literal "," + ((.literal " " : TN) ||| (.newline : TN)) + .right)), by decide⟩
/-- /repo/tests/standard/test_cases/flow_wrap.rs:39-40. -/
def paragraphN : TreeNotation := ⟨.literal "始" + .child 0 + .literal "端", by decide⟩

/-- /repo/tests/standard/test_cases/flow_wrap.rs:133-374. -/
def flowWrap : IO Unit := do
  let doc := make <| newBranch paragraphN [newBranch wordsN
    (["Oh", "woe", "is", "me", "the", "turbofish", "remains", "undefeated"].map element)]
  let line := "始    Oh, woe, is, me, the, turbofish, remains, undefeated端"
  assertPp treeP doc 80 [line]
  assertPp treeP doc 60 [line]
  assertPp treeP doc 59 ["始    Oh, woe, is, me, the, turbofish, remains,", "undefeated端"]
  assertPp treeP doc 47 ["始    Oh, woe, is, me, the, turbofish, remains,", "undefeated端"]
  assertPp treeP doc 45 ["始    Oh, woe, is, me, the, turbofish,", "remains, undefeated端"]
  assertPp treeP doc 21 ["始    Oh, woe, is,", "me, the, turbofish,", "remains, undefeated端"]
  assertPp treeP doc 19 ["始    Oh, woe, is,", "me, the, turbofish,", "remains,", "undefeated端"]
  assertPp treeP doc 18 ["始    Oh, woe, is,", "me, the,", "turbofish,", "remains,", "undefeated端"]
  assertPp treeP doc 14 ["始    Oh, woe,", "is, me, the,", "turbofish,", "remains,", "undefeated端"]
  assertPp treeP doc 0
    ["始    Oh,", "woe,", "is,", "me,", "the,", "turbofish,", "remains,", "undefeated端"]
  let l1 := "始    Oh, woe, is,"
  let l2 := "me, the, turbofish,"
  let l3 := "remains,"
  let l4 := "undefeated端"
  assertPpSeek treeP doc 19 [] ["(始    Oh, woe, is,", l2, l3, "undefeated端)"]
  assertPpSeek treeP doc 19 [0] ["始(    Oh, woe, is,", l2, l3, "undefeated)端"]
  assertPpSeek treeP doc 19 [0, 0] ["始    (Oh), woe, is,", l2, l3, l4]
  assertPpSeek treeP doc 19 [0, 1] ["始    Oh, (woe), is,", l2, l3, l4]
  assertPpSeek treeP doc 19 [0, 2] ["始    Oh, woe, (is),", l2, l3, l4]
  assertPpSeek treeP doc 19 [0, 3] [l1, "(me), the, turbofish,", l3, l4]
  assertPpSeek treeP doc 19 [0, 4] [l1, "me, (the), turbofish,", l3, l4]
  assertPpSeek treeP doc 19 [0, 5] [l1, "me, the, (turbofish),", l3, l4]
  assertPpSeek treeP doc 19 [0, 6] [l1, l2, "(remains),", l4]
  assertPpSeek treeP doc 19 [0, 7] [l1, l2, l3, "(undefeated)端"]
#eval flowWrap

/-- All notations that `NotationGen` — /repo/tests/standard/oracle_tests.rs:13-55 — makes of a size. -/
partial def generate (size : Nat) : List SN :=
  if size = 1 then
    [.empty, .newline, .endOfLine, .literal "a", .literal "bb", .literal "cccc"]
  else if size = 2 then (generate 1).map .flat ++ (generate 1).map (.nest 2)
  else
    let pairs : List (SN × SN) := (List.range (size - 2)).flatMap fun i =>
      (generate (i + 1)).flatMap fun l => (generate (size - 1 - (i + 1))).map fun r => (l, r)
    pairs.map (fun (l, r) => .concat l r) ++ pairs.map (fun (l, r) => .choice l r) ++
      (generate (size - 1)).map .flat ++ (generate (size - 1)).map (.nest 2)

/-- /repo/tests/standard/oracle_tests.rs:57-84, without the random ones. -/
def oracleTests : IO Unit := do
  for size in [1, 2, 3, 4, 5] do
    for n in generate size do
      if n.validate matches .ok () then
        for width in [1, 2, 3, 4, 5, 6, 7, 8] do
          assertPpImpl (P := simpleDoc) n width none
#eval oracleTests

end PPP.Tests
