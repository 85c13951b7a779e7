import Verif.Model.Doc
import Verif.Model.Validate
/-
The document types of the tests with programs — /repo/tests/standard/test_cases/iter_chain.rs and
/repo/tests/standard/test_cases/ruby_loop.rs.
-/
namespace PPP

/-! ### Method chains -/

/-- `IterChain` and `IterChainData` — /repo/tests/standard/test_cases/iter_chain.rs:7-19. -/
inductive IterChain where
  | var (id : Nat) (s : String)
  | methodCall (id : Nat) (obj method arg : IterChain)
  | closure (id : Nat) (var body : IterChain)
  | times (id : Nat) (a b : IterChain)

namespace IterChain

/-- `VAR_NOTATION` — /repo/tests/standard/test_cases/iter_chain.rs:21. -/
def varN : Notation Unit Unit := .text

/-- `single` and `two_lines` — /repo/tests/standard/test_cases/iter_chain.rs:37-38. -/
def callSingle : Notation Unit Unit :=
  .literal "." + .child 1 + .literal "(" + .flat (.child 2) + .literal ")"

/-- `multi` — /repo/tests/standard/test_cases/iter_chain.rs:39. -/
def callMulti : Notation Unit Unit :=
  (.literal "." + .child 1 + .literal "(" + .nest 4 (.child 2)) ^^^ .literal ")"

/-- `METHOD_CALL_NOTATION` — /repo/tests/standard/test_cases/iter_chain.rs:22-43. -/
def methodCallN : Notation Unit Unit :=
  .child 0 + (callSingle ||| .nest 4 (callSingle ||| callMulti))

/-- `CLOSURE_NOTATION` — /repo/tests/standard/test_cases/iter_chain.rs:44-48. -/
def closureN : Notation Unit Unit :=
  (.literal "|" + .child 0 + .literal "| { " + .child 1 + .literal " }") |||
  ((.literal "|" + .child 0 + .literal "| {" + .nest 4 (.child 1)) ^^^ .literal "}")

/-- `TIMES_NOTATION` — /repo/tests/standard/test_cases/iter_chain.rs:49-50. -/
def timesN : Notation Unit Unit := .child 0 + .literal " * " + .child 1

/-- `Contents` and `contents` — /repo/tests/standard/test_cases/iter_chain.rs:52-69: a text, or a slice of children. -/
def contents : IterChain → String ⊕ List IterChain
  | .var _ txt => .inl txt
  | .methodCall _ obj method arg => .inr [obj, method, arg]
  | .closure _ v body => .inr [v, body]
  | .times _ a b => .inr [a, b]

/-- `id` — /repo/tests/standard/test_cases/iter_chain.rs:78-80. -/
def id : IterChain → Nat
  | .var id _ | .methodCall id _ _ _ | .closure id _ _ | .times id _ _ => id

/-- `notation` — /repo/tests/standard/test_cases/iter_chain.rs:82-91. -/
def notn : IterChain → Notation Unit Unit
  | .var _ _ => varN
  | .methodCall _ _ _ _ => methodCallN
  | .closure _ _ _ => closureN
  | .times _ _ _ => timesN

/-- `num_children` — /repo/tests/standard/test_cases/iter_chain.rs:105-110. -/
def numChildren (d : IterChain) : Option Nat :=
  match d.contents with
  | .inl _ => none
  | .inr slice => some slice.length

/-- `unwrap_text` — /repo/tests/standard/test_cases/iter_chain.rs:112-117. -/
def unwrapText (d : IterChain) : Call Empty String :=
  match d.contents with
  | .inl txt => .ok txt
  | .inr _ => .error .panic

/-- `unwrap_child` — /repo/tests/standard/test_cases/iter_chain.rs:119-124. -/
def unwrapChild (d : IterChain) (i : Nat) : Call Empty IterChain :=
  match d.contents with
  | .inl _ => .error .panic
  | .inr slice =>
    match slice[i]? with
    | some c => .ok c
    | none => .error .panic

end IterChain

/-- `impl PrettyDoc for &IterChain` — /repo/tests/standard/test_cases/iter_chain.rs:71-125; `unwrap_last_child` and
    `unwrap_prev_sibling` are the provided methods of the trait (/repo/src/pretty_doc.rs:68-87). -/
@[reducible] def chainDoc (sw : String → Nat) : PrettyDoc where
  Node := IterChain
  Id := Nat
  Style := Unit
  Label := Unit
  Cond := Unit
  Err := Empty
  decId := inferInstance
  combine _ _ := ()
  strWidth := sw
  id d := .ok d.id
  notn d := .ok d.notn
  condition _ _ := .ok false
  lookupStyle _ _ := .ok ()
  nodeStyle _ := .ok ()
  numChildren d := .ok d.numChildren
  unwrapText d := d.unwrapText
  unwrapChild d i := d.unwrapChild i
  unwrapLastChild d :=
    match d.numChildren with
    | some n => if n = 0 then .error .panic else d.unwrapChild (n - 1)
    | none => .error .panic
  unwrapPrevSibling _ parent i := parent.unwrapChild i

/-- Programs, the way in which the tests write them: with `var`, `method_call`, `closure` and `times` —
    /repo/tests/standard/test_cases/iter_chain.rs:136-150. -/
inductive ChainExpr where
  | var (name : String)
  | methodCall (obj : ChainExpr) (method : String) (arg : ChainExpr)
  | closure (var : String) (body : ChainExpr)
  | times (a b : ChainExpr)

/-- Building a program, when the counter of `new_node` stands at `next`: the node, and where the counter stands then —
    /repo/tests/standard/test_cases/iter_chain.rs:127-150. -/
def ChainExpr.build : ChainExpr → (next : Nat) → IterChain × Nat
  | .var name, next => (.var next name, next + 1)
  | .methodCall obj method arg, next =>
    let (obj, next) := obj.build next
    let (arg, next) := arg.build next
    (.methodCall (next + 1) obj (.var next method) arg, next + 2)
  | .closure v body, next =>
    let (body, next) := body.build next
    (.closure (next + 1) (.var next v) body, next + 2)
  | .times a b, next =>
    let (a, next) := a.build next
    let (b, next) := b.build next
    (.times next a b, next + 1)

/-! ### Loops -/

/-- `Ruby` and `RubyData` — /repo/tests/standard/test_cases/ruby_loop.rs:7-18. -/
inductive Ruby where
  | var (id : Nat) (s : String)
  | methodCall (id : Nat) (obj method arg : Ruby)
  | doLoop (id : Nat) (var body : Ruby)

namespace Ruby

/-- `VAR_NOTATION` — /repo/tests/standard/test_cases/ruby_loop.rs:20. -/
def varN : Notation Unit Unit := .text

/-- `single` and `two_lines` — /repo/tests/standard/test_cases/ruby_loop.rs:22-23. -/
def callSingle : Notation Unit Unit := .literal "." + .child 1 + .literal " " + .child 2

/-- `multi` — /repo/tests/standard/test_cases/ruby_loop.rs:24. -/
def callMulti : Notation Unit Unit := .literal "." + .child 1 + .nest 4 (.child 2)

/-- `METHOD_CALL_NOTATION` — /repo/tests/standard/test_cases/ruby_loop.rs:21-28. -/
def methodCallN : Notation Unit Unit :=
  .child 0 + (callSingle ||| .nest 4 (callSingle ||| callMulti))

/-- `DO_LOOP_NOTATION` — /repo/tests/standard/test_cases/ruby_loop.rs:29-33. -/
def doLoopN : Notation Unit Unit :=
  (.literal "do |" + .child 0 + .literal "| " + .flat (.child 1) + .literal " end") |||
  ((.literal "do |" + .child 0 + .literal "|" + .nest 4 (.child 1)) ^^^ .literal "end")

/-- `Contents` and `contents` — /repo/tests/standard/test_cases/ruby_loop.rs:35-51: a text, or a slice of children. -/
def contents : Ruby → String ⊕ List Ruby
  | .var _ txt => .inl txt
  | .methodCall _ obj method arg => .inr [obj, method, arg]
  | .doLoop _ v body => .inr [v, body]

/-- `id` — /repo/tests/standard/test_cases/ruby_loop.rs:60-62. -/
def id : Ruby → Nat
  | .var id _ | .methodCall id _ _ _ | .doLoop id _ _ => id

/-- `notation` — /repo/tests/standard/test_cases/ruby_loop.rs:64-72. -/
def notn : Ruby → Notation Unit Unit
  | .var _ _ => varN
  | .methodCall _ _ _ _ => methodCallN
  | .doLoop _ _ _ => doLoopN

/-- `num_children` — /repo/tests/standard/test_cases/ruby_loop.rs:86-91. -/
def numChildren (d : Ruby) : Option Nat :=
  match d.contents with
  | .inl _ => none
  | .inr slice => some slice.length

/-- `unwrap_text` — /repo/tests/standard/test_cases/ruby_loop.rs:93-98. -/
def unwrapText (d : Ruby) : Call Empty String :=
  match d.contents with
  | .inl txt => .ok txt
  | .inr _ => .error .panic

/-- `unwrap_child` — /repo/tests/standard/test_cases/ruby_loop.rs:100-105. -/
def unwrapChild (d : Ruby) (i : Nat) : Call Empty Ruby :=
  match d.contents with
  | .inl _ => .error .panic
  | .inr slice =>
    match slice[i]? with
    | some c => .ok c
    | none => .error .panic

end Ruby

/-- `impl PrettyDoc for &Ruby` — /repo/tests/standard/test_cases/ruby_loop.rs:53-106; `unwrap_last_child` and
    `unwrap_prev_sibling` are the provided methods of the trait (/repo/src/pretty_doc.rs:68-87). -/
@[reducible] def rubyDoc (sw : String → Nat) : PrettyDoc where
  Node := Ruby
  Id := Nat
  Style := Unit
  Label := Unit
  Cond := Unit
  Err := Empty
  decId := inferInstance
  combine _ _ := ()
  strWidth := sw
  id d := .ok d.id
  notn d := .ok d.notn
  condition _ _ := .ok false
  lookupStyle _ _ := .ok ()
  nodeStyle _ := .ok ()
  numChildren d := .ok d.numChildren
  unwrapText d := d.unwrapText
  unwrapChild d i := d.unwrapChild i
  unwrapLastChild d :=
    match d.numChildren with
    | some n => if n = 0 then .error .panic else d.unwrapChild (n - 1)
    | none => .error .panic
  unwrapPrevSibling _ parent i := parent.unwrapChild i

/-- Programs, the way in which the test writes them: with `var`, `method_call` and `do_loop` —
    /repo/tests/standard/test_cases/ruby_loop.rs:117-127. -/
inductive RubyExpr where
  | var (name : String)
  | methodCall (obj : RubyExpr) (method : String) (arg : RubyExpr)
  | doLoop (var : String) (body : RubyExpr)

/-- Building a program, when the counter of `new_node` stands at `next`: the node, and where the counter stands then —
    /repo/tests/standard/test_cases/ruby_loop.rs:108-127. -/
def RubyExpr.build : RubyExpr → (next : Nat) → Ruby × Nat
  | .var name, next => (.var next name, next + 1)
  | .methodCall obj method arg, next =>
    let (obj, next) := obj.build next
    let (arg, next) := arg.build next
    (.methodCall (next + 1) obj (.var next method) arg, next + 2)
  | .doLoop v body, next =>
    let (body, next) := body.build next
    (.doLoop (next + 1) (.var next v) body, next + 2)

end PPP
