import Verif.Model.Doc
import Verif.Model.Validate
/-
The document type of the flow-wrapping tests — /repo/tests/standard/test_cases/flow_wrap.rs.
-/
namespace PPP

/-- `FlowWrap` and `FlowWrapData` — /repo/tests/standard/test_cases/flow_wrap.rs:9-20. -/
inductive FlowWrap where
  | word (id : Nat) (s : String)
  | words (id : Nat) (ws : List FlowWrap)
  | paragraph (id : Nat) (body : FlowWrap)

namespace FlowWrap

/-- `START` — /repo/tests/standard/test_cases/flow_wrap.rs:22. -/
def START : String := "始"

/-- `END` — /repo/tests/standard/test_cases/flow_wrap.rs:23. -/
def END : String := "端"

/-- `WORD_NOTATION` — /repo/tests/standard/test_cases/flow_wrap.rs:25. -/
def wordNotation : Notation Unit Unit := .text

/-- `soft_break` — /repo/tests/standard/test_cases/flow_wrap.rs:27. -/
def softBreak : Notation Unit Unit := .choice (.literal " ") .newline

/-- `WORDS_NOTATION` — /repo/tests/standard/test_cases/flow_wrap.rs:26-39. -/
def wordsNotation : Notation Unit Unit :=
  .count (.literal "") (.literal "    " + .child 0)
    (.literal "    " + .fold (.child 0) (.left + .literal "," + softBreak + .right))

/-- `PARAGRAPH_NOTATION` — /repo/tests/standard/test_cases/flow_wrap.rs:40-41. -/
def paragraphNotation : Notation Unit Unit := .literal START + .child 0 + .literal END

/-- `Contents` and `contents` — /repo/tests/standard/test_cases/flow_wrap.rs:43-58: a text, or a slice of children. -/
def contents : FlowWrap → String ⊕ List FlowWrap
  | .word _ s => .inl s
  | .words _ ws => .inr ws
  | .paragraph _ body => .inr [body]

/-- `id` — /repo/tests/standard/test_cases/flow_wrap.rs:67-69. -/
def id : FlowWrap → Nat
  | .word id _ | .words id _ | .paragraph id _ => id

/-- `notation` — /repo/tests/standard/test_cases/flow_wrap.rs:71-79. -/
def notn : FlowWrap → Notation Unit Unit
  | .word _ _ => wordNotation
  | .words _ _ => wordsNotation
  | .paragraph _ _ => paragraphNotation

/-- `num_children` — /repo/tests/standard/test_cases/flow_wrap.rs:93-98. -/
def numChildren (d : FlowWrap) : Option Nat :=
  match d.contents with
  | .inl _ => none
  | .inr slice => some slice.length

/-- `unwrap_text` — /repo/tests/standard/test_cases/flow_wrap.rs:100-105. -/
def unwrapText (d : FlowWrap) : Call Empty String :=
  match d.contents with
  | .inl txt => .ok txt
  | .inr _ => .error .panic

/-- `unwrap_child` — /repo/tests/standard/test_cases/flow_wrap.rs:107-112. -/
def unwrapChild (d : FlowWrap) (i : Nat) : Call Empty FlowWrap :=
  match d.contents with
  | .inl _ => .error .panic
  | .inr slice =>
    match slice[i]? with
    | some c => .ok c
    | none => .error .panic

end FlowWrap

/-- `impl PrettyDoc for &FlowWrap` — /repo/tests/standard/test_cases/flow_wrap.rs:60-113; `unwrap_last_child` and
    `unwrap_prev_sibling` are the provided methods of the trait (/repo/src/pretty_doc.rs:68-87). -/
@[reducible] def flowDoc (sw : String → Nat) : PrettyDoc where
  Node := FlowWrap
  Id := Nat
  Style := Unit
  Label := Unit
  Cond := Unit
  Err := Empty
  decId := inferInstance
  combine _ _ := ()
  strWidth := sw
  id d := .ok d.id
  notn d := .ok d.notn
  condition _ _ := .ok false
  lookupStyle _ _ := .ok ()
  nodeStyle _ := .ok ()
  numChildren d := .ok d.numChildren
  unwrapText d := d.unwrapText
  unwrapChild d i := d.unwrapChild i
  unwrapLastChild d :=
    match d.numChildren with
    | some n => if n = 0 then .error .panic else d.unwrapChild (n - 1)
    | none => .error .panic
  unwrapPrevSibling _ parent i := parent.unwrapChild i

/-- `paragraph` — /repo/tests/standard/test_cases/flow_wrap.rs:124-132, when the counter of `new_node` (115-122)
    stands at `next`. -/
def FlowWrap.mkParagraph (next : Nat) (ws : List String) : FlowWrap :=
  .paragraph (next + ws.length + 1)
    (.words (next + ws.length) (ws.mapIdx fun i w => .word (next + i) w))

end PPP
