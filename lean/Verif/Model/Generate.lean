import Verif.Model.Notation
/-
The generators of test inputs — /repo/tests/standard/generative_testing.rs, and the generator of
notations used by the test of the printer against the oracle — /repo/tests/standard/oracle_tests.rs.
-/
namespace PPP

/-- A call of `Generator::generate` — /repo/tests/standard/generative_testing.rs:10-14 — as far as a picker
    can see it: it returns, it panics, or it calls `pick_int(max)` and goes on with the number that is
    picked (any number: that it is less than `max` is up to the picker).  The trait requires `generate` to
    be a pure function of the numbers that are picked, so it is such a tree. -/
inductive Gen (α : Type) where
  | ret (a : α)
  | panic
  | pick (max : Nat) (k : Nat → Gen α)

/-- Go on with another call. -/
def Gen.bind {α β : Type} (g : Gen α) (f : α → Gen β) : Gen β :=
  match g with
  | .ret a => f a
  | .panic => .panic
  | .pick max k => .pick max fun n => (k n).bind f

instance : Monad Gen where
  pure := .ret
  bind := Gen.bind

/-! ### Random generation -/

/-- `generate` with any picker — /repo/tests/standard/generative_testing.rs:17-19.  `pick s max` is what
    `pick_int(max)` does in the state `s` of the picker: panic, or return a number.  `none`: a panic. -/
def Gen.runWith {α σ : Type} (pick : σ → Nat → Option (Nat × σ)) : Gen α → σ → Option (α × σ)
  | .ret a, s => some (a, s)
  | .panic, _ => none
  | .pick max k, s =>
    match pick s max with
    | none => none
    | some (n, s) => (k n).runWith pick s

/-! ### Deterministic generation -/

/-- `PickNext::pick_int` — /repo/tests/standard/generative_testing.rs:130-141: the number that is picked,
    and the new stack (its top is at the end of the list) and index.  `none`: the assertion fails. -/
def pickNext (stack : List (Nat × Nat)) (index max : Nat) : Option (Nat × List (Nat × Nat) × Nat) :=
  match stack[index]? with
  | some (n, _) => some (n, stack, index + 1)
  | none => if index = stack.length then some (0, stack ++ [(0, max)], index + 1) else none

/-- `self.generator.generate(self.size, &mut picker)` with a `PickNext` —
    /repo/tests/standard/generative_testing.rs:144-149. -/
def Gen.run {α : Type} : Gen α → List (Nat × Nat) → Nat → Option (α × List (Nat × Nat) × Nat)
  | .ret a, stack, index => some (a, stack, index)
  | .panic, _, _ => none
  | .pick max k, stack, index =>
    match pickNext stack index max with
    | none => none
    | some (n, stack, index) => (k n).run stack index

/-- `GenAll` — /repo/tests/standard/generative_testing.rs:88-94.  `gen` stands for the generator together
    with the size. -/
structure GenAll (α : Type) where
  gen : Gen α
  index : Nat
  stack : List (Nat × Nat)
  done : Bool

/-- `GenAll::new` — /repo/tests/standard/generative_testing.rs:97-105. -/
def GenAll.new {α : Type} (gen : Gen α) : GenAll α := ⟨gen, 0, [], false⟩

/-- The loop in `advance` — /repo/tests/standard/generative_testing.rs:109-114.  Here the top of the stack is
    at the start of the list. -/
def advanceLoop : List (Nat × Nat) → List (Nat × Nat)
  | [] => []
  | (n, max) :: stack => if n + 1 < max then (n + 1, max) :: stack else advanceLoop stack

/-- `GenAll::advance` — /repo/tests/standard/generative_testing.rs:107-118.  (Returning from inside of the
    loop leaves a stack that is not empty.) -/
def GenAll.advance {α : Type} (s : GenAll α) : GenAll α :=
  let stack := (advanceLoop s.stack.reverse).reverse
  { s with index := 0, stack := stack, done := if stack.isEmpty then true else s.done }

/-- `GenAll::next` — /repo/tests/standard/generative_testing.rs:121-152.  `none`: a panic. -/
def GenAll.next {α : Type} (s : GenAll α) : Option (Option α × GenAll α) :=
  if s.done then some (none, s)
  else
    match s.gen.run s.stack s.index with
    | none => none
    | some (value, stack, index) => some (some value, { s with stack := stack, index := index }.advance)

/-- Running such an iterator to its end.  `none`: a panic (or it has no end). -/
def GenAll.collect {α : Type} (s : GenAll α) : Option (List α) := do
  let (value, s) ← s.next
  match value with
  | none => some []
  | some a => do
    let as ← s.collect
    some (a :: as)
partial_fixpoint

/-- `generate_all_of_size` — /repo/tests/standard/generative_testing.rs:81-86. -/
def generateAllOfSize {α : Type} (generator : Nat → Gen α) (size : Nat) : GenAll α := GenAll.new (generator size)

/-- `generate_all_up_to_size` — /repo/tests/standard/generative_testing.rs:73-78, run to its end.  The range
    `1..max_size` does not include `max_size`. -/
def generateAllUpToSize {α : Type} (generator : Nat → Gen α) (maxSize : Nat) : Option (List α) := do
  let parts ← (List.range' 1 (maxSize - 1)).mapM fun size => (generateAllOfSize generator size).collect
  some parts.flatten

/-! ### The generators -/

/-- `NotationGen::generate` — /repo/tests/standard/oracle_tests.rs:16-54.  The subtraction
    `size - left_size` panics if it underflows. -/
def notationGen (size : Nat) : Gen (Notation Unit Unit) :=
  if size = 0 then .panic
  else if size = 1 then
    .pick 6 fun
      | 0 => pure .empty
      | 1 => pure .newline
      | 2 => pure .endOfLine
      | 3 => pure (.literal "a")
      | 4 => pure (.literal "bb")
      | 5 => pure (.literal "cccc")
      | _ => .panic
  else if size = 2 then
    .pick 2 fun
      | 0 => do
        let n ← notationGen 1
        pure (.flat n)
      | 1 => do
        let n ← notationGen 1
        pure (.nest 2 n)
      | _ => .panic
  else
    .pick 4 fun
      | 0 => .pick (size - 1 - 1) fun n =>
        let leftSize := n + 1
        if leftSize ≤ size - 1 then do
          let left ← notationGen leftSize
          let right ← notationGen (size - 1 - leftSize)
          pure (.concat left right)
        else .panic
      | 1 => .pick (size - 1 - 1) fun n =>
        let leftSize := n + 1
        if leftSize ≤ size - 1 then do
          let left ← notationGen leftSize
          let right ← notationGen (size - 1 - leftSize)
          pure (.choice left right)
        else .panic
      | 2 => do
        let n ← notationGen (size - 1)
        pure (.flat n)
      | 3 => do
        let n ← notationGen (size - 1)
        pure (.nest 2 n)
      | _ => .panic
termination_by size
decreasing_by all_goals omega

/-- `Tree` — /repo/tests/standard/generative_testing.rs:159-160. -/
inductive GTree where
  | node (children : List GTree)

mutual
/-- `TreeGenerator::generate` — /repo/tests/standard/generative_testing.rs:182-195. -/
def treeGen (size : Nat) : Gen GTree :=
  if size = 0 then .panic
  else do
    let children ← treeGenLoop (size - 1)
    pure (.node children)
termination_by 2 * size
decreasing_by omega

/-- The loop in it — /repo/tests/standard/generative_testing.rs:188-193: the children that are added from
    now on.  The subtraction panics if it underflows. -/
def treeGenLoop (size : Nat) : Gen (List GTree) :=
  if size > 0 then
    .pick size fun n =>
      let childSize := n + 1
      if childSize ≤ size then do
        let child ← treeGen childSize
        let children ← treeGenLoop (size - childSize)
        pure (child :: children)
      else .panic
  else pure []
termination_by 2 * size + 1
decreasing_by all_goals omega
end

end PPP
