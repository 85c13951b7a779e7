import Mathlib.Data.List.Sort
/-
Dividing space between panes — /repo/src/pane/divvy.rs and the pane sizes of
/repo/src/pane/pane_notation.rs.

A panic is `none`; so is an overflow of `usize`, which panics if overflow checks are on.
-/
namespace PPP

/-- `PaneSize` — /repo/src/pane/pane_notation.rs:38-63. -/
inductive PaneSize where
  | fixed (n : Nat)
  | dynamic
  | proportional (weight : Nat)
  deriving Repr, DecidableEq

/-- The largest `usize`, on a machine with 64 bits. -/
def maxUsize : Nat := 18446744073709551615

/-- `Divvier` — /repo/src/pane/divvy.rs:4-11. -/
structure Divvier where
  paneSizes : List PaneSize
  allocations : List Nat
  cookies : Nat

/-- The loop of `allocate_fixed` — /repo/src/pane/divvy.rs:62-69 — over the panes and their
    allocations.  Returns the new allocations and the remaining cookies. -/
def allocateFixed : List PaneSize → List Nat → Nat → List Nat × Nat
  | .fixed hunger :: ps, _ :: as, cookies =>
    let given := min cookies hunger
    let (as, cookies) := allocateFixed ps as (cookies - given)
    (given :: as, cookies)
  | _ :: ps, a :: as, cookies =>
    let (as, cookies) := allocateFixed ps as cookies
    (a :: as, cookies)
  | _, as, cookies => (as, cookies)

/-- `Divvier::new` — /repo/src/pane/divvy.rs:15-23. -/
def Divvier.new (availableSize : Nat) (paneSizes : List PaneSize) : Divvier :=
  let (allocations, cookies) := allocateFixed paneSizes (List.replicate paneSizes.length 0) availableSize
  { paneSizes, allocations, cookies }

/-- `Divvier::remaining` — /repo/src/pane/divvy.rs:27-29. -/
def Divvier.remaining (d : Divvier) : Nat := d.cookies

/-- The loop of `allocate_dynamic` and the check after it — /repo/src/pane/divvy.rs:45-57.
    `expect` on an exhausted iterator panics. -/
def allocateDynamicLoop : List PaneSize → List Nat → List Nat → Option (List Nat)
  | .dynamic :: ps, _ :: as, sizes =>
    match sizes with
    | [] => none
    | size :: sizes => do
      let as ← allocateDynamicLoop ps as sizes
      some (size :: as)
  | _ :: ps, a :: as, sizes => do
    let as ← allocateDynamicLoop ps as sizes
    some (a :: as)
  | _, as, sizes => if sizes = [] then some as else none

/-- `Divvier::allocate_dynamic` — /repo/src/pane/divvy.rs:40-57.  If the sum of the sizes overflows then
    it is also larger than `cookies`. -/
def Divvier.allocateDynamic (d : Divvier) (sizes : List Nat) : Option Divvier :=
  if sizes.sum ≤ d.cookies then do
    let allocations ← allocateDynamicLoop d.paneSizes d.allocations sizes
    some { d with allocations, cookies := d.cookies - sizes.sum }
  else none

/-- The weights of the proportional panes — /repo/src/pane/divvy.rs:76-81. -/
def childHungers : List PaneSize → List Nat
  | [] => []
  | .proportional hunger :: ps => hunger :: childHungers ps
  | _ :: ps => childHungers ps

/-- The fair division of `cookies` — /repo/src/pane/divvy.rs:82-106.  `sort_by` is stable, and so is
    `insertionSort` (a stable sort has only one possible result).  Only called with a positive `totalHunger` or no hungers. -/
def cookieAllocation (cookies : Nat) (hungers : List Nat) : List Nat :=
  let total := hungers.sum
  let alloc := hungers.map fun hunger => cookies * hunger / total
  let leftover := cookies - alloc.sum
  let remainders := (hungers.map fun hunger => cookies * hunger % total).zipIdx
  let sorted := remainders.insertionSort fun a b => b.1 ≤ a.1
  (sorted.take leftover).foldl (fun alloc a => alloc.modify a.2 (· + 1)) alloc

/-- The loop that hands out the proportional allocation — /repo/src/pane/divvy.rs:107-115.  Returns
    the allocations and the remaining cookies; `unwrap` and subtractions may panic. -/
def allocateProportionalLoop : List PaneSize → List Nat → List Nat → Nat → Option (List Nat × Nat)
  | .proportional _ :: ps, _ :: as, alloc, cookies =>
    match alloc with
    | [] => none
    | given :: alloc =>
      if given ≤ cookies then do
        let (as, cookies) ← allocateProportionalLoop ps as alloc (cookies - given)
        some (given :: as, cookies)
      else none
  | _ :: ps, a :: as, alloc, cookies => do
    let (as, cookies) ← allocateProportionalLoop ps as alloc cookies
    some (a :: as, cookies)
  | _, as, _, cookies => some (as, cookies)

/-- `Divvier::allocate_proportional` — /repo/src/pane/divvy.rs:75-116.  Dividing by a total of zero
    panics, which happens if there is a proportional pane at all.  The sum of the hungers and the products
    `cookies * hunger` may overflow. -/
def Divvier.allocateProportional (d : Divvier) : Option Divvier :=
  let hungers := childHungers d.paneSizes
  if hungers ≠ [] ∧ hungers.sum = 0 then none
  else if maxUsize < hungers.sum ∨ ∃ hunger ∈ hungers, maxUsize < d.cookies * hunger then none
  else
    let alloc := cookieAllocation d.cookies hungers
    if (hungers.map fun hunger => d.cookies * hunger / hungers.sum).sum ≤ d.cookies then do
      let (allocations, cookies) ← allocateProportionalLoop d.paneSizes d.allocations alloc d.cookies
      some { d with allocations, cookies }
    else none

/-- `Divvier::finish` — /repo/src/pane/divvy.rs:34-38. -/
def Divvier.finish (d : Divvier) (dynamicSizes : List Nat) : Option (List Nat) := do
  let d ← d.allocateDynamic dynamicSizes
  let d ← d.allocateProportional
  some d.allocations

end PPP
