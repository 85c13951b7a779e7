import Verif.Model.Basic
import Verif.Model.Notation
/-
The `PrettyDoc` and `Style` traits — /repo/src/pretty_doc.rs, and the width function —
/repo/src/geometry.rs.
-/
namespace PPP

/-- An implementation of the `PrettyDoc` trait — /repo/src/pretty_doc.rs:32-104 — together with its
    `Style::combine` (108-112) and the column-width function `str_width`
    (/repo/src/geometry.rs:90-92), which is a parameter because it comes from the external
    crate `unicode-width`; nothing is assumed about it unless a theorem says so.
    Every method is an arbitrary function of the node handle: implementations are assumed to be
    deterministic (no interior mutability observable during printing), but may return errors or
    panic.  `notation()` returns the notation inside the `ValidNotation`; that it passed
    validation is not assumed here but stated in theorems (the crate has a hidden
    `cheat_validation_for_testing_only`). -/
structure PrettyDoc where
  /-- The node handle (`Self: Copy`). -/
  Node : Type
  Id : Type
  Style : Type
  Label : Type
  Cond : Type
  Err : Type
  decId : DecidableEq Id
  combine : Style → Style → Style
  strWidth : String → Nat
  id : Node → Call Err Id
  notn : Node → Call Err (Notation Label Cond)
  condition : Node → Cond → Call Err Bool
  lookupStyle : Node → Label → Call Err Style
  nodeStyle : Node → Call Err Style
  numChildren : Node → Call Err (Option Nat)
  unwrapText : Node → Call Err String
  unwrapChild : Node → Nat → Call Err Node
  unwrapLastChild : Node → Call Err Node
  /-- `child.unwrap_prev_sibling(parent, i)`. -/
  unwrapPrevSibling : Node → Node → Nat → Call Err Node

instance (P : PrettyDoc) : DecidableEq P.Id := P.decId

end PPP
