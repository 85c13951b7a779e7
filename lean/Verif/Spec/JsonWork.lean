import Verif.Spec.Json
/-
Specification: how large a JSON expression is.
-/
namespace PPP

mutual
/-- The number of nodes of the document: one for every call, one more for the key of every pair, and one
    for every word of every comment. -/
def Json.size : Json → Nat
  | .null _ | .bool _ _ | .string _ _ | .number _ _ => 1
  | .array _ es => 1 + Json.sizes es
  | .pair _ _ _ v => 2 + v.size
  | .object _ es => 1 + Json.sizes es
  | .comment _ _ s => 1 + (splitWhitespace [] s.toList).length
  | .roots _ vs => 1 + Json.sizes vs
@[inherit_doc Json.size]
def Json.sizes : List Json → Nat
  | [] => 0
  | e :: es => e.size + Json.sizes es
end

mutual
/-- How deep arrays and objects are nested. -/
def Json.depth : Json → Nat
  | .null _ | .bool _ _ | .string _ _ | .number _ _ | .comment _ _ _ => 0
  | .array _ es => 1 + Json.depths es
  | .pair _ _ _ v => v.depth
  | .object _ es => 1 + Json.depths es
  | .roots _ vs => Json.depths vs
@[inherit_doc Json.depth]
def Json.depths : List Json → Nat
  | [] => 0
  | e :: es => max e.depth (Json.depths es)
end

end PPP
