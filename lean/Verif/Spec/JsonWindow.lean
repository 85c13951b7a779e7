import Verif.Spec.Json
/-
Specification: JSON expressions without comments, how many entries their arrays and objects have, and how deeply they are
nested.
-/
namespace PPP

mutual
/-- Made without `json_comment` and `json_roots`. -/
def Json.NoComments : Json → Prop
  | .null _ | .bool _ _ | .string _ _ | .number _ _ => True
  | .array _ es => Json.NoCommentsIn es
  | .pair _ _ _ v => v.NoComments
  | .object _ es => Json.NoCommentsIn es
  | .comment _ _ _ => False
  | .roots _ _ => False
@[inherit_doc Json.NoComments]
def Json.NoCommentsIn : List Json → Prop
  | [] => True
  | e :: es => e.NoComments ∧ Json.NoCommentsIn es
end

mutual
/-- No array or object has more than `n` entries. -/
def Json.EntriesAtMost (n : Nat) : Json → Prop
  | .null _ | .bool _ _ | .string _ _ | .number _ _ | .comment _ _ _ => True
  | .array _ es => es.length ≤ n ∧ Json.AllEntriesAtMost n es
  | .pair _ _ _ v => v.EntriesAtMost n
  | .object _ es => es.length ≤ n ∧ Json.AllEntriesAtMost n es
  | .roots _ es => es.length ≤ n ∧ Json.AllEntriesAtMost n es
@[inherit_doc Json.EntriesAtMost]
def Json.AllEntriesAtMost (n : Nat) : List Json → Prop
  | [] => True
  | e :: es => e.EntriesAtMost n ∧ Json.AllEntriesAtMost n es
end

mutual
/-- How deep arrays, objects and key-value pairs are nested. -/
def Json.levels : Json → Nat
  | .null _ | .bool _ _ | .string _ _ | .number _ _ | .comment _ _ _ => 0
  | .array _ es => 1 + Json.levelsIn es
  | .pair _ _ _ v => 1 + v.levels
  | .object _ es => 1 + Json.levelsIn es
  | .roots _ es => 1 + Json.levelsIn es
@[inherit_doc Json.levels]
def Json.levelsIn : List Json → Nat
  | [] => 0
  | e :: es => max e.levels (Json.levelsIn es)
end

mutual
/-- The ids of the nodes (not counting those of the words of comments). -/
def Json.ids : Json → List Nat
  | .null id | .bool id _ | .string id _ | .number id _ => [id]
  | .array id es => id :: Json.idsIn es
  | .pair id keyId _ v => id :: keyId :: v.ids
  | .object id es => id :: Json.idsIn es
  | .comment id _ _ => [id]
  | .roots id es => id :: Json.idsIn es
@[inherit_doc Json.ids]
def Json.idsIn : List Json → List Nat
  | [] => []
  | e :: es => e.ids ++ Json.idsIn es
end

end PPP
