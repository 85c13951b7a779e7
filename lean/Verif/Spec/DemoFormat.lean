import Verif.Model.Demo
import Verif.Spec.JsonFormat
/-
What the demo program shows, exactly.
-/
namespace PPP

mutual
/-- The JSON value as an expression, for the formatter in Spec/JsonFormat.lean.  (It does not look at ids.) -/
def Serde.json : Serde → Json
  | .null => .null 0
  | .bool b => .bool 0 b
  | .number text => .number 0 text
  | .string s => .string 0 s
  | .array vs => .array 0 (Serde.jsons vs)
  | .object es => .object 0 (Serde.jsonEntries es)
@[inherit_doc Serde.json]
def Serde.jsons : List Serde → List Json
  | [] => []
  | v :: vs => v.json :: Serde.jsons vs
@[inherit_doc Serde.json]
def Serde.jsonEntries : List (String × Serde) → List Json
  | [] => []
  | (key, v) :: es => .pair 0 0 key v.json :: Serde.jsonEntries es
end

end PPP
