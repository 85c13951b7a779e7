import Verif.Spec.Json
/-
Specification, part 30: what the comparison of the two printers needs to know about a JSON document.
-/
namespace PPP

mutual
/-- No text of the document (a string, a key, a number, or a word of a comment) is wider than `m`. -/
def Json.TextsWithin (sw : String → Nat) (m : Nat) : Json → Prop
  | .null _ | .bool _ _ => True
  | .string _ s => sw s ≤ m
  | .number _ s => sw s ≤ m
  | .array _ es => Json.AllTextsWithin sw m es
  | .pair _ _ key v => sw key ≤ m ∧ v.TextsWithin sw m
  | .object _ es => Json.AllTextsWithin sw m es
  | .comment _ _ s => ∀ word ∈ splitWhitespace [] s.toList, sw (String.ofList word) ≤ m
  | .roots _ es => Json.AllTextsWithin sw m es
@[inherit_doc Json.TextsWithin]
def Json.AllTextsWithin (sw : String → Nat) (m : Nat) : List Json → Prop
  | [] => True
  | e :: es => e.TextsWithin sw m ∧ Json.AllTextsWithin sw m es
end

/-- The punctuation of JSON is as wide as expected: separators and closing brackets take some columns,
    and nothing takes more than `m`. -/
structure JsonWidths (sw : String → Nat) (m : Nat) : Prop where
  adds : sw "" = 0 ∧ ∀ a b, sw a + sw b ≤ maxWidth → sw (a ++ b) = sw a + sw b
  some : ∀ s ∈ [",", ", ", "]", "}"], 0 < sw s
  within : ∀ s ∈ ["null", "true", "false", "\"", "[", "]", "{", "}", ",", ", ", ": ", "// ", " "], sw s ≤ m

end PPP
