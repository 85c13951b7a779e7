import Verif.Spec.Greedy
/-
Specification, part 14: what the comparison of the two printers is about.
-/
namespace PPP
variable {P : PrettyDoc}

/-- A text that takes no columns is the first text after an end-of-line mark, and on the same line. -/
def ZeroAfterEol (T : List (Tok P)) : Prop :=
  ∃ A B x C, T = A ++ .eol :: B ++ .text x :: C ∧ (∀ ind, .nl ind ∉ B) ∧ (∀ y, .text y ∉ B) ∧ x.width = 0

/-- No text in the tree is wider than `m` columns. -/
def NTree.TextsWithin (m : Nat) : NTree P → Prop
  | .text t => t.width ≤ m
  | .concat a b => a.TextsWithin m ∧ b.TextsWithin m
  | .choice a b => a.TextsWithin m ∧ b.TextsWithin m
  | .child _ _ t => t.TextsWithin m
  | _ => True

/-- Every text in the tree takes at least one column. -/
def NTree.TextsWide : NTree P → Prop
  | .text t => 0 < t.width
  | .concat a b => a.TextsWide ∧ b.TextsWide
  | .choice a b => a.TextsWide ∧ b.TextsWide
  | .child _ _ t => t.TextsWide
  | _ => True

/-- There is no end-of-line mark in the tree. -/
def NTree.NoEol : NTree P → Prop
  | .eol => False
  | .concat a b => a.NoEol ∧ b.NoEol
  | .choice a b => a.NoEol ∧ b.NoEol
  | .child _ _ t => t.NoEol
  | _ => True

/-- Widths add up, as long as they can be counted. -/
def WidthsAdd (sw : String → Nat) : Prop :=
  sw "" = 0 ∧ ∀ a b, sw a + sw b ≤ maxWidth → sw (a ++ b) = sw a + sw b

end PPP
