import Verif.Model.Notation
/-
Specification, part 43: notations that look the same, and names that can be told apart.
-/
namespace PPP
variable {L C : Type}

/-- The same notation, up to the grouping of concatenations, and up to the styles of indentation. -/
inductive Notation.Regroups : Notation L C → Notation L C → Prop where
  | refl (a) : Regroups a a
  | symm {a b} : Regroups a b → Regroups b a
  | trans {a b c} : Regroups a b → Regroups b c → Regroups a c
  | assoc (a b c) : Regroups ((a + b) + c) (a + (b + c))
  | flat {a b} : Regroups a b → Regroups (.flat a) (.flat b)
  | indent (s l l') {a b} : Regroups a b → Regroups (.indent s l a) (.indent s l' b)
  | concat {a a' b b'} : Regroups a a' → Regroups b b' → Regroups (a + b) (a' + b')
  | choice {a a' b b'} : Regroups a a' → Regroups b b' → Regroups (.choice a b) (.choice a' b')
  | check (c pos) {a a' b b'} : Regroups a a' → Regroups b b' → Regroups (.check c pos a b) (.check c pos a' b')
  | style (l) {a b} : Regroups a b → Regroups (.style l a) (.style l b)
  | count {z z' o o' m m'} : Regroups z z' → Regroups o o' → Regroups m m' →
      Regroups (.count z o m) (.count z' o' m')
  | fold {f f' j j'} : Regroups f f' → Regroups j j' → Regroups (.fold f j) (.fold f' j')

/-- `p` holds of every literal string and every indentation string in the notation. -/
def Notation.Strings (p : String → Prop) : Notation L C → Prop
  | .literal s => p s
  | .flat a => a.Strings p
  | .indent s _ a => p s ∧ a.Strings p
  | .concat a b => a.Strings p ∧ b.Strings p
  | .choice a b => a.Strings p ∧ b.Strings p
  | .check _ _ a b => a.Strings p ∧ b.Strings p
  | .style _ a => a.Strings p
  | .count z o m => z.Strings p ∧ o.Strings p ∧ m.Strings p
  | .fold f j => f.Strings p ∧ j.Strings p
  | _ => True

/-- No literal and no indentation string contains a quote. -/
def Notation.Quoteless (n : Notation L C) : Prop := n.Strings fun s => '\'' ∉ s.toList

/-- No indentation has a style of its own. -/
def Notation.PlainIndents : Notation L C → Prop
  | .flat a => a.PlainIndents
  | .indent _ l a => l = none ∧ a.PlainIndents
  | .concat a b => a.PlainIndents ∧ b.PlainIndents
  | .choice a b => a.PlainIndents ∧ b.PlainIndents
  | .check _ _ a b => a.PlainIndents ∧ b.PlainIndents
  | .style _ a => a.PlainIndents
  | .count z o m => z.PlainIndents ∧ o.PlainIndents ∧ m.PlainIndents
  | .fold f j => f.PlainIndents ∧ j.PlainIndents
  | _ => True

/-- What the `Debug` instances of style labels and conditions have to be like for displayed notations to be
    readable: different labels can be told apart in front of a comma, and different conditions have different
    names, without spaces, quotes, parentheses and `@`. -/
structure Readable (showL : L → String) (showC : C → String) : Prop where
  label : ∀ l l' r r', showL l ++ ", " ++ r = showL l' ++ ", " ++ r' → l = l' ∧ r = r'
  cond : ∀ c c', showC c = showC c' → c = c'
  name : ∀ c, ∀ x ∈ (showC c).toList, x ≠ ' ' ∧ x ≠ '\'' ∧ x ≠ '(' ∧ x ≠ '@'

end PPP
