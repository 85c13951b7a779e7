import Verif.Spec.Layout
/-
Specification: the text of what a layout displays, without the notion of a line.
-/
namespace PPP
variable {P : PrettyDoc}

/-- The characters that a token displays.  A line break displays a newline character and the indentation. -/
def Tok.chars : Tok P → String
  | .text t => t.str
  | .nl ind => "\n" ++ segsString ind
  | .eol => ""
  | .mark _ => ""

/-- The characters that a sequence of tokens displays. -/
def toksString : List (Tok P) → String
  | [] => ""
  | t :: ts => t.chars ++ toksString ts

end PPP
