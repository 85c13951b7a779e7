import Verif.Model.Tree
/-
The sample style — /repo/src/doc_examples/style.rs.
-/
namespace PPP

/-- `Color` — /repo/src/doc_examples/style.rs:11-22; the default is white. -/
inductive Color where
  | white | black | red | green | yellow | blue | magenta | cyan
  deriving Repr, DecidableEq, Inhabited

/-- `BasicStyle` — /repo/src/doc_examples/style.rs:3-8. -/
structure BasicStyle where
  color : Color
  bold : Bool
  deriving Repr, DecidableEq

/-- `#[derive(Default)]` for `BasicStyle`, and `BasicStyle::new` —
    /repo/src/doc_examples/style.rs:4, 24-28: white, not bold. -/
def BasicStyle.new : BasicStyle := ⟨.white, false⟩

instance : Inhabited BasicStyle := ⟨BasicStyle.new⟩

/-- `BasicStyle::color` — /repo/src/doc_examples/style.rs:31-36. -/
def BasicStyle.setColor (s : BasicStyle) (c : Color) : BasicStyle := ⟨c, s.bold⟩

/-- `BasicStyle::bold` — /repo/src/doc_examples/style.rs:39-44. -/
def BasicStyle.setBold (s : BasicStyle) : BasicStyle := ⟨s.color, true⟩

/-- `Style::combine` for `BasicStyle` — /repo/src/doc_examples/style.rs:47-56. -/
def BasicStyle.combine (outer inner : BasicStyle) : BasicStyle :=
  ⟨inner.color, outer.bold || inner.bold⟩

/-- `From<&'static str>` for `BasicStyle` — /repo/src/doc_examples/style.rs:58-84. -/
def BasicStyle.fromLabel (label : String) : BasicStyle :=
  if label = "white" then BasicStyle.new.setColor .white
  else if label = "bold_white" then (BasicStyle.new.setColor .white).setBold
  else if label = "black" then BasicStyle.new.setColor .black
  else if label = "bold_black" then (BasicStyle.new.setColor .black).setBold
  else if label = "red" then BasicStyle.new.setColor .red
  else if label = "bold_red" then (BasicStyle.new.setColor .red).setBold
  else if label = "green" then BasicStyle.new.setColor .green
  else if label = "bold_green" then (BasicStyle.new.setColor .green).setBold
  else if label = "yellow" then BasicStyle.new.setColor .yellow
  else if label = "bold_yellow" then (BasicStyle.new.setColor .yellow).setBold
  else if label = "blue" then BasicStyle.new.setColor .blue
  else if label = "bold_blue" then (BasicStyle.new.setColor .blue).setBold
  else if label = "magenta" then BasicStyle.new.setColor .magenta
  else if label = "bold_magenta" then (BasicStyle.new.setColor .magenta).setBold
  else if label = "cyan" then BasicStyle.new.setColor .cyan
  else if label = "bold_cyan" then (BasicStyle.new.setColor .cyan).setBold
  else BasicStyle.new

/-- `&Tree<BasicStyle>` as a document; the width function is still a parameter. -/
abbrev basicDoc (strWidth : String → Nat) : PrettyDoc :=
  treeDoc BasicStyle BasicStyle.combine BasicStyle.fromLabel strWidth

end PPP
