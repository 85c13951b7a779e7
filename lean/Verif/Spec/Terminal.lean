import Verif.Model.Demo
import Verif.Spec.JsonRead
import Verif.Spec.Layout
/-
Specification: what a terminal shows, and what JSON value a `serde_json::Value` is.
-/
namespace PPP

/-! ### A terminal -/

/-- Where a terminal is in its input: in ordinary text, after an `ESC`, or in an escape sequence, of
    which `args` has been read. -/
inductive TermState where
  | text
  | esc
  | csi (args : List Char)

/-- The colours of the standard palette. -/
def paletteColor (n : List Char) : Option Color :=
  if n = ['0'] then some .black
  else if n = ['1'] then some .red
  else if n = ['2'] then some .green
  else if n = ['3'] then some .yellow
  else if n = ['4'] then some .blue
  else if n = ['5'] then some .magenta
  else if n = ['6'] then some .cyan
  else if n = ['7'] then some .white
  else none

/-- The foreground colour after the escape sequence `ESC [ args m`, if it was `color` before; `none` is
    the default colour of the terminal. -/
def selectGraphic (args : List Char) (color : Option Color) : Option Color :=
  if args = ['3', '9'] then none
  else if args.take 5 = ['3', '8', ';', '5', ';'] then paletteColor (args.drop 5)
  else color

/-- A character that is shown, and its colour.  The end of a line is the character `'\n'`, without colour. -/
structure TermCell where
  char : Char
  color : Option Color
  deriving DecidableEq

/-- How a character is shown. -/
def TermCell.of (color : Option Color) (c : Char) : TermCell := if c = '\n' then ⟨c, none⟩ else ⟨c, color⟩

/-- What a terminal shows for some input, and the colour that it is left with. -/
def terminal (st : TermState) (color : Option Color) : List Char → List TermCell × Option Color
  | [] => ([], color)
  | c :: cs =>
    match st with
    | .text =>
      if c = '\x1b' then terminal .esc color cs
      else
        let (cells, color') := terminal .text color cs
        (.of color c :: cells, color')
    | .esc => if c = '[' then terminal (.csi []) color cs else terminal .text color cs
    | .csi args =>
      if c = 'm' then terminal .text (selectGraphic args color) cs
      else terminal (.csi (args ++ [c])) color cs

/-- What a terminal shows for an output. -/
def screen (out : String) : List TermCell := (terminal .text none out.toList).1

/-- The text on the screen. -/
def screenText (out : String) : String := String.ofList ((screen out).map (·.char))

/-- How printed lines are shown: every character in the colour of its style, and every line on a line of its
    own. -/
def onScreen {sw : String → Nat} (lines : List (List (Segment (basicDoc sw)))) : List TermCell :=
  lines.flatMap fun line =>
    ((styledChars line).map fun (c, style) => .of (some (BasicStyle.color style)) c) ++ [.of none '\n']

/-! ### JSON values -/

mutual
/-- The JSON value. -/
def Serde.val : Serde → JVal
  | .null => .null
  | .bool b => .bool b
  | .number text => .num text
  | .string s => .str s
  | .array vs => .arr (Serde.vals vs)
  | .object es => .obj (Serde.entries es)
@[inherit_doc Serde.val]
def Serde.vals : List Serde → List JVal
  | [] => []
  | v :: vs => v.val :: Serde.vals vs
@[inherit_doc Serde.val]
def Serde.entries : List (String × Serde) → List (String × JVal)
  | [] => []
  | (key, v) :: es => (key, v.val) :: Serde.entries es
end

/-! ### The colours of a JSON value -/

/-- A text in one colour. -/
def colored (color : Color) (s : String) : List TermCell := s.toList.map (.of (some color))

/-- Some texts, with white commas between them. -/
def withCommas : List (List TermCell) → List TermCell
  | [] => []
  | c :: cs => c ++ cs.flatMap (colored .white "," ++ ·)

mutual
/-- How a value is shown, apart from white space: strings are magenta, numbers are blue, everything else is
    white. -/
def Serde.cells : Serde → List TermCell
  | .null => colored .white "null"
  | .bool b => colored .white (if b then "true" else "false")
  | .number text => colored .blue text
  | .string s => colored .magenta ("\"" ++ s ++ "\"")
  | .array vs => colored .white "[" ++ withCommas (Serde.cellsList vs) ++ colored .white "]"
  | .object es => colored .white "{" ++ withCommas (Serde.cellsPairs es) ++ colored .white "}"
@[inherit_doc Serde.cells]
def Serde.cellsList : List Serde → List (List TermCell)
  | [] => []
  | v :: vs => v.cells :: Serde.cellsList vs
@[inherit_doc Serde.cells]
def Serde.cellsPairs : List (String × Serde) → List (List TermCell)
  | [] => []
  | (key, v) :: es =>
    (colored .magenta ("\"" ++ key ++ "\"") ++ colored .white ":" ++ v.cells) :: Serde.cellsPairs es
end

/-- The cell is white space: the end of a line, or a white blank (a blank inside of a string is not white). -/
def TermCell.isSpace (c : TermCell) : Bool := c.char = '\n' ∨ (c.char = ' ' ∧ c.color = some .white)

/-- What is not white space. -/
def ink (cells : List TermCell) : List TermCell := cells.filter fun c => !c.isSpace

/-- All strings and keys in the value satisfy `okString`, and all texts of numbers `okNumber`. -/
inductive Serde.Texts (okString okNumber : String → Prop) : Serde → Prop where
  | null : Texts okString okNumber .null
  | bool (b) : Texts okString okNumber (.bool b)
  | number {s} : okNumber s → Texts okString okNumber (.number s)
  | string {s} : okString s → Texts okString okNumber (.string s)
  | array {vs} : (∀ v ∈ vs, Texts okString okNumber v) → Texts okString okNumber (.array vs)
  | object {es} : (∀ e ∈ es, okString e.1) → (∀ e ∈ es, Texts okString okNumber e.2) →
      Texts okString okNumber (.object es)

/-- The text has no `ESC` in it. -/
def NoEsc (s : String) : Prop := '\x1b' ∉ s.toList

end PPP
