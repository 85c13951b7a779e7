/-
Specification: filling lines with words, first come, first served.
-/
namespace PPP

/-- A word (with the punctuation that sticks to it), and the columns it takes. -/
structure Word where
  str : String
  width : Nat
  deriving DecidableEq

/-- Put words on lines of at most `w` columns: a word goes on the current line if it fits there, after a space of
    `space` columns, and starts a new line otherwise.  `col` is the number of columns of the current
    line `line`, and new lines start with `start` columns. -/
def fillFrom (w start space : Nat) : (col : Nat) → (line : List Word) → List Word → List (List Word)
  | _, line, [] => [line]
  | col, line, x :: xs =>
    if col + space + x.width ≤ w then fillFrom w start space (col + space + x.width) (line ++ [x]) xs
    else line :: fillFrom w start space (start + x.width) [x] xs

/-- Fill lines with words.  The first line starts with `first` columns, the others with `start` columns. -/
def fill (w first start space : Nat) : List Word → List (List Word)
  | [] => []
  | x :: xs => fillFrom w start space (first + x.width) [x] xs

/-- The columns of a line of words that starts with `start` columns. -/
def wordCols (start space : Nat) (line : List Word) : Nat :=
  start + (line.map Word.width).sum + space * (line.length - 1)

/-- Lines are full: each of them fits in the width or has just one word, and the first word of the next line would not
    have fit on it. -/
def Full (w first start space : Nat) : List (List Word) → Prop
  | [] => True
  | [l] => wordCols first space l ≤ w ∨ l.length = 1
  | l :: l' :: ls => (wordCols first space l ≤ w ∨ l.length = 1) ∧ (∀ x ∈ l'.head?, ¬ wordCols first space (l ++ [x]) ≤ w) ∧
      Full w start start space (l' :: ls)

/-- The columns of each line. -/
def linesCols (first start space : Nat) : List (List Word) → List Nat
  | [] => []
  | l :: ls => wordCols first space l :: ls.map (wordCols start space)

/-- The text of some lines of words.  The first line starts with `first`, the others with `start`. -/
def wordLines (first start : String) : List (List Word) → List String
  | [] => []
  | l :: ls => (first ++ " ".intercalate (l.map Word.str)) :: ls.map fun l => start ++ " ".intercalate (l.map Word.str)

/-- All the words of the paragraph are followed by a comma, except for the last one, which is followed by `last`. -/
def paragraphWords (sw : String → Nat) (last : String) : List String → List Word
  | [] => []
  | [x] => [⟨x ++ last, sw x + sw last⟩]
  | x :: xs => ⟨x ++ ",", sw x + sw ","⟩ :: paragraphWords sw last xs

/-- Words with gaps before them, and a gap at the end. -/
def spaced : List (List Char × List Char) → List Char → List Char
  | [], tail => tail
  | (gap, word) :: ps, tail => gap ++ word ++ spaced ps tail

end PPP
