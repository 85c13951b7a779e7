import Verif.Model.Pane
/-
Measuring strings — /repo/src/geometry.rs.

The crate `unicode-width` says how many columns a character takes (`UnicodeWidthChar::width`: 0, 1 or 2, or `None` for
control characters); what it says is the parameter `cw`.  The width of a string (`UnicodeWidthStr::width`) is the sum
of the widths of its characters, where `None` counts as 0: this is so in the versions up to 0.1.12 that
/repo/Cargo.toml allows (later ones treat some emoji sequences specially).
-/
namespace PPP

/-- `unicode_width::UnicodeWidthStr::width(s)`. -/
def strCols (cw : Char → Option Nat) (s : String) : Nat := (s.toList.map fun ch => (cw ch).getD 0).sum

/-- `str_width` — /repo/src/geometry.rs:90-92: the width as a `u16`; `as Width` truncates it. -/
def strWidthOf (cw : Char → Option Nat) (s : String) : Nat := strCols cw s % (maxWidth + 1)

/-- `is_char_full_width` — /repo/src/geometry.rs:95-97. -/
def isCharFullWidth (cw : Char → Option Nat) (ch : Char) : Bool := cw ch == some 2

end PPP
