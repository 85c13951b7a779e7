import Verif.Spec.JsonFormat
import Verif.Spec.Greedy
/-
Specification: printing in one pass.  A function from trees to text, that visits the parts of the tree once, from left to right.
All it has to know about what comes later are three facts, and they are found in one pass from right to left.
-/
namespace PPP
variable {P : PrettyDoc}

/-- What has to be on the current line of what comes next, if the second option of every choice is taken. -/
structure Ahead where
  /-- the columns -/
  cols : Nat
  /-- Is there a text? -/
  text : Bool
  /-- Is there a text after an end-of-line mark? -/
  clash : Bool
  deriving DecidableEq

/-- Nothing has to be on the current line. -/
def Ahead.nothing : Ahead := ⟨0, false, false⟩

/-- What comes next at the start of a tree, if `after` comes after the tree. -/
def NTree.ahead : NTree P → (after : Ahead) → Ahead
  | .fail _, after => after
  | .empty, after => after
  | .mark, after => after
  | .eol, after => ⟨after.cols, after.text, after.clash || after.text⟩
  | .newline _, _ => .nothing
  | .text t, after => ⟨t.width + after.cols, true, after.clash⟩
  | .child _ _ t, after => t.ahead after
  | .concat a b, after => a.ahead (b.ahead after)
  | .choice _ b, after => b.ahead after

/-- What has been written so far. -/
structure Draft where
  /-- the finished lines -/
  done : List Word
  /-- the current line -/
  cur : Word
  /-- Is there an end-of-line mark on the current line? -/
  eol : Bool
  /-- Has a text been written after an end-of-line mark? -/
  bad : Bool
  deriving DecidableEq

/-- All lines. -/
def Draft.lines (d : Draft) : List Word := d.done ++ [d.cur]

/-- Nothing has been written. -/
def Draft.blank : Draft := ⟨[], .none, false, false⟩

/-- What comes next fits on the current line. -/
def Draft.fits (w : Nat) (d : Draft) (next : Ahead) : Bool :=
  d.cur.width + next.cols ≤ w && !next.clash && !(d.eol && next.text)

/-- Write a tree, before `after`. -/
def NTree.write (w : Nat) : NTree P → (after : Ahead) → Draft → Draft
  | .fail _, _, d => d
  | .empty, _, d => d
  | .mark, _, d => d
  | .eol, _, d => { d with eol := true }
  | .newline ind, _, d => ⟨d.done ++ [d.cur], ⟨segsString ind, segsWidth ind⟩, false, d.bad⟩
  | .text t, _, d => { d with cur := d.cur ++ ⟨t.str, t.width⟩, bad := d.bad || d.eol }
  | .child _ _ t, after, d => t.write w after d
  | .concat a b, after, d => b.write w after (a.write w (b.ahead after) d)
  | .choice a b, after, d => if d.fits w (a.ahead after) then a.write w after d else b.write w after d

/-- Write a whole document. -/
def NTree.page (w : Nat) (t : NTree P) : Draft := t.write w .nothing .blank

end PPP
