import Mathlib.Data.List.Forall2
import Verif.Spec.Output
/-
Specification: documents that put other documents below each other, and indent them.
-/
namespace PPP
variable {P : PrettyDoc}

/-- All the lines of a document, top to bottom, printed in a surrounding style. -/
def printLines (doc : P.Node) (w : Nat) (style : Option P.Style) : Exec P.Err (List (List (Segment P))) := do
  let o ← printAll doc w [] .start style
  pure o.lines

/-- A way to put rows below each other.  (`L` is the type of style labels, `C` that of conditions.) -/
inductive Rows (L C : Type) where
  /-- A line with this text. -/
  | line (s : String)
  /-- A line with nothing on it. -/
  | blank
  /-- A line with nothing on it, where the focus mark is. -/
  | mark
  /-- A line with the text of the (text) node. -/
  | text
  /-- The lines of a child. -/
  | child (i : Int)
  /-- The lines of all the children, in order. -/
  | children
  /-- `x` above `y`. -/
  | above (x y : Rows L C)
  /-- `x`, and below it `y` with every line indented by `pre`. -/
  | hang (x : Rows L C) (pre : String) (y : Rows L C)
  /-- `x`, in the style called `label`. -/
  | styled (label : L) (x : Rows L C)
  /-- `x` if the node satisfies the condition, otherwise `y`. -/
  | check (cond : C) (x y : Rows L C)
  /-- Depending on the number of children: none, one, or several. -/
  | count (zero one many : Rows L C)

/-- The notation for it: `lit(s)`, `child(i)`, `fold { first: child(0), join: left ^ right }`, `x ^ y`, `x + indent(pre, nl + y)`, which is
    `x + (n >> y)` if `pre` is `n` spaces, `style(label, x)`, `check(cond, x, y)` and
    `count { zero: x, one: y, many: z }`. -/
def Rows.notn {L C : Type} : Rows L C → Notation L C
  | .line s => .literal s
  | .blank => .empty
  | .mark => .focusMark
  | .text => .text
  | .child i => .child i
  | .children => .fold (.child 0) ((.left : Notation L C) ^^^ (.right : Notation L C))
  | .above x y => (x.notn : Notation L C) ^^^ (y.notn : Notation L C)
  | .hang x pre y => x.notn + .indent pre none (.newline + y.notn)
  | .styled label x => .style label x.notn
  | .check cond x y => .check cond .here x.notn y.notn
  | .count x y z => .count x.notn y.notn z.notn

/-- These are the children of `doc`. -/
def PrettyDoc.HasChildren (P : PrettyDoc) (doc : P.Node) (cs : List P.Node) : Prop :=
  P.numChildren doc = .ok (some cs.length) ∧ ∀ i c, cs[i]? = some c → P.unwrapChild doc i = .ok c

/-- `r.Lines doc w s I ls`: the rows `r` of the document `doc`, in style `s`, are these lines, if every
    line is to begin with `I` and is to be `w` columns wide.  A child is printed on its own, at the
    width that `I` leaves, and then `I` is put in front of each of its lines. -/
inductive Rows.Lines (doc : P.Node) (w : Nat) :
    Rows P.Label P.Cond → P.Style → List (Segment P) → List (List (Segment P)) → Prop where
  | line {str s I} : Rows.Lines doc w (.line str) s I [I ++ [⟨str, P.strWidth str, s⟩]]
  | blank {s I} : Rows.Lines doc w .blank s I [I]
  | mark {s I} : Rows.Lines doc w .mark s I [I]
  | text {str s I} : P.numChildren doc = .ok none → P.unwrapText doc = .ok str →
      Rows.Lines doc w .text s I [I ++ [⟨str, P.strWidth str, s⟩]]
  | child {i n j c s I ls} : P.numChildren doc = .ok (some n) → childIndex i n = some j →
      P.unwrapChild doc j = .ok c → printLines c (w - segsWidth I) (some s) = Exec.ofRes (.ok ls) →
      Rows.Lines doc w (.child i) s I (ls.map (I ++ ·))
  /-- No children: a line with nothing on it. -/
  | childless {s I} : P.HasChildren doc [] → Rows.Lines doc w .children s I [I]
  | children {cs s I lss} : P.HasChildren doc cs → cs ≠ [] →
      List.Forall₂ (fun c ls => printLines c (w - segsWidth I) (some s) = Exec.ofRes (.ok ls)) cs lss →
      Rows.Lines doc w .children s I (lss.flatten.map (I ++ ·))
  | above {x y s I ls ls'} : Rows.Lines doc w x s I ls → Rows.Lines doc w y s I ls' →
      Rows.Lines doc w (.above x y) s I (ls ++ ls')
  | hang {x pre y s I ls ls'} : Rows.Lines doc w x s I ls →
      Rows.Lines doc w y s (I ++ [⟨pre, P.strWidth pre, s⟩]) ls' →
      Rows.Lines doc w (.hang x pre y) s I (ls ++ ls')
  | styled {label s' x s I ls} : P.lookupStyle doc label = .ok s' →
      Rows.Lines doc w x (P.combine s s') I ls → Rows.Lines doc w (.styled label x) s I ls
  | check {cond b x y s I ls} : P.condition doc cond = .ok b →
      Rows.Lines doc w (if b then x else y) s I ls → Rows.Lines doc w (.check cond x y) s I ls
  | count {n x y z s I ls} : P.numChildren doc = .ok (some n) →
      Rows.Lines doc w (if n = 0 then x else if n = 1 then y else z) s I ls →
      Rows.Lines doc w (.count x y z) s I ls

/-- The indentations leave room on the line (`width` is the width function, `w` what there is). -/
def Rows.Narrow {L C : Type} (width : String → Nat) : Rows L C → Nat → Prop
  | .line _, _ => True
  | .blank, _ => True
  | .mark, _ => True
  | .text, _ => True
  | .child _, _ => True
  | .children, _ => True
  | .above x y, w => x.Narrow width w ∧ y.Narrow width w
  | .hang x pre y, w => x.Narrow width w ∧ width pre ≤ w ∧ y.Narrow width (w - width pre)
  | .styled _ x, w => x.Narrow width w
  | .check _ x y, w => x.Narrow width w ∧ y.Narrow width w
  | .count x y z, w => x.Narrow width w ∧ y.Narrow width w ∧ z.Narrow width w

end PPP
