import Verif.Spec.NTree
import Verif.Model.Printer
/-
Specification, part 2: the greedy layout of a notation tree, its lines, and positions in it.

Everything here is by structural recursion on trees; there are no blocks, stacks or focus.
-/
namespace PPP
variable (P : PrettyDoc)

/-- Where we are on the current line: the column, and whether an `EndOfLine` was just displayed. -/
structure LineSt where
  col : Nat
  eol : Bool
  deriving Repr, DecidableEq

/-- A layout: a notation tree in which every choice has been resolved. -/
inductive LTree where
  | empty
  | eol
  | newline (indent : List (Segment P))
  | text (t : Textual P)
  | concat (a b : LTree)
  /-- The `i`'th child of the node `parent`, whose id is `id`, is displayed here. -/
  | child (parent : P.Id) (i : Nat) (id : P.Id) (t : LTree)
  /-- A focus mark of the node `id`. -/
  | mark (id : P.Id)

/-- What a layout displays, as a sequence from left to right and top to bottom. -/
inductive Tok where
  | text (t : Textual P)
  /-- A line break, and the indentation at the start of the new line. -/
  | nl (indent : List (Segment P))
  | eol
  | mark (id : P.Id)

variable {P}

/-! ### Does the rest of the line fit? -/

/-- Outcome of trying to fit a tree on the line: decided, or the remaining columns and whether an
    `EndOfLine` has been seen. -/
inductive FitSt where
  | done (fits : Bool)
  | more (remaining : Nat) (eol : Bool)
  deriving Repr, DecidableEq

/-- Try to fit the first line of a tree in `rem` columns; later choices take their second option. -/
def NTree.fit : NTree P → (rem : Nat) → (eol : Bool) → Res P.Err FitSt
  | .fail f, _, _ => .error f
  | .empty, rem, e => .ok (.more rem e)
  | .mark, rem, e => .ok (.more rem e)
  | .eol, rem, _ => .ok (.more rem true)
  | .newline _, _, _ => .ok (.done true)
  | .text t, rem, e =>
    if e then .ok (.done false)
    else if t.width ≤ rem then .ok (.more (rem - t.width) e)
    else .ok (.done false)
  | .child _ _ t, rem, e => t.fit rem e
  | .choice _ b, rem, e => b.fit rem e
  | .concat a b, rem, e => do
    b.check
    a.check
    match ← a.fit rem e with
    | .done r => .ok (.done r)
    | .more rem e => b.fit rem e

/-- Does the first line of a sequence of trees fit in `rem` columns (up to the first newline, or up
    to the end of the document)? -/
def fitK : List (NTree P) → (rem : Nat) → (eol : Bool) → Res P.Err Bool
  | [], _, _ => .ok true
  | t :: k, rem, eol => do
    match ← t.fit rem eol with
    | .done r => .ok r
    | .more rem eol => fitK k rem eol

/-- Does the first line of `k` fit on the current line, at width `w`? -/
def fitsLine (w : Nat) (st : LineSt) (k : List (NTree P)) : Res P.Err Bool :=
  if st.col ≤ w then fitK k (w - st.col) st.eol else .ok false

/-! ### The greedy layout -/

/-- Lay out a tree belonging to the node `id`, starting in `st`, when it is followed by the trees
    `k`.  A choice takes its first option if that option together with what follows fits on the
    line. -/
def NTree.layout (w : Nat) (id : P.Id) :
    NTree P → (k : List (NTree P)) → LineSt → Res P.Err (LineSt × LTree P)
  | .fail f, _, _ => .error f
  | .empty, _, st => .ok (st, .empty)
  | .mark, _, st => .ok (st, .mark id)
  | .eol, _, st => .ok ({ st with eol := true }, .eol)
  | .newline ind, _, _ =>
    if segsWidth ind ≤ maxWidth then .ok (⟨segsWidth ind, false⟩, .newline ind)
    else .error .overflow
  | .text t, _, st =>
    if st.eol then .error (.err .textAfterEndOfLine)
    else if st.col + t.width ≤ maxWidth then .ok (⟨st.col + t.width, false⟩, .text t)
    else .error .overflow
  | .child i cid t, k, st => do
    let cid ← cid
    let (st, r) ← t.layout w cid k st
    .ok (st, .child id i cid r)
  | .concat a b, k, st => do
    let (st, ra) ← a.layout w id (b :: k) st
    let (st, rb) ← b.layout w id k st
    .ok (st, .concat ra rb)
  | .choice a b, k, st => do
    a.check
    if ← fitsLine w st (a :: k) then a.layout w id k st
    else b.layout w id k st

/-- The layout of a whole document: it starts at the left of an empty line, and nothing follows. -/
def NTree.layoutDoc (w : Nat) (id : P.Id) (t : NTree P) : Res P.Err (LTree P) := do
  let (_, r) ← t.layout w id [] ⟨0, false⟩
  .ok r

/-! ### Reading a layout -/

/-- The tokens of a layout, in reading order. -/
def LTree.toks : LTree P → List (Tok P)
  | .empty => []
  | .eol => [.eol]
  | .newline ind => [.nl ind]
  | .text t => [.text t]
  | .concat a b => a.toks ++ b.toks
  | .child _ _ _ t => t.toks
  | .mark id => [.mark id]

/-- The segment that a piece of text is displayed as. -/
def Textual.segment (t : Textual P) : Segment P := ⟨t.str, t.width, t.style⟩

/-- Cut a token sequence into lines; `cur` is what is already on the first line. -/
def linesFrom (cur : List (Segment P)) : List (Tok P) → List (List (Segment P))
  | [] => [cur]
  | .text t :: ts => linesFrom (cur ++ [t.segment]) ts
  | .nl ind :: ts => cur :: linesFrom ind ts
  | .eol :: ts => linesFrom cur ts
  | .mark _ :: ts => linesFrom cur ts

/-- The lines of a token sequence. -/
def linesOf (ts : List (Tok P)) : List (List (Segment P)) := linesFrom [] ts

/-- The text of a sequence of lines: their strings joined by newline characters. -/
def linesString (ls : List (List (Segment P))) : String :=
  "\n".intercalate (ls.map segsString)

/-- The characters of a line, each with its style. -/
def styledChars (segs : List (Segment P)) : List (Char × P.Style) :=
  segs.flatMap fun s => s.str.toList.map fun c => (c, s.style)

/-! ### Positions in a layout -/

/-- A node found in a layout: what is displayed before it, its id and layout, and what is displayed
    after it. -/
structure Located (P : PrettyDoc) where
  before : List (Tok P)
  id : P.Id
  node : LTree P
  after : List (Tok P)

/-- The first occurrence of child `i` displayed by this node itself (not inside of a child). -/
def LTree.findChild (i : Nat) : LTree P → Option (Located P)
  | .child _ j id t => if j = i then some ⟨[], id, t, []⟩ else none
  | .concat a b =>
    match a.findChild i with
    | some l => some { l with after := l.after ++ b.toks }
    | none =>
      match b.findChild i with
      | some l => some { l with before := a.toks ++ l.before }
      | none => none
  | _ => none

/-- The result of following a path: the node, or the first path element that is not displayed. -/
def LTree.locate (id : P.Id) (t : LTree P) : List Nat → Except Nat (Located P)
  | [] => .ok ⟨[], id, t, []⟩
  | i :: path =>
    match t.findChild i with
    | none => .error i
    | some l =>
      match l.node.locate l.id path with
      | .error j => .error j
      | .ok l' =>
        .ok { l' with before := l.before ++ l'.before, after := l'.after ++ l.after }

/-- The token is a text of the document (a `Text`, not a `Literal`). -/
def Tok.isDocText : Tok P → Bool
  | .text t => t.isFromText
  | _ => false

/-- The token is a focus mark of the node `id`. -/
def Tok.isMark (id : P.Id) : Tok P → Bool
  | .mark i => i = id
  | _ => false

/-- Split a token sequence at the first token satisfying `p`: before it, the token, after it. -/
def splitAtTok (p : Tok P → Bool) : List (Tok P) → Option (List (Tok P) × Tok P × List (Tok P))
  | [] => none
  | t :: ts =>
    if p t then some ([], t, ts)
    else (splitAtTok p ts).map fun (b, x, a) => (t :: b, x, a)

/-- Where a focus target is, relative to a node with id `id` that displays `node` and is followed by
    `after`: what is displayed between the node's start and the focus, and what is displayed from
    the focus on.  A text containing the focus is cut in two. -/
def focusToks (target : FocusTarget) (id : P.Id) (node after : List (Tok P)) :
    Except (PrintingError P.Err) (List (Tok P) × List (Tok P)) :=
  match target with
  | .start => .ok ([], node ++ after)
  | .end => .ok (node, after)
  | .mark =>
    match splitAtTok (Tok.isMark id) (node ++ after) with
    | some (b, _, a) => .ok (b, a)
    | none => .error .missingFocusMark
  | .text pos =>
    match splitAtTok Tok.isDocText (node ++ after) with
    | some (b, .text t, a) => .ok (b ++ [.text (t.splitAt pos).1], .text (t.splitAt pos).2 :: a)
    | _ => .error .missingText

/-- The first focus mark displayed by this node itself (not inside of a child): what is displayed
    before and after it within the node. -/
def LTree.ownMark : LTree P → Option (List (Tok P) × List (Tok P))
  | .mark _ => some ([], [])
  | .concat a b =>
    match a.ownMark with
    | some (p, s) => some (p, s ++ b.toks)
    | none =>
      match b.ownMark with
      | some (p, s) => some (a.toks ++ p, s)
      | none => none
  | _ => none

end PPP
