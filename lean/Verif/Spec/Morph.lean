import Verif.Model.Printer
/-
Specification: documents that are the same up to renaming nodes, ids, styles, labels, conditions and
errors.
-/
namespace PPP

/-- Rename the labels and conditions of a notation. -/
def Notation.rename {L L' C C' : Type} (l : L → L') (c : C → C') : Notation L C → Notation L' C'
  | .empty => .empty
  | .newline => .newline
  | .endOfLine => .endOfLine
  | .literal s => .literal s
  | .text => .text
  | .flat n => .flat (n.rename l c)
  | .indent s lbl n => .indent s (lbl.map l) (n.rename l c)
  | .concat a b => .concat (a.rename l c) (b.rename l c)
  | .choice a b => .choice (a.rename l c) (b.rename l c)
  | .check d pos a b => .check (c d) pos (a.rename l c) (b.rename l c)
  | .child i => .child i
  | .style s n => .style (l s) (n.rename l c)
  | .focusMark => .focusMark
  | .count zero one many => .count (zero.rename l c) (one.rename l c) (many.rename l c)
  | .fold first join => .fold (first.rename l c) (join.rename l c)
  | .left => .left
  | .right => .right

/-- Rename the error of the document in an error. -/
def PrintingError.rename {E E' : Type} (f : E → E') : PrintingError E → PrintingError E'
  | .invalidPath i => .invalidPath i
  | .textNotationOnTextlessDoc => .textNotationOnTextlessDoc
  | .childIndexOutOfBounds i n => .childIndexOutOfBounds i n
  | .childNotationOnChildlessDoc => .childNotationOnChildlessDoc
  | .checkPosChildIndexOutOfBounds i n => .checkPosChildIndexOutOfBounds i n
  | .checkPosChildOnChildlessDoc => .checkPosChildOnChildlessDoc
  | .countNotationOnChildlessDoc => .countNotationOnChildlessDoc
  | .numChildrenChanged => .numChildrenChanged
  | .textAfterEndOfLine => .textAfterEndOfLine
  | .missingFocusMark => .missingFocusMark
  | .missingText => .missingText
  | .prettyDoc e => .prettyDoc (f e)

@[inherit_doc PrintingError.rename]
def Fail.rename {E E' : Type} (f : E → E') : Fail E → Fail E'
  | .err e => .err (e.rename f)
  | .panic => .panic
  | .overflow => .overflow

/-- Rename the results of a method. -/
def Call.rename {E E' α β : Type} (f : E → E') (g : α → β) : Call E α → Call E' β
  | .ok a => .ok (g a)
  | .error (.err e) => .error (.err (f e))
  | .error .panic => .error .panic

/-- A renaming of everything in a document. -/
structure Renaming (P Q : PrettyDoc) where
  node : P.Node → Q.Node
  id : P.Id → Q.Id
  style : P.Style → Q.Style
  label : P.Label → Q.Label
  cond : P.Cond → Q.Cond
  err : P.Err → Q.Err

/-- The documents of `Q` are those of `P`, renamed: the methods of a renamed node return the renamed
    results.  They need not be renamed one-to-one: all styles may be given the same name, for example. -/
structure Renaming.Respects {P Q : PrettyDoc} (m : Renaming P Q) : Prop where
  combine : ∀ s t, Q.combine (m.style s) (m.style t) = m.style (P.combine s t)
  strWidth : ∀ s, Q.strWidth s = P.strWidth s
  id : ∀ n, Q.id (m.node n) = (P.id n).rename m.err m.id
  notn : ∀ n, Q.notn (m.node n) = (P.notn n).rename m.err (Notation.rename m.label m.cond)
  condition : ∀ n c, Q.condition (m.node n) (m.cond c) = (P.condition n c).rename m.err fun b => b
  lookupStyle : ∀ n l, Q.lookupStyle (m.node n) (m.label l) = (P.lookupStyle n l).rename m.err m.style
  nodeStyle : ∀ n, Q.nodeStyle (m.node n) = (P.nodeStyle n).rename m.err m.style
  numChildren : ∀ n, Q.numChildren (m.node n) = (P.numChildren n).rename m.err fun b => b
  unwrapText : ∀ n, Q.unwrapText (m.node n) = (P.unwrapText n).rename m.err fun b => b
  unwrapChild : ∀ n i, Q.unwrapChild (m.node n) i = (P.unwrapChild n i).rename m.err m.node
  unwrapLastChild : ∀ n, Q.unwrapLastChild (m.node n) = (P.unwrapLastChild n).rename m.err m.node
  unwrapPrevSibling : ∀ n p i,
    Q.unwrapPrevSibling (m.node n) (m.node p) i = (P.unwrapPrevSibling n p i).rename m.err m.node

/-- And different ids get different names. -/
structure Renaming.Respected {P Q : PrettyDoc} (m : Renaming P Q) : Prop extends m.Respects where
  id_injective : ∀ i j, m.id i = m.id j → i = j

/-- Rename the style of a segment. -/
def Segment.rename {P Q : PrettyDoc} (m : Renaming P Q) (s : Segment P) : Segment Q :=
  ⟨s.str, s.width, m.style s.style⟩

@[inherit_doc Segment.rename]
def Line.rename {P Q : PrettyDoc} (m : Renaming P Q) (l : Line P) : Line Q :=
  ⟨l.segments.map (Segment.rename m)⟩

@[inherit_doc Segment.rename]
def FocusedLine.rename {P Q : PrettyDoc} (m : Renaming P Q) (l : FocusedLine P) : FocusedLine Q :=
  ⟨l.leftSegments.map (Segment.rename m), l.rightSegments.map (Segment.rename m)⟩

/-- Rename the failure or the result of a call. -/
def Res.rename {P Q : PrettyDoc} {α β : Type} (m : Renaming P Q) (g : α → β) : Res P.Err α → Res Q.Err β
  | .ok a => .ok (g a)
  | .error f => .error (f.rename m.err)

/-- Rename the lines above the focus, the focused line, and the lines below. -/
def renameLines {P Q : PrettyDoc} (m : Renaming P Q)
    (r : List (Option (Line P)) × FocusedLine P × List (Option (Line P))) :
    List (Option (Line Q)) × FocusedLine Q × List (Option (Line Q)) :=
  (r.1.map (Option.map (Line.rename m)), r.2.1.rename m, r.2.2.map (Option.map (Line.rename m)))

/-! ### Other styles -/

/-- Other styles for the nodes of `P`. -/
structure Styling (P : PrettyDoc) where
  Style : Type
  combine : Style → Style → Style
  lookupStyle : P.Node → P.Label → Call P.Err Style
  nodeStyle : P.Node → Call P.Err Style

/-- The same documents, with other styles. -/
@[reducible] def PrettyDoc.restyled (P : PrettyDoc) (S : Styling P) : PrettyDoc where
  Node := P.Node
  Id := P.Id
  Style := S.Style
  Label := P.Label
  Cond := P.Cond
  Err := P.Err
  decId := P.decId
  combine := S.combine
  strWidth := P.strWidth
  id := P.id
  notn := P.notn
  condition := P.condition
  lookupStyle := S.lookupStyle
  nodeStyle := S.nodeStyle
  numChildren := P.numChildren
  unwrapText := P.unwrapText
  unwrapChild := P.unwrapChild
  unwrapLastChild := P.unwrapLastChild
  unwrapPrevSibling := P.unwrapPrevSibling

/-- How a method fails, if it does. -/
def Call.failure {E α : Type} : Call E α → Option (DocFail E)
  | .ok _ => none
  | .error e => some e

/-- Looking up styles succeeds for the same nodes and labels, and fails in the same way for the
    others. -/
def Styling.FailsAlike {P : PrettyDoc} (S : Styling P) : Prop :=
  (∀ n, (S.nodeStyle n).failure = (P.nodeStyle n).failure) ∧
  ∀ n l, (S.lookupStyle n l).failure = (P.lookupStyle n l).failure

/-- What lines show apart from styles: the strings of their segments, and how wide they are. -/
def plainLines {P : PrettyDoc} (r : List (Option (Line P)) × FocusedLine P × List (Option (Line P))) :=
  let plain := fun s : Segment P => (s.str, s.width)
  (r.1.map (Option.map fun l => l.segments.map plain),
   r.2.1.leftSegments.map plain, r.2.1.rightSegments.map plain,
   r.2.2.map (Option.map fun l => l.segments.map plain))

end PPP
