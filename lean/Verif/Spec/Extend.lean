import Verif.Model.Printer
/-
Specification: documents of which only a part is available.

The same document may be offered to the printer with some of its nodes missing: the methods of a
missing node return an error (say, because it has not been loaded yet).
-/
namespace PPP

/-- The methods of a `PrettyDoc` implementation. -/
structure Methods (Node Id Style Label Cond Err : Type) where
  id : Node → Call Err Id
  notn : Node → Call Err (Notation Label Cond)
  condition : Node → Cond → Call Err Bool
  lookupStyle : Node → Label → Call Err Style
  nodeStyle : Node → Call Err Style
  numChildren : Node → Call Err (Option Nat)
  unwrapText : Node → Call Err String
  unwrapChild : Node → Nat → Call Err Node
  unwrapLastChild : Node → Call Err Node
  unwrapPrevSibling : Node → Node → Nat → Call Err Node

/-- The methods of `P`. -/
def PrettyDoc.methods (P : PrettyDoc) : Methods P.Node P.Id P.Style P.Label P.Cond P.Err where
  id := P.id
  notn := P.notn
  condition := P.condition
  lookupStyle := P.lookupStyle
  nodeStyle := P.nodeStyle
  numChildren := P.numChildren
  unwrapText := P.unwrapText
  unwrapChild := P.unwrapChild
  unwrapLastChild := P.unwrapLastChild
  unwrapPrevSibling := P.unwrapPrevSibling

/-- Another implementation for the same nodes. -/
@[reducible] def PrettyDoc.withMethods (P : PrettyDoc) (M : Methods P.Node P.Id P.Style P.Label P.Cond P.Err) :
    PrettyDoc where
  Node := P.Node
  Id := P.Id
  Style := P.Style
  Label := P.Label
  Cond := P.Cond
  Err := P.Err
  decId := P.decId
  combine := P.combine
  strWidth := P.strWidth
  id := M.id
  notn := M.notn
  condition := M.condition
  lookupStyle := M.lookupStyle
  nodeStyle := M.nodeStyle
  numChildren := M.numChildren
  unwrapText := M.unwrapText
  unwrapChild := M.unwrapChild
  unwrapLastChild := M.unwrapLastChild
  unwrapPrevSibling := M.unwrapPrevSibling

/-- Whatever a method of `P` answers, `M` answers too.  (Where a method of `P` fails, `M` is free.) -/
structure Methods.Extends {P : PrettyDoc} (M : Methods P.Node P.Id P.Style P.Label P.Cond P.Err) : Prop where
  id : ∀ n a, P.id n = .ok a → M.id n = .ok a
  notn : ∀ n a, P.notn n = .ok a → M.notn n = .ok a
  condition : ∀ n c a, P.condition n c = .ok a → M.condition n c = .ok a
  lookupStyle : ∀ n l a, P.lookupStyle n l = .ok a → M.lookupStyle n l = .ok a
  nodeStyle : ∀ n a, P.nodeStyle n = .ok a → M.nodeStyle n = .ok a
  numChildren : ∀ n a, P.numChildren n = .ok a → M.numChildren n = .ok a
  unwrapText : ∀ n a, P.unwrapText n = .ok a → M.unwrapText n = .ok a
  unwrapChild : ∀ n i a, P.unwrapChild n i = .ok a → M.unwrapChild n i = .ok a
  unwrapLastChild : ∀ n a, P.unwrapLastChild n = .ok a → M.unwrapLastChild n = .ok a
  unwrapPrevSibling : ∀ n p i a, P.unwrapPrevSibling n p i = .ok a → M.unwrapPrevSibling n p i = .ok a

/-- `y` is the same answer as `x`, unless `x` is a panic or an error that is not `Kept`. -/
def Call.Keeps {E α : Type} (Kept : E → Prop) (x y : Call E α) : Prop :=
  (∀ a, x = .ok a → y = .ok a) ∧ ∀ e, Kept e → x = .error (.err e) → y = .error (.err e)

/-- Whatever a method of `P` answers, `M` answers too; and where a method of `P` returns an error that is `Kept`,
    so does `M`.  (Where a method of `P` panics or returns another error, `M` is free.) -/
structure Methods.ExtendsKeeping {P : PrettyDoc} (Kept : P.Err → Prop)
    (M : Methods P.Node P.Id P.Style P.Label P.Cond P.Err) : Prop where
  id : ∀ n, Call.Keeps Kept (P.id n) (M.id n)
  notn : ∀ n, Call.Keeps Kept (P.notn n) (M.notn n)
  condition : ∀ n c, Call.Keeps Kept (P.condition n c) (M.condition n c)
  lookupStyle : ∀ n l, Call.Keeps Kept (P.lookupStyle n l) (M.lookupStyle n l)
  nodeStyle : ∀ n, Call.Keeps Kept (P.nodeStyle n) (M.nodeStyle n)
  numChildren : ∀ n, Call.Keeps Kept (P.numChildren n) (M.numChildren n)
  unwrapText : ∀ n, Call.Keeps Kept (P.unwrapText n) (M.unwrapText n)
  unwrapChild : ∀ n i, Call.Keeps Kept (P.unwrapChild n i) (M.unwrapChild n i)
  unwrapLastChild : ∀ n, Call.Keeps Kept (P.unwrapLastChild n) (M.unwrapLastChild n)
  unwrapPrevSibling : ∀ n p i, Call.Keeps Kept (P.unwrapPrevSibling n p i) (M.unwrapPrevSibling n p i)

/-- The failure is neither a panic nor an error of the document, unless that error is `Kept`. -/
def Fail.KeptBy {E : Type} (Kept : E → Prop) (f : Fail E) : Prop :=
  f ≠ .panic ∧ ∀ e, f = .err (.prettyDoc e) → Kept e

/-- The failure is neither an error nor a panic of a method of the document. -/
def Fail.NotFromDoc {E : Type} (f : Fail E) : Prop := f ≠ .panic ∧ ∀ e, f ≠ .err (.prettyDoc e)

/-- A segment's text, width and style. -/
def Segment.view {P : PrettyDoc} (s : Segment P) : String × Nat × P.Style := (s.str, s.width, s.style)

/-- What a line shows. -/
def Line.view {P : PrettyDoc} (l : Line P) : List (String × Nat × P.Style) := l.segments.map Segment.view

/-- What a focused line shows, on the left and on the right of the focus. -/
def FocusedLine.view {P : PrettyDoc} (l : FocusedLine P) :
    List (String × Nat × P.Style) × List (String × Nat × P.Style) :=
  (l.leftSegments.map Segment.view, l.rightSegments.map Segment.view)

end PPP
