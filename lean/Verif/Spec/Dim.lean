import Verif.Spec.Morph
/-
Specification: a document some of whose nodes are dark.
-/
namespace PPP

/-- The same document, but the notation of a node is replaced by one that cannot be evaluated, unless the node is
    `isOpen`.  All methods of a dark node can still be called: a dark node can be displayed by its parent, but not
    be looked into.  A node is made dark by a label that has no style, and looking up the style of that label returns
    the error `none`. -/
@[reducible] def PrettyDoc.dimmed (P : PrettyDoc) (isOpen : P.Node → Bool) : PrettyDoc where
  Node := P.Node
  Id := P.Id
  Style := P.Style
  Label := P.Label ⊕ P.Node
  Cond := P.Cond
  Err := Option P.Err
  decId := P.decId
  combine := P.combine
  strWidth := P.strWidth
  id n := (P.id n).rename some fun a => a
  notn n := (P.notn n).rename some fun a => if isOpen n then a.rename .inl (fun c => c) else .style (.inr n) .empty
  condition n c := (P.condition n c).rename some fun a => a
  lookupStyle n
    | .inl l => (P.lookupStyle n l).rename some fun a => a
    | .inr _ => .error (.err none)
  nodeStyle n := (P.nodeStyle n).rename some fun a => a
  numChildren n := (P.numChildren n).rename some fun a => a
  unwrapText n := (P.unwrapText n).rename some fun a => a
  unwrapChild n i := (P.unwrapChild n i).rename some fun a => a
  unwrapLastChild n := (P.unwrapLastChild n).rename some fun a => a
  unwrapPrevSibling n p i := (P.unwrapPrevSibling n p i).rename some fun a => a

/-- The failure is that a dark node has been looked into. -/
def Fail.IsDark {E : Type} (f : Fail (Option E)) : Prop := f = .err (.prettyDoc none)

end PPP
