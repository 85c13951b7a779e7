import Verif.Spec.Extend
/-
Specification: a document some of whose nodes cannot be looked into.  It is used to say how much of a
document printing has to look at: whatever can be done with closed nodes does not depend on what is
inside of them.
-/
namespace PPP

/-- The same document, but only those nodes have a notation that are `isOpen`.  For the others, `notation()`
    returns the error `e`. -/
@[reducible] def PrettyDoc.closed (P : PrettyDoc) (isOpen : P.Node → Bool) (e : P.Err) : PrettyDoc :=
  P.withMethods { P.methods with notn := fun p => if isOpen p then P.notn p else .error (.err e) }

end PPP
