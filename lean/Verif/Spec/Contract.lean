import Verif.Spec.Extend
import Verif.Spec.Denote
/-
Specification: what the documentation of the `PrettyDoc` trait promises to implementations
(/repo/src/pretty_doc.rs:37-95), and implementations that only differ where the promise says that they
are not called.
-/
namespace PPP

/-- `M` implements the same document as `P`, as far as the contract of the `PrettyDoc` trait says that its methods are
    called: `condition` and `lookup_style` are called with conditions and labels that are in use, `unwrap_text`
    if there are no children, and the other methods within bounds. -/
structure Methods.AgreesWithinContract {P : PrettyDoc} (M : Methods P.Node P.Id P.Style P.Label P.Cond P.Err) :
    Prop where
  id : ∀ p, M.id p = P.id p
  notn : ∀ p, M.notn p = P.notn p
  nodeStyle : ∀ p, M.nodeStyle p = P.nodeStyle p
  numChildren : ∀ p, M.numChildren p = P.numChildren p
  condition : ∀ p c, P.ChecksCond p c → M.condition p c = P.condition p c
  lookupStyle : ∀ p l, P.UsesLabel p l → M.lookupStyle p l = P.lookupStyle p l
  unwrapText : ∀ p, P.numChildren p = .ok none → M.unwrapText p = P.unwrapText p
  unwrapChild : ∀ p n i, P.numChildren p = .ok (some n) → i < n → M.unwrapChild p i = P.unwrapChild p i
  unwrapLastChild : ∀ p n, P.numChildren p = .ok (some n) → 0 < n → M.unwrapLastChild p = P.unwrapLastChild p
  unwrapPrevSibling : ∀ c p n i, P.numChildren p = .ok (some n) → i + 1 < n → P.unwrapChild p (i + 1) = .ok c →
    M.unwrapPrevSibling c p i = P.unwrapPrevSibling c p i

end PPP
