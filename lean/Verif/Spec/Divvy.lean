import Verif.Model.Divvy
/-
Specification, part 10: how space is divided between panes.

`sizes` are the requests of the panes and `out` what they got.
-/
namespace PPP

/-- A `Fixed` pane. -/
def PaneSize.isFixed : PaneSize → Bool
  | .fixed _ => true
  | _ => false

/-- A `Dynamic` pane. -/
def PaneSize.isDynamic : PaneSize → Bool
  | .dynamic => true
  | _ => false

/-- A `Proportional` pane. -/
def PaneSize.isProportional : PaneSize → Bool
  | .proportional _ => true
  | _ => false

/-- What the panes of some kind got, in order. -/
def got (kind : PaneSize → Bool) (sizes : List PaneSize) (out : List Nat) : List Nat :=
  ((sizes.zip out).filter fun p => kind p.1).map (·.2)

/-- What the `Fixed` panes ask for, in order. -/
def requests (sizes : List PaneSize) : List Nat :=
  sizes.filterMap fun | .fixed n => some n | _ => none

/-- The weights of the `Proportional` panes, in order. -/
def weights (sizes : List PaneSize) : List Nat :=
  sizes.filterMap fun | .proportional w => some w | _ => none

/-- `Fair c hs out`: dividing `c` among weights `hs` with a positive sum gives `out`.  Everything is
    given out; everyone gets their real share `c * h / hs.sum` rounded down, or rounded up if it is not
    an integer; the shares rounded up are the ones with the largest remainders, and the leftmost ones in
    case of a tie. -/
structure Fair (c : Nat) (hs out : List Nat) : Prop where
  length : out.length = hs.length
  sum : out.sum = c
  neighbour : ∀ (i : Nat) h a, hs[i]? = some h → out[i]? = some a → a = c * h / hs.sum ∨
    a = c * h / hs.sum + 1 ∧ 0 < c * h % hs.sum
  largest : ∀ (i j : Nat) h h' a b, hs[i]? = some h → hs[j]? = some h' → out[i]? = some a → out[j]? = some b →
    a = c * h / hs.sum + 1 → b = c * h' / hs.sum →
    c * h' % hs.sum < c * h % hs.sum ∨ c * h' % hs.sum = c * h % hs.sum ∧ i < j

/-- First come, first served: with `avail` available, the requests `rs` get `F`. -/
def FirstCome (avail : Nat) (rs F : List Nat) : Prop :=
  F.length = rs.length ∧ ∀ (i : Nat) r a, rs[i]? = some r → F[i]? = some a →
    a = min r (avail - (F.take i).sum)

/-- `out` is how the available space is divided, given what the `Dynamic` panes get: the `Fixed` panes are
    served first, then the `Dynamic` ones, and the rest is divided among the `Proportional` ones. -/
structure Division (avail : Nat) (sizes : List PaneSize) (out : List Nat) : Prop where
  length : out.length = sizes.length
  fixed : FirstCome avail (requests sizes) (got (·.isFixed) sizes out)
  fair : weights sizes ≠ [] →
    Fair (avail - (requests sizes).sum - (got (·.isDynamic) sizes out).sum) (weights sizes)
      (got (·.isProportional) sizes out)

end PPP
