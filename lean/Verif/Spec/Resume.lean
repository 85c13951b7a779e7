import Verif.Model.Resume
/-
Specification: what a client of the line iterators sees who goes on after an error.
-/
namespace PPP
variable {P : PrettyDoc}

/-- Calling `next` `n` times on one of the two iterators that `pretty_print` returned, whatever it
    returns. -/
def Printed.calls (r : Printed P) (dir : Dir) (n : Nat) :
    Exec P.Err (List (NextItem P) × List (Block P)) :=
  match dir with
  | .up => callsK .up r.up.width n r.up.prev
  | .down => callsK .down r.down.width n r.down.next

/-- The iterator gives these items, each of them a line or an error, and then `None` for ever. -/
def Printed.Gives (r : Printed P) (dir : Dir) (items : List (Except (PrintingError P.Err) (Line P))) :
    Prop :=
  ∀ k, ∃ s, r.calls dir (items.length + k) =
    Exec.ofRes (.ok (items.map some ++ List.replicate k none, s))

/-- `for line in iter { lines.push(line?) }`: run the iterator to its end, stopping at an error. -/
def Printed.drain (r : Printed P) (dir : Dir) : Exec P.Err (List (Line P)) :=
  match dir with
  | .up => PPP.drain Printer.nextUp r.up
  | .down => PPP.drain Printer.nextDown r.down

/-- A document that consists of two other documents, one above the other: it has style `s`, and its
    notation is `child(a) ^ child(b)`, where these are the children `c0` and `c1`. -/
structure TwoParts (doc c0 c1 : P.Node) (s : P.Style) : Prop where
  hasId : ∃ id, P.id doc = .ok id
  style : P.nodeStyle doc = .ok s
  parts : ∃ (a b : Int) (n i j : Nat), 
    P.notn doc = .ok ((.child a : Notation P.Label P.Cond) ^^^ (.child b : Notation P.Label P.Cond)) ∧
    P.numChildren doc = .ok (some n) ∧
    normalizeChildIndex a n = some i ∧ P.unwrapChild doc i = .ok c0 ∧
    normalizeChildIndex b n = some j ∧ P.unwrapChild doc j = .ok c1

end PPP
