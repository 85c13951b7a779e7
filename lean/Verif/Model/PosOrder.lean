import Verif.Model.Display
/-
The order of positions and of sizes — `#[derive(PartialOrd, Ord)]` on the two public structures of
/repo/src/geometry.rs: the fields are compared in the order of their declaration.
-/
namespace PPP

/-- `#[derive(Ord)] struct Pos { row, col }` — /repo/src/geometry.rs:22-26. -/
def Pos.cmp (p q : Pos) : Ordering :=
  match compare p.row q.row with
  | .eq => compare p.col q.col
  | o => o

/-- `#[derive(Ord)] struct Size { width, height }` — /repo/src/geometry.rs:29-33.  The width comes first. -/
def Size.cmp (s t : Size) : Ordering :=
  match compare s.width t.width with
  | .eq => compare s.height t.height
  | o => o

end PPP
