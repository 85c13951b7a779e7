import Verif.Model.Printer
/-
The line iterators of /repo/src/pretty_print.rs once more, keeping the state of the `Printer` after
an `Err`: `UpwardPrinter::next` and `DownwardPrinter::next` take `&mut self`, so a caller who gets
`Some(Err(..))` can call `next` again.  (`Verif/Model/Printer.lean` models the same functions without
the state after a failure.)

On an `Err` the local variable `block` is dropped; the blocks that were already pushed on `next_blocks`
or `prev_blocks` stay there.
-/
namespace PPP
variable {P : PrettyDoc}

/-- A computation with a state that survives failures (`&mut self`), and that may diverge (`none`). -/
abbrev Keep (σ E α : Type) := ExceptT (Fail E) (StateT σ Option) α

/-- A computation that does not touch the state. -/
def Keep.of {σ E α : Type} (x : Exec E α) : Keep σ E α :=
  ExceptT.mk fun s => x.run.map fun r => (r, s)

/-- Push a block on the stack (`self.next_blocks.push(..)`, `self.prev_blocks.push(..)`). -/
def pushBlock (b : Block P) : Keep (List (Block P)) P.Err Unit :=
  ExceptT.mk fun s => some (.ok (), b :: s)

/-- The loop of `expand_focusing_first_block` — /repo/src/pretty_print.rs:606-621; the state is
    `self.next_blocks`. -/
def expandFirstLoopK (block : Block P) (stack : List (Chunk P)) :
    Keep (List (Block P)) P.Err (Block P) :=
  match stack with
  | [] => pure block
  | chunk :: stack =>
    match chunk.notn with
    | .empty => expandFirstLoopK block stack
    | .textual _ | .choice _ _ | .child _ _ | .endOfLine | .focusMark =>
      expandFirstLoopK { block with chunks := chunk :: block.chunks } stack
    | .newline indentation => do
      let b ← Keep.of (Block.new indentation block.chunks)
      pushBlock b
      expandFirstLoopK { block with chunks := [] } stack
    | .concat left right => do
      let l ← Keep.of (Chunk.new left)
      let r ← Keep.of (Chunk.new right)
      expandFirstLoopK block (r :: l :: stack)
partial_fixpoint

/-- The loop of `expand_focusing_last_block` — /repo/src/pretty_print.rs:646-670; the state is
    `self.prev_blocks`. -/
def expandLastLoopK (block : Block P) (chunks stack : List (Chunk P)) :
    Keep (List (Block P)) P.Err (Block P) :=
  match stack with
  | [] => pure { block with chunks := chunks.reverse ++ block.chunks }
  | chunk :: stack =>
    match chunk.notn with
    | .empty => expandLastLoopK block chunks stack
    | .textual _ | .choice _ _ | .child _ _ | .endOfLine | .focusMark =>
      expandLastLoopK block (chunk :: chunks) stack
    | .newline indentation => do
      pushBlock { block with chunks := chunks.reverse }
      let b ← Keep.of (Block.new indentation block.chunks)
      expandLastLoopK b [] stack
    | .concat left right => do
      let r ← Keep.of (Chunk.new right)
      let l ← Keep.of (Chunk.new left)
      expandLastLoopK block chunks (l :: r :: stack)
partial_fixpoint

/-- Which way an iterator goes. -/
inductive Dir where
  | up
  | down
  deriving DecidableEq, Repr

/-- `expand_focusing_last_block` (635-672) when going up, `expand_focusing_first_block` (596-623) when
    going down — /repo/src/pretty_print.rs. -/
def expandK (dir : Dir) (block : Block P) (chunk : Chunk P) :
    Keep (List (Block P)) P.Err (Block P) :=
  match dir with
  | .up => expandLastLoopK block [] [chunk]
  | .down => expandFirstLoopK block [chunk]

/-- The loops of `print_prev_line` (338-353) and `print_next_line` (309-326) —
    /repo/src/pretty_print.rs; the two differ only in which way they expand, and the state is
    `self.prev_blocks` for the one and `self.next_blocks` for the other. -/
def printLoopK (dir : Dir) (width : Nat) (block : Block P) : Keep (List (Block P)) P.Err (Line P) :=
  match block.chunks with
  | [] => Keep.of block.print
  | chunk :: chunks =>
    let block := { block with chunks := chunks }
    match chunk.notn with
    | .focusMark => printLoopK dir width block
    | .empty | .newline _ | .concat _ _ => Keep.of panicking
    | .endOfLine => printLoopK dir width { block with atEol := true }
    | .textual t => do
      let block ← Keep.of (block.pushText t)
      printLoopK dir width block
    | .child _ note => do
      let c ← Keep.of (Chunk.new note)
      let block ← expandK dir block c
      printLoopK dir width block
    | .choice opt1 opt2 => do
      let c ← Keep.of (choose width block opt1 opt2)
      let block ← expandK dir block c
      printLoopK dir width block
partial_fixpoint

/-- What `Iterator::next` returns: `None`, `Some(Ok(line))` or `Some(Err(error))`. -/
abbrev NextItem (P : PrettyDoc) := Option (Except (PrintingError P.Err) (Line P))

/-- `UpwardPrinter::next` (814-820) and `DownwardPrinter::next` (825-831) — with `print_prev_line`
    (330-354) and `print_next_line` (301-327), /repo/src/pretty_print.rs.  The iterator's state is its
    stack of blocks (the other stack of its `Printer` is empty and its width never changes).  The call
    returns an item, which may be an `Err`, and leaves the iterator in some state; the failures that
    are left are a panic and an overflow. -/
def nextK (dir : Dir) (width : Nat) (blocks : List (Block P)) :
    Exec P.Err (NextItem P × List (Block P)) :=
  match blocks with
  | [] => pure (none, [])
  | block :: rest => ExceptT.mk <|
    ((printLoopK dir width block).run rest).map fun r =>
      match r.1 with
      | .ok line => .ok (some (.ok line), r.2)
      | .error (.err e) => .ok (some (.error e), r.2)
      | .error .panic => .error .panic
      | .error .overflow => .error .overflow

/-- Call `next` `n` times whatever it returns (`for _ in 0..n { items.push(iter.next()) }`). -/
def callsK (dir : Dir) (width : Nat) : Nat → List (Block P) →
    Exec P.Err (List (NextItem P) × List (Block P))
  | 0, blocks => pure ([], blocks)
  | n + 1, blocks => do
    let (item, blocks) ← nextK dir width blocks
    let (items, blocks) ← callsK dir width n blocks
    pure (item :: items, blocks)

end PPP
