import Verif.Model.Consolidated
/-
The partial pretty printer — /repo/src/pretty_print.rs.

Representation: a `Vec` used as a stack (pushed and popped at its end) is a `List` whose head is
the top of the stack.  So `Block.chunks` and the chunk list given to `fits` are in reading order
(leftmost chunk first), `prev` has the nearest previous block first, `next` the nearest next block
first.  `Block.segments` is only pushed to, and is kept in reading order.

When a Rust method returns `Err` (or panics) part of `self` may already have been modified; the
model does not keep the state after a failure.
-/
namespace PPP
variable (P : PrettyDoc)

/-- `Chunk` — /repo/src/pretty_print.rs:90-93. -/
structure Chunk where
  notn : CN P
  id : P.Id

/-- `FocusTarget` — /repo/src/pretty_print.rs:115-125. -/
inductive FocusTarget where
  | start
  | «end»
  | mark
  | text (pos : Nat)
  deriving Repr, DecidableEq

/-- `Line` — /repo/src/pretty_print.rs:128-132. -/
structure Line where
  segments : List (Segment P)

/-- `FocusedLine` — /repo/src/pretty_print.rs:135-140. -/
structure FocusedLine where
  leftSegments : List (Segment P)
  rightSegments : List (Segment P)

/-- `Block` — /repo/src/pretty_print.rs:221-232. -/
structure Block where
  segments : List (Segment P)
  prefixLen : Nat
  atEol : Bool
  chunks : List (Chunk P)

/-- `Printer` — /repo/src/pretty_print.rs:281-288. -/
structure Printer where
  width : Nat
  prev : List (Block P)
  next : List (Block P)

variable {P}

/-- Sum of segment widths (`segments.iter().map(|seg| seg.width).sum()`). -/
def segsWidth (segs : List (Segment P)) : Nat := (segs.map (·.width)).sum

/-- Concatenated segment strings (the `push_str` loops, /repo/src/pretty_print.rs:162-209). -/
def segsString (segs : List (Segment P)) : String :=
  segs.foldl (fun acc seg => acc ++ seg.str) ""

/-- `Line::width` — /repo/src/pretty_print.rs:143-145. -/
def Line.width (l : Line P) : Nat := segsWidth l.segments
/-- `Line::to_string` — /repo/src/pretty_print.rs:187-197. -/
def Line.toString (l : Line P) : String := segsString l.segments
/-- `FocusedLine::left_width` — /repo/src/pretty_print.rs:149-151. -/
def FocusedLine.leftWidth (l : FocusedLine P) : Nat := segsWidth l.leftSegments
/-- `FocusedLine::right_width` — /repo/src/pretty_print.rs:153-155. -/
def FocusedLine.rightWidth (l : FocusedLine P) : Nat := segsWidth l.rightSegments
/-- `FocusedLine::width` — /repo/src/pretty_print.rs:157-160. -/
def FocusedLine.width (l : FocusedLine P) : Nat := segsWidth (l.leftSegments ++ l.rightSegments)
/-- `FocusedLine::to_left_string` — /repo/src/pretty_print.rs:162-168. -/
def FocusedLine.toLeftString (l : FocusedLine P) : String := segsString l.leftSegments
/-- `FocusedLine::to_right_string` — /repo/src/pretty_print.rs:170-176. -/
def FocusedLine.toRightString (l : FocusedLine P) : String := segsString l.rightSegments
/-- `FocusedLine::to_string` — /repo/src/pretty_print.rs:199-209. -/
def FocusedLine.toString (l : FocusedLine P) : String :=
  segsString (l.leftSegments ++ l.rightSegments)
/-- `From<FocusedLine> for Line` — /repo/src/pretty_print.rs:179-185. -/
def FocusedLine.toLine (l : FocusedLine P) : Line P := ⟨l.leftSegments ++ l.rightSegments⟩

/-- `Chunk::new` — /repo/src/pretty_print.rs:105-110. -/
def Chunk.new (d : DCN P) : Exec P.Err (Chunk P) := do
  let id ← call (P.id d.doc)
  let notn ← d.eval
  pure { id, notn }

/-- `Block::new` — /repo/src/pretty_print.rs:235-250.  The sum of the indentation widths is a
    `u16` sum, which can overflow. -/
def Block.new (indentation : Indent P) (chunks : List (Chunk P)) : Exec P.Err (Block P) :=
  let segs := indentation.reverse
  if segsWidth segs ≤ maxWidth then
    pure { segments := segs, prefixLen := segsWidth segs, atEol := false, chunks }
  else overflowing

/-- `Block::push_text` — /repo/src/pretty_print.rs:252-263.  `self.prefix_len += textual.width` is
    a `u16` addition, which can overflow. -/
def Block.pushText (b : Block P) (t : Textual P) : Exec P.Err (Block P) :=
  if b.atEol then throwErr .textAfterEndOfLine
  else if b.prefixLen + t.width ≤ maxWidth then
    pure { b with
      segments := b.segments ++ [{ str := t.str, width := t.width, style := t.style }]
      prefixLen := b.prefixLen + t.width }
  else overflowing

/-- `Block::print` — /repo/src/pretty_print.rs:265-271. -/
def Block.print (b : Block P) : Exec P.Err (Line P) :=
  match b.chunks with
  | [] => pure { segments := b.segments }
  | _ :: _ => panicking

/-- The loop of `fits` — /repo/src/pretty_print.rs:768-808. -/
def fitsLoop (nextChunks : List (Chunk P)) (remaining : Nat) (notations : List (CN P))
    (atEol : Bool) : Exec P.Err Bool :=
  match notations with
  | [] =>
    match nextChunks with
    | [] => pure true
    | chunk :: more => fitsLoop more remaining [chunk.notn] atEol
  | notn :: notations =>
    match notn with
    | .empty => fitsLoop nextChunks remaining notations atEol
    | .focusMark => fitsLoop nextChunks remaining notations atEol
    | .textual t =>
      if atEol then pure false
      else if t.width ≤ remaining then
        fitsLoop nextChunks (remaining - t.width) notations atEol
      else pure false
    | .endOfLine => fitsLoop nextChunks remaining notations true
    | .newline _ => pure true
    | .child _ note => do
      let n ← note.eval
      fitsLoop nextChunks remaining (n :: notations) atEol
    | .concat note1 note2 => do
      let n2 ← note2.eval
      let n1 ← note1.eval
      fitsLoop nextChunks remaining (n1 :: n2 :: notations) atEol
    | .choice _opt1 opt2 => do
      let n ← opt2.eval
      fitsLoop nextChunks remaining (n :: notations) atEol
partial_fixpoint

/-- `fits` — /repo/src/pretty_print.rs:754-809. -/
def fits (width : Nat) (atEol : Bool) (notn : CN P) (nextChunks : List (Chunk P)) :
    Exec P.Err Bool :=
  fitsLoop nextChunks width [notn] atEol

/-- `Printer::choose` — /repo/src/pretty_print.rs:677-699. -/
def choose (width : Nat) (block : Block P) (opt1 opt2 : DCN P) : Exec P.Err (Chunk P) := do
  let chunk1 ← Chunk.new opt1
  if width ≥ block.prefixLen then
    if ← fits (width - block.prefixLen) block.atEol chunk1.notn block.chunks then
      pure chunk1
    else Chunk.new opt2
  else Chunk.new opt2

/-- The loop of `expand_focusing_first_block` — /repo/src/pretty_print.rs:606-621.  Returns the
    new `next_blocks` and the new `block`. -/
def expandFirstLoop (next : List (Block P)) (block : Block P) (stack : List (Chunk P)) :
    Exec P.Err (List (Block P) × Block P) :=
  match stack with
  | [] => pure (next, block)
  | chunk :: stack =>
    match chunk.notn with
    | .empty => expandFirstLoop next block stack
    | .textual _ | .choice _ _ | .child _ _ | .endOfLine | .focusMark =>
      expandFirstLoop next { block with chunks := chunk :: block.chunks } stack
    | .newline indentation => do
      let b ← Block.new indentation block.chunks
      expandFirstLoop (b :: next) { block with chunks := [] } stack
    | .concat left right => do
      let l ← Chunk.new left
      let r ← Chunk.new right
      expandFirstLoop next block (r :: l :: stack)
partial_fixpoint

/-- `Printer::expand_focusing_first_block` — /repo/src/pretty_print.rs:596-623. -/
def expandFirst (next : List (Block P)) (block : Block P) (chunk : Chunk P) :
    Exec P.Err (List (Block P) × Block P) :=
  expandFirstLoop next block [chunk]

/-- The loop of `expand_focusing_last_block` — /repo/src/pretty_print.rs:646-670.  `chunks` is the
    local `chunks` vector in reading order reversed (its head is the last pushed).  Returns the new
    `prev_blocks` and the new `block`. -/
def expandLastLoop (prev : List (Block P)) (block : Block P) (chunks stack : List (Chunk P)) :
    Exec P.Err (List (Block P) × Block P) :=
  match stack with
  | [] => pure (prev, { block with chunks := chunks.reverse ++ block.chunks })
  | chunk :: stack =>
    match chunk.notn with
    | .empty => expandLastLoop prev block chunks stack
    | .textual _ | .choice _ _ | .child _ _ | .endOfLine | .focusMark =>
      expandLastLoop prev block (chunk :: chunks) stack
    | .newline indentation => do
      let prevBlock : Block P :=
        { segments := block.segments
          prefixLen := block.prefixLen
          atEol := block.atEol
          chunks := chunks.reverse }
      let b ← Block.new indentation block.chunks
      expandLastLoop (prevBlock :: prev) b [] stack
    | .concat left right => do
      let r ← Chunk.new right
      let l ← Chunk.new left
      expandLastLoop prev block chunks (l :: r :: stack)
partial_fixpoint

/-- `Printer::expand_focusing_last_block` — /repo/src/pretty_print.rs:635-672. -/
def expandLast (prev : List (Block P)) (block : Block P) (chunk : Chunk P) :
    Exec P.Err (List (Block P) × Block P) :=
  expandLastLoop prev block [] [chunk]

/-- `Printer::new` — /repo/src/pretty_print.rs:291-298. -/
def Printer.new (width : Nat) : Exec P.Err (Printer P) := do
  let emptyBlock ← Block.new [] []
  pure { width, prev := [], next := [emptyBlock] }

/-- The loop of `print_next_line` — /repo/src/pretty_print.rs:309-326.  Returns the line and the
    new `next_blocks`. -/
def printNextLoop (width : Nat) (next : List (Block P)) (block : Block P) :
    Exec P.Err (Line P × List (Block P)) :=
  match block.chunks with
  | [] => do
    let line ← block.print
    pure (line, next)
  | chunk :: chunks =>
    let block := { block with chunks := chunks }
    match chunk.notn with
    | .focusMark => printNextLoop width next block
    | .empty | .newline _ | .concat _ _ => panicking
    | .endOfLine => printNextLoop width next { block with atEol := true }
    | .textual t => do
      let block ← block.pushText t
      printNextLoop width next block
    | .child _ note => do
      let c ← Chunk.new note
      let (next, block) ← expandFirst next block c
      printNextLoop width next block
    | .choice opt1 opt2 => do
      let c ← choose width block opt1 opt2
      let (next, block) ← expandFirst next block c
      printNextLoop width next block
partial_fixpoint

/-- `Printer::print_next_line` — /repo/src/pretty_print.rs:301-327. -/
def Printer.printNextLine (p : Printer P) : Exec P.Err (Option (Line P) × Printer P) :=
  match p.next with
  | [] => pure (none, p)
  | block :: next => do
    let (line, next) ← printNextLoop p.width next block
    pure (some line, { p with next })

/-- The loop of `print_prev_line` — /repo/src/pretty_print.rs:338-353. -/
def printPrevLoop (width : Nat) (prev : List (Block P)) (block : Block P) :
    Exec P.Err (Line P × List (Block P)) :=
  match block.chunks with
  | [] => do
    let line ← block.print
    pure (line, prev)
  | chunk :: chunks =>
    let block := { block with chunks := chunks }
    match chunk.notn with
    | .focusMark => printPrevLoop width prev block
    | .empty | .newline _ | .concat _ _ => panicking
    | .endOfLine => printPrevLoop width prev { block with atEol := true }
    | .textual t => do
      let block ← block.pushText t
      printPrevLoop width prev block
    | .child _ note => do
      let c ← Chunk.new note
      let (prev, block) ← expandLast prev block c
      printPrevLoop width prev block
    | .choice opt1 opt2 => do
      let c ← choose width block opt1 opt2
      let (prev, block) ← expandLast prev block c
      printPrevLoop width prev block
partial_fixpoint

/-- `Printer::print_prev_line` — /repo/src/pretty_print.rs:330-354. -/
def Printer.printPrevLine (p : Printer P) : Exec P.Err (Option (Line P) × Printer P) :=
  match p.prev with
  | [] => pure (none, p)
  | block :: prev => do
    let (line, prev) ← printPrevLoop p.width prev block
    pure (some line, { p with prev })

/-- The loop of `seek_end` — /repo/src/pretty_print.rs:392-407. -/
def seekEndLoop (width : Nat) (numChunksAfter : Nat) (prev : List (Block P)) (block : Block P) :
    Exec P.Err (List (Block P) × Block P) :=
  if block.chunks.length > numChunksAfter then
    match block.chunks with
    | [] => panicking
    | chunk :: chunks =>
      let block := { block with chunks := chunks }
      match chunk.notn with
      | .focusMark => seekEndLoop width numChunksAfter prev block
      | .empty | .newline _ | .concat _ _ => panicking
      | .endOfLine => seekEndLoop width numChunksAfter prev { block with atEol := true }
      | .textual t => do
        let block ← block.pushText t
        seekEndLoop width numChunksAfter prev block
      | .child _ note => do
        let c ← Chunk.new note
        let (prev, block) ← expandLast prev block c
        seekEndLoop width numChunksAfter prev block
      | .choice opt1 opt2 => do
        let c ← choose width block opt1 opt2
        let (prev, block) ← expandLast prev block c
        seekEndLoop width numChunksAfter prev block
  else pure (prev, block)
partial_fixpoint

/-- `Printer::seek_end` — /repo/src/pretty_print.rs:382-410. -/
def Printer.seekEnd (p : Printer P) (chunk : Chunk P) : Exec P.Err (Printer P) :=
  match p.next with
  | [] => panicking
  | block :: next => do
    let numChunksAfter := block.chunks.length
    let (prev, block) ← expandLast p.prev block chunk
    let (prev, block) ← seekEndLoop p.width numChunksAfter prev block
    pure { p with prev, next := block :: next }

/-- `Printer::seek_start` — /repo/src/pretty_print.rs:414-421. -/
def Printer.seekStart (p : Printer P) (chunk : Chunk P) : Exec P.Err (Printer P) :=
  match p.next with
  | [] => panicking
  | block :: next => do
    let (next, block) ← expandFirst next block chunk
    pure { p with next := block :: next }

/-- The nested loops of `seek_mark` — /repo/src/pretty_print.rs:434-460 — as one recursion: with
    `cur = some block` we are in the inner loop (435-456) on `block`, with `cur = none` at the
    head of the outer loop (434). -/
def seekMarkLoop (width : Nat) (id : P.Id) (prev next : List (Block P)) (cur : Option (Block P)) :
    Exec P.Err (List (Block P) × List (Block P)) :=
  match cur with
  | none =>
    match next with
    | [] => throwErr .missingFocusMark
    | block :: next => seekMarkLoop width id prev next (some block)
  | some block =>
    match block.chunks with
    | [] => seekMarkLoop width id (block :: prev) next none
    | chunk :: chunks =>
      let block := { block with chunks := chunks }
      match chunk.notn with
      | .empty | .newline _ | .concat _ _ => panicking
      | .focusMark =>
        if chunk.id = id then pure (prev, block :: next)
        else seekMarkLoop width id prev next (some block)
      | .endOfLine => seekMarkLoop width id prev next (some { block with atEol := true })
      | .textual t => do
        let block ← block.pushText t
        seekMarkLoop width id prev next (some block)
      | .child _ note => do
        let c ← Chunk.new note
        let (next, block) ← expandFirst next block c
        seekMarkLoop width id prev next (some block)
      | .choice opt1 opt2 => do
        let c ← choose width block opt1 opt2
        let (next, block) ← expandFirst next block c
        seekMarkLoop width id prev next (some block)
partial_fixpoint

/-- `Printer::seek_mark` — /repo/src/pretty_print.rs:425-461. -/
def Printer.seekMark (p : Printer P) (chunk : Chunk P) : Exec P.Err (Printer P) :=
  match p.next with
  | [] => panicking
  | firstBlock :: next => do
    let (next, firstBlock) ← expandFirst next firstBlock chunk
    let (prev, next) ← seekMarkLoop p.width chunk.id p.prev (firstBlock :: next) none
    pure { p with prev, next }

/-- The nested loops of `seek_text` — /repo/src/pretty_print.rs:477-510 (same encoding as
    `seekMarkLoop`). -/
def seekTextLoop (width : Nat) (textPos : Nat) (prev next : List (Block P))
    (cur : Option (Block P)) : Exec P.Err (List (Block P) × List (Block P)) :=
  match cur with
  | none =>
    match next with
    | [] => throwErr .missingText
    | block :: next => seekTextLoop width textPos prev next (some block)
  | some block =>
    match block.chunks with
    | [] => seekTextLoop width textPos (block :: prev) next none
    | chunk :: chunks =>
      let block := { block with chunks := chunks }
      match chunk.notn with
      | .empty | .newline _ | .concat _ _ => panicking
      | .focusMark => seekTextLoop width textPos prev next (some block)
      | .endOfLine => seekTextLoop width textPos prev next (some { block with atEol := true })
      | .textual t =>
        if t.isFromText then do
          let (leftT, rightT) := t.splitAt textPos
          let block ← block.pushText leftT
          pure (prev,
            { block with chunks := { id := chunk.id, notn := .textual rightT } :: block.chunks }
              :: next)
        else do
          let block ← block.pushText t
          seekTextLoop width textPos prev next (some block)
      | .child _ note => do
        let c ← Chunk.new note
        let (next, block) ← expandFirst next block c
        seekTextLoop width textPos prev next (some block)
      | .choice opt1 opt2 => do
        let c ← choose width block opt1 opt2
        let (next, block) ← expandFirst next block c
        seekTextLoop width textPos prev next (some block)
partial_fixpoint

/-- `Printer::seek_text` — /repo/src/pretty_print.rs:465-511. -/
def Printer.seekText (p : Printer P) (chunk : Chunk P) (textPos : Nat) :
    Exec P.Err (Printer P) :=
  match p.next with
  | [] => panicking
  | firstBlock :: next => do
    let (next, firstBlock) ← expandFirst next firstBlock chunk
    let (prev, next) ← seekTextLoop p.width textPos p.prev (firstBlock :: next) none
    pure { p with prev, next }

/-- `contains_relevant_chunk` — /repo/src/pretty_print.rs:534-540. -/
def containsRelevantChunk (parentId : P.Id) (childIndex : Nat) (block : Block P) : Bool :=
  block.chunks.any fun chunk =>
    match chunk.notn with
    | .child i _ => chunk.id = parentId && i = childIndex
    | .choice _ _ => chunk.id = parentId
    | _ => false

/-- Step 1 of `seek_child` — /repo/src/pretty_print.rs:541-548: move blocks without a relevant
    chunk from `next` to `prev`. -/
def skipBlocks (parentId : P.Id) (childIndex : Nat) (prev next : List (Block P)) :
    List (Block P) × List (Block P) :=
  match next with
  | [] => (prev, [])
  | block :: next =>
    if containsRelevantChunk parentId childIndex block then (prev, block :: next)
    else skipBlocks parentId childIndex (block :: prev) next

/-- How the `while` loop of step 2 of `seek_child` ends. -/
inductive Step2 (P : PrettyDoc) where
  /-- `return Chunk::new(child)` (565-569): the new `next_blocks` and the chunk. -/
  | found (next : List (Block P)) (chunk : Chunk P)
  /-- `break` (574, 579), or no chunks left: the new `next_blocks`. -/
  | again (next : List (Block P))

/-- Step 2 of `seek_child` — /repo/src/pretty_print.rs:557-582.  (If the chunks run out, the block
    is dropped, as in the code.) -/
def seekChildStep2 (width : Nat) (parentId : P.Id) (childIndex : Nat) (next : List (Block P))
    (block : Block P) : Exec P.Err (Step2 P) :=
  match block.chunks with
  | [] => pure (.again next)
  | chunk :: chunks =>
    let block := { block with chunks := chunks }
    match chunk.notn with
    | .focusMark => seekChildStep2 width parentId childIndex next block
    | .empty | .newline _ | .concat _ _ => panicking
    | .endOfLine => seekChildStep2 width parentId childIndex next { block with atEol := true }
    | .textual t => do
      let block ← block.pushText t
      seekChildStep2 width parentId childIndex next block
    | .child i child =>
      if chunk.id = parentId ∧ i = childIndex then do
        let c ← Chunk.new child
        pure (.found (block :: next) c)
      else do
        let c ← Chunk.new child
        let (next, block) ← expandFirst next block c
        pure (.again (block :: next))
    | .choice opt1 opt2 => do
      let c ← choose width block opt1 opt2
      let (next, block) ← expandFirst next block c
      pure (.again (block :: next))
partial_fixpoint

/-- The outer loop of `seek_child` — /repo/src/pretty_print.rs:528-583. -/
def seekChildLoop (width : Nat) (parentId : P.Id) (childIndex : Nat)
    (prev next : List (Block P)) : Exec P.Err (List (Block P) × List (Block P) × Chunk P) :=
  match skipBlocks parentId childIndex prev next with
  | (_, []) => throwErr (.invalidPath childIndex)
  | (prev, block :: next) => do
    match ← seekChildStep2 width parentId childIndex next block with
    | .found next chunk => pure (prev, next, chunk)
    | .again next => seekChildLoop width parentId childIndex prev next
partial_fixpoint

/-- `Printer::seek_child` — /repo/src/pretty_print.rs:516-584. -/
def Printer.seekChild (p : Printer P) (parent : Chunk P) (childIndex : Nat) :
    Exec P.Err (Printer P × Chunk P) :=
  match p.next with
  | [] => panicking
  | block :: next => do
    let (next, block) ← expandFirst next block parent
    let (prev, next, chunk) ← seekChildLoop p.width parent.id childIndex p.prev (block :: next)
    pure ({ p with prev, next }, chunk)

/-- The loop over `path` in `seek` — /repo/src/pretty_print.rs:369-371. -/
def Printer.seekPath (p : Printer P) (chunk : Chunk P) :
    List Nat → Exec P.Err (Printer P × Chunk P)
  | [] => pure (p, chunk)
  | i :: path => do
    let (p, chunk) ← p.seekChild chunk i
    p.seekPath chunk path

/-- `Printer::seek` — /repo/src/pretty_print.rs:358-378. -/
def Printer.seek (p : Printer P) (doc : P.Node) (path : List Nat) (target : FocusTarget)
    (rootStyle : Option P.Style) : Exec P.Err (Printer P) := do
  let note ← DCN.withOptionalStyle doc rootStyle
  let chunk ← Chunk.new note
  let (p, chunk) ← p.seekPath chunk path
  match target with
  | .start => p.seekStart chunk
  | .end => p.seekEnd chunk
  | .text pos => p.seekText chunk pos
  | .mark => p.seekMark chunk

/-- What `pretty_print` returns: the upward iterator, the focused line, the downward iterator. -/
structure Printed (P : PrettyDoc) where
  up : Printer P
  focused : FocusedLine P
  down : Printer P

/-- `pretty_print` — /repo/src/pretty_print.rs:32-71. -/
def prettyPrint (doc : P.Node) (width : Nat) (path : List Nat) (target : FocusTarget)
    (rootStyle : Option P.Style) : Exec P.Err (Printed P) := do
  let printer ← Printer.new width
  let printer ← printer.seek doc path target rootStyle
  match printer.next with
  | [] => panicking
  | b :: _ =>
    let numLeftSegs := b.segments.length
    match ← printer.printNextLine with
    | (none, _) => panicking
    | (some line, printer) =>
      -- `Vec::split_off` panics if the index is past the end
      if numLeftSegs > line.segments.length then panicking else
      pure {
        up := { width, prev := printer.prev, next := [] }
        focused := {
          rightSegments := line.segments.drop numLeftSegs
          leftSegments := line.segments.take numLeftSegs }
        down := { width, prev := [], next := printer.next } }

/-- `UpwardPrinter::next` — /repo/src/pretty_print.rs:814-820. -/
def Printer.nextUp (p : Printer P) : Exec P.Err (Option (Line P) × Printer P) := p.printPrevLine

/-- `DownwardPrinter::next` — /repo/src/pretty_print.rs:825-831. -/
def Printer.nextDown (p : Printer P) : Exec P.Err (Option (Line P) × Printer P) := p.printNextLine

/-- Collect all the lines of an iterator (`for line in iter { .. line? .. }`). -/
def drain (next : Printer P → Exec P.Err (Option (Line P) × Printer P)) (p : Printer P) :
    Exec P.Err (List (Line P)) := do
  match ← next p with
  | (none, _) => pure []
  | (some line, p) => do
    let lines ← drain next p
    pure (line :: lines)
partial_fixpoint

/-- Call `next` `n` times, collecting what it returns (`for _ in 0..n { iter.next() }`), and return
    the iterator's final state too. -/
def takeLines (next : Printer P → Exec P.Err (Option (Line P) × Printer P)) :
    Nat → Printer P → Exec P.Err (List (Option (Line P)) × Printer P)
  | 0, p => pure ([], p)
  | n + 1, p => do
    let (line, p) ← next p
    let (lines, p) ← takeLines next n p
    pure (line :: lines, p)

/-- The loop of `pretty_print_to_string` — /repo/src/pretty_print.rs:83-86. -/
def toStringLoop (string : String) (p : Printer P) : Exec P.Err String := do
  match ← p.nextDown with
  | (none, _) => pure string
  | (some line, p) => toStringLoop (string ++ "\n" ++ line.toString) p
partial_fixpoint

/-- `pretty_print_to_string` — /repo/src/pretty_print.rs:77-88. -/
def prettyPrintToString (doc : P.Node) (width : Nat) : Exec P.Err String := do
  let r ← prettyPrint doc width [] .start none
  toStringLoop r.focused.toString r.down

end PPP
