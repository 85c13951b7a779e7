import Verif.Model.Depth
import Verif.Model.Printer
/-
The printer once more, with a limited stack — /repo/src/pretty_print.rs and /repo/src/consolidated_notation.rs.

`eval` is the only function of the printer that calls itself.  Here at most `K` invocations of it can be nested:
the next one runs out of stack, which ends the program (as a panic does).  Apart from that, every definition is a
copy of the one of the same name without the final `S` in Model/Printer.lean.

Recursion in `Drop` (of the chains of indentations, and of notations) is not modelled.
-/
namespace PPP
variable {P : PrettyDoc}

/-- `eval` — /repo/src/consolidated_notation.rs:251-440 — when there is room on the stack for `K` invocations. -/
def DCN.evalS : (K : Nat) → (d : DCN P) → Exec P.Err (CN P)
  | 0, _ => panicking
  | K + 1, d => do
    match ← d.evalStep with
    | .inl cn => pure cn
    | .inr d' => d'.evalS K

/-- `Chunk.new` (see Model/Printer.lean) with a limited stack — /repo/src/pretty_print.rs:105-110. -/
def Chunk.newS (K : Nat) (d : DCN P) : Exec P.Err (Chunk P) := do
  let id ← call (P.id d.doc)
  let notn ← d.evalS K
  pure { id, notn }

/-- `fitsLoop` (see Model/Printer.lean) with a limited stack — /repo/src/pretty_print.rs:768-808. -/
def fitsLoopS (K : Nat) (nextChunks : List (Chunk P)) (remaining : Nat) (notations : List (CN P))
    (atEol : Bool) : Exec P.Err Bool :=
  match notations with
  | [] =>
    match nextChunks with
    | [] => pure true
    | chunk :: more => fitsLoopS K more remaining [chunk.notn] atEol
  | notn :: notations =>
    match notn with
    | .empty => fitsLoopS K nextChunks remaining notations atEol
    | .focusMark => fitsLoopS K nextChunks remaining notations atEol
    | .textual t =>
      if atEol then pure false
      else if t.width ≤ remaining then
        fitsLoopS K nextChunks (remaining - t.width) notations atEol
      else pure false
    | .endOfLine => fitsLoopS K nextChunks remaining notations true
    | .newline _ => pure true
    | .child _ note => do
      let n ← note.evalS K
      fitsLoopS K nextChunks remaining (n :: notations) atEol
    | .concat note1 note2 => do
      let n2 ← note2.evalS K
      let n1 ← note1.evalS K
      fitsLoopS K nextChunks remaining (n1 :: n2 :: notations) atEol
    | .choice _opt1 opt2 => do
      let n ← opt2.evalS K
      fitsLoopS K nextChunks remaining (n :: notations) atEol
partial_fixpoint

/-- `fits` (see Model/Printer.lean) with a limited stack — /repo/src/pretty_print.rs:754-809. -/
def fitsS (K : Nat) (width : Nat) (atEol : Bool) (notn : CN P) (nextChunks : List (Chunk P)) :
    Exec P.Err Bool :=
  fitsLoopS K nextChunks width [notn] atEol

/-- `choose` (see Model/Printer.lean) with a limited stack — /repo/src/pretty_print.rs:677-699. -/
def chooseS (K : Nat) (width : Nat) (block : Block P) (opt1 opt2 : DCN P) : Exec P.Err (Chunk P) := do
  let chunk1 ← Chunk.newS K opt1
  if width ≥ block.prefixLen then
    if ← fitsS K (width - block.prefixLen) block.atEol chunk1.notn block.chunks then
      pure chunk1
    else Chunk.newS K opt2
  else Chunk.newS K opt2

/-- `expandFirstLoop` (see Model/Printer.lean) with a limited stack — /repo/src/pretty_print.rs:606-621. -/
def expandFirstLoopS (K : Nat) (next : List (Block P)) (block : Block P) (stack : List (Chunk P)) :
    Exec P.Err (List (Block P) × Block P) :=
  match stack with
  | [] => pure (next, block)
  | chunk :: stack =>
    match chunk.notn with
    | .empty => expandFirstLoopS K next block stack
    | .textual _ | .choice _ _ | .child _ _ | .endOfLine | .focusMark =>
      expandFirstLoopS K next { block with chunks := chunk :: block.chunks } stack
    | .newline indentation => do
      let b ← Block.new indentation block.chunks
      expandFirstLoopS K (b :: next) { block with chunks := [] } stack
    | .concat left right => do
      let l ← Chunk.newS K left
      let r ← Chunk.newS K right
      expandFirstLoopS K next block (r :: l :: stack)
partial_fixpoint

/-- `expandFirst` (see Model/Printer.lean) with a limited stack — /repo/src/pretty_print.rs:596-623. -/
def expandFirstS (K : Nat) (next : List (Block P)) (block : Block P) (chunk : Chunk P) :
    Exec P.Err (List (Block P) × Block P) :=
  expandFirstLoopS K next block [chunk]

/-- `expandLastLoop` (see Model/Printer.lean) with a limited stack — /repo/src/pretty_print.rs:646-670. -/
def expandLastLoopS (K : Nat) (prev : List (Block P)) (block : Block P) (chunks stack : List (Chunk P)) :
    Exec P.Err (List (Block P) × Block P) :=
  match stack with
  | [] => pure (prev, { block with chunks := chunks.reverse ++ block.chunks })
  | chunk :: stack =>
    match chunk.notn with
    | .empty => expandLastLoopS K prev block chunks stack
    | .textual _ | .choice _ _ | .child _ _ | .endOfLine | .focusMark =>
      expandLastLoopS K prev block (chunk :: chunks) stack
    | .newline indentation => do
      let prevBlock : Block P :=
        { segments := block.segments
          prefixLen := block.prefixLen
          atEol := block.atEol
          chunks := chunks.reverse }
      let b ← Block.new indentation block.chunks
      expandLastLoopS K (prevBlock :: prev) b [] stack
    | .concat left right => do
      let r ← Chunk.newS K right
      let l ← Chunk.newS K left
      expandLastLoopS K prev block chunks (l :: r :: stack)
partial_fixpoint

/-- `expandLast` (see Model/Printer.lean) with a limited stack — /repo/src/pretty_print.rs:635-672. -/
def expandLastS (K : Nat) (prev : List (Block P)) (block : Block P) (chunk : Chunk P) :
    Exec P.Err (List (Block P) × Block P) :=
  expandLastLoopS K prev block [] [chunk]

/-- `printNextLoop` (see Model/Printer.lean) with a limited stack — /repo/src/pretty_print.rs:309-326. -/
def printNextLoopS (K : Nat) (width : Nat) (next : List (Block P)) (block : Block P) :
    Exec P.Err (Line P × List (Block P)) :=
  match block.chunks with
  | [] => do
    let line ← block.print
    pure (line, next)
  | chunk :: chunks =>
    let block := { block with chunks := chunks }
    match chunk.notn with
    | .focusMark => printNextLoopS K width next block
    | .empty | .newline _ | .concat _ _ => panicking
    | .endOfLine => printNextLoopS K width next { block with atEol := true }
    | .textual t => do
      let block ← block.pushText t
      printNextLoopS K width next block
    | .child _ note => do
      let c ← Chunk.newS K note
      let (next, block) ← expandFirstS K next block c
      printNextLoopS K width next block
    | .choice opt1 opt2 => do
      let c ← chooseS K width block opt1 opt2
      let (next, block) ← expandFirstS K next block c
      printNextLoopS K width next block
partial_fixpoint

/-- `Printer.printNextLine` (see Model/Printer.lean) with a limited stack — /repo/src/pretty_print.rs:301-327. -/
def Printer.printNextLineS (K : Nat) (p : Printer P) : Exec P.Err (Option (Line P) × Printer P) :=
  match p.next with
  | [] => pure (none, p)
  | block :: next => do
    let (line, next) ← printNextLoopS K p.width next block
    pure (some line, { p with next })

/-- `printPrevLoop` (see Model/Printer.lean) with a limited stack — /repo/src/pretty_print.rs:338-353. -/
def printPrevLoopS (K : Nat) (width : Nat) (prev : List (Block P)) (block : Block P) :
    Exec P.Err (Line P × List (Block P)) :=
  match block.chunks with
  | [] => do
    let line ← block.print
    pure (line, prev)
  | chunk :: chunks =>
    let block := { block with chunks := chunks }
    match chunk.notn with
    | .focusMark => printPrevLoopS K width prev block
    | .empty | .newline _ | .concat _ _ => panicking
    | .endOfLine => printPrevLoopS K width prev { block with atEol := true }
    | .textual t => do
      let block ← block.pushText t
      printPrevLoopS K width prev block
    | .child _ note => do
      let c ← Chunk.newS K note
      let (prev, block) ← expandLastS K prev block c
      printPrevLoopS K width prev block
    | .choice opt1 opt2 => do
      let c ← chooseS K width block opt1 opt2
      let (prev, block) ← expandLastS K prev block c
      printPrevLoopS K width prev block
partial_fixpoint

/-- `Printer.printPrevLine` (see Model/Printer.lean) with a limited stack — /repo/src/pretty_print.rs:330-354. -/
def Printer.printPrevLineS (K : Nat) (p : Printer P) : Exec P.Err (Option (Line P) × Printer P) :=
  match p.prev with
  | [] => pure (none, p)
  | block :: prev => do
    let (line, prev) ← printPrevLoopS K p.width prev block
    pure (some line, { p with prev })

/-- `seekEndLoop` (see Model/Printer.lean) with a limited stack — /repo/src/pretty_print.rs:392-407. -/
def seekEndLoopS (K : Nat) (width : Nat) (numChunksAfter : Nat) (prev : List (Block P)) (block : Block P) :
    Exec P.Err (List (Block P) × Block P) :=
  if block.chunks.length > numChunksAfter then
    match block.chunks with
    | [] => panicking
    | chunk :: chunks =>
      let block := { block with chunks := chunks }
      match chunk.notn with
      | .focusMark => seekEndLoopS K width numChunksAfter prev block
      | .empty | .newline _ | .concat _ _ => panicking
      | .endOfLine => seekEndLoopS K width numChunksAfter prev { block with atEol := true }
      | .textual t => do
        let block ← block.pushText t
        seekEndLoopS K width numChunksAfter prev block
      | .child _ note => do
        let c ← Chunk.newS K note
        let (prev, block) ← expandLastS K prev block c
        seekEndLoopS K width numChunksAfter prev block
      | .choice opt1 opt2 => do
        let c ← chooseS K width block opt1 opt2
        let (prev, block) ← expandLastS K prev block c
        seekEndLoopS K width numChunksAfter prev block
  else pure (prev, block)
partial_fixpoint

/-- `Printer.seekEnd` (see Model/Printer.lean) with a limited stack — /repo/src/pretty_print.rs:382-410. -/
def Printer.seekEndS (K : Nat) (p : Printer P) (chunk : Chunk P) : Exec P.Err (Printer P) :=
  match p.next with
  | [] => panicking
  | block :: next => do
    let numChunksAfter := block.chunks.length
    let (prev, block) ← expandLastS K p.prev block chunk
    let (prev, block) ← seekEndLoopS K p.width numChunksAfter prev block
    pure { p with prev, next := block :: next }

/-- `Printer.seekStart` (see Model/Printer.lean) with a limited stack — /repo/src/pretty_print.rs:414-421. -/
def Printer.seekStartS (K : Nat) (p : Printer P) (chunk : Chunk P) : Exec P.Err (Printer P) :=
  match p.next with
  | [] => panicking
  | block :: next => do
    let (next, block) ← expandFirstS K next block chunk
    pure { p with next := block :: next }

/-- `seekMarkLoop` (see Model/Printer.lean) with a limited stack — /repo/src/pretty_print.rs:434-460. -/
def seekMarkLoopS (K : Nat) (width : Nat) (id : P.Id) (prev next : List (Block P)) (cur : Option (Block P)) :
    Exec P.Err (List (Block P) × List (Block P)) :=
  match cur with
  | none =>
    match next with
    | [] => throwErr .missingFocusMark
    | block :: next => seekMarkLoopS K width id prev next (some block)
  | some block =>
    match block.chunks with
    | [] => seekMarkLoopS K width id (block :: prev) next none
    | chunk :: chunks =>
      let block := { block with chunks := chunks }
      match chunk.notn with
      | .empty | .newline _ | .concat _ _ => panicking
      | .focusMark =>
        if chunk.id = id then pure (prev, block :: next)
        else seekMarkLoopS K width id prev next (some block)
      | .endOfLine => seekMarkLoopS K width id prev next (some { block with atEol := true })
      | .textual t => do
        let block ← block.pushText t
        seekMarkLoopS K width id prev next (some block)
      | .child _ note => do
        let c ← Chunk.newS K note
        let (next, block) ← expandFirstS K next block c
        seekMarkLoopS K width id prev next (some block)
      | .choice opt1 opt2 => do
        let c ← chooseS K width block opt1 opt2
        let (next, block) ← expandFirstS K next block c
        seekMarkLoopS K width id prev next (some block)
partial_fixpoint

/-- `Printer.seekMark` (see Model/Printer.lean) with a limited stack — /repo/src/pretty_print.rs:425-461. -/
def Printer.seekMarkS (K : Nat) (p : Printer P) (chunk : Chunk P) : Exec P.Err (Printer P) :=
  match p.next with
  | [] => panicking
  | firstBlock :: next => do
    let (next, firstBlock) ← expandFirstS K next firstBlock chunk
    let (prev, next) ← seekMarkLoopS K p.width chunk.id p.prev (firstBlock :: next) none
    pure { p with prev, next }

/-- `seekTextLoop` (see Model/Printer.lean) with a limited stack — /repo/src/pretty_print.rs:477-510. -/
def seekTextLoopS (K : Nat) (width : Nat) (textPos : Nat) (prev next : List (Block P))
    (cur : Option (Block P)) : Exec P.Err (List (Block P) × List (Block P)) :=
  match cur with
  | none =>
    match next with
    | [] => throwErr .missingText
    | block :: next => seekTextLoopS K width textPos prev next (some block)
  | some block =>
    match block.chunks with
    | [] => seekTextLoopS K width textPos (block :: prev) next none
    | chunk :: chunks =>
      let block := { block with chunks := chunks }
      match chunk.notn with
      | .empty | .newline _ | .concat _ _ => panicking
      | .focusMark => seekTextLoopS K width textPos prev next (some block)
      | .endOfLine => seekTextLoopS K width textPos prev next (some { block with atEol := true })
      | .textual t =>
        if t.isFromText then do
          let (leftT, rightT) := t.splitAt textPos
          let block ← block.pushText leftT
          pure (prev,
            { block with chunks := { id := chunk.id, notn := .textual rightT } :: block.chunks }
              :: next)
        else do
          let block ← block.pushText t
          seekTextLoopS K width textPos prev next (some block)
      | .child _ note => do
        let c ← Chunk.newS K note
        let (next, block) ← expandFirstS K next block c
        seekTextLoopS K width textPos prev next (some block)
      | .choice opt1 opt2 => do
        let c ← chooseS K width block opt1 opt2
        let (next, block) ← expandFirstS K next block c
        seekTextLoopS K width textPos prev next (some block)
partial_fixpoint

/-- `Printer.seekText` (see Model/Printer.lean) with a limited stack — /repo/src/pretty_print.rs:465-511. -/
def Printer.seekTextS (K : Nat) (p : Printer P) (chunk : Chunk P) (textPos : Nat) :
    Exec P.Err (Printer P) :=
  match p.next with
  | [] => panicking
  | firstBlock :: next => do
    let (next, firstBlock) ← expandFirstS K next firstBlock chunk
    let (prev, next) ← seekTextLoopS K p.width textPos p.prev (firstBlock :: next) none
    pure { p with prev, next }

/-- `seekChildStep2` (see Model/Printer.lean) with a limited stack — /repo/src/pretty_print.rs:557-582. -/
def seekChildStep2S (K : Nat) (width : Nat) (parentId : P.Id) (childIndex : Nat) (next : List (Block P))
    (block : Block P) : Exec P.Err (Step2 P) :=
  match block.chunks with
  | [] => pure (.again next)
  | chunk :: chunks =>
    let block := { block with chunks := chunks }
    match chunk.notn with
    | .focusMark => seekChildStep2S K width parentId childIndex next block
    | .empty | .newline _ | .concat _ _ => panicking
    | .endOfLine => seekChildStep2S K width parentId childIndex next { block with atEol := true }
    | .textual t => do
      let block ← block.pushText t
      seekChildStep2S K width parentId childIndex next block
    | .child i child =>
      if chunk.id = parentId ∧ i = childIndex then do
        let c ← Chunk.newS K child
        pure (.found (block :: next) c)
      else do
        let c ← Chunk.newS K child
        let (next, block) ← expandFirstS K next block c
        pure (.again (block :: next))
    | .choice opt1 opt2 => do
      let c ← chooseS K width block opt1 opt2
      let (next, block) ← expandFirstS K next block c
      pure (.again (block :: next))
partial_fixpoint

/-- `seekChildLoop` (see Model/Printer.lean) with a limited stack — /repo/src/pretty_print.rs:528-583. -/
def seekChildLoopS (K : Nat) (width : Nat) (parentId : P.Id) (childIndex : Nat)
    (prev next : List (Block P)) : Exec P.Err (List (Block P) × List (Block P) × Chunk P) :=
  match skipBlocks parentId childIndex prev next with
  | (_, []) => throwErr (.invalidPath childIndex)
  | (prev, block :: next) => do
    match ← seekChildStep2S K width parentId childIndex next block with
    | .found next chunk => pure (prev, next, chunk)
    | .again next => seekChildLoopS K width parentId childIndex prev next
partial_fixpoint

/-- `Printer.seekChild` (see Model/Printer.lean) with a limited stack — /repo/src/pretty_print.rs:516-584. -/
def Printer.seekChildS (K : Nat) (p : Printer P) (parent : Chunk P) (childIndex : Nat) :
    Exec P.Err (Printer P × Chunk P) :=
  match p.next with
  | [] => panicking
  | block :: next => do
    let (next, block) ← expandFirstS K next block parent
    let (prev, next, chunk) ← seekChildLoopS K p.width parent.id childIndex p.prev (block :: next)
    pure ({ p with prev, next }, chunk)

/-- `Printer.seekPath` (see Model/Printer.lean) with a limited stack — /repo/src/pretty_print.rs:369-371. -/
def Printer.seekPathS (K : Nat) (p : Printer P) (chunk : Chunk P) :
    List Nat → Exec P.Err (Printer P × Chunk P)
  | [] => pure (p, chunk)
  | i :: path => do
    let (p, chunk) ← p.seekChildS K chunk i
    p.seekPathS K chunk path

/-- `Printer.seek` (see Model/Printer.lean) with a limited stack — /repo/src/pretty_print.rs:358-378. -/
def Printer.seekS (K : Nat) (p : Printer P) (doc : P.Node) (path : List Nat) (target : FocusTarget)
    (rootStyle : Option P.Style) : Exec P.Err (Printer P) := do
  let note ← DCN.withOptionalStyle doc rootStyle
  let chunk ← Chunk.newS K note
  let (p, chunk) ← p.seekPathS K chunk path
  match target with
  | .start => p.seekStartS K chunk
  | .end => p.seekEndS K chunk
  | .text pos => p.seekTextS K chunk pos
  | .mark => p.seekMarkS K chunk

/-- `prettyPrint` (see Model/Printer.lean) with a limited stack — /repo/src/pretty_print.rs:32-71. -/
def prettyPrintS (K : Nat) (doc : P.Node) (width : Nat) (path : List Nat) (target : FocusTarget)
    (rootStyle : Option P.Style) : Exec P.Err (Printed P) := do
  let printer ← Printer.new width
  let printer ← printer.seekS K doc path target rootStyle
  match printer.next with
  | [] => panicking
  | b :: _ =>
    let numLeftSegs := b.segments.length
    match ← printer.printNextLineS K with
    | (none, _) => panicking
    | (some line, printer) =>
      -- `Vec::split_off` panics if the index is past the end
      if numLeftSegs > line.segments.length then panicking else
      pure {
        up := { width, prev := printer.prev, next := [] }
        focused := {
          rightSegments := line.segments.drop numLeftSegs
          leftSegments := line.segments.take numLeftSegs }
        down := { width, prev := [], next := printer.next } }

/-- `Printer.nextUp` (see Model/Printer.lean) with a limited stack — /repo/src/pretty_print.rs:814-820. -/
def Printer.nextUpS (K : Nat) (p : Printer P) : Exec P.Err (Option (Line P) × Printer P) := p.printPrevLineS K

/-- `Printer.nextDown` (see Model/Printer.lean) with a limited stack — /repo/src/pretty_print.rs:825-831. -/
def Printer.nextDownS (K : Nat) (p : Printer P) : Exec P.Err (Option (Line P) × Printer P) := p.printNextLineS K

/-- `toStringLoop` (see Model/Printer.lean) with a limited stack — /repo/src/pretty_print.rs:83-86. -/
def toStringLoopS (K : Nat) (string : String) (p : Printer P) : Exec P.Err String := do
  match ← p.nextDownS K with
  | (none, _) => pure string
  | (some line, p) => toStringLoopS K (string ++ "\n" ++ line.toString) p
partial_fixpoint

/-- `prettyPrintToString` (see Model/Printer.lean) with a limited stack — /repo/src/pretty_print.rs:77-88. -/
def prettyPrintToStringS (K : Nat) (doc : P.Node) (width : Nat) : Exec P.Err String := do
  let r ← prettyPrintS K doc width [] .start none
  toStringLoopS K r.focused.toString r.down

end PPP
