import Verif.Model.Printer
/-
The printer once more, with a counter of the work it does — /repo/src/pretty_print.rs and
/repo/src/consolidated_notation.rs.

Every definition is a copy of the one of the same name without the final `C` (in Model/Printer.lean or
Model/Consolidated.lean, where the lines of the code are cited) in which steps are counted:

* every call of a method of the `PrettyDoc` trait,
* every call of `eval` (it calls itself),
* every iteration of a loop,
* for a `Block::new`, every level of indentation that is copied, for the end of
  `expand_focusing_last_block`, every chunk that is moved, and for `contains_relevant_chunk`, `scan`
  steps for every chunk that is looked at (`scan` is a parameter, to be able to count these apart).

What is not counted: the time taken inside of the trait's methods, and the length of the texts (a
text is a slice, which is not copied until the caller asks for a `String`).

That the copies compute the same results as the originals is proved (`C55_same_*`).
-/
namespace PPP

/-- A call that may diverge, fail or return, and the number of steps it took if it did not diverge. -/
def Counted (E : Type) (α : Type) := Option (Nat × Except (Fail E) α)

namespace Counted
variable {E α β : Type}

/-- Return a value or a failure, after `n` steps. -/
def ret (n : Nat) (r : Res E α) : Counted E α := some (n, r)

/-- Run one computation after the other: steps add up, and failures propagate. -/
def andThen (x : Counted E α) (f : α → Counted E β) : Counted E β :=
  match x with
  | none => none
  | some (n, .error e) => some (n, .error e)
  | some (n, .ok a) =>
    match f a with
    | none => none
    | some (m, r) => some (n + m, r)

instance : Monad (Counted E) where
  pure a := ret 0 (.ok a)
  bind := andThen

instance : Lean.Order.PartialOrder (Counted E α) :=
  inferInstanceAs (Lean.Order.PartialOrder (Option (Nat × Except (Fail E) α)))
instance : Lean.Order.CCPO (Counted E α) :=
  inferInstanceAs (Lean.Order.CCPO (Option (Nat × Except (Fail E) α)))
instance : Nonempty (Counted E α) := ⟨none⟩

open Lean.Order in
instance : MonoBind (Counted E) where
  bind_mono_left {α β a₁ a₂ f} h := by
    cases h with
    | bot => exact FlatOrder.rel.bot
    | refl => exact FlatOrder.rel.refl
  bind_mono_right {α β a f₁ f₂} h := by
    show FlatOrder.rel (andThen a f₁) (andThen a f₂)
    match a with
    | none => exact FlatOrder.rel.refl
    | some (n, .error e) => exact FlatOrder.rel.refl
    | some (n, .ok x) =>
      have := h x
      simp only [andThen]
      generalize f₁ x = y at this
      generalize f₂ x = z at this
      cases this with
      | bot => exact FlatOrder.rel.bot
      | refl => exact FlatOrder.rel.refl

/-- Take `n` steps. -/
def tick (n : Nat) : Counted E Unit := ret n (.ok ())

/-- What the computation returns, without the count. -/
def result (x : Counted E α) : Exec E α := ExceptT.mk (x.map (·.2))

end Counted

/-- Run uncounted code (it must not contain anything that should be counted). -/
def Exec.free {E α : Type} (x : Exec E α) : Counted E α :=
  match x.run with
  | none => none
  | some r => .ret 0 r

open Counted (tick)
variable {P : PrettyDoc}

/-- `doc.method()?`: one step. -/
def callC {E α : Type} (c : Call E α) : Counted E α := .ret 1 (Call.toRes c)

/-! ### /repo/src/consolidated_notation.rs -/

/-- `with_optional_style` — /repo/src/consolidated_notation.rs:228-244, counted. -/
def DCN.withOptionalStyleC (doc : P.Node) (style : Option P.Style) : Counted P.Err (DCN P) := do
  let notn ← callC (P.notn doc)
  let nodeStyle ← callC (P.nodeStyle doc)
  pure {
    doc, notn
    flat := false
    indent := []
    joinPos := none
    style := match style with
      | some s => P.combine s nodeStyle
      | none => nodeStyle }

/-- The document node inspected by a `Check` — /repo/src/consolidated_notation.rs:319-341, counted. -/
def DCN.docToInspectC (d : DCN P) (pos : CheckPos) : Counted P.Err P.Node :=
  match pos with
  | .here => pure d.doc
  | .child i => do
    match ← callC (P.numChildren d.doc) with
    | none => (throwErr .checkPosChildOnChildlessDoc).free
    | some n =>
      match normalizeChildIndex i n with
      | none => (throwErr (.checkPosChildIndexOutOfBounds i n)).free
      | some index => callC (P.unwrapChild d.doc index)
  | .rightChild =>
    match d.joinPos with
    | none => panicking.free
    | some jp => pure jp.child
  | .leftChild =>
    match d.joinPos with
    | none => panicking.free
    | some jp =>
      match jp.index with
      | 0 => panicking.free
      | k + 1 => callC (P.unwrapPrevSibling jp.child jp.parent k)

/-- `eval` — /repo/src/consolidated_notation.rs:251-440, counted: every call of
    `eval` is a step, and every call of a method is. -/
def DCN.evalC (d : DCN P) : Counted P.Err (CN P) := do
  tick 1
  match d.notn with
  | .empty => pure .empty
  | .endOfLine => pure .endOfLine
  | .newline => pure (.newline d.indent)
  | .literal s =>
    pure (.textual { str := s, width := P.strWidth s, style := d.style, isFromText := false })
  | .text => do
    match ← callC (P.numChildren d.doc) with
    | some _ => (throwErr .textNotationOnTextlessDoc).free
    | none =>
      let text ← callC (P.unwrapText d.doc)
      pure (.textual
        { str := text, width := P.strWidth text, style := d.style, isFromText := true })
  | .flat note => DCN.evalC { d with flat := true, notn := note }
  | .indent pre styleLabel note => do
    let style ← match styleLabel with
      | some label => do
        let s ← callC (P.lookupStyle d.doc label)
        pure (P.combine d.style s)
      | none => pure d.style
    DCN.evalC { d with
      indent := { str := pre, width := P.strWidth pre, style := style } :: d.indent
      notn := note }
  | .concat note1 note2 => pure (.concat { d with notn := note1 } { d with notn := note2 })
  | .choice note1 note2 =>
    if d.flat then DCN.evalC { d with notn := note1 }
    else pure (.choice { d with notn := note1 } { d with notn := note2 })
  | .check cond pos note1 note2 => do
    let doc ← d.docToInspectC pos
    if ← callC (P.condition doc cond) then DCN.evalC { d with notn := note1 }
    else DCN.evalC { d with notn := note2 }
  | .child i => do
    match ← callC (P.numChildren d.doc) with
    | none => (throwErr .childNotationOnChildlessDoc).free
    | some n =>
      match normalizeChildIndex i n with
      | none => (throwErr (.childIndexOutOfBounds i n)).free
      | some index =>
        let doc ← callC (P.unwrapChild d.doc index)
        let notn ← callC (P.notn doc)
        let nodeStyle ← callC (P.nodeStyle doc)
        pure (.child index { d with doc, notn, style := P.combine d.style nodeStyle })
  | .style label note => do
    let s ← callC (P.lookupStyle d.doc label)
    DCN.evalC { d with style := P.combine d.style s, notn := note }
  | .focusMark => pure .focusMark
  | .count zero one many => do
    match ← callC (P.numChildren d.doc) with
    | none => (throwErr .countNotationOnChildlessDoc).free
    | some 0 => DCN.evalC { d with notn := zero }
    | some 1 => DCN.evalC { d with notn := one }
    | some _ => DCN.evalC { d with notn := many }
  | .fold first join => do
    match ← callC (P.numChildren d.doc) with
    | none => (throwErr .numChildrenChanged).free
    | some 0 => pure .empty
    | some 1 => DCN.evalC { d with notn := first }
    | some n =>
      let child ← callC (P.unwrapLastChild d.doc)
      DCN.evalC { d with
        joinPos := some { parent := d.doc, child, index := n - 1, first, join }
        notn := join }
  | .left =>
    match d.joinPos with
    | none => panicking.free
    | some jp =>
      match jp.index with
      | 0 => panicking.free
      | 1 => DCN.evalC { d with notn := jp.first, joinPos := none }
      | k + 1 => do
        let child ← callC (P.unwrapPrevSibling jp.child jp.parent k)
        DCN.evalC { d with notn := jp.join, joinPos := some { jp with child, index := k } }
  | .right =>
    match d.joinPos with
    | none => panicking.free
    | some jp => do
      let notn ← callC (P.notn jp.child)
      let nodeStyle ← callC (P.nodeStyle jp.child)
      pure (.child jp.index
        { d with doc := jp.child, notn, style := P.combine d.style nodeStyle, joinPos := none })
partial_fixpoint

/-! ### /repo/src/pretty_print.rs -/

/-- `Chunk::new` — /repo/src/pretty_print.rs:105-110, counted. -/
def Chunk.newC (d : DCN P) : Counted P.Err (Chunk P) := do
  let id ← callC (P.id d.doc)
  let notn ← d.evalC
  pure { id, notn }

/-- `Block::new` — /repo/src/pretty_print.rs:235-250, counted: a step for every level
    of indentation, and one more. -/
def Block.newC (indentation : Indent P) (chunks : List (Chunk P)) : Counted P.Err (Block P) := do
  tick (1 + indentation.length)
  (Block.new indentation chunks).free

/-- The loop of `fits` — /repo/src/pretty_print.rs:768-808, counted. -/
def fitsLoopC (nextChunks : List (Chunk P)) (remaining : Nat) (notations : List (CN P))
    (atEol : Bool) : Counted P.Err Bool := do
  tick 1
  match notations with
  | [] =>
    match nextChunks with
    | [] => pure true
    | chunk :: more => fitsLoopC more remaining [chunk.notn] atEol
  | notn :: notations =>
    match notn with
    | .empty => fitsLoopC nextChunks remaining notations atEol
    | .focusMark => fitsLoopC nextChunks remaining notations atEol
    | .textual t =>
      if atEol then pure false
      else if t.width ≤ remaining then
        fitsLoopC nextChunks (remaining - t.width) notations atEol
      else pure false
    | .endOfLine => fitsLoopC nextChunks remaining notations true
    | .newline _ => pure true
    | .child _ note => do
      let n ← note.evalC
      fitsLoopC nextChunks remaining (n :: notations) atEol
    | .concat note1 note2 => do
      let n2 ← note2.evalC
      let n1 ← note1.evalC
      fitsLoopC nextChunks remaining (n1 :: n2 :: notations) atEol
    | .choice _opt1 opt2 => do
      let n ← opt2.evalC
      fitsLoopC nextChunks remaining (n :: notations) atEol
partial_fixpoint

/-- `fits` — /repo/src/pretty_print.rs:754-809, counted. -/
def fitsC (width : Nat) (atEol : Bool) (notn : CN P) (nextChunks : List (Chunk P)) :
    Counted P.Err Bool :=
  fitsLoopC nextChunks width [notn] atEol

/-- `Printer::choose` — /repo/src/pretty_print.rs:677-699, counted. -/
def chooseC (width : Nat) (block : Block P) (opt1 opt2 : DCN P) : Counted P.Err (Chunk P) := do
  let chunk1 ← Chunk.newC opt1
  if width ≥ block.prefixLen then
    if ← fitsC (width - block.prefixLen) block.atEol chunk1.notn block.chunks then
      pure chunk1
    else Chunk.newC opt2
  else Chunk.newC opt2

/-- The loop of `expand_focusing_first_block` — /repo/src/pretty_print.rs:606-621, counted. -/
def expandFirstLoopC (next : List (Block P)) (block : Block P) (stack : List (Chunk P)) :
    Counted P.Err (List (Block P) × Block P) := do
  tick 1
  match stack with
  | [] => pure (next, block)
  | chunk :: stack =>
    match chunk.notn with
    | .empty => expandFirstLoopC next block stack
    | .textual _ | .choice _ _ | .child _ _ | .endOfLine | .focusMark =>
      expandFirstLoopC next { block with chunks := chunk :: block.chunks } stack
    | .newline indentation => do
      let b ← Block.newC indentation block.chunks
      expandFirstLoopC (b :: next) { block with chunks := [] } stack
    | .concat left right => do
      let l ← Chunk.newC left
      let r ← Chunk.newC right
      expandFirstLoopC next block (r :: l :: stack)
partial_fixpoint

/-- `Printer::expand_focusing_first_block` — /repo/src/pretty_print.rs:596-623, counted. -/
def expandFirstC (next : List (Block P)) (block : Block P) (chunk : Chunk P) :
    Counted P.Err (List (Block P) × Block P) :=
  expandFirstLoopC next block [chunk]

/-- The loop of `expand_focusing_last_block` — /repo/src/pretty_print.rs:646-670, counted: a step for
    every chunk that is moved to another block. -/
def expandLastLoopC (prev : List (Block P)) (block : Block P) (chunks stack : List (Chunk P)) :
    Counted P.Err (List (Block P) × Block P) := do
  tick 1
  match stack with
  | [] => do
    tick chunks.length
    pure (prev, { block with chunks := chunks.reverse ++ block.chunks })
  | chunk :: stack =>
    match chunk.notn with
    | .empty => expandLastLoopC prev block chunks stack
    | .textual _ | .choice _ _ | .child _ _ | .endOfLine | .focusMark =>
      expandLastLoopC prev block (chunk :: chunks) stack
    | .newline indentation => do
      tick chunks.length
      let prevBlock : Block P :=
        { segments := block.segments
          prefixLen := block.prefixLen
          atEol := block.atEol
          chunks := chunks.reverse }
      let b ← Block.newC indentation block.chunks
      expandLastLoopC (prevBlock :: prev) b [] stack
    | .concat left right => do
      let r ← Chunk.newC right
      let l ← Chunk.newC left
      expandLastLoopC prev block chunks (l :: r :: stack)
partial_fixpoint

/-- `Printer::expand_focusing_last_block` — /repo/src/pretty_print.rs:635-672, counted. -/
def expandLastC (prev : List (Block P)) (block : Block P) (chunk : Chunk P) :
    Counted P.Err (List (Block P) × Block P) :=
  expandLastLoopC prev block [] [chunk]

/-- `Printer::new` — /repo/src/pretty_print.rs:291-298, counted. -/
def Printer.newC (width : Nat) : Counted P.Err (Printer P) := do
  let emptyBlock ← Block.newC [] []
  pure { width, prev := [], next := [emptyBlock] }

/-- The loop of `print_next_line` — /repo/src/pretty_print.rs:309-326, counted. -/
def printNextLoopC (width : Nat) (next : List (Block P)) (block : Block P) :
    Counted P.Err (Line P × List (Block P)) := do
  tick 1
  match block.chunks with
  | [] => do
    let line ← block.print.free
    pure (line, next)
  | chunk :: chunks =>
    let block := { block with chunks := chunks }
    match chunk.notn with
    | .focusMark => printNextLoopC width next block
    | .empty | .newline _ | .concat _ _ => panicking.free
    | .endOfLine => printNextLoopC width next { block with atEol := true }
    | .textual t => do
      let block ← (block.pushText t).free
      printNextLoopC width next block
    | .child _ note => do
      let c ← Chunk.newC note
      let (next, block) ← expandFirstC next block c
      printNextLoopC width next block
    | .choice opt1 opt2 => do
      let c ← chooseC width block opt1 opt2
      let (next, block) ← expandFirstC next block c
      printNextLoopC width next block
partial_fixpoint

/-- `Printer::print_next_line` — /repo/src/pretty_print.rs:301-327, counted. -/
def Printer.printNextLineC (p : Printer P) : Counted P.Err (Option (Line P) × Printer P) := do
  tick 1
  match p.next with
  | [] => pure (none, p)
  | block :: next => do
    let (line, next) ← printNextLoopC p.width next block
    pure (some line, { p with next })

/-- The loop of `print_prev_line` — /repo/src/pretty_print.rs:338-353, counted. -/
def printPrevLoopC (width : Nat) (prev : List (Block P)) (block : Block P) :
    Counted P.Err (Line P × List (Block P)) := do
  tick 1
  match block.chunks with
  | [] => do
    let line ← block.print.free
    pure (line, prev)
  | chunk :: chunks =>
    let block := { block with chunks := chunks }
    match chunk.notn with
    | .focusMark => printPrevLoopC width prev block
    | .empty | .newline _ | .concat _ _ => panicking.free
    | .endOfLine => printPrevLoopC width prev { block with atEol := true }
    | .textual t => do
      let block ← (block.pushText t).free
      printPrevLoopC width prev block
    | .child _ note => do
      let c ← Chunk.newC note
      let (prev, block) ← expandLastC prev block c
      printPrevLoopC width prev block
    | .choice opt1 opt2 => do
      let c ← chooseC width block opt1 opt2
      let (prev, block) ← expandLastC prev block c
      printPrevLoopC width prev block
partial_fixpoint

/-- `Printer::print_prev_line` — /repo/src/pretty_print.rs:330-354, counted. -/
def Printer.printPrevLineC (p : Printer P) : Counted P.Err (Option (Line P) × Printer P) := do
  tick 1
  match p.prev with
  | [] => pure (none, p)
  | block :: prev => do
    let (line, prev) ← printPrevLoopC p.width prev block
    pure (some line, { p with prev })

/-- The loop of `seek_end` — /repo/src/pretty_print.rs:392-407, counted. -/
def seekEndLoopC (width : Nat) (numChunksAfter : Nat) (prev : List (Block P)) (block : Block P) :
    Counted P.Err (List (Block P) × Block P) := do
  tick 1
  if block.chunks.length > numChunksAfter then
    match block.chunks with
    | [] => panicking.free
    | chunk :: chunks =>
      let block := { block with chunks := chunks }
      match chunk.notn with
      | .focusMark => seekEndLoopC width numChunksAfter prev block
      | .empty | .newline _ | .concat _ _ => panicking.free
      | .endOfLine => seekEndLoopC width numChunksAfter prev { block with atEol := true }
      | .textual t => do
        let block ← (block.pushText t).free
        seekEndLoopC width numChunksAfter prev block
      | .child _ note => do
        let c ← Chunk.newC note
        let (prev, block) ← expandLastC prev block c
        seekEndLoopC width numChunksAfter prev block
      | .choice opt1 opt2 => do
        let c ← chooseC width block opt1 opt2
        let (prev, block) ← expandLastC prev block c
        seekEndLoopC width numChunksAfter prev block
  else pure (prev, block)
partial_fixpoint

/-- `Printer::seek_end` — /repo/src/pretty_print.rs:382-410, counted. -/
def Printer.seekEndC (p : Printer P) (chunk : Chunk P) : Counted P.Err (Printer P) :=
  match p.next with
  | [] => panicking.free
  | block :: next => do
    let numChunksAfter := block.chunks.length
    let (prev, block) ← expandLastC p.prev block chunk
    let (prev, block) ← seekEndLoopC p.width numChunksAfter prev block
    pure { p with prev, next := block :: next }

/-- `Printer::seek_start` — /repo/src/pretty_print.rs:414-421, counted. -/
def Printer.seekStartC (p : Printer P) (chunk : Chunk P) : Counted P.Err (Printer P) :=
  match p.next with
  | [] => panicking.free
  | block :: next => do
    let (next, block) ← expandFirstC next block chunk
    pure { p with next := block :: next }

/-- The nested loops of `seek_mark` — /repo/src/pretty_print.rs:434-460, counted. -/
def seekMarkLoopC (width : Nat) (id : P.Id) (prev next : List (Block P)) (cur : Option (Block P)) :
    Counted P.Err (List (Block P) × List (Block P)) := do
  tick 1
  match cur with
  | none =>
    match next with
    | [] => (throwErr .missingFocusMark).free
    | block :: next => seekMarkLoopC width id prev next (some block)
  | some block =>
    match block.chunks with
    | [] => seekMarkLoopC width id (block :: prev) next none
    | chunk :: chunks =>
      let block := { block with chunks := chunks }
      match chunk.notn with
      | .empty | .newline _ | .concat _ _ => panicking.free
      | .focusMark =>
        if chunk.id = id then pure (prev, block :: next)
        else seekMarkLoopC width id prev next (some block)
      | .endOfLine => seekMarkLoopC width id prev next (some { block with atEol := true })
      | .textual t => do
        let block ← (block.pushText t).free
        seekMarkLoopC width id prev next (some block)
      | .child _ note => do
        let c ← Chunk.newC note
        let (next, block) ← expandFirstC next block c
        seekMarkLoopC width id prev next (some block)
      | .choice opt1 opt2 => do
        let c ← chooseC width block opt1 opt2
        let (next, block) ← expandFirstC next block c
        seekMarkLoopC width id prev next (some block)
partial_fixpoint

/-- `Printer::seek_mark` — /repo/src/pretty_print.rs:425-461, counted. -/
def Printer.seekMarkC (p : Printer P) (chunk : Chunk P) : Counted P.Err (Printer P) :=
  match p.next with
  | [] => panicking.free
  | firstBlock :: next => do
    let (next, firstBlock) ← expandFirstC next firstBlock chunk
    let (prev, next) ← seekMarkLoopC p.width chunk.id p.prev (firstBlock :: next) none
    pure { p with prev, next }

/-- The nested loops of `seek_text` — /repo/src/pretty_print.rs:477-510, counted. -/
def seekTextLoopC (width : Nat) (textPos : Nat) (prev next : List (Block P))
    (cur : Option (Block P)) : Counted P.Err (List (Block P) × List (Block P)) := do
  tick 1
  match cur with
  | none =>
    match next with
    | [] => (throwErr .missingText).free
    | block :: next => seekTextLoopC width textPos prev next (some block)
  | some block =>
    match block.chunks with
    | [] => seekTextLoopC width textPos (block :: prev) next none
    | chunk :: chunks =>
      let block := { block with chunks := chunks }
      match chunk.notn with
      | .empty | .newline _ | .concat _ _ => panicking.free
      | .focusMark => seekTextLoopC width textPos prev next (some block)
      | .endOfLine => seekTextLoopC width textPos prev next (some { block with atEol := true })
      | .textual t =>
        if t.isFromText then do
          let (leftT, rightT) := t.splitAt textPos
          let block ← (block.pushText leftT).free
          pure (prev,
            { block with chunks := { id := chunk.id, notn := .textual rightT } :: block.chunks }
              :: next)
        else do
          let block ← (block.pushText t).free
          seekTextLoopC width textPos prev next (some block)
      | .child _ note => do
        let c ← Chunk.newC note
        let (next, block) ← expandFirstC next block c
        seekTextLoopC width textPos prev next (some block)
      | .choice opt1 opt2 => do
        let c ← chooseC width block opt1 opt2
        let (next, block) ← expandFirstC next block c
        seekTextLoopC width textPos prev next (some block)
partial_fixpoint

/-- `Printer::seek_text` — /repo/src/pretty_print.rs:465-511, counted. -/
def Printer.seekTextC (p : Printer P) (chunk : Chunk P) (textPos : Nat) :
    Counted P.Err (Printer P) :=
  match p.next with
  | [] => panicking.free
  | firstBlock :: next => do
    let (next, firstBlock) ← expandFirstC next firstBlock chunk
    let (prev, next) ← seekTextLoopC p.width textPos p.prev (firstBlock :: next) none
    pure { p with prev, next }

/-- The number of chunks that `contains_relevant_chunk` —
    /repo/src/pretty_print.rs:534-540 — looks at (`any` stops at the first
    one that is relevant). -/
def scanned (parentId : P.Id) (childIndex : Nat) (chunks : List (Chunk P)) : Nat :=
  match chunks with
  | [] => 0
  | chunk :: chunks =>
    if containsRelevantChunk parentId childIndex ⟨[], 0, false, [chunk]⟩ then 1
    else 1 + scanned parentId childIndex chunks

/-- The steps of step 1 of `seek_child` — /repo/src/pretty_print.rs:541-548: one for every block, and
    `scan` for every chunk that is looked at. -/
def skipSteps (scan : Nat) (parentId : P.Id) (childIndex : Nat) (next : List (Block P)) : Nat :=
  match next with
  | [] => 1
  | block :: next =>
    1 + scan * scanned parentId childIndex block.chunks +
      if containsRelevantChunk parentId childIndex block then 0
      else skipSteps scan parentId childIndex next

/-- Step 2 of `seek_child` — /repo/src/pretty_print.rs:557-582, counted. -/
def seekChildStep2C (width : Nat) (parentId : P.Id) (childIndex : Nat) (next : List (Block P))
    (block : Block P) : Counted P.Err (Step2 P) := do
  tick 1
  match block.chunks with
  | [] => pure (.again next)
  | chunk :: chunks =>
    let block := { block with chunks := chunks }
    match chunk.notn with
    | .focusMark => seekChildStep2C width parentId childIndex next block
    | .empty | .newline _ | .concat _ _ => panicking.free
    | .endOfLine => seekChildStep2C width parentId childIndex next { block with atEol := true }
    | .textual t => do
      let block ← (block.pushText t).free
      seekChildStep2C width parentId childIndex next block
    | .child i child =>
      if chunk.id = parentId ∧ i = childIndex then do
        let c ← Chunk.newC child
        pure (.found (block :: next) c)
      else do
        let c ← Chunk.newC child
        let (next, block) ← expandFirstC next block c
        pure (.again (block :: next))
    | .choice opt1 opt2 => do
      let c ← chooseC width block opt1 opt2
      let (next, block) ← expandFirstC next block c
      pure (.again (block :: next))
partial_fixpoint

/-- The outer loop of `seek_child` — /repo/src/pretty_print.rs:528-583, counted. -/
def seekChildLoopC (scan : Nat) (width : Nat) (parentId : P.Id) (childIndex : Nat)
    (prev next : List (Block P)) :
    Counted P.Err (List (Block P) × List (Block P) × Chunk P) := do
  tick (skipSteps scan parentId childIndex next)
  match skipBlocks parentId childIndex prev next with
  | (_, []) => (throwErr (.invalidPath childIndex)).free
  | (prev, block :: next) => do
    match ← seekChildStep2C width parentId childIndex next block with
    | .found next chunk => pure (prev, next, chunk)
    | .again next => seekChildLoopC scan width parentId childIndex prev next
partial_fixpoint

/-- `Printer::seek_child` — /repo/src/pretty_print.rs:516-584, counted. -/
def Printer.seekChildC (scan : Nat) (p : Printer P) (parent : Chunk P) (childIndex : Nat) :
    Counted P.Err (Printer P × Chunk P) :=
  match p.next with
  | [] => panicking.free
  | block :: next => do
    let (next, block) ← expandFirstC next block parent
    let (prev, next, chunk) ← seekChildLoopC scan p.width parent.id childIndex p.prev (block :: next)
    pure ({ p with prev, next }, chunk)

/-- The loop over `path` in `seek` — /repo/src/pretty_print.rs:369-371, counted. -/
def Printer.seekPathC (scan : Nat) (p : Printer P) (chunk : Chunk P) :
    List Nat → Counted P.Err (Printer P × Chunk P)
  | [] => pure (p, chunk)
  | i :: path => do
    tick 1
    let (p, chunk) ← p.seekChildC scan chunk i
    p.seekPathC scan chunk path

/-- `Printer::seek` — /repo/src/pretty_print.rs:358-378, counted. -/
def Printer.seekC (scan : Nat) (p : Printer P) (doc : P.Node) (path : List Nat)
    (target : FocusTarget) (rootStyle : Option P.Style) : Counted P.Err (Printer P) := do
  let note ← DCN.withOptionalStyleC doc rootStyle
  let chunk ← Chunk.newC note
  let (p, chunk) ← p.seekPathC scan chunk path
  match target with
  | .start => p.seekStartC chunk
  | .end => p.seekEndC chunk
  | .text pos => p.seekTextC chunk pos
  | .mark => p.seekMarkC chunk

/-- `pretty_print` — /repo/src/pretty_print.rs:32-71, counted. -/
def prettyPrintC (scan : Nat) (doc : P.Node) (width : Nat) (path : List Nat) (target : FocusTarget)
    (rootStyle : Option P.Style) : Counted P.Err (Printed P) := do
  let printer ← Printer.newC width
  let printer ← printer.seekC scan doc path target rootStyle
  match printer.next with
  | [] => panicking.free
  | b :: _ =>
    let numLeftSegs := b.segments.length
    match ← printer.printNextLineC with
    | (none, _) => panicking.free
    | (some line, printer) =>
      if numLeftSegs > line.segments.length then panicking.free else
      pure {
        up := { width, prev := printer.prev, next := [] }
        focused := {
          rightSegments := line.segments.drop numLeftSegs
          leftSegments := line.segments.take numLeftSegs }
        down := { width, prev := [], next := printer.next } }

/-- The loop of `pretty_print_to_string` — /repo/src/pretty_print.rs:83-86, counted. -/
def toStringLoopC (string : String) (p : Printer P) : Counted P.Err String := do
  match ← p.printNextLineC with
  | (none, _) => pure string
  | (some line, p) => toStringLoopC (string ++ "\n" ++ line.toString) p
partial_fixpoint

/-- `pretty_print_to_string` — /repo/src/pretty_print.rs:77-88, counted. -/
def prettyPrintToStringC (scan : Nat) (doc : P.Node) (width : Nat) : Counted P.Err String := do
  let r ← prettyPrintC scan doc width [] .start none
  toStringLoopC r.focused.toString r.down

end PPP
