import Verif.Model.Consolidated
/-
How deeply `eval` calls itself — /repo/src/consolidated_notation.rs:251-440.

Every recursive call in `eval` is the last thing that the calling invocation does, but Rust does not promise
to reuse its stack frame: each call takes room on the stack.  So here `eval` is cut into single invocations.
-/
namespace PPP
variable {P : PrettyDoc}

/-- One invocation of `eval` — /repo/src/consolidated_notation.rs:251-440: either it returns (`inl`), or it ends
    by calling itself (`inr`, with the delayed notation that it is called on).  `Model/Consolidated.lean` has the
    same function in one piece; that they agree is theorem `C74_eval_step`. -/
def DCN.evalStep (d : DCN P) : Exec P.Err (CN P ⊕ DCN P) :=
  match d.notn with
  | .empty => pure (.inl .empty)
  | .endOfLine => pure (.inl .endOfLine)
  | .newline => pure (.inl (.newline d.indent))
  | .literal s =>
    pure (.inl (.textual { str := s, width := P.strWidth s, style := d.style, isFromText := false }))
  | .text => do
    match ← call (P.numChildren d.doc) with
    | some _ => throwErr .textNotationOnTextlessDoc
    | none =>
      let text ← call (P.unwrapText d.doc)
      pure (.inl (.textual
        { str := text, width := P.strWidth text, style := d.style, isFromText := true }))
  | .flat note => pure (.inr { d with flat := true, notn := note })
  | .indent pre styleLabel note => do
    let style ← match styleLabel with
      | some label => do
        let s ← call (P.lookupStyle d.doc label)
        pure (P.combine d.style s)
      | none => pure d.style
    pure (.inr { d with
      indent := { str := pre, width := P.strWidth pre, style := style } :: d.indent
      notn := note })
  | .concat note1 note2 => pure (.inl (.concat { d with notn := note1 } { d with notn := note2 }))
  | .choice note1 note2 =>
    if d.flat then pure (.inr { d with notn := note1 })
    else pure (.inl (.choice { d with notn := note1 } { d with notn := note2 }))
  | .check cond pos note1 note2 => do
    let doc ← d.docToInspect pos
    if ← call (P.condition doc cond) then pure (.inr { d with notn := note1 })
    else pure (.inr { d with notn := note2 })
  | .child i => do
    match ← call (P.numChildren d.doc) with
    | none => throwErr .childNotationOnChildlessDoc
    | some n =>
      match normalizeChildIndex i n with
      | none => throwErr (.childIndexOutOfBounds i n)
      | some index =>
        let doc ← call (P.unwrapChild d.doc index)
        let notn ← call (P.notn doc)
        let nodeStyle ← call (P.nodeStyle doc)
        pure (.inl (.child index { d with doc, notn, style := P.combine d.style nodeStyle }))
  | .style label note => do
    let s ← call (P.lookupStyle d.doc label)
    pure (.inr { d with style := P.combine d.style s, notn := note })
  | .focusMark => pure (.inl .focusMark)
  | .count zero one many => do
    match ← call (P.numChildren d.doc) with
    | none => throwErr .countNotationOnChildlessDoc
    | some 0 => pure (.inr { d with notn := zero })
    | some 1 => pure (.inr { d with notn := one })
    | some _ => pure (.inr { d with notn := many })
  | .fold first join => do
    match ← call (P.numChildren d.doc) with
    | none => throwErr .numChildrenChanged
    | some 0 => pure (.inl .empty)
    | some 1 => pure (.inr { d with notn := first })
    | some n =>
      let child ← call (P.unwrapLastChild d.doc)
      pure (.inr { d with
        joinPos := some { parent := d.doc, child, index := n - 1, first, join }
        notn := join })
  | .left =>
    match d.joinPos with
    | none => panicking
    | some jp =>
      match jp.index with
      | 0 => panicking
      | 1 => pure (.inr { d with notn := jp.first, joinPos := none })
      | k + 1 => do
        let child ← call (P.unwrapPrevSibling jp.child jp.parent k)
        pure (.inr { d with notn := jp.join, joinPos := some { jp with child, index := k } })
  | .right =>
    match d.joinPos with
    | none => panicking
    | some jp => do
      let notn ← call (P.notn jp.child)
      let nodeStyle ← call (P.nodeStyle jp.child)
      pure (.inl (.child jp.index
        { d with doc := jp.child, notn, style := P.combine d.style nodeStyle, joinPos := none }))

/-- Evaluating `d` — /repo/src/consolidated_notation.rs:251-440 — is `k` nested invocations of `eval`. -/
inductive DCN.Nests : DCN P → Nat → Prop where
  /-- It fails. -/
  | fails {d : DCN P} {f} : d.evalStep.run = some (.error f) → DCN.Nests d 1
  /-- It returns. -/
  | returns {d : DCN P} {cn} : d.evalStep.run = some (.ok (.inl cn)) → DCN.Nests d 1
  /-- It calls itself. -/
  | calls {d d' : DCN P} {k} : d.evalStep.run = some (.ok (.inr d')) → DCN.Nests d' k → DCN.Nests d (k + 1)

end PPP
