import Verif.Model.Doc
/-
Consolidated notations — /repo/src/consolidated_notation.rs.
-/
namespace PPP
variable (P : PrettyDoc)

/-- `Segment` — /repo/src/consolidated_notation.rs:39-44. -/
structure Segment where
  str : String
  width : Nat
  style : P.Style

/-- `Textual` — /repo/src/consolidated_notation.rs:48-55. -/
structure Textual where
  str : String
  width : Nat
  style : P.Style
  isFromText : Bool

/-- `Option<Rc<IndentNode>>` — /repo/src/consolidated_notation.rs:66-71: a linked list of segments.
    The head is the innermost (rightmost) level; the tail is `parent`. -/
abbrev Indent := List (Segment P)

/-- `JoinPos` — /repo/src/consolidated_notation.rs:92-103. -/
structure JoinPos where
  parent : P.Node
  child : P.Node
  index : Nat
  first : Notation P.Label P.Cond
  join : Notation P.Label P.Cond

/-- `DelayedConsolidatedNotation` — /repo/src/consolidated_notation.rs:76-88. -/
structure DCN where
  notn : Notation P.Label P.Cond
  doc : P.Node
  flat : Bool
  indent : Indent P
  style : P.Style
  joinPos : Option (JoinPos P)

/-- `ConsolidatedNotation` — /repo/src/consolidated_notation.rs:19-34. -/
inductive CN where
  | empty
  | endOfLine
  | newline (indent : Indent P)
  | textual (t : Textual P)
  | concat (a b : DCN P)
  | choice (a b : DCN P)
  | child (i : Nat) (c : DCN P)
  | focusMark

variable {P}

/-- `Textual::split_at` — /repo/src/consolidated_notation.rs:108-129.  The byte position of the
    `char_pos`'th character splits the string into its first `char_pos` characters and the rest
    (all and nothing if it is past the end). -/
def Textual.splitAt (t : Textual P) (charPos : Nat) : Textual P × Textual P :=
  let leftStr := String.ofList (t.str.toList.take charPos)
  let rightStr := String.ofList (t.str.toList.drop charPos)
  ({ t with str := leftStr, width := P.strWidth leftStr },
   { t with str := rightStr, width := P.strWidth rightStr })

/-- `DelayedConsolidatedNotation::with_optional_style` —
    /repo/src/consolidated_notation.rs:228-244. -/
def DCN.withOptionalStyle (doc : P.Node) (style : Option P.Style) : Exec P.Err (DCN P) := do
  let notn ← call (P.notn doc)
  let nodeStyle ← call (P.nodeStyle doc)
  pure {
    doc, notn
    flat := false
    indent := []
    joinPos := none
    style := match style with
      | some s => P.combine s nodeStyle
      | none => nodeStyle }

/-- `DelayedConsolidatedNotation::new` — /repo/src/consolidated_notation.rs:224-226. -/
def DCN.new (doc : P.Node) : Exec P.Err (DCN P) := DCN.withOptionalStyle doc none

/-- The document node inspected by a `Check` — /repo/src/consolidated_notation.rs:319-341.
    `join_pos.index - 1` on `index = 0` would be a `usize` underflow, hence a panic. -/
def DCN.docToInspect (d : DCN P) (pos : CheckPos) : Exec P.Err P.Node :=
  match pos with
  | .here => pure d.doc
  | .child i => do
    match ← call (P.numChildren d.doc) with
    | none => throwErr .checkPosChildOnChildlessDoc
    | some n =>
      match normalizeChildIndex i n with
      | none => throwErr (.checkPosChildIndexOutOfBounds i n)
      | some index => call (P.unwrapChild d.doc index)
  | .rightChild =>
    match d.joinPos with
    | none => panicking
    | some jp => pure jp.child
  | .leftChild =>
    match d.joinPos with
    | none => panicking
    | some jp =>
      match jp.index with
      | 0 => panicking
      | k + 1 => call (P.unwrapPrevSibling jp.child jp.parent k)

/-- `DelayedConsolidatedNotation::eval` — /repo/src/consolidated_notation.rs:251-440. -/
def DCN.eval (d : DCN P) : Exec P.Err (CN P) :=
  match d.notn with
  | .empty => pure .empty
  | .endOfLine => pure .endOfLine
  | .newline => pure (.newline d.indent)
  | .literal s =>
    pure (.textual { str := s, width := P.strWidth s, style := d.style, isFromText := false })
  | .text => do
    match ← call (P.numChildren d.doc) with
    | some _ => throwErr .textNotationOnTextlessDoc
    | none =>
      let text ← call (P.unwrapText d.doc)
      pure (.textual
        { str := text, width := P.strWidth text, style := d.style, isFromText := true })
  | .flat note => DCN.eval { d with flat := true, notn := note }
  | .indent pre styleLabel note => do
    let style ← match styleLabel with
      | some label => do
        let s ← call (P.lookupStyle d.doc label)
        pure (P.combine d.style s)
      | none => pure d.style
    DCN.eval { d with
      indent := { str := pre, width := P.strWidth pre, style := style } :: d.indent
      notn := note }
  | .concat note1 note2 => pure (.concat { d with notn := note1 } { d with notn := note2 })
  | .choice note1 note2 =>
    if d.flat then DCN.eval { d with notn := note1 }
    else pure (.choice { d with notn := note1 } { d with notn := note2 })
  | .check cond pos note1 note2 => do
    let doc ← d.docToInspect pos
    if ← call (P.condition doc cond) then DCN.eval { d with notn := note1 }
    else DCN.eval { d with notn := note2 }
  | .child i => do
    match ← call (P.numChildren d.doc) with
    | none => throwErr .childNotationOnChildlessDoc
    | some n =>
      match normalizeChildIndex i n with
      | none => throwErr (.childIndexOutOfBounds i n)
      | some index =>
        let doc ← call (P.unwrapChild d.doc index)
        let notn ← call (P.notn doc)
        let nodeStyle ← call (P.nodeStyle doc)
        pure (.child index { d with doc, notn, style := P.combine d.style nodeStyle })
  | .style label note => do
    let s ← call (P.lookupStyle d.doc label)
    DCN.eval { d with style := P.combine d.style s, notn := note }
  | .focusMark => pure .focusMark
  | .count zero one many => do
    match ← call (P.numChildren d.doc) with
    | none => throwErr .countNotationOnChildlessDoc
    | some 0 => DCN.eval { d with notn := zero }
    | some 1 => DCN.eval { d with notn := one }
    | some _ => DCN.eval { d with notn := many }
  | .fold first join => do
    match ← call (P.numChildren d.doc) with
    | none => throwErr .numChildrenChanged
    | some 0 => pure .empty
    | some 1 => DCN.eval { d with notn := first }
    | some n =>
      let child ← call (P.unwrapLastChild d.doc)
      DCN.eval { d with
        joinPos := some { parent := d.doc, child, index := n - 1, first, join }
        notn := join }
  | .left =>
    match d.joinPos with
    | none => panicking
    | some jp =>
      match jp.index with
      | 0 => panicking
      | 1 => DCN.eval { d with notn := jp.first, joinPos := none }
      | k + 1 => do
        let child ← call (P.unwrapPrevSibling jp.child jp.parent k)
        DCN.eval { d with notn := jp.join, joinPos := some { jp with child, index := k } }
  | .right =>
    match d.joinPos with
    | none => panicking
    | some jp => do
      let notn ← call (P.notn jp.child)
      let nodeStyle ← call (P.nodeStyle jp.child)
      pure (.child jp.index
        { d with doc := jp.child, notn, style := P.combine d.style nodeStyle, joinPos := none })
partial_fixpoint

end PPP
