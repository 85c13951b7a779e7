import Verif.Model.Notation
/-
Validation of notations — /repo/src/valid_notation.rs.
-/
namespace PPP

/-- `NotationError` — /repo/src/valid_notation.rs:11-54. -/
inductive NotationError where
  | leftOutsideJoin
  | rightOutsideJoin
  | checkPosLeftOutsideJoin
  | checkPosRightOutsideJoin
  | nestedFold
  | nestedCount
  | countZeroChild
  | countOneChildIndex (i : Int)
  | countZeroCheckPosChild
  | countOneCheckPosChildIndex (i : Int)
  | textInsideCount
  | textInsideFold
  | textAfterEol
  | multipleFocusMarks
  deriving Repr, DecidableEq

/-- `CountContext` — /repo/src/valid_notation.rs:64-68. -/
inductive CountContext where
  | zero | one | many
  deriving Repr, DecidableEq

/-- `FoldContext` — /repo/src/valid_notation.rs:71-74. -/
inductive FoldContext where
  | inFoldFirst | inFoldJoin
  deriving Repr, DecidableEq

/-- `Context` — /repo/src/valid_notation.rs:58-61; `default` is `Context::new` (77-82). -/
structure Context where
  count : Option CountContext := none
  fold : Option FoldContext := none
  deriving Repr, DecidableEq

/-- `History` — /repo/src/valid_notation.rs:122-137; the defaults are `History::default` and
    `History::uncertain` (140-145). -/
structure History where
  eol : Bool := false
  mark : Bool := false
  deriving Repr, DecidableEq

/-- `History::choice` — /repo/src/valid_notation.rs:147-152. -/
def History.choice (h1 h2 : History) : History :=
  { eol := h1.eol || h2.eol, mark := h1.mark && h2.mark }

/-- `History::with_mark` — /repo/src/valid_notation.rs:154-157. -/
def History.withMark (h : History) : History := { h with mark := true }
/-- `History::with_eol` — /repo/src/valid_notation.rs:159-162. -/
def History.withEol (h : History) : History := { h with eol := true }
/-- `History::without_eol` — /repo/src/valid_notation.rs:164-167. -/
def History.withoutEol (h : History) : History := { h with eol := false }

variable {L C : Type}

/-- The checks made on a `CheckPos` — /repo/src/valid_notation.rs:210-229. -/
def validateCheckPos (pos : CheckPos) (ctx : Context) : Except NotationError Unit :=
  match pos with
  | .here => .ok ()
  | .child i =>
    if ctx.count = some .zero then .error .countZeroCheckPosChild
    else if ctx.count = some .one ∧ normalizeChildIndex i 1 = none then
      .error (.countOneCheckPosChildIndex i)
    else .ok ()
  | .leftChild =>
    if ctx.fold ≠ some .inFoldJoin then .error .checkPosLeftOutsideJoin else .ok ()
  | .rightChild =>
    if ctx.fold ≠ some .inFoldJoin then .error .checkPosRightOutsideJoin else .ok ()

/-- `Notation::validate_rec` — /repo/src/valid_notation.rs:185-264 (match arms in the same order,
    guards as nested `if`s). -/
def Notation.validateRec (n : Notation L C) (h : History) (ctx : Context) :
    Except NotationError History :=
  match n with
  | .text =>
    if ctx.count.isSome then .error .textInsideCount
    else if ctx.fold.isSome then .error .textInsideFold
    else if h.eol then .error .textAfterEol
    else .ok h.withoutEol
  | .empty => .ok h
  | .literal _ => if h.eol then .error .textAfterEol else .ok h.withoutEol
  | .newline => .ok h.withoutEol
  | .endOfLine => .ok h.withEol
  | .flat note => note.validateRec h ctx
  | .indent _ _ note => note.validateRec h ctx
  | .concat a b => do
    let h ← a.validateRec h ctx
    b.validateRec h ctx
  | .choice a b => do
    let h1 ← a.validateRec h ctx
    let h2 ← b.validateRec h ctx
    pure (h1.choice h2)
  | .check _ pos a b => do
    validateCheckPos pos ctx
    let h1 ← a.validateRec h ctx
    let h2 ← b.validateRec h ctx
    pure (h1.choice h2)
  | .child i =>
    if ctx.count = some .zero then .error .countZeroChild
    else if ctx.count = some .one ∧ normalizeChildIndex i 1 = none then
      .error (.countOneChildIndex i)
    else .ok h.withoutEol
  | .style _ note => note.validateRec h ctx
  | .focusMark => if h.mark then .error .multipleFocusMarks else .ok h.withMark
  | .count zero one many =>
    if ctx.count.isSome then .error .nestedCount
    else do
      let h1 ← zero.validateRec h { ctx with count := some .zero }
      let h2 ← one.validateRec h { ctx with count := some .one }
      let h3 ← many.validateRec h { ctx with count := some .many }
      pure ((h1.choice h2).choice h3)
  | .fold first join =>
    if ctx.fold.isSome then .error .nestedFold
    else do
      let _ ← first.validateRec {} { ctx with fold := some .inFoldFirst }
      let _ ← join.validateRec {} { ctx with fold := some .inFoldJoin }
      pure {}
  | .left => if ctx.fold ≠ some .inFoldJoin then .error .leftOutsideJoin else .ok {}
  | .right => if ctx.fold ≠ some .inFoldJoin then .error .rightOutsideJoin else .ok {}

/-- `Notation::validate` — /repo/src/valid_notation.rs:172-175.  On success the Rust function
    returns the same notation wrapped as a `ValidNotation`; here only the verdict is returned. -/
def Notation.validate (n : Notation L C) : Except NotationError Unit := do
  let _ ← n.validateRec {} {}
  pure ()

/-- `n.validate().is_ok()`. -/
def Notation.Valid (n : Notation L C) : Prop := n.validate = .ok ()

instance (n : Notation L C) : Decidable n.Valid :=
  match h : n.validate with
  | .ok () => isTrue h
  | .error e => isFalse (by simp [Notation.Valid, h])

end PPP
