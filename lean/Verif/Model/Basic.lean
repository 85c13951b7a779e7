/-
Results of running the modelled code, and the `PrettyDoc` trait.
-/
namespace PPP

/-- `PrintingError` — /repo/src/consolidated_notation.rs:190-221. -/
inductive PrintingError (E : Type) where
  | invalidPath (i : Nat)
  | textNotationOnTextlessDoc
  | childIndexOutOfBounds (index : Int) (len : Nat)
  | childNotationOnChildlessDoc
  | checkPosChildIndexOutOfBounds (index : Int) (len : Nat)
  | checkPosChildOnChildlessDoc
  | countNotationOnChildlessDoc
  | numChildrenChanged
  | textAfterEndOfLine
  | missingFocusMark
  | missingText
  | prettyDoc (e : E)
  deriving Repr, DecidableEq

/-- How a call can fail: with a `PrintingError`; with a Rust panic (`panic!`, `unwrap` on `None`,
    failed `assert!`, an out-of-range index, or a panicking `PrettyDoc` method); or with an overflow
    of a `u16` addition (a panic in builds with overflow checks, wrap-around in others).  Overflow is
    a kind of failure of its own so that theorems can say exactly when it happens. -/
inductive Fail (E : Type) where
  | err (e : PrintingError E)
  | panic
  | overflow
  deriving Repr, DecidableEq

/-- A terminated call: a value or a failure. -/
abbrev Res (E : Type) (α : Type) := Except (Fail E) α

/-- A call that may also diverge (`none`).  The monad of the code model: `?` in Rust is `←` here. -/
abbrev Exec (E : Type) (α : Type) := ExceptT (Fail E) Option α

/-- Embed a terminated call. -/
def Exec.ofRes {E α : Type} (r : Res E α) : Exec E α := ExceptT.mk (some r)

/-- Return a `PrintingError`. -/
def throwErr {E α : Type} (e : PrintingError E) : Exec E α := Exec.ofRes (.error (.err e))

/-- A Rust panic. -/
def panicking {E α : Type} : Exec E α := Exec.ofRes (.error .panic)

/-- An overflowing `u16` addition. -/
def overflowing {E α : Type} : Exec E α := Exec.ofRes (.error .overflow)

/-- How a method of a `PrettyDoc` implementation can fail: with its own error type
    (`PrettyDoc::Error`) or by panicking (allowed by the trait's documentation for the `unwrap_*`
    methods outside of their contract). -/
inductive DocFail (E : Type) where
  | err (e : E)
  | panic
  deriving Repr, DecidableEq

/-- The result of calling a `PrettyDoc` method. -/
abbrev Call (E : Type) (α : Type) := Except (DocFail E) α

/-- `impl From<E> for PrintingError<E>` (`#[from]`, /repo/src/consolidated_notation.rs:219-220):
    what `?` does to a failing trait method. -/
def DocFail.toFail {E : Type} : DocFail E → Fail E
  | .err e => .err (.prettyDoc e)
  | .panic => .panic

/-- Convert the result of a trait method as `?` does. -/
def Call.toRes {E α : Type} : Call E α → Res E α
  | .ok a => .ok a
  | .error f => .error f.toFail

/-- Call a trait method and propagate its failure: `doc.method()?`. -/
def call {E α : Type} (c : Call E α) : Exec E α := Exec.ofRes (Call.toRes c)

/-- The largest value of `Width = u16` — /repo/src/geometry.rs:17. -/
def maxWidth : Nat := 65535

end PPP
