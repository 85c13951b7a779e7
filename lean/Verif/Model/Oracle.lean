import Verif.Model.Consolidated
/-
The oracle: a second, simple printer used to test the real one — /repo/src/oracle.rs.
-/
namespace PPP
variable {P : PrettyDoc}

/-- `MAX_WIDTH` — /repo/src/oracle.rs:9. -/
def oracleMaxWidth : Nat := 10000

/-- `Layout` — /repo/src/oracle.rs:11-18. -/
structure OLayout where
  lines : List String
  endsWithEol : Bool

/-- `Layout::empty` — /repo/src/oracle.rs:135-140. -/
def OLayout.empty : OLayout := ⟨[""], false⟩

/-- `Layout::append_newline` — /repo/src/oracle.rs:142-146. -/
def OLayout.appendNewline (l : OLayout) (indentation : String) : OLayout :=
  ⟨l.lines ++ [indentation], false⟩

/-- `Layout::append_text` — /repo/src/oracle.rs:148-155.  Panics after an `EndOfLine`, or if there are no
    lines. -/
def OLayout.appendText {E : Type} (l : OLayout) (text : String) : Exec E OLayout :=
  if l.endsWithEol then panicking
  else
    match l.lines.getLast? with
    | none => panicking
    | some last => pure { l with lines := l.lines.dropLast ++ [last ++ text] }

/-- `Layout::last_line_len` — /repo/src/oracle.rs:157-160.  `sw` is `str_width`. -/
def OLayout.lastLineLen {E : Type} (sw : String → Nat) (l : OLayout) : Exec E Nat :=
  match l.lines.getLast? with
  | none => panicking
  | some last => pure (sw last)

/-- `impl Display for Layout` — /repo/src/oracle.rs:163-173: the lines, with newline characters between
    them. -/
def OLayout.display : List String → String
  | [] => ""
  | l :: ls => ls.foldl (fun acc line => acc ++ "\n" ++ line) l

/-- An addition of two `Width`s (`u16`), which panics if it overflows. -/
def addWidths {E : Type} (a b : Nat) : Exec E Nat :=
  if a + b ≤ maxWidth then pure (a + b) else overflowing

/-- `first_line_len` — /repo/src/oracle.rs:107-133. -/
def firstLineLen (note : CN P) (suffixLen : Option Nat) : Exec P.Err (Option Nat) :=
  match note with
  | .empty => pure suffixLen
  | .focusMark => pure suffixLen
  | .textual t =>
    match suffixLen with
    | none => pure none
    | some w => do
      let n ← addWidths t.width w
      pure (some n)
  | .endOfLine =>
    match suffixLen with
    | none => pure none
    | some 0 => pure (some 0)
    | some (_ + 1) => pure none
  | .newline _ => pure (some 0)
  | .child _ x => do
    let x ← x.eval
    firstLineLen x suffixLen
  | .concat x y => do
    let y ← y.eval
    let suffixLen ← firstLineLen y suffixLen
    let x ← x.eval
    firstLineLen x (suffixLen.map (min · oracleMaxWidth))
  | .choice _ y => do
    let y ← y.eval
    firstLineLen y suffixLen
partial_fixpoint

/-- The computation of `fits` in `pp` — /repo/src/oracle.rs:84-93. -/
def oracleFits {E : Type} (pre : OLayout) (width lastLen : Nat) : Option Nat → Exec E Bool
  | none => pure false
  | some firstLen =>
    if pre.endsWithEol = true ∧ firstLen > 0 then pure false
    else do
      let n ← addWidths lastLen firstLen
      pure (decide (n ≤ width))

/-- `pp` — /repo/src/oracle.rs:34-101.  (Debug output is left out.) -/
def oraclePp (pre : OLayout) (note : CN P) (suffixLen : Option Nat) (width : Nat) :
    Exec P.Err OLayout := do
  if width < oracleMaxWidth then
    match note with
    | .empty => pure pre
    | .focusMark => pure pre
    | .textual t => pre.appendText t.str
    | .endOfLine => pure { pre with endsWithEol := true }
    | .newline indent =>
      -- `indent` has the innermost level first; the levels are pushed in that order and reversed
      pure (pre.appendNewline (String.join (indent.map (·.str)).reverse))
    | .child _ x => do
      let x ← x.eval
      oraclePp pre x suffixLen width
    | .concat x y => do
      let x ← x.eval
      let y ← y.eval
      let xSuffixLen ← firstLineLen y suffixLen
      let yPrefix ← oraclePp pre x (xSuffixLen.map (min · oracleMaxWidth)) width
      oraclePp yPrefix y suffixLen width
    | .choice x y => do
      let x ← x.eval
      let lastLen ← pre.lastLineLen P.strWidth
      let firstLen ← firstLineLen x suffixLen
      let fits ← oracleFits pre width lastLen firstLen
      let z ← if fits then pure x else y.eval
      oraclePp pre z suffixLen width
  else panicking
partial_fixpoint

/-- `Result::unwrap` and `Result::expect`: a returned error becomes a panic. -/
def unwrapping {E α : Type} (x : Exec E α) : Exec E α :=
  ExceptT.mk (x.run.map fun
    | .error (.err _) => .error .panic
    | r => r)

/-- `oracular_pretty_print` — /repo/src/oracle.rs:24-32. -/
def oracularPrettyPrint (doc : P.Node) (width : Nat) : Exec P.Err String := do
  let d ← unwrapping (DCN.new doc)
  let note ← unwrapping d.eval
  let layout ← unwrapping (oraclePp OLayout.empty note (some 0) width)
  pure (OLayout.display layout.lines)

end PPP
