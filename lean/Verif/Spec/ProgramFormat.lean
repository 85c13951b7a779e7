import Verif.Spec.JsonFormat
import Verif.Spec.Programs
/-
Specification: formatters for the programs of the tests, as plain functions that write on a page, and do not know about
notations.
-/
namespace PPP

/-- What has been written so far: the finished lines, and the current one. -/
structure Sheet where
  done : List Word
  cur : Word

/-- Write a text. -/
def Sheet.put (p : Sheet) (x : Word) : Sheet := ⟨p.done, p.cur ++ x⟩

/-- Start a new line that is indented by `k` levels. -/
def Sheet.newLine (sw : String → Nat) (k : Nat) (p : Sheet) : Sheet := ⟨p.done ++ [p.cur], levelIndent sw k⟩

/-- All lines. -/
def Sheet.lines (p : Sheet) : List Word := p.done ++ [p.cur]

/-! ### Method chains -/

/-- A program on one line. -/
def ChainExpr.word (sw : String → Nat) (e : ChainExpr) : Word := ⟨e.source, e.cols sw⟩

/-- How many columns of a program have to be on the current line at least: those before the first place where the line can
    be broken; `rest` if what follows the program has `rest` such columns. -/
def ChainExpr.head (sw : String → Nat) : ChainExpr → (rest : Nat) → Nat
  | .var name, rest => sw name + rest
  | .methodCall obj _ _, _ => obj.head sw 0
  | .closure v _, _ => sw "|" + sw v + sw "| {"
  | .times a b, rest => a.head sw (sw " * " + b.head sw rest)

/-- The last part of a call: `.method(arg)`. -/
def ChainExpr.call (sw : String → Nat) (method : String) (arg : ChainExpr) : Word :=
  piece sw "." ++ piece sw method ++ piece sw "(" ++ arg.word sw ++ piece sw ")"

/-- Write a program at level `k`, before at least `rest` more columns on its last line.

    A call `.method(arg)` stays on the line of its object if it fits there with its argument on one line, with what has to follow
    it.  Otherwise it starts a new line; if it does not fit there either, then its argument is on lines of its own.
    The body of a closure stays on the line if what has to be there fits, and otherwise it is on lines of its own. -/
def ChainExpr.write (sw : String → Nat) (w : Nat) : ChainExpr → (k rest : Nat) → Sheet → Sheet
  | .var name, _, _, p => p.put (piece sw name)
  | .methodCall obj method arg, k, rest, p =>
    let p := obj.write sw w k 0 p
    if p.cur.width + (arg.call sw method).width + rest ≤ w then p.put (arg.call sw method)
    else
      let p := p.newLine sw (k + 1)
      if p.cur.width + (arg.call sw method).width + rest ≤ w then p.put (arg.call sw method)
      else
        let p := ((p.put (piece sw ".")).put (piece sw method)).put (piece sw "(")
        let p := arg.write sw w (k + 2) 0 (p.newLine sw (k + 2))
        (p.newLine sw (k + 1)).put (piece sw ")")
  | .closure v body, k, rest, p =>
    let p := (p.put (piece sw "|")).put (piece sw v)
    if p.cur.width + sw "| { " + body.head sw (sw " }" + rest) ≤ w then
      (body.write sw w k (sw " }" + rest) (p.put (piece sw "| { "))).put (piece sw " }")
    else
      let p := body.write sw w (k + 1) 0 ((p.put (piece sw "| {")).newLine sw (k + 1))
      (p.newLine sw k).put (piece sw "}")
  | .times a b, k, rest, p =>
    b.write sw w k rest ((a.write sw w k (sw " * " + b.head sw rest) p).put (piece sw " * "))

/-- The lines of a program. -/
def ChainExpr.lines (sw : String → Nat) (w : Nat) (e : ChainExpr) : List Word := (e.write sw w 0 0 ⟨[], .none⟩).lines

/-! ### Loops -/

/-- A program on one line. -/
def RubyExpr.word (sw : String → Nat) (e : RubyExpr) : Word := ⟨e.source, e.cols sw⟩

/-- How many columns of a program have to be on the current line at least. -/
def RubyExpr.head (sw : String → Nat) : RubyExpr → (rest : Nat) → Nat
  | .var name, rest => sw name + rest
  | .methodCall obj _ _, _ => obj.head sw 0
  | .doLoop v _, _ => sw "do |" + sw v + sw "|"

/-- Write a program at level `k`, before at least `rest` more columns on its last line.

    A call stays on the line of its object if what has to be there of ` arg` fits, too; otherwise it starts a new line; and if it does not fit
    there either, then its argument is on the next line.  A loop is on one line if it fits with what has to follow it, and
    otherwise its body is on lines of its own. -/
def RubyExpr.write (sw : String → Nat) (w : Nat) : RubyExpr → (k rest : Nat) → Sheet → Sheet
  | .var name, _, _, p => p.put (piece sw name)
  | .methodCall obj method arg, k, rest, p =>
    let p := obj.write sw w k 0 p
    if p.cur.width + sw "." + sw method + sw " " + arg.head sw rest ≤ w then
      arg.write sw w k rest (((p.put (piece sw ".")).put (piece sw method)).put (piece sw " "))
    else
      let p := ((p.newLine sw (k + 1)).put (piece sw ".")).put (piece sw method)
      if p.cur.width + sw " " + arg.head sw rest ≤ w then arg.write sw w (k + 1) rest (p.put (piece sw " "))
      else arg.write sw w (k + 2) rest (p.newLine sw (k + 2))
  | .doLoop v body, k, rest, p =>
    let p := (p.put (piece sw "do |")).put (piece sw v)
    if p.cur.width + sw "| " + body.cols sw + sw " end" + rest ≤ w then
      ((p.put (piece sw "| ")).put (body.word sw)).put (piece sw " end")
    else
      let p := body.write sw w (k + 1) 0 ((p.put (piece sw "|")).newLine sw (k + 1))
      (p.newLine sw k).put (piece sw "end")

/-- The lines of a program. -/
def RubyExpr.lines (sw : String → Nat) (w : Nat) (e : RubyExpr) : List Word := (e.write sw w 0 0 ⟨[], .none⟩).lines

end PPP
