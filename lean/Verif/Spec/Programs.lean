import Verif.Model.Programs
/-
Specification: the programs that the documents of the tests stand for, written on one line.
-/
namespace PPP

/-- A program as text: `obj.method(arg)`, `|var| { body }`, `a * b`. -/
def ChainExpr.source : ChainExpr → String
  | .var name => name
  | .methodCall obj method arg => obj.source ++ "." ++ method ++ "(" ++ arg.source ++ ")"
  | .closure v body => "|" ++ v ++ "| { " ++ body.source ++ " }"
  | .times a b => a.source ++ " * " ++ b.source

/-- The columns that it takes: those of its names and of its punctuation. -/
def ChainExpr.cols (sw : String → Nat) : ChainExpr → Nat
  | .var name => sw name
  | .methodCall obj method arg => obj.cols sw + sw "." + sw method + sw "(" + arg.cols sw + sw ")"
  | .closure v body => sw "|" + sw v + sw "| { " + body.cols sw + sw " }"
  | .times a b => a.cols sw + sw " * " + b.cols sw

/-- How many indentations there can be around a part of it. -/
def ChainExpr.depth : ChainExpr → Nat
  | .var _ => 0
  | .methodCall obj _ arg => max obj.depth (arg.depth + 2)
  | .closure _ body => body.depth + 1
  | .times a b => max a.depth b.depth

/-- A program as text: `obj.method arg`, `do |var| body end`. -/
def RubyExpr.source : RubyExpr → String
  | .var name => name
  | .methodCall obj method arg => obj.source ++ "." ++ method ++ " " ++ arg.source
  | .doLoop v body => "do |" ++ v ++ "| " ++ body.source ++ " end"

/-- The columns that it takes: those of its names and of its punctuation. -/
def RubyExpr.cols (sw : String → Nat) : RubyExpr → Nat
  | .var name => sw name
  | .methodCall obj method arg => obj.cols sw + sw "." + sw method + sw " " + arg.cols sw
  | .doLoop v body => sw "do |" + sw v + sw "| " + body.cols sw + sw " end"

/-- How many indentations there can be around a part of it. -/
def RubyExpr.depth : RubyExpr → Nat
  | .var _ => 0
  | .methodCall obj _ arg => max obj.depth (arg.depth + 2)
  | .doLoop _ body => body.depth + 1

/-- Leaving out a space makes punctuation narrower. -/
def Narrower (sw : String → Nat) : Prop :=
  sw "| {" ≤ sw "| { " ∧ sw "}" ≤ sw " }" ∧ sw "|" ≤ sw "| " ∧ sw "end" ≤ sw " end"

end PPP
