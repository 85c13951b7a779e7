import Verif.Spec.Denote
/-
Specification: the characters that matter, and notations that show the same of them however they are laid out.

`keep` says which characters matter: for example, all but white space.
-/
namespace PPP

/-- What matters of a string. -/
def kept (keep : Char → Bool) (s : String) : List Char := s.toList.filter keep

/-- What a notation refers to: what matters of the text of the node and of its children, how many children there are,
    and which conditions hold, of the node itself (`none`) or of child `i` (`some i`). -/
structure InkEnv (C : Type) where
  text : List Char
  numChildren : Option Nat
  kid : Nat → List Char
  cond : C → Option Nat → Bool

section
variable {L C : Type} (keep : Char → Bool)

/-- The node that a `Check` looks at.  `next` is the index of the child that `Right` stands for. -/
def InkEnv.inspects (e : InkEnv C) (next : Nat) : CheckPos → Option Nat
  | .here => none
  | .child i => some (((e.numChildren).bind (childIndex i)).getD 0)
  | .leftChild => some (next - 1)
  | .rightChild => some next

/-- What matters of what a notation shows, if every choice takes its first option.  `left` is what matters of what `Left`
    stands for, and `next` the index of the child that `Right` stands for. -/
def Notation.ink (e : InkEnv C) : Notation L C → (left : List Char) → (next : Nat) → List Char
  | .literal s, _, _ => kept keep s
  | .text, _, _ => e.text
  | .flat a, l, k => a.ink e l k
  | .indent _ _ a, l, k => a.ink e l k
  | .style _ a, l, k => a.ink e l k
  | .concat a b, l, k => a.ink e l k ++ b.ink e l k
  | .choice a _, l, k => a.ink e l k
  | .check c pos a b, l, k => if e.cond c (e.inspects k pos) then a.ink e l k else b.ink e l k
  | .child i, _, _ => e.kid (((e.numChildren).bind (childIndex i)).getD 0)
  | .count z o m, l, k =>
    match e.numChildren with
    | none => []
    | some 0 => z.ink e l k
    | some 1 => o.ink e l k
    | some (_ + 2) => m.ink e l k
  | .fold first join, _, _ =>
    match e.numChildren with
    | none => []
    | some 0 => []
    | some (n + 1) => Nat.rec (first.ink e [] 0) (fun k acc => join.ink e acc (k + 1)) n
  | .left, l, _ => l
  | .right, _, k => e.kid k
  | .empty, _, _ => []
  | .newline, _, _ => []
  | .endOfLine, _, _ => []
  | .focusMark, _, _ => []

/-- Both options of every choice show the same of what matters, and nothing that matters is in an indentation. -/
def Notation.Agrees (e : InkEnv C) : Notation L C → (left : List Char) → (next : Nat) → Prop
  | .flat a, l, k => a.Agrees e l k
  | .indent s _ a, l, k => kept keep s = [] ∧ a.Agrees e l k
  | .style _ a, l, k => a.Agrees e l k
  | .concat a b, l, k => a.Agrees e l k ∧ b.Agrees e l k
  | .choice a b, l, k => a.ink keep e l k = b.ink keep e l k ∧ a.Agrees e l k ∧ b.Agrees e l k
  | .check c pos a b, l, k => if e.cond c (e.inspects k pos) then a.Agrees e l k else b.Agrees e l k
  | .count z o m, l, k =>
    match e.numChildren with
    | none => True
    | some 0 => z.Agrees e l k
    | some 1 => o.Agrees e l k
    | some (_ + 2) => m.Agrees e l k
  | .fold first join, _, _ => first.Agrees e [] 0 ∧ ∀ l k, join.Agrees e l (k + 1)
  | _, _, _ => True

/-- Whatever the children and the text of a node show, and whichever conditions hold: it does not matter which options
    are chosen. -/
def Notation.Steady (a : Notation L C) : Prop := ∀ e, a.Agrees keep e [] 0

end

section
variable {P : PrettyDoc} (keep : Char → Bool)

/-- What a node gives its notation, when `kid i` is what matters of child `i`. -/
def nodeInk (p : P.Node) (kid : Nat → List Char) : InkEnv P.Cond where
  text := match P.unwrapText p with
    | .ok s => kept keep s
    | .error _ => []
  numChildren := match P.numChildren p with
    | .ok n => n
    | .error _ => none
  kid := kid
  cond c pos :=
    let node : Call P.Err P.Node := match pos with
      | none => .ok p
      | some i => P.childAt p i
    match node with
    | .ok q => match P.condition q c with
      | .ok b => b
      | .error _ => false
    | .error _ => false

/-- What matters of what a document shows: that of the notations of its nodes, put together. -/
def docInk (law : P.Lawful) (p : P.Node) : List Char :=
  match P.notn p with
  | .error _ => []
  | .ok a => a.ink keep (nodeInk keep p fun i =>
      match _h : P.childAt p i with
      | .error _ => []
      | .ok c => docInk law c) [] 0
termination_by law.wf.wrap p
decreasing_by exact ⟨i, _h⟩

end
end PPP
