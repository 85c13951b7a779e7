/-
Notations — /repo/src/notation.rs and /repo/src/notation_constructors.rs.
-/
namespace PPP

/-- `CheckPos` — /repo/src/notation.rs:134-147.  `isize` is modelled by `Int`. -/
inductive CheckPos where
  | here
  | child (i : Int)
  | leftChild
  | rightChild
  deriving Repr, DecidableEq

/-- `Notation<L, C>` — /repo/src/notation.rs:28-132. -/
inductive Notation (L C : Type) where
  | empty
  | newline
  | endOfLine
  | literal (s : String)
  | text
  | flat (n : Notation L C)
  | indent (s : String) (style : Option L) (n : Notation L C)
  | concat (a b : Notation L C)
  | choice (a b : Notation L C)
  | check (c : C) (pos : CheckPos) (a b : Notation L C)
  | child (i : Int)
  | style (l : L) (n : Notation L C)
  | focusMark
  | count (zero one many : Notation L C)
  | fold (first join : Notation L C)
  | left
  | right
  deriving Repr, DecidableEq

/-- `normalize_child_index` — /repo/src/notation.rs:151-163.  `usize`/`isize` are unbounded here
    (a `Vec` can never hold more than `isize::MAX` elements, so the casts do not wrap). -/
def normalizeChildIndex (signedIndex : Int) (numChildren : Nat) : Option Nat :=
  let len : Int := numChildren
  let index : Int := if signedIndex < 0 then signedIndex + len else signedIndex
  if index < 0 ∨ index ≥ len then none else some index.toNat

variable {L C : Type}

/-- `impl Add for Notation` — /repo/src/notation.rs:196-203. -/
instance : Add (Notation L C) := ⟨Notation.concat⟩

/-- `impl BitOr for Notation` — /repo/src/notation.rs:205-212. -/
instance : HOr (Notation L C) (Notation L C) (Notation L C) := ⟨Notation.choice⟩

/-- `impl BitXor for Notation` — /repo/src/notation.rs:214-221. -/
instance : HXor (Notation L C) (Notation L C) (Notation L C) :=
  ⟨fun x y => x + Notation.newline + y⟩

/-- `impl Shr<Notation> for Width` — /repo/src/notation.rs:223-239: `i >> x`. -/
def Notation.nest (i : Nat) (x : Notation L C) : Notation L C :=
  .indent (String.ofList (List.replicate i ' ')) none (.concat .newline x)

end PPP
