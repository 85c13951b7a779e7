import Verif.Model.Validate
/-
Specification, part 9: the flaws that `validate` looks for, declaratively.

The validator walks over a notation with a context and a history.  Here a flaw is said to be at an
occurrence of a notation inside of the whole notation, in terms of what that occurrence is enclosed by
and of what may be displayed before it.
-/
namespace PPP
variable {L C : Type}

/-- Notations that restrict what may be inside of them. -/
inductive Frame where
  | countZero
  | countOne
  | countMany
  | foldFirst
  | foldJoin
  deriving DecidableEq

/-- What may be displayed, as far as validation is concerned. -/
inductive Ev where
  | text
  | newline
  | eol
  | mark
  | child
  /-- A `Fold`, or the part of it meant by `Left` or `Right`. -/
  | unknown
  deriving DecidableEq

/-- `At n p fs m`: the notation `m` occurs in `n` at the position `p` (which operands to go to), inside
    of the frames `fs` (outermost first). -/
inductive At : Notation L C → List Nat → List Frame → Notation L C → Prop where
  | here {n} : At n [] [] n
  | flat {a p fs m} : At a p fs m → At (.flat a) (0 :: p) fs m
  | indent {s l a p fs m} : At a p fs m → At (.indent s l a) (0 :: p) fs m
  | style {l a p fs m} : At a p fs m → At (.style l a) (0 :: p) fs m
  | concat_left {a b p fs m} : At a p fs m → At (.concat a b) (0 :: p) fs m
  | concat_right {a b p fs m} : At b p fs m → At (.concat a b) (1 :: p) fs m
  | choice_left {a b p fs m} : At a p fs m → At (.choice a b) (0 :: p) fs m
  | choice_right {a b p fs m} : At b p fs m → At (.choice a b) (1 :: p) fs m
  | check_left {c pos a b p fs m} : At a p fs m → At (.check c pos a b) (0 :: p) fs m
  | check_right {c pos a b p fs m} : At b p fs m → At (.check c pos a b) (1 :: p) fs m
  | count_zero {z o k p fs m} : At z p fs m → At (.count z o k) (0 :: p) (.countZero :: fs) m
  | count_one {z o k p fs m} : At o p fs m → At (.count z o k) (1 :: p) (.countOne :: fs) m
  | count_many {z o k p fs m} : At k p fs m → At (.count z o k) (2 :: p) (.countMany :: fs) m
  | fold_first {f j p fs m} : At f p fs m → At (.fold f j) (0 :: p) (.foldFirst :: fs) m
  | fold_join {f j p fs m} : At j p fs m → At (.fold f j) (1 :: p) (.foldJoin :: fs) m

/-- `Flow n evs`: `n` may display `evs`, for some way of deciding its choices, checks and counts. -/
inductive Flow : Notation L C → List Ev → Prop where
  | empty : Flow .empty []
  | newline : Flow .newline [.newline]
  | endOfLine : Flow .endOfLine [.eol]
  | literal {s} : Flow (.literal s) [.text]
  | text : Flow .text [.text]
  | child {i} : Flow (.child i) [.child]
  | focusMark : Flow .focusMark [.mark]
  | fold {f j} : Flow (.fold f j) [.unknown]
  | left : Flow .left [.unknown]
  | right : Flow .right [.unknown]
  | flat {a e} : Flow a e → Flow (.flat a) e
  | indent {s l a e} : Flow a e → Flow (.indent s l a) e
  | style {l a e} : Flow a e → Flow (.style l a) e
  | concat {a b e e'} : Flow a e → Flow b e' → Flow (.concat a b) (e ++ e')
  | choice_left {a b e} : Flow a e → Flow (.choice a b) e
  | choice_right {a b e} : Flow b e → Flow (.choice a b) e
  | check_left {c pos a b e} : Flow a e → Flow (.check c pos a b) e
  | check_right {c pos a b e} : Flow b e → Flow (.check c pos a b) e
  | count_zero {z o k e} : Flow z e → Flow (.count z o k) e
  | count_one {z o k e} : Flow o e → Flow (.count z o k) e
  | count_many {z o k e} : Flow k e → Flow (.count z o k) e

/-- `Before n p evs`: before the occurrence at `p`, `n` may display `evs`. -/
inductive Before : Notation L C → List Nat → List Ev → Prop where
  | here {n} : Before n [] []
  | flat {a p e} : Before a p e → Before (.flat a) (0 :: p) e
  | indent {s l a p e} : Before a p e → Before (.indent s l a) (0 :: p) e
  | style {l a p e} : Before a p e → Before (.style l a) (0 :: p) e
  | concat_left {a b p e} : Before a p e → Before (.concat a b) (0 :: p) e
  | concat_right {a b p e e'} : Flow a e → Before b p e' → Before (.concat a b) (1 :: p) (e ++ e')
  | choice_left {a b p e} : Before a p e → Before (.choice a b) (0 :: p) e
  | choice_right {a b p e} : Before b p e → Before (.choice a b) (1 :: p) e
  | check_left {c pos a b p e} : Before a p e → Before (.check c pos a b) (0 :: p) e
  | check_right {c pos a b p e} : Before b p e → Before (.check c pos a b) (1 :: p) e
  | count_zero {z o k p e} : Before z p e → Before (.count z o k) (0 :: p) e
  | count_one {z o k p e} : Before o p e → Before (.count z o k) (1 :: p) e
  | count_many {z o k p e} : Before k p e → Before (.count z o k) (2 :: p) e
  /-- What is displayed before the parts of a `Fold` is not known. -/
  | fold_first {f j p e} : Before f p e → Before (.fold f j) (0 :: p) (.unknown :: e)
  | fold_join {f j p e} : Before j p e → Before (.fold f j) (1 :: p) (.unknown :: e)

/-- The last thing that decides about it was an end-of-line mark. -/
def EolPending (evs : List Ev) : Prop :=
  ∃ A B, evs = A ++ .eol :: B ∧ .newline ∉ B ∧ .child ∉ B ∧ .unknown ∉ B

/-- There was a focus mark, and nothing unknown after it. -/
def Marked (evs : List Ev) : Prop := ∃ A B, evs = A ++ .mark :: B ∧ .unknown ∉ B

/-- Inside of `Count`. -/
def InCount (fs : List Frame) : Prop := .countZero ∈ fs ∨ .countOne ∈ fs ∨ .countMany ∈ fs

/-- Inside of `Fold`. -/
def InFold (fs : List Frame) : Prop := .foldFirst ∈ fs ∨ .foldJoin ∈ fs

/-- `Bad fs before m e`: there is a flaw, documented as the error `e`, at an occurrence of `m` that is
    enclosed by `fs` and before which `before` may be displayed. -/
inductive Bad (fs : List Frame) (before : List Ev → Prop) : Notation L C → NotationError → Prop where
  | left : .foldJoin ∉ fs → Bad fs before .left .leftOutsideJoin
  | right : .foldJoin ∉ fs → Bad fs before .right .rightOutsideJoin
  | check_left {c a b} : .foldJoin ∉ fs → Bad fs before (.check c .leftChild a b) .checkPosLeftOutsideJoin
  | check_right {c a b} : .foldJoin ∉ fs → Bad fs before (.check c .rightChild a b) .checkPosRightOutsideJoin
  | fold {f j} : InFold fs → Bad fs before (.fold f j) .nestedFold
  | count {z o m} : InCount fs → Bad fs before (.count z o m) .nestedCount
  | child_zero {i} : .countZero ∈ fs → Bad fs before (.child i) .countZeroChild
  | child_one {i} : .countOne ∈ fs → i ≠ 0 → i ≠ -1 → Bad fs before (.child i) (.countOneChildIndex i)
  | check_zero {c i a b} : .countZero ∈ fs → Bad fs before (.check c (.child i) a b) .countZeroCheckPosChild
  | check_one {c i a b} : .countOne ∈ fs → i ≠ 0 → i ≠ -1 →
      Bad fs before (.check c (.child i) a b) (.countOneCheckPosChildIndex i)
  | text_count : InCount fs → Bad fs before .text .textInsideCount
  | text_fold : InFold fs → Bad fs before .text .textInsideFold
  | text_eol {evs} : before evs → EolPending evs → Bad fs before .text .textAfterEol
  | literal_eol {s evs} : before evs → EolPending evs → Bad fs before (.literal s) .textAfterEol
  /-- However it is reached, there was a mark already. -/
  | mark : (∀ evs, before evs → Marked evs) → Bad fs before .focusMark .multipleFocusMarks

/-- `Flaw n e`: the notation `n` has the flaw `e` somewhere. -/
def Flaw (n : Notation L C) (e : NotationError) : Prop :=
  ∃ p fs m, At n p fs m ∧ Bad fs (Before n p) m e

/-- The notation displays only its own node: there is no `Child` and no `Fold` in it. -/
def Notation.SelfContained : Notation L C → Prop
  | .child _ => False
  | .fold _ _ => False
  | .flat a => a.SelfContained
  | .indent _ _ a => a.SelfContained
  | .style _ a => a.SelfContained
  | .concat a b => a.SelfContained ∧ b.SelfContained
  | .choice a b => a.SelfContained ∧ b.SelfContained
  | .check _ _ a b => a.SelfContained ∧ b.SelfContained
  | .count a b c => a.SelfContained ∧ b.SelfContained ∧ c.SelfContained
  | _ => True

end PPP
