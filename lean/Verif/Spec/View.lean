import Verif.Spec.NTree
import Verif.Spec.Extend
/-
Specification: which parts of a document may be looked at.

A *view* of a document is what one sees of it after having looked into some of its nodes only: a sequence
of texts, newlines and marks, and of nodes and choices that have not been looked into.
-/
namespace PPP
variable {P : PrettyDoc}

/-- A view.  Every item comes with the id of the node to whose notation it belongs. -/
abbrev View (P : PrettyDoc) := List (P.Id × NTree P)

/-- What a tree shows before looking into any child or choice. -/
def NTree.parts : NTree P → List (NTree P)
  | .empty => []
  | .concat a b => a.parts ++ b.parts
  | t => [t]

/-- What the tree `t`, which belongs to the node `id`, shows before looking into any child or choice. -/
def shown (id : P.Id) (t : NTree P) : View P := t.parts.map fun p => (id, p)

/-- The first line of a tree, if it is laid out as compactly as can be (the second option of every choice being taken):
    how many columns it has, and whether a newline ends it (or something is missing from there on). -/
def NTree.firstLine : NTree P → Nat × Bool
  | .empty => (0, false)
  | .mark => (0, false)
  | .eol => (0, false)
  | .text t => (t.width, false)
  | .newline _ => (0, true)
  | .fail _ => (0, true)
  | .concat a b => if a.firstLine.2 then a.firstLine else (a.firstLine.1 + b.firstLine.1, b.firstLine.2)
  | .choice _ b => b.firstLine
  | .child _ _ t => t.firstLine

/-- The first line of the tree may fit in `w` columns. -/
def FitsIn (w : Nat) (t : NTree P) : Prop := t.firstLine.1 ≤ w

/-- Looking into an item, when the width is `w`: into a child; into the second option of a choice; or into its first
    option, if that one's first line may fit. -/
inductive LooksInto (w : Nat) : P.Id × NTree P → View P → Prop where
  | child {id i cid t} : LooksInto w (id, .child i (.ok cid) t) (shown cid t)
  | first {id a b} : FitsIn w a → LooksInto w (id, .choice a b) (shown id a)
  | second {id a b} : LooksInto w (id, .choice a b) (shown id b)

/-- Looking into some items of a view, and into items that are seen then, and so on. -/
inductive Expands (w : Nat) : View P → View P → Prop where
  | refl (V) : Expands w V V
  | step {V A x X B} : Expands w V (A ++ x :: B) → LooksInto w x X → Expands w V (A ++ X ++ B)

/-- Peeking into some items of a view, to find out how wide they are: into children (even ones whose `id()` fails), and
    into the second options of choices. -/
inductive Peeks : View P → View P → Prop where
  | refl (V) : Peeks V V
  | child {V A id i cid t B} : Peeks V (A ++ (id, .child i (.ok cid) t) :: B) → Peeks V (A ++ shown cid t ++ B)
  | noId {V A id i f t B} : Peeks V (A ++ (id, .child i (.error f) t) :: B) → Peeks V (A ++ shown id t ++ B)
  | second {V A id a b B} : Peeks V (A ++ (id, .choice a b) :: B) → Peeks V (A ++ shown id b ++ B)

/-- Looking into the item fails with `f`. -/
def OpenFails : P.Id × NTree P → Fail P.Err → Prop
  | (_, .child _ cid t), f => cid = .error f ∨ .fail f ∈ t.parts
  | (_, .choice a b), f => .fail f ∈ a.parts ∨ .fail f ∈ b.parts
  | _, _ => False

/-- There is nothing to look into: a text, a newline, a mark or an end-of-line mark. -/
def Plain (x : P.Id × NTree P) : Prop :=
  match x.2 with
  | .text _ => True
  | .newline _ => True
  | .mark => True
  | .eol => True
  | _ => False

/-- The item is a newline. -/
def IsNewline (x : P.Id × NTree P) : Prop := ∃ ind, x.2 = .newline ind

/-- The number of newlines in a view. -/
def newlines : View P → Nat
  | [] => 0
  | (_, .newline _) :: V => newlines V + 1
  | _ :: V => newlines V

/-- The number of columns of the texts in a view. -/
def columns : View P → Nat
  | [] => 0
  | (_, .text t) :: V => t.width + columns V
  | _ :: V => columns V

/-- `V` is empty or begins with a newline. -/
def StartsLine (V : View P) : Prop := V = [] ∨ ∃ x V', V = x :: V' ∧ IsNewline x
/-- `V` is empty or ends with a newline. -/
def EndsLine (V : View P) : Prop := V = [] ∨ ∃ x V', V = V' ++ [x] ∧ IsNewline x

/-- A line: a view without newlines. -/
def OneLine (L : View P) : Prop := ∀ x ∈ L, ¬ IsNewline x

/-- Reading the line `L` from its start fails with `f`.  This happens at the first item of the line that can be
    looked into; or, if this is a choice, at an item that may come to be in the first `w` columns of the line when
    the first option of this choice is taken, and the second option of every choice after it. -/
def ReadFails (w : Nat) (L : View P) (f : Fail P.Err) : Prop :=
  ∃ R z rest, (∀ x ∈ R, Plain x ∧ ¬ IsNewline x) ∧ OpenFails z f ∧
    (L = R ++ z :: rest ∨ ∃ R0 id a b rest0, (∀ x ∈ R0, Plain x ∧ ¬ IsNewline x) ∧
      L = R0 ++ (id, .choice a b) :: rest0 ∧ Peeks (R0 ++ shown id a ++ rest0) (R ++ z :: rest) ∧ columns R ≤ w)

/-- `Zoom w id t path A x B`: one way of looking into the document with tree `t` and id `id` such that one sees `A`,
    then the node at `path` (which is `x`: its id and tree), and then `B`. -/
inductive Zoom (w : Nat) (id : P.Id) (t : NTree P) : List Nat → View P → P.Id × NTree P → View P → Prop where
  | root : Zoom w id t [] [] (id, t) []
  | child {path A pid tp B i A' cid tc B'} : Zoom w id t path A (pid, tp) B →
      Expands w (A ++ shown pid tp ++ B) (A' ++ (pid, .child i (.ok cid) tc) :: B') →
      Zoom w id t (path ++ [i]) A' (cid, tc) B'

/-- When searching for child `i` of the node `pid`: either that child, or a choice of the node, which might
    contain the child. -/
def MayBeChild (pid : P.Id) (i : Nat) (x : P.Id × NTree P) : Prop :=
  x.1 = pid ∧ ((∃ cid t, x.2 = .child i cid t) ∨ ∃ a b, x.2 = .choice a b)

/-- Following the path fails with `f`: the notation of a node on the path fails; or reading a line fails, on which
    the next node of the path might be. -/
def PathFails (w : Nat) (id : P.Id) (t : NTree P) (path : List Nat) (f : Fail P.Err) : Prop :=
  (∃ q rest A x B, path = q ++ rest ∧ Zoom w id t q A x B ∧ .fail f ∈ x.2.parts) ∨
  (∃ q i rest A pid tp B V L V' y, path = q ++ i :: rest ∧ Zoom w id t q A (pid, tp) B ∧
    Expands w (A ++ shown pid tp ++ B) (V ++ L ++ V') ∧ EndsLine V ∧ OneLine L ∧ StartsLine V' ∧
    y ∈ L ∧ MayBeChild pid i y ∧ ReadFails w L f)

/-- Where the focus may be, when the node `x` is to be focused, with `A` before it and `B` after it: between the
    two views. -/
inductive FocusAt (w : Nat) : FocusTarget → View P → P.Id × NTree P → View P → View P → View P → Prop where
  | start {A id t B} : FocusAt w .start A (id, t) B A (shown id t ++ B)
  | «end» {A id t B} : FocusAt w .end A (id, t) B (A ++ shown id t) B
  | mark {A id t B R B'} : Expands w (shown id t ++ B) (R ++ (id, .mark) :: B') → (∀ x ∈ R, Plain x ∧ x ≠ (id, .mark)) →
      FocusAt w .mark A (id, t) B (A ++ R) B'
  | text {n A id t B R cid tx B'} : Expands w (shown id t ++ B) (R ++ (cid, .text tx) :: B') → tx.isFromText = true →
      (∀ x ∈ R, Plain x ∧ ∀ t', x.2 = .text t' → t'.isFromText = false) →
      FocusAt w (.text n) A (id, t) B (A ++ R ++ [(cid, .text (tx.splitAt n).1)]) ((cid, .text (tx.splitAt n).2) :: B')

/-- Finding the place to focus on fails with `f`. For `End`, reading the line on which the node ends fails; for `Mark`
    (or `Text`), reading a line fails, with no mark (or text) between the start of the node and this line. -/
inductive FocusFails (w : Nat) : FocusTarget → View P → P.Id × NTree P → View P → Fail P.Err → Prop where
  | «end» {A id t V L V' B f} : Expands w (A ++ shown id t) (V ++ L) → EndsLine V → OneLine (L ++ V') → StartsLine B →
      ReadFails w (L ++ V') f → FocusFails w .end A (id, t) (V' ++ B) f
  | mark {A id t B R L V f} : Expands w (shown id t ++ B) (R ++ L ++ V) → EndsLine R → OneLine L → StartsLine V →
      (∀ x ∈ R, Plain x ∧ x ≠ (id, .mark)) → ReadFails w L f → FocusFails w .mark A (id, t) B f
  | text {n A id t B R L V f} : Expands w (shown id t ++ B) (R ++ L ++ V) → EndsLine R → OneLine L → StartsLine V →
      (∀ x ∈ R, Plain x ∧ ∀ t', x.2 = .text t' → t'.isFromText = false) → ReadFails w L f →
      FocusFails w (.text n) A (id, t) B f

/-- Reading on from the start of the view `B` fails with `f`, on line number `m` or an earlier one (the first line
    being line `0`): there are at most `m` newlines before the line, and everything before it has been looked
    into. -/
def DownFails (w m : Nat) (B : View P) (f : Fail P.Err) : Prop :=
  ∃ R L V, Expands w B (R ++ L ++ V) ∧ (∀ x ∈ R, Plain x) ∧ EndsLine R ∧ newlines R ≤ m ∧ OneLine L ∧ StartsLine V ∧
    ReadFails w L f

/-- Reading backwards from the end of the view `A` fails with `f`, on one of the `m` lines before the last line of
    `A`; everything after the line has been looked into. -/
def UpFails (w m : Nat) (A : View P) (f : Fail P.Err) : Prop :=
  ∃ V L R, Expands w A (V ++ L ++ R) ∧ (∀ x ∈ R, Plain x) ∧ StartsLine R ∧ 1 ≤ newlines R ∧ newlines R ≤ m ∧
    OneLine L ∧ EndsLine V ∧ ReadFails w L f

/-- Printing the focused line, `k` lines above it and `j` lines below it. -/
def printAround (doc : P.Node) (width : Nat) (path : List Nat) (target : FocusTarget) (rootStyle : Option P.Style)
    (k j : Nat) : Exec P.Err (List (Option (Line P)) × FocusedLine P × List (Option (Line P))) := do
  let r ← prettyPrint doc width path target rootStyle
  let (above, _) ← takeLines Printer.nextUp k r.up
  let (below, _) ← takeLines Printer.nextDown j r.down
  pure (above, r.focused, below)

/-- What `printAround` shows. -/
def aroundView (r : List (Option (Line P)) × FocusedLine P × List (Option (Line P))) :=
  (r.1.map (Option.map Line.view), r.2.1.view, r.2.2.map (Option.map Line.view))

/-- Something fails with `f` which one comes across when following the path in the document with the tree `t` and the
    id `id`, finding the focus, and reading the line with the focus, the `k` lines above it and the `j` lines below
    it. -/
def NearFails (w : Nat) (id : P.Id) (t : NTree P) (path : List Nat) (target : FocusTarget) (k j : Nat)
    (f : Fail P.Err) : Prop :=
  PathFails w id t path f ∨
  ∃ A x B, Zoom w id t path A x B ∧ (FocusFails w target A x B f ∨
    ∃ left right, FocusAt w target A x B left right ∧ (UpFails w k left f ∨ DownFails w j right f))

/-- Rows `0`, …, `n - 1`, with separators before, between and after them. -/
def rowsOf {α : Type} (sep : Nat → List α) (row : Nat → α) : Nat → List α
  | 0 => sep 0
  | n + 1 => rowsOf sep row n ++ row n :: sep (n + 1)

/-- The notation of the node displays its children `0`, …, `n - 1` on separate lines: between any two of them there is
    a newline (and maybe other texts, newlines and marks). `rid m` and `tc m` are the id and the tree of child `m`. -/
def IsRows (t : NTree P) (n : Nat) (rid : Nat → Res P.Err P.Id) (tc : Nat → NTree P) : Prop :=
  ∃ sep : Nat → List (NTree P), t.parts = rowsOf sep (fun m => .child m (rid m) (tc m)) n ∧
    (∀ (m : Nat) (id : P.Id), ∀ p ∈ sep m, Plain (id, p)) ∧ ∀ m, 0 < m → m < n → ∃ ind, .newline ind ∈ sep m

end PPP
