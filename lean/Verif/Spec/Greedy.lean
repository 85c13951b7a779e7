import Verif.Spec.Layout
/-
Specification, part 5: the greedy layout once more, declaratively.

`NTree.layout` (part 2) is a function that decides choices by running a small state machine.  Here the
same thing is said without one: what fits is said in terms of the tokens of the rest of the line, and
the layout is a relation with one rule per kind of tree.  The relation is total: it goes on after a
text that follows an end-of-line mark, and after a line that is too wide for the column counter;
those are described separately, as defects of the displayed tokens.
-/
namespace PPP
variable {P : PrettyDoc}

/-! ### Tokens -/

/-- The columns taken by the texts among some tokens. -/
def toksWidth (T : List (Tok P)) : Nat :=
  (T.map fun
    | .text t => t.width
    | _ => 0).sum

/-- Not a line break. -/
def Tok.notNl : Tok P → Bool
  | .nl _ => false
  | _ => true

/-- The tokens before the first line break. -/
def firstLine (T : List (Tok P)) : List (Tok P) := T.takeWhile Tok.notNl

/-- The current line of some tokens: those after the last line break. -/
def lastLine (T : List (Tok P)) : List (Tok P) := (T.reverse.takeWhile Tok.notNl).reverse

/-- Some text is displayed after an end-of-line mark (`e`: or there was one already). -/
def TextAfterEol (e : Bool) (line : List (Tok P)) : Prop :=
  ∃ A x C, line = A ++ .text x :: C ∧ (e = true ∨ .eol ∈ A)

/-- The tokens up to the next line break fit on the current line. -/
def LineFits (w : Nat) (st : LineSt) (T : List (Tok P)) : Prop :=
  st.col + toksWidth (firstLine T) ≤ w ∧ ¬ TextAfterEol st.eol (firstLine T)

/-- What a tree displays if the second option of every choice is taken (focus marks left out). -/
def NTree.seconds : NTree P → List (Tok P)
  | .fail _ => []
  | .empty => []
  | .mark => []
  | .eol => [.eol]
  | .newline ind => [.nl ind]
  | .text t => [.text t]
  | .child _ _ t => t.seconds
  | .concat a b => a.seconds ++ b.seconds
  | .choice _ b => b.seconds

/-- The rest of the current line fits, when `k` is displayed next and the second option is taken in
    every choice in `k`. -/
def SecondsFit (w : Nat) (st : LineSt) (k : List (NTree P)) : Prop :=
  LineFits w st (k.flatMap NTree.seconds)

/-! ### Displayed tokens, with the decisions taken -/

/-- A token, or a record of which option was taken by a choice at this place. -/
inductive GTok (P : PrettyDoc) where
  | tok (t : Tok P)
  | first
  | second

/-- Forget the decisions. -/
def erase : List (GTok P) → List (Tok P)
  | [] => []
  | .tok t :: T => t :: erase T
  | .first :: T => erase T
  | .second :: T => erase T

/-- `Greedy w id t k st st' T`: the tree `t` of the node `id`, when it starts in the state `st` and is
    followed by `k`, displays `T` and ends in the state `st'`. -/
inductive Greedy (w : Nat) : P.Id → NTree P → List (NTree P) → LineSt → LineSt → List (GTok P) → Prop where
  | empty {id k st} : Greedy w id .empty k st st []
  | mark {id k st} : Greedy w id .mark k st st [.tok (.mark id)]
  | eol {id k st} : Greedy w id .eol k st ⟨st.col, true⟩ [.tok .eol]
  | newline {id k st ind} : Greedy w id (.newline ind) k st ⟨segsWidth ind, false⟩ [.tok (.nl ind)]
  | text {id k st t} : Greedy w id (.text t) k st ⟨st.col + t.width, st.eol⟩ [.tok (.text t)]
  | child {id i c t k st st' T} : Greedy w c t k st st' T →
      Greedy w id (.child i (.ok c) t) k st st' T
  | concat {id a b k st st1 st2 T U} : Greedy w id a (b :: k) st st1 T → Greedy w id b k st1 st2 U →
      Greedy w id (.concat a b) k st st2 (T ++ U)
  | choice_first {id a b k st st' T} : SecondsFit w st (a :: k) → Greedy w id a k st st' T →
      Greedy w id (.choice a b) k st st' (.first :: T)
  | choice_second {id a b k st st' T} : ¬ SecondsFit w st (a :: k) → Greedy w id b k st st' T →
      Greedy w id (.choice a b) k st st' (.second :: T)

/-- Everything that the greedy layout of a whole document displays. -/
def GreedyDoc (w : Nat) (id : P.Id) (t : NTree P) (T : List (GTok P)) : Prop :=
  ∃ st, Greedy w id t [] ⟨0, false⟩ st T

/-! ### Defects -/

/-- A line of the tokens is wider than the column counter can count. -/
def TooWide (T : List (Tok P)) : Prop := ∃ l ∈ linesOf T, maxWidth < segsWidth l

/-- Somewhere, a text is displayed after an end-of-line mark and on the same line. -/
def EolDefect (T : List (Tok P)) : Prop :=
  ∃ A B x C, T = A ++ .eol :: B ++ .text x :: C ∧ ∀ ind, .nl ind ∉ B

/-- The tokens can be printed. -/
def Printable (T : List (Tok P)) : Prop := ¬ TooWide T ∧ ¬ EolDefect T

/-! ### All the ways of resolving choices -/

/-- `Resolves id t T`: `T` is what `t` displays with some way of taking its choices. -/
inductive Resolves : P.Id → NTree P → List (GTok P) → Prop where
  | empty {id} : Resolves id .empty []
  | mark {id} : Resolves id .mark [.tok (.mark id)]
  | eol {id} : Resolves id .eol [.tok .eol]
  | newline {id ind} : Resolves id (.newline ind) [.tok (.nl ind)]
  | text {id t} : Resolves id (.text t) [.tok (.text t)]
  | child {id i c t T} : Resolves c t T → Resolves id (.child i (.ok c) t) T
  | concat {id a b T U} : Resolves id a T → Resolves id b U → Resolves id (.concat a b) (T ++ U)
  | choice_first {id a b T} : Resolves id a T → Resolves id (.choice a b) (.first :: T)
  | choice_second {id a b T} : Resolves id b T → Resolves id (.choice a b) (.second :: T)

/-- The documented requirement on choices (/repo/src/notation.rs:71-76): whenever the first option
    fits on the current line, so does the second. -/
def NTree.GoodChoices (w : Nat) : NTree P → Prop
  | .concat a b => a.GoodChoices w ∧ b.GoodChoices w
  | .child _ _ t => t.GoodChoices w
  | .choice a b => a.GoodChoices w ∧ b.GoodChoices w ∧
      ∀ k st, SecondsFit w st (a :: k) → SecondsFit w st (b :: k)
  | _ => True

end PPP
