import Verif.Spec.Greedy
/-
Specification: the layout of the author's reference implementation
(/repo/outdated-proofs/refn_impl_cont.hs:38-57), on notation trees.

The reference implementation looks ahead without limit: to take a choice, it finishes the whole layout with
the first option, and keeps it if the line that the choice is on fits in the finished layout.  The printer
only looks to the end of the line, and supposes that all the choices there take their second options.
-/
namespace PPP
variable {P : PrettyDoc}

/-- In the layout that displays `B` and then `A`, the line on which `A` starts fits: it is within the width, and
    no text on it comes both after an end-of-line mark and after the start of `A`. -/
def FitsFrom (w : Nat) (B A : List (Tok P)) : Prop :=
  (∃ line, (linesOf (B ++ A))[(linesOf B).length - 1]? = some line ∧ segsWidth line ≤ w) ∧
    (.eol ∈ lastLine B → ∀ x, .text x ∉ firstLine A) ∧
    (∀ X x Y, firstLine A = X ++ .text x :: Y → .eol ∉ X)

/-- `Finishes w B k A`: after `B` has been displayed, and when the trees of `k` are still to be displayed, the
    reference layout displays `A`.  A choice takes its first option exactly if its line fits in the
    finished layout with the first option. -/
inductive Finishes (w : Nat) : List (GTok P) → List (P.Id × NTree P) → List (GTok P) → Prop where
  | nil {B} : Finishes w B [] []
  | empty {B id k A} : Finishes w B k A → Finishes w B ((id, .empty) :: k) A
  | mark {B id k A} : Finishes w (B ++ [.tok (.mark id)]) k A → Finishes w B ((id, .mark) :: k) (.tok (.mark id) :: A)
  | eol {B id k A} : Finishes w (B ++ [.tok .eol]) k A → Finishes w B ((id, .eol) :: k) (.tok .eol :: A)
  | newline {B id k ind A} : Finishes w (B ++ [.tok (.nl ind)]) k A →
      Finishes w B ((id, .newline ind) :: k) (.tok (.nl ind) :: A)
  | text {B id k t A} : Finishes w (B ++ [.tok (.text t)]) k A →
      Finishes w B ((id, .text t) :: k) (.tok (.text t) :: A)
  | child {B id i c t k A} : Finishes w B ((c, t) :: k) A → Finishes w B ((id, .child i (.ok c) t) :: k) A
  | concat {B id a b k A} : Finishes w B ((id, a) :: (id, b) :: k) A → Finishes w B ((id, .concat a b) :: k) A
  | choice_first {B id a b k A} : Finishes w (B ++ [.first]) ((id, a) :: k) A → FitsFrom w (erase B) (erase A) →
      Finishes w B ((id, .choice a b) :: k) (.first :: A)
  | choice_second {B id a b k A A'} : Finishes w (B ++ [.first]) ((id, a) :: k) A' →
      ¬ FitsFrom w (erase B) (erase A') → Finishes w (B ++ [.second]) ((id, b) :: k) A →
      Finishes w B ((id, .choice a b) :: k) (.second :: A)

end PPP
