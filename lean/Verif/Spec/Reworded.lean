import Verif.Spec.Denote
import Verif.Spec.Output
import Verif.Model.Json
import Mathlib.Data.List.Forall2
/-
Specification: documents that differ only in the texts of their nodes, where each text is as wide as the other.
-/
namespace PPP
variable (P : PrettyDoc)

/-- Both are texts, as wide as each other and related by `Q`, or the same failure. -/
def SameWidth {E : Type} (sw : String → Nat) (Q : String → String → Prop) : Call E String → Call E String → Prop
  | .ok s, .ok s' => sw s = sw s' ∧ Q s s'
  | .error e, .error e' => e = e'
  | _, _ => False

/-- Both are nodes related by `R`, or the same failure. -/
def SameChild {E N : Type} (R : N → N → Prop) : Call E N → Call E N → Prop
  | .ok c, .ok d => R c d
  | .error e, .error e' => e = e'
  | _, _ => False

/-- Nodes that are related by `R` return the same in all methods, but for texts, which are as wide as each other and related
    by `Q`, and children, which are related by `R` again. -/
structure Rewording (Q : String → String → Prop) (R : P.Node → P.Node → Prop) : Prop where
  id : ∀ {p q}, R p q → P.id q = P.id p
  notn : ∀ {p q}, R p q → P.notn q = P.notn p
  nodeStyle : ∀ {p q}, R p q → P.nodeStyle q = P.nodeStyle p
  lookupStyle : ∀ {p q}, R p q → ∀ l, P.lookupStyle q l = P.lookupStyle p l
  condition : ∀ {p q}, R p q → ∀ c, P.condition q c = P.condition p c
  numChildren : ∀ {p q}, R p q → P.numChildren q = P.numChildren p
  text : ∀ {p q}, R p q → P.numChildren p = .ok none → SameWidth P.strWidth Q (P.unwrapText p) (P.unwrapText q)
  child : ∀ {p q}, R p q → ∀ n i, P.numChildren p = .ok (some n) → i < n →
    SameChild R (P.unwrapChild p i) (P.unwrapChild q i)

/-- The documents differ only in their texts; each text is as wide as the one in the other document, and related to it by `Q` (which
    says what replaces what; if it does not matter then `Q` can always be true). -/
def Reworded (Q : String → String → Prop) (doc doc' : P.Node) : Prop := ∃ R, Rewording P Q R ∧ R doc doc'

variable {P}

/-- Two segments are the same, but that the string may have been replaced. -/
structure SameSegment (Q : String → String → Prop) (s s' : Segment P) : Prop where
  width : s.width = s'.width
  style : s.style = s'.style
  str : s.str = s'.str ∨ Q s.str s'.str

/-- As many lines, each made of as many segments, which are the same but that strings may have been replaced. -/
abbrev SameLines (Q : String → String → Prop) : List (List (Segment P)) → List (List (Segment P)) → Prop :=
  List.Forall₂ (List.Forall₂ (SameSegment Q))

/-- Also the parts of the texts replace each other, wherever they are cut. -/
def CutAlike (sw : String → Nat) (Q : String → String → Prop) : Prop :=
  ∀ s s' : String, Q s s' → ∀ n : Nat,
    let left := String.ofList (s.toList.take n); let left' := String.ofList (s'.toList.take n)
    let right := String.ofList (s.toList.drop n); let right' := String.ofList (s'.toList.drop n)
    (sw left = sw left' ∧ Q left left') ∧ sw right = sw right' ∧ Q right right'

/-- Trees (/repo/src/doc_examples/tree.rs) that differ only in texts, where each text is as wide as the other, empty only if
    the other is, and related to it by `Q`. -/
inductive Tree.Reworded {S : Type} (sw : String → Nat) (Q : String → String → Prop) : Tree S → Tree S → Prop where
  | text {s s' i n st o c sep} : sw s = sw s' → (s = "" ↔ s' = "") → Q s s' →
    Reworded sw Q (.text s i n st o c sep) (.text s' i n st o c sep)
  | branch {cs ds i n st o c sep} : List.Forall₂ (Reworded sw Q) cs ds →
    Reworded sw Q (.branch cs i n st o c sep) (.branch ds i n st o c sep)

/-- A text may replace another in a tree. -/
structure SameWord (sw : String → Nat) (Q : String → String → Prop) (s s' : String) : Prop where
  width : sw s = sw s'
  empty : s = "" ↔ s' = ""
  rel : Q s s'

mutual
/-- The same calls of `json_*` functions (/repo/src/doc_examples/json.rs), but that strings, keys, numbers and words of comments are
    replaced by others that are as wide. -/
inductive Json.Reworded (sw : String → Nat) (Q : String → String → Prop) : Json → Json → Prop where
  | null (i) : Reworded sw Q (.null i) (.null i)
  | bool (i b) : Reworded sw Q (.bool i b) (.bool i b)
  | string (i) {s s'} : SameWord sw Q s s' → Reworded sw Q (.string i s) (.string i s')
  | number (i) {s s'} : SameWord sw Q s s' → Reworded sw Q (.number i s) (.number i s')
  | array (i) {es es'} : AllReworded sw Q es es' → Reworded sw Q (.array i es) (.array i es')
  | pair (i k) {s s' v v'} : SameWord sw Q s s' → Reworded sw Q v v' → Reworded sw Q (.pair i k s v) (.pair i k s' v')
  | object (i) {es es'} : AllReworded sw Q es es' → Reworded sw Q (.object i es) (.object i es')
  | comment (i f) {s s'} : List.Forall₂ (fun u v => SameWord sw Q (String.ofList u) (String.ofList v))
      (splitWhitespace [] s.toList) (splitWhitespace [] s'.toList) → Reworded sw Q (.comment i f s) (.comment i f s')
  | roots (i) {es es'} : AllReworded sw Q es es' → Reworded sw Q (.roots i es) (.roots i es')
@[inherit_doc Json.Reworded]
inductive Json.AllReworded (sw : String → Nat) (Q : String → String → Prop) : List Json → List Json → Prop where
  | nil : AllReworded sw Q [] []
  | cons {e e' es es'} : Reworded sw Q e e' → AllReworded sw Q es es' → AllReworded sw Q (e :: es) (e' :: es')
end

end PPP
