import Verif.Proofs.Ink
import Verif.Props.Printing
import Verif.Props.Example
import Verif.Props.Laws
/-
C71: what matters of the printed text does not depend on the width.
-/
namespace PPP

section
variable {P : PrettyDoc} {keep : Char → Bool}

/-- **C71.**  Let `keep` say which characters matter, a newline not being one of them.  If in the notation of every node
    of the document both options of every choice show the same of what matters, and no indentation contains anything
    that matters, then what matters of the printed text is that of the notations of the nodes, put together. -/
theorem C71_ink (law : P.Lawful) (hk : keep '\n' = false) {doc : P.Node}
    (hs : ∀ q, P.Within doc q → ∀ a, P.notn q = .ok a → a.Steady keep) {w : Nat} {s : String}
    (h : prettyPrintToString doc w = Exec.ofRes (.ok s)) : kept keep s = docInk keep law doc := by
  obtain ⟨id, L, h1, rfl⟩ := (C01_to_string_iff law doc w s).1 h
  obtain ⟨t, h2, h3⟩ := docLayout_ok law h1
  have ht : docTree law doc false [] none = .ok t := by
    unfold rootTree at h2
    cases hd : docTree law doc false [] none with
    | error f => rw [hd] at h2; cases h2
    | ok t' =>
      rw [hd] at h2
      cases hi : P.id doc with
      | error f => rw [hi] at h2; cases h2
      | ok i => rw [hi] at h2; cases h2; rfl
  have hi := docTree_inks law doc hs false [] none t (by rintro x ⟨⟩) ht
  have e : linesString (linesOf L.toks) = toksString L.toks := join_lineStrs L.toks
  rw [e]
  unfold NTree.layoutDoc at h3
  cases hl : t.layout w id [] ⟨0, false⟩ with
  | error f => simp [hl, bind, Except.bind] at h3
  | ok r =>
    obtain ⟨st', r⟩ := r
    simp [hl, bind, Except.bind] at h3
    subst h3
    exact layout_inks hk t hl hi

/-- **C71.**  So it is the same at every width at which the document can be printed. -/
theorem C71_width_independent (law : P.Lawful) (hk : keep '\n' = false) {doc : P.Node}
    (hs : ∀ q, P.Within doc q → ∀ a, P.notn q = .ok a → a.Steady keep) {w w' : Nat} {s s' : String}
    (h : prettyPrintToString doc w = Exec.ofRes (.ok s)) (h' : prettyPrintToString doc w' = Exec.ofRes (.ok s')) :
    s.toList.filter keep = s'.toList.filter keep :=
  (C71_ink law hk hs h).trans (C71_ink law hk hs h').symm

end

section
open Ex

/-- The list of the example: all but spaces and newlines matters. -/
theorem Ex.listN_steady : listN.1.Steady (fun c => c != ' ' && c != '\n') := by
  intro e
  simp only [listN, HAdd.hAdd, Add.add, Notation.Agrees, Notation.ink, kept, and_true, true_and]
  intro l k
  simp

theorem Ex.exDoc_steady : ∀ q, exP.Within exDoc q → ∀ a, exP.notn q = .ok a →
    a.Steady (fun c => c != ' ' && c != '\n') := by
  intro q hq a ha
  rcases exWithin hq with rfl | rfl | rfl <;> cases ha
  · exact listN_steady
  · intro e; trivial
  · intro e; trivial

/-- C71: `[aa, bbb]` and `[aa,` above `bbb]` are both `[aa,bbb]`. -/
example : docInk (fun c => c != ' ' && c != '\n') exLaw exDoc = "[aa,bbb]".toList ∧
    "[aa, bbb]".toList.filter (fun c => c != ' ' && c != '\n') =
      "[aa,\nbbb]".toList.filter (fun c => c != ' ' && c != '\n') := by
  have h9 : prettyPrintToString (P := exP) exDoc 9 = Exec.ofRes (.ok "[aa, bbb]") := by
    have h := C01_to_string_is_layout exLaw exDoc 9
    rw [exLayout_wide] at h
    rw [h]; rfl
  have h8 : prettyPrintToString (P := exP) exDoc 8 = Exec.ofRes (.ok "[aa,\nbbb]") := by
    have h := C01_to_string_is_layout exLaw exDoc 8
    rw [exLayout_narrow] at h
    rw [h]; rfl
  refine ⟨?_, C71_width_independent exLaw (by decide) exDoc_steady h9 h8⟩
  rw [← C71_ink exLaw (by decide) exDoc_steady h9]
  simp [kept]

/-- `lit("ab") | lit("c")`. -/
def Ex.twoFaced : TreeNotation := ⟨.choice (.literal "ab") (.literal "c"), by decide⟩

/-- **C71.**  This is not so if the options of a choice differ in what matters. -/
theorem C71_options_must_agree :
    prettyPrintToString (P := exP) (oneNode twoFaced) 2 = Exec.ofRes (.ok "ab") ∧
    prettyPrintToString (P := exP) (oneNode twoFaced) 1 = Exec.ofRes (.ok "c") := by
  constructor
  · refine oneNode_print (L := .text (lit "ab" 2)) ?_ _ rfl
    unfold docLayout rootTree
    rw [docTree_of exLaw (a := twoFaced.1) (s := ()) rfl rfl]
    rfl
  · refine oneNode_print (L := .text (lit "c" 1)) ?_ _ rfl
    unfold docLayout rootTree
    rw [docTree_of exLaw (a := twoFaced.1) (s := ()) rfl rfl]
    rfl

end
end PPP
