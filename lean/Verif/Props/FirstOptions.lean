import Verif.Proofs.FirstOptions
import Verif.Props.Laws
/-
C72: when all choices show their first options.
-/
namespace PPP
variable {P : PrettyDoc}

/-- **C72.**  Let the choices of a document obey the documented requirement (the second option fits when the first does),
    and let `T` be the layout that takes the first option of every choice.  It is the greedy layout exactly if at every
    choice what is then left of the line fits: it stays within the width, and has no text after an end-of-line mark. -/
theorem C72_first_options {w : Nat} {id : P.Id} {t : NTree P} {T : List (GTok P)} (hc : t.GoodChoices w)
    (hr : Resolves id t T) (h2 : .second ∉ T) :
    GreedyDoc w id t T ↔ ∀ B A, T = B ++ .first :: A → LineFits w (lineAfter ⟨0, false⟩ (erase B)) (erase A) := by
  constructor
  · rintro ⟨st, hg⟩ B A hT
    have := greedy_first_fits hg hT
    simpa using this
  · intro h
    refine ⟨_, greedy_of_firsts hr hc h2 [] ⟨0, false⟩ [] (fun _ h => h) fun B A hT => ?_⟩
    rw [List.append_nil]
    exact h B A hT

/-- **C72.**  So if all lines of that layout are within the width, then it is what is printed. -/
theorem C72_printed (law : P.Lawful) {doc : P.Node} {w : Nat} {id t T} (hr : rootTree law doc none = .ok (id, t))
    (hn : t.NoFail) (hc : t.GoodChoices w) (hT : Resolves id t T) (h2 : .second ∉ T)
    (hw : ∀ l ∈ linesOf (erase T), segsWidth l ≤ w) (he : ¬ EolDefect (erase T)) (hm : w ≤ maxWidth) :
    prettyPrintToString doc w = Exec.ofRes (.ok (linesString (linesOf (erase T)))) := by
  have hg : GreedyDoc w id t T := (C72_first_options hc hT h2).2 fun B A e =>
    lineFits_of_lines hw he (erase B) (erase A) (by rw [e, erase_append]; rfl)
  refine (C10_iff law _ hr hn).2 ⟨T, hg, ⟨?_, he⟩, rfl⟩
  rintro ⟨l, g1, g2⟩
  have := hw l g1
  omega

/-- **C72**, and conversely: if a wider window is printed with first options only, and all lines of that are within the
    width, then the narrower window shows the same. -/
theorem C72_narrower (law : P.Lawful) {doc : P.Node} {w w' : Nat} {id t T} (hr : rootTree law doc none = .ok (id, t))
    (hn : t.NoFail) (hc : t.GoodChoices w) (hg : GreedyDoc w' id t T) (h2 : .second ∉ T) {s : String}
    (hs : prettyPrintToString doc w' = Exec.ofRes (.ok s)) (hw : ∀ l ∈ linesOf (erase T), segsWidth l ≤ w)
    (hm : w ≤ maxWidth) : prettyPrintToString doc w = Exec.ofRes (.ok s) := by
  obtain ⟨T', g1, g2, rfl⟩ := (C10_iff law s hr hn).1 hs
  obtain ⟨st, hg⟩ := hg
  obtain ⟨st', g1⟩ := g1
  obtain ⟨_, rfl⟩ := greedy_unique hg g1
  exact C72_printed law hr hn hc (greedy_resolves hg) h2 hw g2.2 hm

section
open Ex

/-- C72: from width 9 on, the example is printed on one line. -/
example (w : Nat) (h : 9 ≤ w) (hm : w ≤ maxWidth) :
    prettyPrintToString (P := exP) exDoc w = Exec.ofRes (.ok "[aa, bbb]") := by
  have hg := exGreedy9
  have hr := greedy_resolves hg.choose_spec
  refine C72_printed (T := exToks9) exLaw exTree_eq exTree_noFail (exGoodChoices w) hr (by simp [exToks9]) ?_
    ((printable_iff _).2 rfl : Printable (erase exToks9)).2 hm
  have h9 : ∀ l ∈ linesOf (erase exToks9), segsWidth l ≤ 9 := by decide
  intro l hl
  exact Nat.le_trans (h9 l hl) h

/-- **C72** needs the requirement on choices: of `("a" | "bbb") | "cc"`, the layout `a` takes first options only and fits in
    two columns, but `cc` is printed, because the printer looks at the second option of the inner choice. -/
theorem C72_requirement_needed : ∃ t, ∃ T : List (GTok exP), rootTree exLaw (oneNode groupLeft) none = .ok (nid 0, t) ∧
    Resolves (nid 0) t T ∧ .second ∉ T ∧ linesString (linesOf (erase T)) = "a" ∧
    (∀ l ∈ linesOf (erase T), segsWidth l ≤ 2) ∧ ¬ EolDefect (erase T) ∧
    prettyPrintToString (P := exP) (oneNode groupLeft) 2 = Exec.ofRes (.ok "cc") := by
  refine ⟨.choice (.choice (.text (lit "a" 1)) (.text (lit "bbb" 3))) (.text (lit "cc" 2)),
    [.first, .first, .tok (.text (lit "a" 1))], ?_, .choice_first (.choice_first .text), by simp, ?_, by decide,
    ((printable_iff _).2 rfl : Printable _).2, C52_choice_not_assoc.1⟩
  · unfold rootTree
    rw [docTree_of exLaw (a := groupLeft.1) (s := ()) rfl rfl]
    rfl
  · decide

end
end PPP
