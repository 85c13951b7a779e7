import Verif.Proofs.ProgramFormat
import Verif.Props.Programs
/-
C81: how the programs of the tests are laid out.
-/
namespace PPP
variable {sw : String → Nat}

/-- **C81**, method chains: the printed text consists of the lines of a formatter that is given in Spec/ProgramFormat.lean.
    Printing succeeds with this text, unless a line is wider than the printer can count. -/
theorem C81_chain (e : ChainExpr) (next w : Nat) (s : String) :
    prettyPrintToString (P := chainDoc sw) (e.build next).1 w = Exec.ofRes (.ok s) ↔
      s = "\n".intercalate ((e.lines sw w).map Word.str) ∧ ∀ l ∈ e.lines sw w, l.width ≤ maxWidth :=
  (chain_inks e next [] 0 rfl).prints (chainLaw sw) (id := (e.build next).1.id) (by unfold rootTree; rw [chain_ntree]; rfl) s

/-- **C81**, loops. -/
theorem C81_ruby (e : RubyExpr) (next w : Nat) (s : String) :
    prettyPrintToString (P := rubyDoc sw) (e.build next).1 w = Exec.ofRes (.ok s) ↔
      s = "\n".intercalate ((e.lines sw w).map Word.str) ∧ ∀ l ∈ e.lines sw w, l.width ≤ maxWidth :=
  (ruby_inks e next [] 0 rfl).prints (rubyLaw sw) (id := (e.build next).1.id) (by unfold rootTree; rw [ruby_ntree]; rfl) s

/-! ### Concrete cases -/

namespace Ex

/-- The formatter's lines for the programs of the tests — /repo/tests/standard/test_cases/iter_chain.rs:152-251 and ruby_loop.rs:129-165.
    In a closure's body, a call may be on the next line although the closure's brace is not. -/
example : (someVec.lines String.length 30).map Word.str =
      ["some_vec.iter()", "    .map(", "        |elem| { elem * elem }", "    ).collect()"] ∧
    (someVec.lines String.length 40).map Word.str = ["some_vec.iter()", "    .map(|elem| { elem * elem })", "    .collect()"] ∧
    (longMethods.lines String.length 35).map Word.str =
      ["some_vec", "    .call_the_map_method(", "        |elem| { elem }", "    )", "    .call_the_map_method(", "        |elem| { elem }", "    )"] ∧
    (each.lines String.length 20).map Word.str = ["(1..5).each do |i|", "    puts i", "end"] ∧
    ((ChainExpr.closure "x" (.methodCall (.var "x") "abs" (.var "y"))).lines String.length 13).map Word.str =
      ["|x| { x", "    .abs(y) }"] := by
  refine ⟨?_, ?_, ?_, ?_, ?_⟩ <;> decide +kernel

/-- They are printed. -/
example : prettyPrintToString (P := chainDoc String.length)
      ((ChainExpr.closure "x" (.methodCall (.var "x") "abs" (.var "y"))).build 7).1 13 = Exec.ofRes (.ok "|x| { x\n    .abs(y) }") :=
  (C81_chain _ _ _ _).2 (by decide +kernel)

end Ex
end PPP
