import Verif.Proofs.ProgramTree
import Verif.Props.Ink
import Verif.Props.OracleTest
/-
C73: the programs of the tests.
-/
namespace PPP
variable {sw : String → Nat}

/-! ### method chains -/

/-- **C73**, method chains: what is printed, at whichever width, is the source of the program, but for white space. -/
theorem C73_chain_text (e : ChainExpr) (next : Nat) {w : Nat} {s : String}
    (h : prettyPrintToString (P := chainDoc sw) (e.build next).1 w = Exec.ofRes (.ok s)) :
    s.toList.filter (fun c => !isWhitespace c) = e.source.toList.filter (fun c => !isWhitespace c) := by
  have := C71_ink (chainLaw sw) (keep := visible) (by decide) (fun q _ a ha => by
    injection ha with ha
    subst ha
    exact chain_steady q) h
  rw [chain_ink] at this
  exact this

/-- **C73**, method chains: a program that fits on one line is printed on one line, as its source. -/
theorem C73_chain_one_line (hsw : Narrower sw) (e : ChainExpr) (next : Nat) {w : Nat} (hw : e.cols sw ≤ w) (hm : w ≤ maxWidth) :
    prettyPrintToString (P := chainDoc sw) (e.build next).1 w = Exec.ofRes (.ok e.source) := by
  obtain ⟨id, t, h1, h2, h3⟩ := chain_root hsw e next
  exact h2.oneLine (chainLaw sw) h1 h3 hw hm

/-- **C73**, method chains: every program that is not enormous is printed, at every width. -/
theorem C73_chain_prints (hsw : Narrower sw) (e : ChainExpr) (next : Nat)
    (hm : e.depth * sw "    " + e.cols sw ≤ maxWidth) (w : Nat) :
    ∃ s, prettyPrintToString (P := chainDoc sw) (e.build next).1 w = Exec.ofRes (.ok s) := by
  obtain ⟨id, t, h1, h2, _⟩ := chain_root hsw e next
  exact h2.prints (chainLaw sw) h1 hm w

/-- **C73**, method chains: the test of the repository passes, with every program that is not enormous, exactly if the lines
    that are expected are those that are printed. -/
theorem C73_chain_assert_pp (hsw : Narrower sw) (hadd : WidthsAdd sw) (e : ChainExpr) (next : Nat)
    (hm : e.depth * sw "    " + 2 * e.cols sw ≤ 55535) {w : Nat} (hw : w < 10000) :
    assertPpWithoutExpectation (P := chainDoc sw) (e.build next).1 w = Exec.ofRes (.ok ()) ∧
      ∀ lines, assertPp (P := chainDoc sw) (e.build next).1 w lines = Exec.ofRes (.ok ()) ↔
        prettyPrintToString (P := chainDoc sw) (e.build next).1 w = Exec.ofRes (.ok ("\n".intercalate lines)) := by
  obtain ⟨id, t, h1, h2, _⟩ := chain_root hsw e next
  obtain ⟨s, ho, hp⟩ := h2.oracle (chainLaw sw) h1 hadd hw hm
  obtain ⟨g1, g2⟩ := C63_assert_pp (chainLaw sw) (chain_walkable _) (chain_idsOnPaths e next) ho hp
    (fun id' L hL path hpath => locate_of_reach (chainLaw sw) hL fun nt ht => chain_reach _ hpath ht)
  refine ⟨g1, fun lines => (g2 lines).trans ?_⟩
  rw [hp]
  constructor
  · intro hs; rw [hs]
  · intro hs
    have := Exec.ofRes_inj hs
    simp only [Except.ok.injEq] at this
    exact this.symm

/-! ### loops -/

/-- **C73**, loops: what is printed, at whichever width, is the source of the program, but for white space. -/
theorem C73_ruby_text (e : RubyExpr) (next : Nat) {w : Nat} {s : String}
    (h : prettyPrintToString (P := rubyDoc sw) (e.build next).1 w = Exec.ofRes (.ok s)) :
    s.toList.filter (fun c => !isWhitespace c) = e.source.toList.filter (fun c => !isWhitespace c) := by
  have := C71_ink (rubyLaw sw) (keep := visible) (by decide) (fun q _ a ha => by
    injection ha with ha
    subst ha
    exact ruby_steady q) h
  rw [ruby_ink] at this
  exact this

/-- **C73**, loops: a program that fits on one line is printed on one line, as its source. -/
theorem C73_ruby_one_line (hsw : Narrower sw) (e : RubyExpr) (next : Nat) {w : Nat} (hw : e.cols sw ≤ w) (hm : w ≤ maxWidth) :
    prettyPrintToString (P := rubyDoc sw) (e.build next).1 w = Exec.ofRes (.ok e.source) := by
  obtain ⟨id, t, h1, h2, h3⟩ := ruby_root hsw e next
  exact h2.oneLine (rubyLaw sw) h1 h3 hw hm

/-- **C73**, loops: every program that is not enormous is printed, at every width. -/
theorem C73_ruby_prints (hsw : Narrower sw) (e : RubyExpr) (next : Nat)
    (hm : e.depth * sw "    " + e.cols sw ≤ maxWidth) (w : Nat) :
    ∃ s, prettyPrintToString (P := rubyDoc sw) (e.build next).1 w = Exec.ofRes (.ok s) := by
  obtain ⟨id, t, h1, h2, _⟩ := ruby_root hsw e next
  exact h2.prints (rubyLaw sw) h1 hm w

/-- **C73**, loops: the test of the repository passes, with every program that is not enormous, exactly if the lines
    that are expected are those that are printed. -/
theorem C73_ruby_assert_pp (hsw : Narrower sw) (hadd : WidthsAdd sw) (e : RubyExpr) (next : Nat)
    (hm : e.depth * sw "    " + 2 * e.cols sw ≤ 55535) {w : Nat} (hw : w < 10000) :
    assertPpWithoutExpectation (P := rubyDoc sw) (e.build next).1 w = Exec.ofRes (.ok ()) ∧
      ∀ lines, assertPp (P := rubyDoc sw) (e.build next).1 w lines = Exec.ofRes (.ok ()) ↔
        prettyPrintToString (P := rubyDoc sw) (e.build next).1 w = Exec.ofRes (.ok ("\n".intercalate lines)) := by
  obtain ⟨id, t, h1, h2, _⟩ := ruby_root hsw e next
  obtain ⟨s, ho, hp⟩ := h2.oracle (rubyLaw sw) h1 hadd hw hm
  obtain ⟨g1, g2⟩ := C63_assert_pp (rubyLaw sw) (ruby_walkable _) (ruby_idsOnPaths e next) ho hp
    (fun id' L hL path hpath => locate_of_reach (rubyLaw sw) hL fun nt ht => ruby_reach _ hpath ht)
  refine ⟨g1, fun lines => (g2 lines).trans ?_⟩
  rw [hp]
  constructor
  · intro hs; rw [hs]
  · intro hs
    have := Exec.ofRes_inj hs
    simp only [Except.ok.injEq] at this
    exact this.symm

/-! ### Concrete cases -/

namespace Ex

theorem lengthNarrower : Narrower String.length := by
  unfold Narrower
  decide

/-- `some_vec.iter().map(|elem| { elem * elem }).collect()` — /repo/tests/standard/test_cases/iter_chain.rs:152-157. -/
def someVec : ChainExpr :=
  .methodCall (.methodCall (.methodCall (.var "some_vec") "iter" (.var "")) "map"
    (.closure "elem" (.times (.var "elem") (.var "elem")))) "collect" (.var "")

/-- `iter_chain_iter_map_collect` — /repo/tests/standard/test_cases/iter_chain.rs:152-198. -/
theorem C73_iter_chain_iter_map_collect :
    assertPp (P := chainDoc String.length) (someVec.build 0).1 80 ["some_vec.iter().map(|elem| { elem * elem }).collect()"] = Exec.ofRes (.ok ()) ∧
    assertPp (P := chainDoc String.length) (someVec.build 0).1 50 ["some_vec.iter().map(|elem| { elem * elem })", "    .collect()"] = Exec.ofRes (.ok ()) ∧
    assertPp (P := chainDoc String.length) (someVec.build 0).1 40 ["some_vec.iter()", "    .map(|elem| { elem * elem })", "    .collect()"] = Exec.ofRes (.ok ()) ∧
    assertPp (P := chainDoc String.length) (someVec.build 0).1 30 ["some_vec.iter()", "    .map(", "        |elem| { elem * elem }", "    ).collect()"] = Exec.ofRes (.ok ()) := by
  refine ⟨?_, ?_, ?_, ?_⟩ <;>
    exact ((C73_chain_assert_pp lengthNarrower lengthWidths.adds someVec 0 (by decide) (by decide)).2 _).2 (chain_prints rfl)

/-- The document of the next test. -/
def longBody : ChainExpr := .methodCall (.var "some_vec") "map" (.closure "elem" (.times (.var "elem") (.var "elem")))

/-- `iter_chain_long_method_body` — /repo/tests/standard/test_cases/iter_chain.rs:200-217. -/
theorem C73_iter_chain_long_method_body :
    assertPp (P := chainDoc String.length) (longBody.build 0).1 31 ["some_vec", "    .map(", "        |elem| { elem * elem }", "    )"] = Exec.ofRes (.ok ()) :=
  ((C73_chain_assert_pp lengthNarrower lengthWidths.adds longBody 0 (by decide) (by decide)).2 _).2 (chain_prints rfl)

/-- The document of the next test. -/
def longMethods : ChainExpr :=
  .methodCall (.methodCall (.var "some_vec") "call_the_map_method" (.closure "elem" (.var "elem"))) "call_the_map_method"
    (.closure "elem" (.var "elem"))

/-- `iter_chain_long_methods` — /repo/tests/standard/test_cases/iter_chain.rs:219-251. -/
theorem C73_iter_chain_long_methods :
    assertPp (P := chainDoc String.length) (longMethods.build 0).1 41 ["some_vec", "    .call_the_map_method(|elem| { elem })", "    .call_the_map_method(|elem| { elem })"] = Exec.ofRes (.ok ()) ∧
    assertPp (P := chainDoc String.length) (longMethods.build 0).1 35 ["some_vec", "    .call_the_map_method(", "        |elem| { elem }", "    )", "    .call_the_map_method(", "        |elem| { elem }", "    )"] = Exec.ofRes (.ok ()) := by
  refine ⟨?_, ?_⟩ <;>
    exact ((C73_chain_assert_pp lengthNarrower lengthWidths.adds longMethods 0 (by decide) (by decide)).2 _).2 (chain_prints rfl)

/-- The document of the next test. -/
def each : RubyExpr := .methodCall (.var "(1..5)") "each" (.doLoop "i" (.var "puts i"))

/-- `ruby_loop` — /repo/tests/standard/test_cases/ruby_loop.rs:129-165. -/
theorem C73_ruby_loop :
    assertPp (P := rubyDoc String.length) (each.build 0).1 30 ["(1..5).each do |i| puts i end"] = Exec.ofRes (.ok ()) ∧
    assertPp (P := rubyDoc String.length) (each.build 0).1 20 ["(1..5).each do |i|", "    puts i", "end"] = Exec.ofRes (.ok ()) ∧
    assertPp (P := rubyDoc String.length) (each.build 0).1 15 ["(1..5)", "    .each", "        do |i|", "            puts i", "        end"] = Exec.ofRes (.ok ()) := by
  refine ⟨?_, ?_, ?_⟩ <;>
    exact ((C73_ruby_assert_pp lengthNarrower lengthWidths.adds each 0 (by decide) (by decide)).2 _).2 (ruby_prints rfl)

end Ex
end PPP
