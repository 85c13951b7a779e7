import Verif.Proofs.RefLaws
import Verif.Props.Ideal
/-
C67: the author's laws of the reference implementation.
-/
namespace PPP
namespace Ref

/-- **C67**: being the same document is an equivalence, and the same documents can be used in place of each
    other. -/
theorem C67_equivalence :
    (∀ x, Same x x) ∧ (∀ x y, Same x y → Same y x) ∧ (∀ x y z, Same x y → Same y z → Same x z) ∧
      ∀ x y, Same x y → ∀ c : Ctx, Same (c.fill x) (c.fill y) := by
  refine ⟨fun x c w => rfl, fun x y h c w => (h c w).symm, fun x y z h1 h2 c w => (h1 c w).trans (h2 c w), ?_⟩
  intro x y h c c' w
  have key : ∀ (c' : Ctx), ∃ c'' : Ctx, ∀ d, c''.fill d = c'.fill (c.fill d) := by
    intro c'
    induction c' with
    | hole => exact ⟨c, fun d => rfl⟩
    | indent i e ih => obtain ⟨e', h⟩ := ih; exact ⟨.indent i e', fun d => by simp [Ctx.fill, h]⟩
    | flat e ih => obtain ⟨e', h⟩ := ih; exact ⟨.flat e', fun d => by simp [Ctx.fill, h]⟩
    | concatLeft e y ih => obtain ⟨e', h⟩ := ih; exact ⟨.concatLeft e' y, fun d => by simp [Ctx.fill, h]⟩
    | concatRight x e ih => obtain ⟨e', h⟩ := ih; exact ⟨.concatRight x e', fun d => by simp [Ctx.fill, h]⟩
    | choiceLeft e y ih => obtain ⟨e', h⟩ := ih; exact ⟨.choiceLeft e' y, fun d => by simp [Ctx.fill, h]⟩
    | choiceRight x e ih => obtain ⟨e', h⟩ := ih; exact ⟨.choiceRight x e', fun d => by simp [Ctx.fill, h]⟩
  obtain ⟨c'', h''⟩ := key c'
  rw [← h'', ← h'']
  exact h c'' w

/-- **C67**: both reference implementations print the same documents alike. -/
theorem C67_printed {x y : Doc} (h : Same x y) (c : Ctx) (w : Nat) :
    (ppTree (c.fill x)).resolve w = (ppTree (c.fill y)).resolve w ∧ prettyCont w (c.fill x) = prettyCont w (c.fill y) := by
  refine ⟨h c w, ?_⟩
  unfold prettyCont
  rw [C64_same_reference, C64_same_reference, h c w]

/-- **C67**, concatenation: concat-unit and concat-assoc. -/
theorem C67_concat (x y z : Doc) :
    Same (.concat .empty x) x ∧ Same (.concat x .empty) x ∧
      Same (.concat (.concat x y) z) (.concat x (.concat y z)) :=
  ⟨(law_unit_left x).same, (law_unit_right x).same, (law_assoc x y z).same⟩

/-- **C67**, texts: text-empty and text-concat. -/
theorem C67_text (s t : String) :
    Same (.text "") .empty ∧ Same (.concat (.text s) (.text t)) (.text (s ++ t)) :=
  ⟨law_text_empty.same, (law_text_concat s t).same⟩

/-- **C67**, indentation: indent-absorb-empty, indent-absorb-text, indent-newline, indent-distr-concat,
    indent-distr-choice, indent-identity and indent-compose. -/
theorem C67_indent (i j : Nat) (t : String) (x y : Doc) :
    Same (.indent i .empty) .empty ∧ Same (.indent i (.text t)) (.text t) ∧
      Same (.indent i .newline) (.concat .newline (.text (String.ofList (List.replicate i ' ')))) ∧
      Same (.indent i (.concat x y)) (.concat (.indent i x) (.indent i y)) ∧
      Same (.indent i (.choice x y)) (.choice (.indent i x) (.indent i y)) ∧
      Same (.indent 0 x) x ∧ Same (.indent j (.indent i x)) (.indent (i + j) x) :=
  ⟨(law_indent_empty i).same, (law_indent_text i t).same, (law_indent_newline i).same, (law_indent_concat i x y).same,
    (law_indent_choice i x y).same, (law_indent_zero x).same, (law_indent_indent i j x).same⟩

/-- **C67**, flattening: flat-absorb-empty, flat-absorb-text, flat-newline, flat-distr-concat,
    flat-distr-choice and flat-compose. -/
theorem C67_flat (t : String) (x y : Doc) :
    Same (.flat .empty) .empty ∧ Same (.flat (.text t)) (.text t) ∧ Same (.flat .newline) .err ∧
      Same (.flat (.concat x y)) (.concat (.flat x) (.flat y)) ∧
      Same (.flat (.choice x y)) (.choice (.flat x) (.flat y)) ∧ Same (.flat (.flat x)) (.flat x) :=
  ⟨law_flat_empty.same, (law_flat_text t).same, law_flat_newline.same, (law_flat_concat x y).same,
    (law_flat_choice x y).same, (law_flat_flat x).same⟩

/-- **C67**, errors: error-concat, error-indent, error-flat and error-choice. -/
theorem C67_error (i : Nat) (x : Doc) :
    Same (.concat .err x) .err ∧ Same (.concat x .err) .err ∧ Same (.indent i .err) .err ∧ Same (.flat .err) .err ∧
      Same (.choice .err x) x ∧ Same (.choice x .err) x :=
  ⟨(law_err_left x).same, (law_err_right x).same, (law_err_indent i).same, law_err_flat.same,
    (law_err_choice_left x).same, (law_err_choice_right x).same⟩

/-- **C67**, choices: choice-assoc, choice-distr-text-left and choice-distr-right. -/
theorem C67_choice (t : String) (x y z : Doc) :
    Same (.choice x (.choice y z)) (.choice (.choice x y) z) ∧
      Same (.concat (.text t) (.choice x y)) (.choice (.concat (.text t) x) (.concat (.text t) y)) ∧
      Same (.concat (.choice x y) z) (.choice (.concat x z) (.concat y z)) :=
  ⟨(law_choice_assoc x y z).same, (law_choice_text t x y).same, (law_choice_right x y z).same⟩

/-- **C67**, the law that does not hold: a newline does not distribute over a choice. -/
theorem C67_not_distributive : ∃ y z : Doc,
    ¬ Same (.concat .newline (.choice y z)) (.choice (.concat .newline y) (.concat .newline z)) := by
  refine ⟨.text "ccc", .text "bb", fun h => ?_⟩
  exact absurd (h .hole 2) (by decide)

/-- **C67**, the laws are not vacuous: choices and concatenations do not commute, and indentation can be seen. -/
theorem C67_distinguishes :
    ¬ Same (.choice (.text "a") (.text "b")) (.choice (.text "b") (.text "a")) ∧
      ¬ Same (.concat (.text "a") (.text "b")) (.concat (.text "b") (.text "a")) ∧
      ¬ Same (.indent 1 .newline) .newline ∧ ¬ Same .newline .err := by
  refine ⟨fun h => ?_, fun h => ?_, fun h => ?_, fun h => ?_⟩
  · exact absurd (h .hole 1) (by decide)
  · exact absurd (h .hole 1) (by decide)
  · exact absurd (h .hole 1) (by decide)
  · exact absurd (h .hole 1) (by decide)

/-- **C67**, normal form: every document is the same as `Err`, or as a document made of texts, newlines,
    concatenations and choices only; and not both. -/
theorem C67_normal_form (d : Doc) :
    (Same d .err ∧ ¬ ∃ d', d'.Basic ∧ Same d d') ∨ (¬ Same d .err ∧ ∃ d', d'.Basic ∧ Same d d') := by
  have hne : ∀ d' : Doc, d'.Basic → Same d d' → ¬ Same d .err := by
    intro d' hb h h'
    obtain ⟨ls, h1, _⟩ := basic_tree hb 0 0 id fun ls _ => ⟨ls, rfl, by omega⟩
    rw [resolveIn_id] at h1
    have e1 := h .hole 0
    have e2 := h' .hole 0
    simp only [Ctx.fill] at e1 e2
    rw [← e1, e2] at h1
    cases h1
  rcases normal_form d with h | ⟨d', hb, h⟩
  · exact .inl ⟨h.same, fun ⟨d', hb, h'⟩ => hne d' hb h' h.same⟩
  · exact .inr ⟨hne d' hb h.same, d', hb, h.same⟩

/-- **C67**, errors do not depend on the width: printing fails for one width exactly if it fails for all widths,
    which is exactly if the document is the same as `Err`. -/
theorem C67_fails_iff (d : Doc) (w : Nat) : (ppTree d).resolve w = .err ↔ Same d .err := by
  constructor
  · intro h
    rcases C67_normal_form d with ⟨h', _⟩ | ⟨_, d', hb, h'⟩
    · exact h'
    · obtain ⟨ls, h1, _⟩ := basic_tree hb w 0 id fun ls _ => ⟨ls, rfl, by omega⟩
      rw [resolveIn_id] at h1
      have e1 := h' .hole w
      simp only [Ctx.fill] at e1
      rw [← e1, h] at h1
      cases h1
  · intro h
    exact h .hole w

theorem Doc.Basic.plain {d : Doc} (h : d.Basic) : d.Plain := by
  induction d with
  | err | empty | indent _ _ _ | flat _ _ => exact h.elim
  | text | newline => trivial
  | concat x y ih1 ih2 => exact ⟨ih1 h.1, ih2 h.2⟩
  | choice x y ih1 ih2 => exact ⟨ih1 h.1, ih2 h.2⟩

/-- **C67**, and the printer: every document that is not the same as `Err` has a normal form that the printer can
    print, and if the choices of the normal form obey the documented requirement, the printer prints
    it as the reference implementation prints the document. -/
theorem C67_printer {d : Doc} (h : ¬ Same d .err) : ∃ (d' : Doc) (hp : d'.Plain), d'.Basic ∧ Same d d' ∧
    ∀ w, (d'.tree hp).GoodChoices w → ∀ ls, (ppTree d).resolve w = .lines ls → (∀ l ∈ ls, l.length ≤ maxWidth) →
      prettyPrintToString (d'.node hp) w = Exec.ofRes (.ok ("\n".intercalate ls)) := by
  rcases C67_normal_form d with ⟨h', _⟩ | ⟨_, d', hb, h'⟩
  · exact absurd h' h
  refine ⟨d', hb.plain, hb, h', fun w hc ls hls hl => ?_⟩
  obtain ⟨ls', h1, h2, h3⟩ := C64_reference hb.plain w
  have e : (ppTree d).resolve w = (ppTree d').resolve w := h' .hole w
  rw [C64_same_reference, ← e, hls] at h1
  obtain rfl : ls = ls' := by injection h1
  rw [← h2]
  exact (h3 hc _).2 ⟨rfl, hl⟩

/-! ### Examples -/

namespace Ex

/-- `Flat ("a" newline | "bb") + (2 :>> newline "c")`. -/
def laws : Doc :=
  .concat (.flat (.choice (.concat (.text "a") .newline) (.text "bb"))) (.indent 2 (.concat .newline (.text "c")))

example (w : Nat) : (ppTree laws).resolve w = .lines ["bb", "  c"] := by
  simp [laws, ppTree, Layouts.append, Layouts.appendLeaf, Layouts.resolve, Layouts.flatten, Layouts.indent,
    Layout.append, Layout.flatten, Layout.indent, pick_err_left, spaces]

theorem laws_normal : Same laws (.concat (.text "bb") (.concat (.concat .newline (.text "  ")) (.text "c"))) := by
  refine (Alike.concat ?_ ?_).same
  · refine (law_flat_choice _ _).trans ?_
    refine (((law_flat_concat _ _).trans (((Alike.refl _).concat law_flat_newline).trans (law_err_right _))).choice
      (law_flat_text _)).trans (law_err_choice_left _)
  · exact (law_indent_concat 2 _ _).trans ((law_indent_newline 2).concat (law_indent_text 2 _))

example : ¬ Same laws .err := by
  rw [← C67_fails_iff laws 0]
  decide

example : Same (.flat (.concat (.text "a") .newline)) .err := by
  rw [← C67_fails_iff _ 7]
  decide

end Ex

end Ref
end PPP
