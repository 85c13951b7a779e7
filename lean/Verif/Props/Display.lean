import Verif.Proofs.Display
import Verif.Props.Laws
/-
C70: displayed notations and error messages tell things apart.
-/
namespace PPP
section
variable {L C : Type} {showL : L → String} {showC : C → String}

/-- **C70.**  Two notations are displayed the same (`format!("{}", n)`) exactly if they are the same, up to
    the grouping of concatenations and the styles of indentation, which are not displayed. -/
theorem C70_display_iff (hr : Readable showL showC) {a b : Notation L C} (ha : a.Quoteless) (hb : b.Quoteless) :
    a.display showL showC = b.display showL showC ↔ a.Regroups b :=
  ⟨fun h => .trans (canon_regroups a) (canon_eq hr ha hb h ▸ .symm (canon_regroups b)), regroups_display⟩

theorem joinR_equiv (nc : Option Nat) (a z : Notation L C) : NEquiv nc (a.concat z) (a.joinR z) := by
  induction a with
  | concat a b _ ihb => exact .trans (.assoc a b z) (.concat (.refl _) ihb)
  | _ => exact .refl _

theorem canon_equiv (nc : Option Nat) {a : Notation L C} (h : a.PlainIndents) : NEquiv nc a a.canon := by
  induction a with
  | concat a b iha ihb => exact .trans (.concat (iha h.1) (ihb h.2)) (joinR_equiv _ _ _)
  | flat a ih => exact .flat (ih h)
  | indent s l a ih =>
    obtain ⟨rfl, h⟩ := h
    exact .indent (ih h)
  | choice a b iha ihb => exact .choice (iha h.1) (ihb h.2)
  | check c p a b iha ihb => exact .check (iha h.1) (ihb h.2)
  | style l a ih => exact .style (ih h)
  | count z o m h1 h2 h3 => exact .count (h1 h.1) (h2 h.2.1) (h3 h.2.2)
  | fold f j h1 h2 => exact .fold (h1 h.1) (h2 h.2)
  | _ => exact .refl _

/-- **C70.**  Notations that are displayed the same mean the same (in the sense of C52: replacing one by the
    other in a document does not change what is printed), if no indentation has a style of its own. -/
theorem C70_display_same_meaning (hr : Readable showL showC) {a b : Notation L C} (ha : a.Quoteless)
    (hb : b.Quoteless) (pa : a.PlainIndents) (pb : b.PlainIndents)
    (h : a.display showL showC = b.display showL showC) (nc : Option Nat) : NEquiv nc a b :=
  .trans (canon_equiv nc pa) (canon_eq hr ha hb h ▸ .symm (canon_equiv nc pb))

/-- **C70.**  Strings with quotes in them are not escaped: different notations may be displayed the same. -/
theorem C70_quotes_ambiguous :
    (Notation.literal "a' + 'b" : Notation L C).display showL showC =
      (Notation.literal "a" + Notation.literal "b" : Notation L C).display showL showC ∧
    ¬ (Notation.literal "a' + 'b" : Notation L C).Regroups (Notation.literal "a" + Notation.literal "b") := by
  constructor
  · show "'" ++ "a' + 'b" ++ "'" = "'" ++ "a" ++ "'" ++ " + " ++ ("'" ++ "b" ++ "'")
    decide
  · intro h
    have key : ∀ {a b : Notation L C}, a.Regroups b → (a.isConcat = true ↔ b.isConcat = true) := by
      intro a b h
      induction h with
      | symm _ ih => exact ih.symm
      | trans _ _ h1 h2 => exact h1.trans h2
      | _ => rfl
    have := (key h).2 rfl
    cases this

end

/-! ### Error messages -/

set_option maxHeartbeats 4000000 in
/-- **C70.**  The messages of notation errors tell the errors apart — except that the two messages that
    should mention an index always say `0`. -/
theorem C70_notation_error_messages (e e' : NotationError) :
    e.message = e'.message ↔ e = e' ∨
      (∃ i j, e = .countOneChildIndex i ∧ e' = .countOneChildIndex j) ∨
      (∃ i j, e = .countOneCheckPosChildIndex i ∧ e' = .countOneCheckPosChildIndex j) := by
  constructor
  · intro h
    unfold NotationError.message at h
    replace h := congrArg String.toList h
    have z : toString (0 : Int) = "0" := rfl
    cases e <;> cases e' <;> dsimp only at h <;> first | (simp; done) | (simp [z] at h)
  · rintro (rfl | ⟨i, j, rfl, rfl⟩ | ⟨i, j, rfl, rfl⟩) <;> rfl

theorem nat_decode {m n : Nat} {r r' : List Char} (hr : ∀ c t, r = c :: t → c.isDigit = false)
    (hr' : ∀ c t, r' = c :: t → c.isDigit = false)
    (h : (toString m).toList ++ r = (toString n).toList ++ r') : m = n ∧ r = r' := by
  rw [natChars, natChars] at h
  obtain ⟨e, h⟩ := span_inj (p := Char.isDigit) (fun c hc => natChars_digit hc) (fun c hc => natChars_digit hc)
    hr hr' h
  exact ⟨natChars_inj e, h⟩

set_option maxHeartbeats 4000000 in
/-- **C70.**  The messages of printing errors tell the errors apart, with everything that is in them. -/
theorem C70_printing_error_messages {E : Type} {showE : E → String} (hs : ∀ e e', showE e = showE e' → e = e')
    {e e' : PrintingError E} (h : e.message showE = e'.message showE) : e = e' := by
  unfold PrintingError.message at h
  replace h := congrArg String.toList h
  have two : ∀ {i i' : Int} {n n' : Nat},
      (toString i).toList ++ (") but doc node only had ".toList ++ ((toString n).toList ++ " children.".toList)) =
      (toString i').toList ++ (") but doc node only had ".toList ++ ((toString n').toList ++ " children.".toList)) →
      i = i' ∧ n = n' := by
    intro i i' n n' h
    have e1 : ") but doc node only had ".toList = ')' :: " but doc node only had ".toList := by simp
    have e2 : " children.".toList = ' ' :: "children.".toList := by simp
    rw [e1, e2, List.cons_append, List.cons_append] at h
    obtain ⟨ei, h⟩ := int_decode (i := i) (j := i') (fun c t e => by cases e; simp)
      (fun c t e => by cases e; simp) h
    replace h := List.append_cancel_left (List.cons.inj h).2
    exact ⟨ei, (nat_decode (fun c t e => by cases e; rfl) (fun c t e => by cases e; rfl) h).1⟩
  have under : ∀ {i : Int} {t : List Char},
      "Notation/doc mismatch: Notation contained CheckPos::Child(".toList ++ ((toString i).toList ++ t) =
        "Notation/doc mismatch: Notation contained CheckPos::Child(_) but doc node contained text instead.".toList →
      False := by
    intro i t h
    have e : "Notation/doc mismatch: Notation contained CheckPos::Child(_) but doc node contained text instead.".toList
        = "Notation/doc mismatch: Notation contained CheckPos::Child(".toList ++
          '_' :: ") but doc node contained text instead.".toList := by simp
    rw [e] at h
    exact int_head (i := i) (by decide) (List.append_cancel_left h)
  cases e <;> cases e' <;> dsimp only at h <;>
    first | (simp; done) | (simp at h; done) | simp only [String.toList_append, List.append_assoc] at h
  · replace h := List.append_cancel_left h
    have e : ".".toList = ['.'] := by simp
    rw [e] at h
    rw [(nat_decode (fun c t e => by cases e; rfl) (fun c t e => by cases e; rfl) h).1]
  · obtain ⟨e1, e2⟩ := two (List.append_cancel_left h)
    rw [e1, e2]
  · obtain ⟨e1, e2⟩ := two (List.append_cancel_left h)
    rw [e1, e2]
  · exact (under h).elim
  · exact (under h.symm).elim
  · rw [hs _ _ (String.toList_inj.1 (List.append_cancel_left h))]

/-- **C70.**  The messages of `PaneError` tell the errors apart, if those of the window and of the document do. -/
theorem C70_pane_error_messages {W E : Type} {showW : W → String} {showE : E → String} (hw : ∀ e e', showW e = showW e' → e = e')
    (hs : ∀ e e', showE e = showE e' → e = e') {e e' : PaneError W E} (h : e.message showW showE = e'.message showW showE) :
    e = e' := by
  unfold PaneError.message at h
  have cancel : ∀ {a b c : String}, a ++ b = a ++ c → b = c := by
    intro a b c h
    have := congrArg String.toList h
    simp only [String.toList_append] at this
    exact String.toList_injective (List.append_cancel_left this)
  cases e <;> cases e' <;> dsimp only at h
  case prettyWindowError.prettyWindowError => rw [hw _ _ (cancel h)]
  case printingError.printingError => rw [C70_printing_error_messages hs (cancel h)]
  all_goals first
    | rfl
    | (replace h := congrArg String.toList h; simp at h)

/-- **C70.**  Positions and sizes are told apart when they are displayed.  (But a size is displayed height first, like the
    position of its lower right corner.) -/
theorem C70_positions (p q : Pos) (s t : Size) : (p.display = q.display ↔ p = q) ∧ (s.display = t.display ↔ s = t) ∧
    (Pos.zero.add s = some p → p.display = s.display) := by
  have key : ∀ {a b c d : Nat}, toString a ++ ":" ++ toString b = toString c ++ ":" ++ toString d → a = c ∧ b = d := by
    intro a b c d h
    replace h := congrArg String.toList h
    simp only [String.toList_append, List.append_assoc] at h
    have e : ":".toList = [':'] := by simp
    rw [e] at h
    obtain ⟨h1, h2⟩ := nat_decode (fun c t e => by cases e; rfl) (fun c t e => by cases e; rfl) h
    replace h2 := (List.cons.inj h2).2
    refine ⟨h1, (nat_decode (r := []) (r' := []) (fun c t e => by cases e) (fun c t e => by cases e) ?_).1⟩
    rw [List.append_nil, List.append_nil]
    exact h2
  refine ⟨⟨fun h => ?_, fun h => by rw [h]⟩, ⟨fun h => ?_, fun h => by rw [h]⟩, fun h => ?_⟩
  · obtain ⟨h1, h2⟩ := key h
    cases p; cases q
    simp_all
  · obtain ⟨h1, h2⟩ := key h
    cases s; cases t
    simp_all
  · unfold Pos.add at h
    split at h
    · cases h
      simp [Pos.display, Size.display, Pos.zero]
    · cases h

/-- C70: an error of a window, and one of a document. -/
example : (PaneError.prettyWindowError 3 : PaneError Nat Nat).message toString toString = "PrettyWindow error: 3" ∧
    (PaneError.printingError (.invalidPath 2) : PaneError Nat Nat).message toString toString =
      "PrettyDoc printing error: Pretty printing path invalid at child index 2." ∧
    Pos.display ⟨3, 14⟩ = "3:14" ∧ Size.display ⟨80, 24⟩ = "24:80" ∧ Pos.zero.add ⟨80, 24⟩ = some ⟨24, 80⟩ ∧
    Pos.add ⟨0, 65530⟩ ⟨6, 0⟩ = none := by
  refine ⟨by decide, by decide, by decide, by decide, by decide, by decide⟩

/-! ### Concrete cases -/

namespace Ex

/-- Labels that are numbers, and the conditions `true` and `false`. -/
theorem numbers_readable : Readable (fun n : Nat => toString n) (fun b : Bool => toString b) where
  label l l' r r' h := by
    replace h := congrArg String.toList h
    have e : ", ".toList = ',' :: " ".toList := by simp
    simp only [String.toList_append, List.append_assoc, e, List.cons_append] at h
    obtain ⟨e, h⟩ := nat_decode (fun c t e => by cases e; rfl) (fun c t e => by cases e; rfl) h
    exact ⟨e, String.toList_inj.1 (List.append_cancel_left (List.cons.inj h).2)⟩
  cond c c' h := by cases c <;> cases c' <;> first | rfl | (revert h; decide)
  name c x hx := by
    cases c
    · revert x; decide
    · revert x; decide

/-- A notation with most kinds of parts. -/
def shown : Notation Nat Bool :=
  (.literal "(" + .style 3 (.child (-1))) + (.check true (.child 0) (.flat .text) .newline ||| .indent "  " (some 1) .endOfLine)

/-- The same, grouped differently, and with another style of indentation. -/
def shown' : Notation Nat Bool :=
  .literal "(" + (.style 3 (.child (-1)) + (.check true (.child 0) (.flat .text) .newline ||| .indent "  " none .endOfLine))

/-- What they look like; and neither has quotes in its strings. -/
theorem C70_example :
    shown.display (fun n : Nat => toString n) (fun b : Bool => toString b) =
      "'(' + Style(3, $-1) + ((true@Child(0) ? Flat(TEXT) | ↵) | '  '⇒(EOL))" ∧
    shown'.display (fun n : Nat => toString n) (fun b : Bool => toString b) =
      "'(' + Style(3, $-1) + ((true@Child(0) ? Flat(TEXT) | ↵) | '  '⇒(EOL))" ∧
    shown.Quoteless ∧ shown'.Quoteless ∧ shown.Regroups shown' ∧
    ¬ shown.Regroups (shown' + .empty) := by
  have q : shown.Quoteless := by
    refine ⟨⟨?_, trivial⟩, ⟨trivial, trivial⟩, ?_, trivial⟩ <;> (show _ ∉ _; decide)
  have q' : shown'.Quoteless := by
    refine ⟨?_, trivial, ⟨trivial, trivial⟩, ?_, trivial⟩ <;> (show _ ∉ _; decide)
  have h : shown.Regroups shown' :=
    .trans (.assoc _ _ _) (.concat (.refl _) (.concat (.refl _) (.choice (.refl _) (.indent _ _ _ (.refl _)))))
  refine ⟨by decide, by decide, q, q', h, fun e => ?_⟩
  have := regroups_display (showL := fun n : Nat => toString n) (showC := fun b : Bool => toString b) e
  revert this
  decide

/-- The index in the message is not that of the notation. -/
theorem C70_index_example :
    (Notation.count .empty (.child 5) .empty : Notation Nat Bool).validate = .error (.countOneChildIndex 5) ∧
    (NotationError.countOneChildIndex 5).message =
      "Notation contains a Child with index 0 inside of Count.one, but in this case there's guaranteed to be only one child." := by
  refine ⟨rfl, ?_⟩
  have z : toString (0 : Int) = "0" := rfl
  unfold NotationError.message
  dsimp only
  rw [z]
  exact String.toList_inj.1 (by simp)

end Ex
end PPP
