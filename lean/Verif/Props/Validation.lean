import Verif.Spec.Flaws
import Verif.Props.Meaning
/-
C21 and C22: validation.
-/
namespace PPP
variable {L C : Type}

/-- The context of the validator, for an occurrence enclosed by some frames. -/
structure CtxMatches (fs : List Frame) (ctx : Context) : Prop where
  zero : .countZero ∈ fs ↔ ctx.count = some .zero
  one : .countOne ∈ fs ↔ ctx.count = some .one
  many : .countMany ∈ fs ↔ ctx.count = some .many
  first : .foldFirst ∈ fs ↔ ctx.fold = some .inFoldFirst
  join : .foldJoin ∈ fs ↔ ctx.fold = some .inFoldJoin

theorem CtxMatches.inCount {fs ctx} (h : CtxMatches fs ctx) : InCount fs ↔ ctx.count.isSome = true := by
  unfold InCount
  rw [h.zero, h.one, h.many]
  match ctx.count with
  | none => simp
  | some .zero => simp
  | some .one => simp
  | some .many => simp

theorem CtxMatches.inFold {fs ctx} (h : CtxMatches fs ctx) : InFold fs ↔ ctx.fold.isSome = true := by
  unfold InFold
  rw [h.first, h.join]
  match ctx.fold with
  | none => simp
  | some .inFoldFirst => simp
  | some .inFoldJoin => simp

/-- The history of the validator, when something in `E` has been displayed. -/
structure HistMatches (E : List Ev → Prop) (h : History) : Prop where
  some : ∃ e, E e
  eol : h.eol = true ↔ ∃ e, E e ∧ EolPending e
  mark : h.mark = true ↔ ∀ e, E e → Marked e

/-- Displaying something in `E` and then something that `n` may display. -/
def after (E : List Ev → Prop) (F : List Ev → Prop) (e : List Ev) : Prop :=
  ∃ e1 e2, E e1 ∧ F e2 ∧ e = e1 ++ e2

theorem eolPending_snoc {e : List Ev} {x : Ev} : EolPending (e ++ [x]) ↔
    x = .eol ∨ (EolPending e ∧ x ≠ .newline ∧ x ≠ .child ∧ x ≠ .unknown) := by
  constructor
  · rintro ⟨A, B, h, h1, h2, h3⟩
    rcases List.eq_nil_or_concat B with rfl | ⟨B, y, rfl⟩
    · left
      have := congrArg List.getLast? h
      simpa using this
    · right
      have h' : e ++ [x] = (A ++ .eol :: B) ++ [y] := by simpa using h
      obtain ⟨h4, h5⟩ := List.append_inj' h' rfl
      simp at h5
      subst h5
      simp at h1 h2 h3
      exact ⟨⟨A, B, h4, h1.1, h2.1, h3.1⟩, Ne.symm h1.2, Ne.symm h2.2, Ne.symm h3.2⟩
  · rintro (rfl | ⟨⟨A, B, rfl, h1, h2, h3⟩, h4, h5, h6⟩)
    · exact ⟨e, [], rfl, by simp, by simp, by simp⟩
    · refine ⟨A, B ++ [x], by simp, ?_, ?_, ?_⟩ <;> simp <;> tauto

theorem marked_snoc {e : List Ev} {x : Ev} : Marked (e ++ [x]) ↔
    x = .mark ∨ (Marked e ∧ x ≠ .unknown) := by
  constructor
  · rintro ⟨A, B, h, h1⟩
    rcases List.eq_nil_or_concat B with rfl | ⟨B, y, rfl⟩
    · left
      have := congrArg List.getLast? h
      simpa using this
    · right
      have h' : e ++ [x] = (A ++ .mark :: B) ++ [y] := by simpa using h
      obtain ⟨h4, h5⟩ := List.append_inj' h' rfl
      simp at h5
      subst h5
      simp at h1
      exact ⟨⟨A, B, h4, h1.1⟩, Ne.symm h1.2⟩
  · rintro (rfl | ⟨⟨A, B, rfl, h1⟩, h4⟩)
    · exact ⟨e, [], rfl, by simp⟩
    · exact ⟨A, B ++ [x], by simp, by simp; tauto⟩

/-- A leaf that always displays `x`. -/
theorem HistMatches.leaf {E : List Ev → Prop} {h h' : History} (hm : HistMatches E h) {F : List Ev → Prop}
    {x : Ev} (hF : ∀ e, F e ↔ e = [x])
    (he : h'.eol = true ↔ x = .eol ∨ (h.eol = true ∧ x ≠ .newline ∧ x ≠ .child ∧ x ≠ .unknown))
    (hk : h'.mark = true ↔ x = .mark ∨ (h.mark = true ∧ x ≠ .unknown)) : HistMatches (after E F) h' := by
  obtain ⟨e0, he0⟩ := hm.some
  refine ⟨⟨e0 ++ [x], e0, [x], he0, (hF _).2 rfl, rfl⟩, ?_, ?_⟩
  · rw [he]
    constructor
    · rintro (rfl | ⟨h1, h2⟩)
      · exact ⟨_, ⟨e0, _, he0, (hF _).2 rfl, rfl⟩, eolPending_snoc.2 (.inl rfl)⟩
      · obtain ⟨e, h3, h4⟩ := hm.eol.1 h1
        exact ⟨_, ⟨e, _, h3, (hF _).2 rfl, rfl⟩, eolPending_snoc.2 (.inr ⟨h4, h2⟩)⟩
    · rintro ⟨_, ⟨e, e2, h1, h2, rfl⟩, h3⟩
      rw [(hF _).1 h2, eolPending_snoc] at h3
      rcases h3 with h3 | ⟨h3, h4⟩
      · exact .inl h3
      · exact .inr ⟨hm.eol.2 ⟨e, h1, h3⟩, h4⟩
  · rw [hk]
    constructor
    · rintro h1 _ ⟨e, e2, h2, h3, rfl⟩
      rw [(hF _).1 h3, marked_snoc]
      rcases h1 with h1 | ⟨h1, h4⟩
      · exact .inl h1
      · exact .inr ⟨hm.mark.1 h1 e h2, h4⟩
    · intro h1
      by_cases hx : x = .mark
      · exact .inl hx
      · right
        have key : ∀ e, E e → Marked e ∧ x ≠ .unknown := by
          intro e h2
          have := h1 _ ⟨e, _, h2, (hF _).2 rfl, rfl⟩
          rw [marked_snoc] at this
          rcases this with h | h
          · exact absurd h hx
          · exact h
        exact ⟨hm.mark.2 fun e h2 => (key e h2).1, (key e0 he0).2⟩

theorem HistMatches.congr {E E' : List Ev → Prop} {h : History} (hE : ∀ e, E e ↔ E' e)
    (hm : HistMatches E h) : HistMatches E' h := by
  have : E = E' := funext fun e => propext (hE e)
  rwa [← this]

theorem HistMatches.or {E1 E2 : List Ev → Prop} {h1 h2 : History} (m1 : HistMatches E1 h1)
    (m2 : HistMatches E2 h2) : HistMatches (fun e => E1 e ∨ E2 e) (h1.choice h2) := by
  obtain ⟨e0, he0⟩ := m1.some
  refine ⟨⟨e0, .inl he0⟩, ?_, ?_⟩
  · simp only [History.choice, Bool.or_eq_true, m1.eol, m2.eol]
    constructor
    · rintro (⟨e, h, h'⟩ | ⟨e, h, h'⟩)
      · exact ⟨e, .inl h, h'⟩
      · exact ⟨e, .inr h, h'⟩
    · rintro ⟨e, h | h, h'⟩
      · exact .inl ⟨e, h, h'⟩
      · exact .inr ⟨e, h, h'⟩
  · simp only [History.choice, Bool.and_eq_true, m1.mark, m2.mark]
    constructor
    · rintro ⟨h, h'⟩ e (he | he)
      · exact h e he
      · exact h' e he
    · intro h
      exact ⟨fun e he => h e (.inl he), fun e he => h e (.inr he)⟩

/-- What may be displayed before an occurrence, if `E` may be displayed before the whole. -/
def beforeIn (E : List Ev → Prop) (n : Notation L C) (p : List Nat) : List Ev → Prop := after E (Before n p)

/-- A flaw of a part of a notation. -/
def FlawIn (fs0 : List Frame) (E : List Ev → Prop) (n : Notation L C) (e : NotationError) : Prop :=
  ∃ p fs m, At n p fs m ∧ Bad (fs0 ++ fs) (beforeIn E n p) m e

theorem Bad.congr {fs : List Frame} {B B' : List Ev → Prop} (h : ∀ e, B e ↔ B' e) {m : Notation L C} {e}
    (hb : Bad fs B m e) : Bad fs B' m e := by
  have : B = B' := funext fun e => propext (h e)
  rwa [← this]

theorem FlawIn.here {fs0 : List Frame} {E : List Ev → Prop} {n : Notation L C} {e}
    (h : Bad fs0 E n e) : FlawIn fs0 E n e := by
  refine ⟨[], [], n, .here, ?_⟩
  rw [List.append_nil]
  refine h.congr fun ev => ?_
  constructor
  · intro h; exact ⟨ev, [], h, .here, by simp⟩
  · rintro ⟨e1, e2, h1, h2, rfl⟩; cases h2; simpa using h1

/-- The flaws of a notation are its own, or those of its operands. -/
theorem flawIn_own {fs0 : List Frame} {E : List Ev → Prop} {n : Notation L C} {e}
    (h : FlawIn fs0 E n e) : Bad fs0 E n e ∨
      ∃ i p fs m, At n (i :: p) fs m ∧ Bad (fs0 ++ fs) (beforeIn E n (i :: p)) m e := by
  obtain ⟨p, fs, m, h1, h2⟩ := h
  cases p with
  | nil =>
    left
    cases h1
    rw [List.append_nil] at h2
    refine h2.congr fun ev => ?_
    constructor
    · rintro ⟨e1, e2, h1, h2, rfl⟩; cases h2; simpa using h1
    · intro h; exact ⟨ev, [], h, .here, by simp⟩
  | cons i p => exact .inr ⟨i, p, fs, m, h1, h2⟩

/-- `a` is operand `i` of `n`, inside of the additional frames `fs1`, and if `E` may be displayed before
    `n` then `E'` may be displayed before `a`. -/
structure Operand (n : Notation L C) (i : Nat) (a : Notation L C) (fs1 : List Frame) (E E' : List Ev → Prop) :
    Prop where
  at_iff : ∀ p fs m, At n (i :: p) fs m ↔ ∃ fs', fs = fs1 ++ fs' ∧ At a p fs' m
  before_iff : ∀ p ev, beforeIn E n (i :: p) ev ↔ beforeIn E' a p ev

theorem Operand.flawIn {n : Notation L C} {i a fs1 E E'} (h : Operand n i a fs1 E E') {fs0 e} :
    (∃ p fs m, At n (i :: p) fs m ∧ Bad (fs0 ++ fs) (beforeIn E n (i :: p)) m e) ↔
      FlawIn (fs0 ++ fs1) E' a e := by
  unfold FlawIn
  constructor
  · rintro ⟨p, fs, m, h1, h2⟩
    obtain ⟨fs', rfl, h3⟩ := (h.at_iff p fs m).1 h1
    exact ⟨p, fs', m, h3, by rw [List.append_assoc]; exact h2.congr (h.before_iff p)⟩
  · rintro ⟨p, fs, m, h1, h2⟩
    refine ⟨p, fs1 ++ fs, m, (h.at_iff p _ m).2 ⟨fs, rfl, h1⟩, ?_⟩
    rw [List.append_assoc] at h2
    exact h2.congr fun ev => (h.before_iff p ev).symm

/-- Flaws of a notation with one operand. -/
theorem flawIn_one {n a : Notation L C} {fs1 E E'} (h : Operand n 0 a fs1 E E')
    (hi : ∀ i p fs m, At n (i :: p) fs m → i = 0) {fs0 e} :
    FlawIn fs0 E n e ↔ Bad fs0 E n e ∨ FlawIn (fs0 ++ fs1) E' a e := by
  constructor
  · intro hf
    rcases flawIn_own hf with hf | ⟨i, p, fs, m, h1, h2⟩
    · exact .inl hf
    · cases hi i p fs m h1; exact .inr (h.flawIn.1 ⟨p, fs, m, h1, h2⟩)
  · rintro (hf | hf)
    · exact .here hf
    · obtain ⟨p, fs, m, h1, h2⟩ := h.flawIn.2 hf; exact ⟨_, fs, m, h1, h2⟩

/-- Flaws of a notation with two operands. -/
theorem flawIn_two {n a b : Notation L C} {fa fb E Ea Eb} (ha : Operand n 0 a fa E Ea)
    (hb : Operand n 1 b fb E Eb) (hi : ∀ i p fs m, At n (i :: p) fs m → i = 0 ∨ i = 1) {fs0 e} :
    FlawIn fs0 E n e ↔ Bad fs0 E n e ∨ FlawIn (fs0 ++ fa) Ea a e ∨ FlawIn (fs0 ++ fb) Eb b e := by
  constructor
  · intro hf
    rcases flawIn_own hf with hf | ⟨i, p, fs, m, h1, h2⟩
    · exact .inl hf
    · rcases hi i p fs m h1 with rfl | rfl
      · exact .inr (.inl (ha.flawIn.1 ⟨p, fs, m, h1, h2⟩))
      · exact .inr (.inr (hb.flawIn.1 ⟨p, fs, m, h1, h2⟩))
  · rintro (hf | hf | hf)
    · exact .here hf
    · obtain ⟨p, fs, m, h1, h2⟩ := ha.flawIn.2 hf; exact ⟨_, fs, m, h1, h2⟩
    · obtain ⟨p, fs, m, h1, h2⟩ := hb.flawIn.2 hf; exact ⟨_, fs, m, h1, h2⟩

/-- Flaws of a notation with three operands. -/
theorem flawIn_three {n a b c : Notation L C} {fa fb fc E Ea Eb Ec} (ha : Operand n 0 a fa E Ea)
    (hb : Operand n 1 b fb E Eb) (hc : Operand n 2 c fc E Ec)
    (hi : ∀ i p fs m, At n (i :: p) fs m → i = 0 ∨ i = 1 ∨ i = 2) {fs0 e} :
    FlawIn fs0 E n e ↔ Bad fs0 E n e ∨ FlawIn (fs0 ++ fa) Ea a e ∨ FlawIn (fs0 ++ fb) Eb b e ∨
      FlawIn (fs0 ++ fc) Ec c e := by
  constructor
  · intro hf
    rcases flawIn_own hf with hf | ⟨i, p, fs, m, h1, h2⟩
    · exact .inl hf
    · rcases hi i p fs m h1 with rfl | rfl | rfl
      · exact .inr (.inl (ha.flawIn.1 ⟨p, fs, m, h1, h2⟩))
      · exact .inr (.inr (.inl (hb.flawIn.1 ⟨p, fs, m, h1, h2⟩)))
      · exact .inr (.inr (.inr (hc.flawIn.1 ⟨p, fs, m, h1, h2⟩)))
  · rintro (hf | hf | hf | hf)
    · exact .here hf
    · obtain ⟨p, fs, m, h1, h2⟩ := ha.flawIn.2 hf; exact ⟨_, fs, m, h1, h2⟩
    · obtain ⟨p, fs, m, h1, h2⟩ := hb.flawIn.2 hf; exact ⟨_, fs, m, h1, h2⟩
    · obtain ⟨p, fs, m, h1, h2⟩ := hc.flawIn.2 hf; exact ⟨_, fs, m, h1, h2⟩

/-- Flaws of a leaf. -/
theorem flawIn_leaf {n : Notation L C} {E} (hi : ∀ i p fs m, ¬ At n (i :: p) fs m) {fs0 e} :
    FlawIn fs0 E n e ↔ Bad fs0 E n e := by
  constructor
  · intro hf
    rcases flawIn_own hf with hf | ⟨i, p, fs, m, h1, h2⟩
    · exact hf
    · exact (hi i p fs m h1).elim
  · exact .here

theorem after_congr {E F F' : List Ev → Prop} (h : ∀ e, F e ↔ F' e) (e : List Ev) :
    after E F e ↔ after E F' e := by
  have : F = F' := funext fun e => propext (h e)
  rw [this]

theorem after_after {E F G H : List Ev → Prop} (h : ∀ e, H e ↔ ∃ e1 e2, F e1 ∧ G e2 ∧ e = e1 ++ e2)
    (e : List Ev) : after E H e ↔ after (after E F) G e := by
  constructor
  · rintro ⟨e1, e2, h1, h2, rfl⟩
    obtain ⟨e3, e4, h3, h4, rfl⟩ := (h _).1 h2
    exact ⟨e1 ++ e3, e4, ⟨e1, e3, h1, h3, rfl⟩, h4, by simp⟩
  · rintro ⟨_, e4, ⟨e1, e3, h1, h3, rfl⟩, h4, rfl⟩
    exact ⟨e1, e3 ++ e4, h1, (h _).2 ⟨e3, e4, h3, h4, rfl⟩, by simp⟩

/-- Tactic for operands that add no events. -/
macro "operand" : tactic => `(tactic| (
  refine ⟨fun p fs m => ⟨fun h => ?_, fun h => ?_⟩, fun p ev => after_congr (fun e => ⟨fun h => ?_, fun h => ?_⟩) ev⟩
  · cases h; exact ⟨_, rfl, by assumption⟩
  · obtain ⟨fs', hfs, h⟩ := h; subst hfs; constructor; exact h
  · cases h; assumption
  · constructor; exact h))

theorem op_flat {a : Notation L C} {E} : Operand (.flat a) 0 a [] E E := by operand
theorem op_indent {s l} {a : Notation L C} {E} : Operand (.indent s l a) 0 a [] E E := by operand
theorem op_style {l} {a : Notation L C} {E} : Operand (.style l a) 0 a [] E E := by operand
theorem op_concat0 {a b : Notation L C} {E} : Operand (.concat a b) 0 a [] E E := by operand
theorem op_choice0 {a b : Notation L C} {E} : Operand (.choice a b) 0 a [] E E := by operand
theorem op_choice1 {a b : Notation L C} {E} : Operand (.choice a b) 1 b [] E E := by operand
theorem op_check0 {c pos} {a b : Notation L C} {E} : Operand (.check c pos a b) 0 a [] E E := by operand
theorem op_check1 {c pos} {a b : Notation L C} {E} : Operand (.check c pos a b) 1 b [] E E := by operand
theorem op_count0 {a b c : Notation L C} {E} : Operand (.count a b c) 0 a [.countZero] E E := by operand
theorem op_count1 {a b c : Notation L C} {E} : Operand (.count a b c) 1 b [.countOne] E E := by operand
theorem op_count2 {a b c : Notation L C} {E} : Operand (.count a b c) 2 c [.countMany] E E := by operand

theorem op_concat1 {a b : Notation L C} {E} : Operand (.concat a b) 1 b [] E (after E (Flow a)) := by
  refine ⟨fun p fs m => ⟨fun h => ?_, fun h => ?_⟩, fun p ev => after_after (fun e => ⟨fun h => ?_, fun h => ?_⟩) ev⟩
  · cases h; exact ⟨_, rfl, by assumption⟩
  · obtain ⟨fs', rfl, h⟩ := h; exact .concat_right h
  · cases h with | concat_right h1 h2 => exact ⟨_, _, h1, h2, rfl⟩
  · obtain ⟨e1, e2, h1, h2, rfl⟩ := h; exact .concat_right h1 h2

theorem op_fold0 {f j : Notation L C} {E} : Operand (.fold f j) 0 f [.foldFirst] E (after E (· = [.unknown])) := by
  refine ⟨fun p fs m => ⟨fun h => ?_, fun h => ?_⟩, fun p ev => after_after (fun e => ⟨fun h => ?_, fun h => ?_⟩) ev⟩
  · cases h; exact ⟨_, rfl, by assumption⟩
  · obtain ⟨fs', rfl, h⟩ := h; exact .fold_first h
  · cases h with | fold_first h => exact ⟨_, _, rfl, h, rfl⟩
  · obtain ⟨e1, e2, rfl, h2, rfl⟩ := h; exact .fold_first h2

theorem op_fold1 {f j : Notation L C} {E} : Operand (.fold f j) 1 j [.foldJoin] E (after E (· = [.unknown])) := by
  refine ⟨fun p fs m => ⟨fun h => ?_, fun h => ?_⟩, fun p ev => after_after (fun e => ⟨fun h => ?_, fun h => ?_⟩) ev⟩
  · cases h; exact ⟨_, rfl, by assumption⟩
  · obtain ⟨fs', rfl, h⟩ := h; exact .fold_join h
  · cases h with | fold_join h => exact ⟨_, _, rfl, h, rfl⟩
  · obtain ⟨e1, e2, rfl, h2, rfl⟩ := h; exact .fold_join h2

/-- What the validator's verdict means. -/
def Verdict (fs : List Frame) (E : List Ev → Prop) (n : Notation L C) : Except NotationError History → Prop
  | .ok h => (∀ e, ¬ FlawIn fs E n e) ∧ HistMatches (after E (Flow n)) h
  | .error e => FlawIn fs E n e

theorem CtxMatches.count {fs ctx} (h : CtxMatches fs ctx) (hc : ctx.count = none) (f : Frame) (x : CountContext)
    (hf : (f = .countZero ∧ x = .zero) ∨ (f = .countOne ∧ x = .one) ∨ (f = .countMany ∧ x = .many)) :
    CtxMatches (fs ++ [f]) { ctx with count := some x } := by
  obtain ⟨h1, h2, h3, h4, h5⟩ := h
  rw [hc] at h1 h2 h3
  simp at h1 h2 h3
  rcases hf with ⟨rfl, rfl⟩ | ⟨rfl, rfl⟩ | ⟨rfl, rfl⟩ <;> constructor <;> simp [*]

theorem CtxMatches.fold {fs ctx} (h : CtxMatches fs ctx) (hc : ctx.fold = none) (f : Frame) (x : FoldContext)
    (hf : (f = .foldFirst ∧ x = .inFoldFirst) ∨ (f = .foldJoin ∧ x = .inFoldJoin)) :
    CtxMatches (fs ++ [f]) { ctx with fold := some x } := by
  obtain ⟨h1, h2, h3, h4, h5⟩ := h
  rw [hc] at h4 h5
  simp at h4 h5
  rcases hf with ⟨rfl, rfl⟩ | ⟨rfl, rfl⟩ <;> constructor <;> simp [*]

theorem normalize_one {i : Int} : normalizeChildIndex i 1 = none ↔ i ≠ 0 ∧ i ≠ -1 := by
  unfold normalizeChildIndex
  simp
  split <;> omega

theorem HistMatches.unknown {E : List Ev → Prop} {h : History} (hm : HistMatches E h) :
    HistMatches (after E (· = [.unknown])) {} :=
  hm.leaf (x := .unknown) (fun _ => Iff.rfl) (by simp) (by simp)

theorem validateRec_verdict (n : Notation L C) : ∀ {fs ctx E h}, CtxMatches fs ctx → HistMatches E h →
    Verdict fs E n (n.validateRec h ctx) := by
  induction n with
  | empty =>
    intro fs ctx E h hc hm
    refine ⟨fun e hf => ?_, hm.congr fun e => ?_⟩
    · rw [flawIn_leaf (by intro i p fs m h; cases h)] at hf; cases hf
    · constructor
      · intro h; exact ⟨e, [], h, .empty, by simp⟩
      · rintro ⟨e1, e2, h1, h2, rfl⟩; cases h2; simpa using h1
  | newline =>
    intro fs ctx E h hc hm
    refine ⟨fun e hf => ?_, hm.leaf (x := .newline) (fun e => ?_) (by simp [History.withoutEol]) (by simp [History.withoutEol])⟩
    · rw [flawIn_leaf (by intro i p fs m h; cases h)] at hf; cases hf
    · constructor
      · intro h; cases h; rfl
      · rintro rfl; constructor
  | endOfLine =>
    intro fs ctx E h hc hm
    refine ⟨fun e hf => ?_, hm.leaf (x := .eol) (fun e => ?_) (by simp [History.withEol]) (by simp [History.withEol])⟩
    · rw [flawIn_leaf (by intro i p fs m h; cases h)] at hf; cases hf
    · constructor
      · intro h; cases h; rfl
      · rintro rfl; constructor
  | literal s =>
    intro fs ctx E h hc hm
    unfold Notation.validateRec
    split
    · rename_i he
      obtain ⟨ev, h1, h2⟩ := hm.eol.1 he
      exact .here (.literal_eol h1 h2)
    · rename_i he
      refine ⟨fun e hf => ?_, hm.leaf (x := .text) (fun e => ?_) (by simp [History.withoutEol, he]) (by simp [History.withoutEol])⟩
      · rw [flawIn_leaf (by intro i p fs m h; cases h)] at hf
        cases hf with
        | literal_eol h1 h2 => exact he (hm.eol.2 ⟨_, h1, h2⟩)
      · constructor
        · intro h; cases h; rfl
        · rintro rfl; constructor
  | text =>
    intro fs ctx E h hc hm
    unfold Notation.validateRec
    split
    · rename_i h1; exact .here (.text_count (hc.inCount.2 h1))
    rename_i h1
    split
    · rename_i h2; exact .here (.text_fold (hc.inFold.2 h2))
    rename_i h2
    split
    · rename_i he
      obtain ⟨ev, h1, h2⟩ := hm.eol.1 he
      exact .here (.text_eol h1 h2)
    · rename_i he
      refine ⟨fun e hf => ?_, hm.leaf (x := .text) (fun e => ?_) (by simp [History.withoutEol, he]) (by simp [History.withoutEol])⟩
      · rw [flawIn_leaf (by intro i p fs m h; cases h)] at hf
        cases hf with
        | text_eol h1 h2 => exact he (hm.eol.2 ⟨_, h1, h2⟩)
        | text_count h => exact h1 (hc.inCount.1 h)
        | text_fold h => exact h2 (hc.inFold.1 h)
      · constructor
        · intro h; cases h; rfl
        · rintro rfl; constructor
  | child i =>
    intro fs ctx E h hc hm
    unfold Notation.validateRec
    split
    · rename_i h1; exact .here (.child_zero (hc.zero.2 h1))
    rename_i h1
    split
    · rename_i h2
      obtain ⟨h3, h4⟩ := normalize_one.1 h2.2
      exact .here (.child_one (hc.one.2 h2.1) h3 h4)
    rename_i h2
    refine ⟨fun e hf => ?_, hm.leaf (x := .child) (fun e => ?_) (by simp [History.withoutEol]) (by simp [History.withoutEol])⟩
    · rw [flawIn_leaf (by intro i p fs m h; cases h)] at hf
      cases hf with
      | child_zero h => exact h1 (hc.zero.1 h)
      | child_one h h3 h4 => exact h2 ⟨hc.one.1 h, normalize_one.2 ⟨h3, h4⟩⟩
    · constructor
      · intro h; cases h; rfl
      · rintro rfl; constructor
  | focusMark =>
    intro fs ctx E h hc hm
    unfold Notation.validateRec
    split
    · rename_i h1; exact .here (.mark (hm.mark.1 h1))
    rename_i h1
    refine ⟨fun e hf => ?_, hm.leaf (x := .mark) (fun e => ?_) (by simp [History.withMark]) (by simp [History.withMark])⟩
    · rw [flawIn_leaf (by intro i p fs m h; cases h)] at hf
      cases hf with
      | mark h => exact h1 (hm.mark.2 h)
    · constructor
      · intro h; cases h; rfl
      · rintro rfl; constructor
  | left =>
    intro fs ctx E h hc hm
    unfold Notation.validateRec
    split
    · rename_i h1; exact .here (.left fun h => h1 (hc.join.1 h))
    rename_i h1
    refine ⟨fun e hf => ?_, hm.leaf (x := .unknown) (fun e => ?_) (by simp) (by simp)⟩
    · rw [flawIn_leaf (by intro i p fs m h; cases h)] at hf
      cases hf with
      | left h => exact h (hc.join.2 (by simpa using h1))
    · constructor
      · intro h; cases h; rfl
      · rintro rfl; constructor
  | right =>
    intro fs ctx E h hc hm
    unfold Notation.validateRec
    split
    · rename_i h1; exact .here (.right fun h => h1 (hc.join.1 h))
    rename_i h1
    refine ⟨fun e hf => ?_, hm.leaf (x := .unknown) (fun e => ?_) (by simp) (by simp)⟩
    · rw [flawIn_leaf (by intro i p fs m h; cases h)] at hf
      cases hf with
      | right h => exact h (hc.join.2 (by simpa using h1))
    · constructor
      · intro h; cases h; rfl
      · rintro rfl; constructor
  | flat a ih =>
    intro fs ctx E h hc hm
    have hf : ∀ e, FlawIn fs E (.flat a) e ↔ FlawIn fs E a e := by
      intro e
      rw [flawIn_one op_flat (by intro i p fs m h; cases h; rfl), List.append_nil]
      exact ⟨fun h => h.resolve_left (by intro h; cases h), .inr⟩
    have hF : ∀ e, Flow (.flat a) e ↔ Flow a e := fun e => ⟨fun h => by cases h; assumption, .flat⟩
    have := ih hc hm
    unfold Notation.validateRec
    cases hv : a.validateRec h ctx with
    | error e => rw [hv] at this; exact (hf e).2 this
    | ok h' =>
      rw [hv] at this
      exact ⟨fun e => (hf e).not.2 (this.1 e), this.2.congr fun e => (after_congr hF e).symm⟩
  | indent s l a ih =>
    intro fs ctx E h hc hm
    have hf : ∀ e, FlawIn fs E (.indent s l a) e ↔ FlawIn fs E a e := by
      intro e
      rw [flawIn_one op_indent (by intro i p fs m h; cases h; rfl), List.append_nil]
      exact ⟨fun h => h.resolve_left (by intro h; cases h), .inr⟩
    have hF : ∀ e, Flow (.indent s l a) e ↔ Flow a e := fun e => ⟨fun h => by cases h; assumption, .indent⟩
    have := ih hc hm
    unfold Notation.validateRec
    cases hv : a.validateRec h ctx with
    | error e => rw [hv] at this; exact (hf e).2 this
    | ok h' =>
      rw [hv] at this
      exact ⟨fun e => (hf e).not.2 (this.1 e), this.2.congr fun e => (after_congr hF e).symm⟩
  | style l a ih =>
    intro fs ctx E h hc hm
    have hf : ∀ e, FlawIn fs E (.style l a) e ↔ FlawIn fs E a e := by
      intro e
      rw [flawIn_one op_style (by intro i p fs m h; cases h; rfl), List.append_nil]
      exact ⟨fun h => h.resolve_left (by intro h; cases h), .inr⟩
    have hF : ∀ e, Flow (.style l a) e ↔ Flow a e := fun e => ⟨fun h => by cases h; assumption, .style⟩
    have := ih hc hm
    unfold Notation.validateRec
    cases hv : a.validateRec h ctx with
    | error e => rw [hv] at this; exact (hf e).2 this
    | ok h' =>
      rw [hv] at this
      exact ⟨fun e => (hf e).not.2 (this.1 e), this.2.congr fun e => (after_congr hF e).symm⟩
  | concat a b iha ihb =>
    intro fs ctx E h hc hm
    have hf : ∀ e, FlawIn fs E (.concat a b) e ↔ FlawIn fs E a e ∨ FlawIn fs (after E (Flow a)) b e := by
      intro e
      rw [flawIn_two op_concat0 op_concat1 (by intro i p fs m h; cases h <;> simp), List.append_nil]
      exact ⟨fun h => h.resolve_left (by intro h; cases h), .inr⟩
    have hF : ∀ e, Flow (.concat a b) e ↔ ∃ e1 e2, Flow a e1 ∧ Flow b e2 ∧ e = e1 ++ e2 := fun e =>
      ⟨fun h => by cases h; exact ⟨_, _, by assumption, by assumption, rfl⟩,
       by rintro ⟨e1, e2, h1, h2, rfl⟩; exact .concat h1 h2⟩
    have ha := iha hc hm
    simp only [Notation.validateRec, Except.bind_eq]
    cases hv : a.validateRec h ctx with
    | error e => rw [hv] at ha; exact (hf e).2 (.inl ha)
    | ok h1 =>
      rw [hv] at ha
      have hb := ihb hc ha.2
      simp only
      cases hv' : b.validateRec h1 ctx with
      | error e => rw [hv'] at hb; exact (hf e).2 (.inr hb)
      | ok h2 =>
        rw [hv'] at hb
        exact ⟨fun e => (hf e).not.2 (not_or.2 ⟨ha.1 e, hb.1 e⟩), hb.2.congr fun e => (after_after hF e).symm⟩
  | choice a b iha ihb =>
    intro fs ctx E h hc hm
    have hf : ∀ e, FlawIn fs E (.choice a b) e ↔ FlawIn fs E a e ∨ FlawIn fs E b e := by
      intro e
      rw [flawIn_two op_choice0 op_choice1 (by intro i p fs m h; cases h <;> simp), List.append_nil]
      exact ⟨fun h => h.resolve_left (by intro h; cases h), .inr⟩
    have hF : ∀ e, after E (Flow a) e ∨ after E (Flow b) e ↔ after E (Flow (.choice a b)) e := by
      intro e
      constructor
      · rintro (⟨e1, e2, h1, h2, rfl⟩ | ⟨e1, e2, h1, h2, rfl⟩)
        · exact ⟨e1, e2, h1, .choice_left h2, rfl⟩
        · exact ⟨e1, e2, h1, .choice_right h2, rfl⟩
      · rintro ⟨e1, e2, h1, h2, rfl⟩
        cases h2 with
        | choice_left h2 => exact .inl ⟨e1, e2, h1, h2, rfl⟩
        | choice_right h2 => exact .inr ⟨e1, e2, h1, h2, rfl⟩
    have ha := iha hc hm
    have hb := ihb hc hm
    simp only [Notation.validateRec, Except.bind_eq]
    cases hv : a.validateRec h ctx with
    | error e => rw [hv] at ha; exact (hf e).2 (.inl ha)
    | ok h1 =>
      rw [hv] at ha
      simp only
      cases hv' : b.validateRec h ctx with
      | error e => rw [hv'] at hb; exact (hf e).2 (.inr hb)
      | ok h2 =>
        rw [hv'] at hb
        exact ⟨fun e => (hf e).not.2 (not_or.2 ⟨ha.1 e, hb.1 e⟩), (ha.2.or hb.2).congr hF⟩
  | check c pos a b iha ihb =>
    intro fs ctx E h hc hm
    have hf : ∀ e, FlawIn fs E (.check c pos a b) e ↔
        Bad fs E (.check c pos a b) e ∨ FlawIn fs E a e ∨ FlawIn fs E b e := by
      intro e
      rw [flawIn_two op_check0 op_check1 (by intro i p fs m h; cases h <;> simp), List.append_nil]
    have hF : ∀ e, after E (Flow a) e ∨ after E (Flow b) e ↔ after E (Flow (.check c pos a b)) e := by
      intro e
      constructor
      · rintro (⟨e1, e2, h1, h2, rfl⟩ | ⟨e1, e2, h1, h2, rfl⟩)
        · exact ⟨e1, e2, h1, .check_left h2, rfl⟩
        · exact ⟨e1, e2, h1, .check_right h2, rfl⟩
      · rintro ⟨e1, e2, h1, h2, rfl⟩
        cases h2 with
        | check_left h2 => exact .inl ⟨e1, e2, h1, h2, rfl⟩
        | check_right h2 => exact .inr ⟨e1, e2, h1, h2, rfl⟩
    have hpos : match validateCheckPos pos ctx with
        | .error e => Bad fs E (.check c pos a b) e
        | .ok () => ∀ e, ¬ Bad fs E (.check c pos a b) e := by
      unfold validateCheckPos
      cases pos with
      | here => intro e h; cases h
      | child i =>
        by_cases h1 : ctx.count = some .zero
        · simp only [h1, if_true]
          exact .check_zero (hc.zero.2 h1)
        · by_cases h2 : ctx.count = some .one ∧ normalizeChildIndex i 1 = none
          · obtain ⟨h3, h4⟩ := normalize_one.1 h2.2
            simp only [h1, h2, if_true, if_false, and_self]
            exact .check_one (hc.one.2 h2.1) h3 h4
          · simp only [h1, h2, if_false]
            intro e h
            cases h with
            | check_zero h => exact h1 (hc.zero.1 h)
            | check_one h h3 h4 => exact h2 ⟨hc.one.1 h, normalize_one.2 ⟨h3, h4⟩⟩
      | leftChild =>
        by_cases h1 : ctx.fold = some .inFoldJoin
        · simp only [h1, ne_eq, not_true_eq_false, if_false]
          intro e h
          cases h with
          | check_left h => exact h (hc.join.2 h1)
        · simp only [h1, ne_eq, not_false_eq_true, if_true]
          exact .check_left fun h => h1 (hc.join.1 h)
      | rightChild =>
        by_cases h1 : ctx.fold = some .inFoldJoin
        · simp only [h1, ne_eq, not_true_eq_false, if_false]
          intro e h
          cases h with
          | check_right h => exact h (hc.join.2 h1)
        · simp only [h1, ne_eq, not_false_eq_true, if_true]
          exact .check_right fun h => h1 (hc.join.1 h)
    have ha := iha hc hm
    have hb := ihb hc hm
    simp only [Notation.validateRec, Except.bind_eq]
    cases hp : validateCheckPos pos ctx with
    | error e => rw [hp] at hpos; exact (hf e).2 (.inl hpos)
    | ok u =>
    rw [hp] at hpos
    simp only
    cases hv : a.validateRec h ctx with
    | error e => rw [hv] at ha; exact (hf e).2 (.inr (.inl ha))
    | ok h1 =>
      rw [hv] at ha
      simp only
      cases hv' : b.validateRec h ctx with
      | error e => rw [hv'] at hb; exact (hf e).2 (.inr (.inr hb))
      | ok h2 =>
        rw [hv'] at hb
        exact ⟨fun e => (hf e).not.2 (not_or.2 ⟨hpos e, not_or.2 ⟨ha.1 e, hb.1 e⟩⟩), (ha.2.or hb.2).congr hF⟩
  | count z o m ihz iho ihm =>
    intro fs ctx E h hc hm
    have hf : ∀ e, FlawIn fs E (.count z o m) e ↔ Bad fs E (.count z o m) e ∨
        FlawIn (fs ++ [.countZero]) E z e ∨ FlawIn (fs ++ [.countOne]) E o e ∨
        FlawIn (fs ++ [.countMany]) E m e := by
      intro e
      exact flawIn_three op_count0 op_count1 op_count2 (by intro i p fs m h; cases h <;> simp)
    have hF : ∀ e, (after E (Flow z) e ∨ after E (Flow o) e) ∨ after E (Flow m) e ↔
        after E (Flow (.count z o m)) e := by
      intro e
      constructor
      · rintro ((⟨e1, e2, h1, h2, rfl⟩ | ⟨e1, e2, h1, h2, rfl⟩) | ⟨e1, e2, h1, h2, rfl⟩)
        · exact ⟨e1, e2, h1, .count_zero h2, rfl⟩
        · exact ⟨e1, e2, h1, .count_one h2, rfl⟩
        · exact ⟨e1, e2, h1, .count_many h2, rfl⟩
      · rintro ⟨e1, e2, h1, h2, rfl⟩
        cases h2 with
        | count_zero h2 => exact .inl (.inl ⟨e1, e2, h1, h2, rfl⟩)
        | count_one h2 => exact .inl (.inr ⟨e1, e2, h1, h2, rfl⟩)
        | count_many h2 => exact .inr ⟨e1, e2, h1, h2, rfl⟩
    simp only [Notation.validateRec, Except.bind_eq]
    split
    · rename_i h1; exact (hf _).2 (.inl (.count (hc.inCount.2 h1)))
    rename_i hn
    have h0 : ctx.count = none := by simpa using hn
    have hz := ihz (hc.count h0 .countZero .zero (by simp)) hm
    have ho := iho (hc.count h0 .countOne .one (by simp)) hm
    have hk := ihm (hc.count h0 .countMany .many (by simp)) hm
    cases hv : z.validateRec h { ctx with count := some .zero } with
    | error e => rw [hv] at hz; exact (hf e).2 (.inr (.inl hz))
    | ok h1 =>
      rw [hv] at hz
      simp only
      cases hv' : o.validateRec h { ctx with count := some .one } with
      | error e => rw [hv'] at ho; exact (hf e).2 (.inr (.inr (.inl ho)))
      | ok h2 =>
        rw [hv'] at ho
        simp only
        cases hv'' : m.validateRec h { ctx with count := some .many } with
        | error e => rw [hv''] at hk; exact (hf e).2 (.inr (.inr (.inr hk)))
        | ok h3 =>
          rw [hv''] at hk
          refine ⟨fun e => (hf e).not.2 ?_, ((hz.2.or ho.2).or hk.2).congr hF⟩
          rintro (hb | hb | hb | hb)
          · cases hb with
            | count hb => exact hn (hc.inCount.1 hb)
          · exact hz.1 e hb
          · exact ho.1 e hb
          · exact hk.1 e hb
  | fold f j ihf ihj =>
    intro fs ctx E h hc hm
    have hf : ∀ e, FlawIn fs E (.fold f j) e ↔ Bad fs E (.fold f j) e ∨
        FlawIn (fs ++ [.foldFirst]) (after E (· = [.unknown])) f e ∨
        FlawIn (fs ++ [.foldJoin]) (after E (· = [.unknown])) j e := by
      intro e
      exact flawIn_two op_fold0 op_fold1 (by intro i p fs m h; cases h <;> simp)
    have hF : ∀ e, Flow (.fold f j) e ↔ e = [.unknown] := fun e =>
      ⟨fun h => by cases h; rfl, by rintro rfl; exact .fold⟩
    simp only [Notation.validateRec, Except.bind_eq]
    split
    · rename_i h1; exact (hf _).2 (.inl (.fold (hc.inFold.2 h1)))
    rename_i hn
    have h0 : ctx.fold = none := by simpa using hn
    have hz := ihf (hc.fold h0 .foldFirst .inFoldFirst (by simp)) hm.unknown
    have ho := ihj (hc.fold h0 .foldJoin .inFoldJoin (by simp)) hm.unknown
    cases hv : f.validateRec {} { ctx with fold := some .inFoldFirst } with
    | error e => rw [hv] at hz; exact (hf e).2 (.inr (.inl hz))
    | ok h1 =>
      rw [hv] at hz
      simp only
      cases hv' : j.validateRec {} { ctx with fold := some .inFoldJoin } with
      | error e => rw [hv'] at ho; exact (hf e).2 (.inr (.inr ho))
      | ok h2 =>
        rw [hv'] at ho
        refine ⟨fun e => (hf e).not.2 ?_, hm.unknown.congr fun e => (after_congr hF e).symm⟩
        rintro (hb | hb | hb)
        · cases hb with
          | fold hb => exact hn (hc.inFold.1 hb)
        · exact hz.1 e hb
        · exact ho.1 e hb

theorem flawIn_root {n : Notation L C} {e} : FlawIn [] (· = []) n e ↔ Flaw n e := by
  have h : ∀ p ev, beforeIn (· = []) n p ev ↔ Before n p ev := by
    intro p ev
    constructor
    · rintro ⟨_, e2, rfl, h, rfl⟩; exact h
    · intro h; exact ⟨[], ev, rfl, h, rfl⟩
  unfold FlawIn Flaw
  constructor
  · rintro ⟨p, fs, m, h1, h2⟩; exact ⟨p, fs, m, h1, h2.congr (h p)⟩
  · rintro ⟨p, fs, m, h1, h2⟩; exact ⟨p, fs, m, h1, h2.congr fun e => (h p e).symm⟩

theorem root_verdict (n : Notation L C) : Verdict [] (· = []) n (n.validateRec {} {}) := by
  refine validateRec_verdict n ⟨by simp, by simp, by simp, by simp, by simp⟩ ⟨⟨[], rfl⟩, ?_, ?_⟩
  · simp [EolPending]
  · simp [Marked]

/-- **C21.**  `validate` accepts exactly the notations that have none of the documented flaws. -/
theorem C21_accepts_iff (n : Notation L C) : n.Valid ↔ ∀ e, ¬ Flaw n e := by
  have h := root_verdict n
  unfold Notation.Valid Notation.validate
  simp only [Except.bind_eq]
  cases hv : n.validateRec {} {} with
  | ok h' =>
    rw [hv] at h
    exact ⟨fun _ e he => h.1 e (flawIn_root.2 he), fun _ => rfl⟩
  | error e =>
    rw [hv] at h
    exact ⟨fun h' => absurd h' (by simp), fun h' => absurd (flawIn_root.1 h) (h' e)⟩

/-- **C21.**  If `validate` reports an error, the notation has that flaw. -/
theorem C21_error_is_flaw (n : Notation L C) (e : NotationError) (h : n.validate = .error e) : Flaw n e := by
  have hv := root_verdict n
  unfold Notation.validate at h
  simp only [Except.bind_eq] at h
  split at h
  · cases h
  · rename_i e' he
    cases h
    rw [he] at hv
    exact flawIn_root.1 hv

end PPP
