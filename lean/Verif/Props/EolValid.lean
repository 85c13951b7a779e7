import Verif.Props.Validation
import Verif.Proofs.EolSafe
import Verif.Proofs.Main
/-
C22: validation rules out text after an end of line for notations without children.
-/
namespace PPP
variable {P : PrettyDoc}

/-- Whether an end-of-line mark is pending after `evs`. -/
def status : Bool → List Ev → Bool
  | e, [] => e
  | _, .eol :: evs => status true evs
  | e, .text :: evs => status e evs
  | e, .mark :: evs => status e evs
  | _, _ :: evs => status false evs

theorem status_append (e : Bool) (A B : List Ev) : status e (A ++ B) = status (status e A) B := by
  induction A generalizing e with
  | nil => rfl
  | cons x A ih => cases x <;> simp [status, ih]

theorem status_quiet {e : Bool} {B : List Ev} (h1 : .newline ∉ B) (h2 : .child ∉ B) (h3 : .unknown ∉ B)
    (he : e = true) : status e B = true := by
  induction B generalizing e with
  | nil => exact he
  | cons x B ih =>
    simp only [List.mem_cons, not_or] at h1 h2 h3
    cases x <;> simp_all [status]

theorem eolPending_of_status {evs : List Ev} : status false evs = true → EolPending evs := by
  induction evs using List.reverseRecOn with
  | nil => simp [status]
  | append_singleton A x ih =>
    intro h
    rw [status_append] at h
    cases x with
    | eol => exact ⟨A, [], rfl, by simp, by simp, by simp⟩
    | text =>
      obtain ⟨A', B', rfl, h1, h2, h3⟩ := ih h
      exact ⟨A', B' ++ [.text], by simp, by simp [h1], by simp [h2], by simp [h3]⟩
    | mark =>
      obtain ⟨A', B', rfl, h1, h2, h3⟩ := ih h
      exact ⟨A', B' ++ [.mark], by simp, by simp [h1], by simp [h2], by simp [h3]⟩
    | newline => simp [status] at h
    | child => simp [status] at h
    | unknown => simp [status] at h

theorem inspected_ne_eol {node : P.Node} {pos : CheckPos} {env f} (h : inspected node env pos = .error f) :
    f ≠ .err .textAfterEndOfLine := by
  have key : ∀ {e : DocFail P.Err}, e.toFail ≠ .err .textAfterEndOfLine := by
    intro e; cases e <;> simp [DocFail.toFail]
  have key' : ∀ {α : Type} {c : Call P.Err α} {f}, Call.toRes c = .error f → f ≠ .err .textAfterEndOfLine := by
    intro α c f h
    cases c with
    | ok a => simp [Call.toRes] at h
    | error e => simp [Call.toRes] at h; subst h; exact key
  cases pos with
  | here => simp [inspected] at h
  | child i =>
    simp only [inspected, toRes_bind] at h
    split at h
    · rename_i r hn
      cases r with
      | none => simp at h; subst h; simp
      | some n =>
        simp only at h
        split at h
        · simp at h; subst h; simp
        · exact key' h
    · simp at h; subst h; exact key
  | leftChild =>
    cases env with
    | none => simp [inspected] at h; subst h; simp
    | some e => exact key' h
  | rightChild =>
    cases env with
    | none => simp [inspected] at h; subst h; simp
    | some e => exact key' h

theorem toFail_ne_eol {e : DocFail P.Err} : e.toFail ≠ .err .textAfterEndOfLine := by
  cases e <;> simp [DocFail.toFail]

theorem selfContained_failIn (node : P.Node) (kid : Nat → Ctx P → NTree P) (a : Notation P.Label P.Cond) :
    a.SelfContained → ∀ c, (a.tree node kid none c).FailIn (notEol P) := by
  have hq : ∀ {f : Fail P.Err}, f ≠ .err .textAfterEndOfLine → (notEol P) f := fun h => h
  have ho : ∀ {α : Type} {c : Call P.Err α} {f : α → NTree P}, (∀ a, c = .ok a → (f a).FailIn (notEol P)) →
      (NTree.orFail c f).FailIn (notEol P) := fun h => failIn_orFail (fun e _ => toFail_ne_eol) h
  induction a with
  | empty => intro _ c; trivial
  | newline => intro _ c; trivial
  | endOfLine => intro _ c; trivial
  | focusMark => intro _ c; trivial
  | literal s => intro _ c; trivial
  | left => intro _ c; exact hq (by simp)
  | right => intro _ c; exact hq (by simp)
  | child i => intro h; exact h.elim
  | fold => intro h; exact h.elim
  | text =>
    intro _ c
    refine ho ?_
    intro r _
    cases r with
    | some n => exact hq (by simp)
    | none => exact ho fun s _ => trivial
  | flat a ih => intro h c; exact ih h _
  | indent pre l a ih =>
    intro h c
    cases l with
    | none => exact ih h _
    | some l => exact ho fun s _ => ih h _
  | style l a ih => intro h c; exact ho fun s _ => ih h _
  | concat a b iha ihb => intro h c; exact ⟨iha h.1 c, ihb h.2 c⟩
  | choice a b iha ihb =>
    intro h c
    simp only [Notation.tree]
    split
    · exact iha h.1 c
    · exact ⟨iha h.1 c, ihb h.2 c⟩
  | check cond pos a b iha ihb =>
    intro h c
    simp only [Notation.tree]
    split
    · rename_i f hf; exact hq (inspected_ne_eol hf)
    · refine ho ?_
      intro r _
      cases r
      · exact ihb h.2 c
      · exact iha h.1 c
  | count x y z ihx ihy ihz =>
    intro h c
    refine ho ?_
    intro r _
    cases r with
    | none => exact hq (by simp)
    | some n =>
      match n with
      | 0 => exact ihx h.1 c
      | 1 => exact ihy h.2.1 c
      | n + 2 => exact ihz h.2.2 c

theorem orFail_eolOut {α : Type} {c : Call P.Err α} {f : α → NTree P} {e e'}
    (h : (NTree.orFail c f).EolOut e e') : ∃ a, c = .ok a ∧ (f a).EolOut e e' := by
  cases c with
  | error e => exact h.elim
  | ok a => exact ⟨a, rfl, h⟩

theorem orFail_eolSafe {α : Type} {c : Call P.Err α} {f : α → NTree P} {e}
    (h : ∀ a, c = .ok a → (f a).EolSafe e) : (NTree.orFail c f).EolSafe e := by
  cases c with
  | error e => trivial
  | ok a => exact h a rfl

/-- What the tree of a notation does about end-of-line marks is what the notation may display. -/
theorem eolOut_flow (node : P.Node) (kid : Nat → Ctx P → NTree P) (a : Notation P.Label P.Cond) :
    a.SelfContained → ∀ {c e e'}, (a.tree node kid none c).EolOut e e' →
      ∃ evs, Flow a evs ∧ status e evs = e' := by
  induction a with
  | empty => intro _ c e e' h; exact ⟨_, .empty, h.symm⟩
  | newline => intro _ c e e' h; exact ⟨_, .newline, h.symm⟩
  | endOfLine => intro _ c e e' h; exact ⟨_, .endOfLine, h.symm⟩
  | focusMark => intro _ c e e' h; exact ⟨_, .focusMark, h.symm⟩
  | literal s => intro _ c e e' h; exact ⟨_, .literal, h.symm⟩
  | left => intro _ c e e' h; exact h.elim
  | right => intro _ c e e' h; exact h.elim
  | child i => intro h; exact h.elim
  | fold => intro h; exact h.elim
  | text =>
    intro _ c e e' h
    obtain ⟨r, _, h⟩ := orFail_eolOut h
    cases r with
    | some n => exact h.elim
    | none =>
      obtain ⟨s, _, h⟩ := orFail_eolOut h
      exact ⟨_, .text, h.symm⟩
  | flat a ih =>
    intro hs c e e' h
    obtain ⟨evs, h1, h2⟩ := ih hs h
    exact ⟨evs, .flat h1, h2⟩
  | indent pre l a ih =>
    intro hs c e e' h
    cases l with
    | none =>
      obtain ⟨evs, h1, h2⟩ := ih hs h
      exact ⟨evs, .indent h1, h2⟩
    | some l =>
      obtain ⟨s, _, h⟩ := orFail_eolOut h
      obtain ⟨evs, h1, h2⟩ := ih hs h
      exact ⟨evs, .indent h1, h2⟩
  | style l a ih =>
    intro hs c e e' h
    obtain ⟨s, _, h⟩ := orFail_eolOut h
    obtain ⟨evs, h1, h2⟩ := ih hs h
    exact ⟨evs, .style h1, h2⟩
  | concat a b iha ihb =>
    rintro ⟨ha, hb⟩ c e e' ⟨m, h1, h2⟩
    obtain ⟨ev1, g1, rfl⟩ := iha ha h1
    obtain ⟨ev2, g2, rfl⟩ := ihb hb h2
    exact ⟨ev1 ++ ev2, .concat g1 g2, status_append _ _ _⟩
  | choice a b iha ihb =>
    rintro ⟨ha, hb⟩ c e e' h
    simp only [Notation.tree] at h
    split at h
    · obtain ⟨evs, h1, h2⟩ := iha ha h
      exact ⟨evs, .choice_left h1, h2⟩
    · rcases h with h | h
      · obtain ⟨evs, h1, h2⟩ := iha ha h
        exact ⟨evs, .choice_left h1, h2⟩
      · obtain ⟨evs, h1, h2⟩ := ihb hb h
        exact ⟨evs, .choice_right h1, h2⟩
  | check cond pos a b iha ihb =>
    rintro ⟨ha, hb⟩ c e e' h
    simp only [Notation.tree] at h
    split at h
    · exact h.elim
    · obtain ⟨r, _, h⟩ := orFail_eolOut h
      cases r
      · obtain ⟨evs, h1, h2⟩ := ihb hb h
        exact ⟨evs, .check_right h1, h2⟩
      · obtain ⟨evs, h1, h2⟩ := iha ha h
        exact ⟨evs, .check_left h1, h2⟩
  | count x y z ihx ihy ihz =>
    rintro ⟨hx, hy, hz⟩ c e e' h
    obtain ⟨r, _, h⟩ := orFail_eolOut h
    match r, h with
    | none, h => exact h.elim
    | some 0, h =>
      obtain ⟨evs, h1, h2⟩ := ihx hx h
      exact ⟨evs, .count_zero h1, h2⟩
    | some 1, h =>
      obtain ⟨evs, h1, h2⟩ := ihy hy h
      exact ⟨evs, .count_one h1, h2⟩
    | some (n + 2), h =>
      obtain ⟨evs, h1, h2⟩ := ihz hz h
      exact ⟨evs, .count_many h1, h2⟩

/-- A literal or text. -/
def isTextual {L C : Type} : Notation L C → Bool
  | .literal _ => true
  | .text => true
  | _ => false

/-- No text of `a` can be reached while an end-of-line mark is pending. -/
def NoText {L C : Type} (a : Notation L C) (e : Bool) : Prop :=
  ∀ p fs m evs, At a p fs m → isTextual m → Before a p evs → status e evs = false

theorem noText_safe (node : P.Node) (kid : Nat → Ctx P → NTree P) (a : Notation P.Label P.Cond) :
    a.SelfContained → ∀ {c e}, NoText a e → (a.tree node kid none c).EolSafe e := by
  induction a with
  | empty => intro _ c e h; trivial
  | newline => intro _ c e h; trivial
  | endOfLine => intro _ c e h; trivial
  | focusMark => intro _ c e h; trivial
  | literal s => intro _ c e h; exact h _ _ _ _ .here rfl .here
  | left => intro _ c e h; trivial
  | right => intro _ c e h; trivial
  | child i => intro h; exact h.elim
  | fold => intro h; exact h.elim
  | text =>
    intro _ c e h
    refine orFail_eolSafe ?_
    intro r _
    cases r with
    | some n => trivial
    | none => exact orFail_eolSafe fun s _ => h _ _ _ _ .here rfl .here
  | flat a ih =>
    intro hs c e h
    exact ih hs fun p fs m evs h1 h2 h3 => h _ _ _ _ (.flat h1) h2 (.flat h3)
  | indent pre l a ih =>
    intro hs c e h
    have h' : NoText a e := fun p fs m evs h1 h2 h3 => h _ _ _ _ (.indent h1) h2 (.indent h3)
    cases l with
    | none => exact ih hs h'
    | some l => exact orFail_eolSafe fun s _ => ih hs h'
  | style l a ih =>
    intro hs c e h
    exact orFail_eolSafe fun s _ => ih hs fun p fs m evs h1 h2 h3 => h _ _ _ _ (.style h1) h2 (.style h3)
  | concat a b iha ihb =>
    rintro ⟨ha, hb⟩ c e h
    refine ⟨iha ha fun p fs m evs h1 h2 h3 => h _ _ _ _ (.concat_left h1) h2 (.concat_left h3), ?_⟩
    intro m hm
    obtain ⟨ev, h1, rfl⟩ := eolOut_flow node kid a ha hm
    refine ihb hb fun p fs m evs g1 g2 g3 => ?_
    rw [← status_append]
    exact h _ _ _ _ (.concat_right g1) g2 (.concat_right h1 g3)
  | choice a b iha ihb =>
    rintro ⟨ha, hb⟩ c e h
    have h1 := iha ha (c := c) fun p fs m evs h1 h2 h3 => h _ _ _ _ (.choice_left h1) h2 (.choice_left h3)
    have h2 := ihb hb (c := c) fun p fs m evs h1 h2 h3 => h _ _ _ _ (.choice_right h1) h2 (.choice_right h3)
    simp only [Notation.tree]
    split
    · exact h1
    · exact ⟨h1, h2⟩
  | check cond pos a b iha ihb =>
    rintro ⟨ha, hb⟩ c e h
    have h1 := iha ha (c := c) fun p fs m evs h1 h2 h3 => h _ _ _ _ (.check_left h1) h2 (.check_left h3)
    have h2 := ihb hb (c := c) fun p fs m evs h1 h2 h3 => h _ _ _ _ (.check_right h1) h2 (.check_right h3)
    simp only [Notation.tree]
    split
    · trivial
    · refine orFail_eolSafe ?_
      intro r _
      cases r
      · exact h2
      · exact h1
  | count x y z ihx ihy ihz =>
    rintro ⟨hx, hy, hz⟩ c e h
    refine orFail_eolSafe ?_
    intro r _
    match r with
    | none => trivial
    | some 0 => exact ihx hx fun p fs m evs h1 h2 h3 => h _ _ _ _ (.count_zero h1) h2 (.count_zero h3)
    | some 1 => exact ihy hy fun p fs m evs h1 h2 h3 => h _ _ _ _ (.count_one h1) h2 (.count_one h3)
    | some (n + 2) => exact ihz hz fun p fs m evs h1 h2 h3 => h _ _ _ _ (.count_many h1) h2 (.count_many h3)

theorem valid_noText {L C : Type} {a : Notation L C} (h : a.Valid) : NoText a false := by
  intro p fs m evs h1 h2 h3
  by_contra hc
  have hp := eolPending_of_status (by simpa using hc)
  refine (C21_accepts_iff a).1 h .textAfterEol ⟨p, fs, m, h1, ?_⟩
  cases m <;> simp [isTextual] at h2
  · exact .literal_eol h3 hp
  · exact .text_eol h3 hp


/-- The tree of a document with a valid notation without `Child` and `Fold` is safe. -/
theorem rootTree_eolSafe (law : P.Lawful) {doc : P.Node} {a} (ha : P.notn doc = .ok a) (hs : a.SelfContained)
    {style id t} (hr : rootTree law doc style = .ok (id, t)) :
    t.FailIn (notEol P) ∧ t.EolSafe false := by
  unfold rootTree at hr
  rw [docTree_eq, ha] at hr
  simp only [Call.toRes, Except.bind_eq] at hr
  cases hn : P.nodeStyle doc with
  | error e => rw [hn] at hr; cases hr
  | ok s =>
    rw [hn] at hr
    simp only at hr
    split at hr
    · cases hr
      exact ⟨selfContained_failIn _ _ _ hs _, noText_safe _ _ _ hs (valid_noText (law.valid _ _ ha))⟩
    · cases hr

/-- **C22.**  Printing a document whose root has a validated notation without `Child` and without
    `Fold` never fails with `TextAfterEndOfLine`, at any width (whether or not the notation otherwise
    matches the node). -/
theorem C22_valid_no_text_after_eol (law : P.Lawful) {doc : P.Node} {a} (ha : P.notn doc = .ok a)
    (hs : a.SelfContained) (w : Nat) :
    prettyPrintToString doc w ≠ Exec.ofRes (.error (.err .textAfterEndOfLine)) := by
  intro h
  cases hr : rootTree law doc none with
  | error f =>
    have he := print_root_error law hr w [] .start
    have hf : f = .err .textAfterEndOfLine := by
      unfold prettyPrintToString at h
      rw [he] at h
      cases h
      rfl
    unfold rootTree at hr
    rw [docTree_eq, ha] at hr
    simp only [Call.toRes, Except.bind_eq] at hr
    cases hn : P.nodeStyle doc with
    | error e => rw [hn] at hr; cases hr; exact toFail_ne_eol hf
    | ok s =>
      rw [hn] at hr
      simp only at hr
      cases hi : P.id doc with
      | error e => rw [hi] at hr; cases hr; exact toFail_ne_eol hf
      | ok i => rw [hi] at hr; cases hr
  | ok r =>
    obtain ⟨id, t⟩ := r
    obtain ⟨h1, h2⟩ := rootTree_eolSafe law ha hs hr
    have := toString_safe law w hr h1 h2
    rw [h] at this
    exact this rfl

/-- No text comes after an end-of-line mark, when one is pending before or not (`e`). -/
def SafeToks : Bool → List (Tok P) → Prop
  | _, [] => True
  | e, .text _ :: T => e = false ∧ SafeToks e T
  | _, .nl _ :: T => SafeToks false T
  | _, .eol :: T => SafeToks true T
  | e, .mark _ :: T => SafeToks e T

/-- Whether an end-of-line mark is pending after the tokens. -/
def tokStatus : Bool → List (Tok P) → Bool
  | e, [] => e
  | e, .text _ :: T => tokStatus e T
  | _, .nl _ :: T => tokStatus false T
  | _, .eol :: T => tokStatus true T
  | e, .mark _ :: T => tokStatus e T

theorem safeToks_append {A B : List (Tok P)} : ∀ {e}, SafeToks e (A ++ B) ↔
    SafeToks e A ∧ SafeToks (tokStatus e A) B := by
  induction A with
  | nil => intro e; simp [SafeToks, tokStatus]
  | cons x A ih => intro e; cases x <;> simp [SafeToks, tokStatus, ih, and_assoc]

theorem tokStatus_append {A B : List (Tok P)} : ∀ {e}, tokStatus e (A ++ B) = tokStatus (tokStatus e A) B := by
  induction A with
  | nil => intro e; rfl
  | cons x A ih => intro e; cases x <;> simp [tokStatus, ih]

theorem tokStatus_quiet {B : List (Tok P)} (h : ∀ ind, Tok.nl ind ∉ B) : tokStatus true B = true := by
  induction B with
  | nil => rfl
  | cons x B ih =>
    have hB : ∀ ind, Tok.nl ind ∉ B := fun i hi => h i (by simp [hi])
    cases x with
    | nl ind => exact absurd (by simp) (h ind)
    | _ => exact ih hB

theorem not_eolDefect {T : List (Tok P)} {e} (h : SafeToks e T) : ¬ EolDefect T := by
  rintro ⟨A, B, x, C, rfl, hB⟩
  rw [safeToks_append, safeToks_append] at h
  have h1 := h.2.1
  rw [tokStatus_append] at h1
  change tokStatus true B = false at h1
  rw [tokStatus_quiet hB] at h1
  cases h1

theorem erase_append' {A B : List (GTok P)} : erase (A ++ B) = erase A ++ erase B := by
  simp [erase]

theorem eolSafe_resolves {id : P.Id} {t T} (h : Resolves id t T) : ∀ {e}, t.EolSafe e →
    SafeToks e (erase T) ∧ t.EolOut e (tokStatus e (erase T)) := by
  induction h with
  | empty => intro e h; exact ⟨trivial, rfl⟩
  | mark => intro e h; exact ⟨trivial, rfl⟩
  | eol => intro e h; exact ⟨trivial, rfl⟩
  | newline => intro e h; exact ⟨trivial, rfl⟩
  | text => intro e h; exact ⟨⟨h, trivial⟩, rfl⟩
  | child _ ih => intro e h; exact ih h
  | concat _ _ iha ihb =>
    intro e h
    obtain ⟨h1, h2⟩ := iha h.1
    obtain ⟨h3, h4⟩ := ihb (h.2 _ h2)
    rw [erase_append', safeToks_append, tokStatus_append]
    exact ⟨⟨h1, h3⟩, _, h2, h4⟩
  | choice_first _ ih =>
    intro e h
    obtain ⟨h1, h2⟩ := ih h.1
    exact ⟨h1, .inl h2⟩
  | choice_second _ ih =>
    intro e h
    obtain ⟨h1, h2⟩ := ih h.2
    exact ⟨h1, .inr h2⟩

/-- **C22**, for all layouts: however the choices of such a document are taken, no text comes after an
    end-of-line mark on the same line. -/
theorem C22_no_layout_has_text_after_eol (law : P.Lawful) {doc : P.Node} {a} (ha : P.notn doc = .ok a)
    (hs : a.SelfContained) {style id t} (hr : rootTree law doc style = .ok (id, t)) {T}
    (hT : Resolves id t T) : ¬ EolDefect (erase T) :=
  not_eolDefect (eolSafe_resolves hT (rootTree_eolSafe law ha hs hr).2).1

namespace Ex

/-- `lit("//") + text + eol + (flat(lit("a") | nl) | (nl + lit("b")))` is rejected: the first choice
    puts a literal after the end of line. -/
example : Flaw (L := Unit) (C := Unit) (.literal "//" + .text + .endOfLine +
    (.choice (.flat (.choice (.literal "a") .newline)) (.newline + .literal "b"))) .textAfterEol :=
  C21_error_is_flaw _ _ (by decide)

/-- So is a notation with `Left` outside of a `join`. -/
example : Flaw (L := Unit) (C := Unit) (.fold .left .right) .leftOutsideJoin := C21_error_is_flaw _ _ (by decide)

/-- A list has no flaws. -/
example (e : NotationError) : ¬ Flaw listN.1 e := (C21_accepts_iff _).1 listN.2 e

/-- `lit("//") + text + eol + (nl + lit("b") | empty)`. -/
def commentN : TreeNotation :=
  ⟨.literal "//" + .text + .endOfLine + (.choice (.newline + .literal "b") .empty), by decide⟩

/-- A comment. -/
def commentDoc : Tree Unit := Tree.newText 1 commentN "hello"

example (w : Nat) : prettyPrintToString (P := exP) commentDoc w ≠
    Exec.ofRes (.error (.err .textAfterEndOfLine)) :=
  C22_valid_no_text_after_eol exLaw (a := commentN.1) rfl
    (by simp [commentN, Notation.SelfContained, HAdd.hAdd, Add.add]) w

end Ex

end PPP
