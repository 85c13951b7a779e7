import Verif.Spec.Contract
import Verif.Props.Window
import Verif.Proofs.ExtendPane
import Verif.Proofs.PaneEnds
/-
C58: what the methods of a document do outside of their contract does not matter.
-/
namespace PPP
variable {P : PrettyDoc} {M : Methods P.Node P.Id P.Style P.Label P.Cond P.Err}

/-! ### Sessions do not panic -/

theorem Returns.of_bind {E α β : Type} {x : Exec E α} {f : α → Exec E β} (h : Returns (x >>= f)) :
    Returns x ∧ ∀ a, x = Exec.ofRes (.ok a) → Returns (f a) := by
  obtain ⟨res, h1, h2⟩ := h
  match hx : x.run with
  | none =>
    exfalso
    have : (x >>= f).run = some res := by rw [h1]; rfl
    rw [Exec.run_bind, hx] at this
    cases this
  | some (.error e) =>
    have h3 : (x >>= f).run = some res := by rw [h1]; rfl
    rw [Exec.run_bind, hx] at h3
    cases h3
    refine ⟨⟨.error e, hx, fun h => ?_⟩, fun a ha => ?_⟩
    · cases h; exact h2 rfl
    · rw [ha] at hx
      cases hx
  | some (.ok a) =>
    refine ⟨⟨.ok a, hx, by simp⟩, fun b hb => ?_⟩
    rw [hb] at hx
    cases hx
    rw [hb, Exec.ofRes_ok_bind] at h1
    exact ⟨res, h1, h2⟩

theorem Returns.bind {E α β : Type} {x : Exec E α} {f : α → Exec E β} (h : Returns x)
    (hf : ∀ a, x = Exec.ofRes (.ok a) → Returns (f a)) : Returns (x >>= f) := by
  obtain ⟨res, h1, h2⟩ := h
  cases res with
  | error e =>
    refine ⟨.error e, ?_, fun h => h2 (by cases h; rfl)⟩
    rw [h1]; rfl
  | ok a =>
    obtain ⟨r, h3, h4⟩ := hf a h1
    exact ⟨r, by rw [h1, Exec.ofRes_ok_bind]; exact h3, h4⟩

theorem drain_returns_step {next : Printer P → Exec P.Err (Option (Line P) × Printer P)}
    (hnone : ∀ {p p'}, next p = Exec.ofRes (.ok (none, p')) → p' = p) {p : Printer P} (h : Returns (drain next p)) :
    Returns (next p) ∧ ∀ l p', next p = Exec.ofRes (.ok (l, p')) → Returns (drain next p') := by
  have h' := h
  rw [drain_eq] at h'
  obtain ⟨h1, h2⟩ := h'.of_bind
  refine ⟨h1, fun l p' hp => ?_⟩
  cases l with
  | none => rw [hnone hp]; exact h
  | some l => exact (h2 _ hp).of_bind.1

theorem browse_returns (asks : List Ask) : ∀ {up down : Printer P}, Returns (drain Printer.nextUp up) →
    Returns (drain Printer.nextDown down) → Returns (browse asks up down) := by
  induction asks with
  | nil => intro up down _ _; exact ⟨.ok [], rfl, by simp⟩
  | cons a asks ih =>
    intro up down h1 h2
    cases a with
    | above =>
      obtain ⟨h3, h4⟩ := drain_returns_step nextUp_none h1
      exact h3.bind fun r hr => (ih (h4 r.1 r.2 hr) h2).bind fun ls _ => ⟨.ok _, rfl, by simp⟩
    | below =>
      obtain ⟨h3, h4⟩ := drain_returns_step nextDown_none h2
      exact h3.bind fun r hr => (ih h1 (h4 r.1 r.2 hr)).bind fun ls _ => ⟨.ok _, rfl, by simp⟩

/-- **C13** (sessions).  Whatever is asked of the iterators, in whatever order: every call returns. -/
theorem C13_session_returns (law : P.Lawful) (doc : P.Node) (w : Nat) (path : List Nat) (target : FocusTarget)
    (style : Option P.Style) (asks : List Ask) : Returns (session doc w path target style asks) := by
  refine (C13_pretty_print_returns law doc w path target style).bind fun r hr => ?_
  obtain ⟨_, _, h1, h2⟩ := C13_iterators_return law hr
  exact (browse_returns asks h1 h2).bind fun ls _ => ⟨.ok _, rfl, by simp⟩

/-! ### The contract -/

open Classical in
theorem keeps_if {E α : Type} {p : Prop} {x y : Call E α} (h : p → y = x) :
    Call.Keeps (fun _ => True) (if p then x else .error .panic) y := by
  by_cases hp : p
  · rw [if_pos hp, h hp]; exact ⟨fun _ h => h, fun _ _ h => h⟩
  · rw [if_neg hp]; exact ⟨fun _ h => (nomatch h), fun _ _ h => (nomatch h)⟩

theorem keeps_same {E α : Type} {x y : Call E α} (h : y = x) : Call.Keeps (fun _ => True) x y := by
  rw [h]; exact ⟨fun _ h => h, fun _ _ h => h⟩

/-- An implementation that agrees within the contract extends the one that panics outside of it. -/
theorem Methods.AgreesWithinContract.extends_strict (h : M.AgreesWithinContract) :
    Methods.ExtendsKeeping (P := P.strict) (fun _ => True) M where
  id p := keeps_same (h.id p)
  notn p := keeps_same (h.notn p)
  nodeStyle p := keeps_same (h.nodeStyle p)
  numChildren p := keeps_same (h.numChildren p)
  condition p c := keeps_if fun hu => h.condition p c hu
  lookupStyle p l := keeps_if fun hu => h.lookupStyle p l hu
  unwrapText p := keeps_if fun hu => h.unwrapText p hu
  unwrapChild p i := keeps_if fun ⟨n, h1, h2⟩ => h.unwrapChild p n i h1 h2
  unwrapLastChild p := keeps_if fun ⟨n, h1, h2⟩ => h.unwrapLastChild p n h1 h2
  unwrapPrevSibling c p i := keeps_if fun ⟨n, h1, h2, h3⟩ => h.unwrapPrevSibling c p n i h1 h2 h3

theorem agrees_self : Methods.AgreesWithinContract (P := P) P.methods where
  id _ := rfl
  notn _ := rfl
  nodeStyle _ := rfl
  numChildren _ := rfl
  condition _ _ _ := rfl
  lookupStyle _ _ _ := rfl
  unwrapText _ _ := rfl
  unwrapChild _ _ _ _ _ := rfl
  unwrapLastChild _ _ _ _ := rfl
  unwrapPrevSibling _ _ _ _ _ _ _ := rfl

theorem session_strict (law : P.Lawful) (hM : M.AgreesWithinContract) {scan : Nat} {doc : P.Node} {w : Nat}
    {path : List Nat} {target : FocusTarget} {style : Option P.Style} {asks : List Ask} {n : Nat} {r}
    (h : sessionC (P := P.strict) scan doc w path target style asks = some (n, r)) :
    ∃ r', sessionC (P := P.withMethods M) scan doc w path target style asks = some (n, r') ∧
      r'.map sessionView = r.map sessionView := by
  have hle := sessionC_le (P := P.strict) (M := M) scan hM.extends_strict doc w path target style asks
  cases r with
  | ok a => exact ⟨_, hle.1 n a h, congrArg Except.ok (sessionView_re (P := P.strict) (M := M) a)⟩
  | error f =>
    refine ⟨_, hle.2 n f ⟨fun hf => ?_, fun _ _ => trivial⟩ h, rfl⟩
    subst hf
    obtain ⟨res, h1, h2⟩ := C13_session_returns law.strict doc w path target style asks
    rw [← C55_same_session scan (P := P.strict), h] at h1
    have h1 : some (.error .panic) = some res := h1
    cases h1
    exact h2 rfl

/-- C58.  What the methods of a document do outside of the contract of the `PrettyDoc` trait does not matter: with
    another implementation that agrees with it within the contract, every session shows the same or fails in the
    same way, after the same number of steps. -/
theorem C58_session (law : P.Lawful) (hM : M.AgreesWithinContract) (scan : Nat) (doc : P.Node) (w : Nat)
    (path : List Nat) (target : FocusTarget) (style : Option P.Style) (asks : List Ask) :
    ∃ n r r', sessionC scan doc w path target style asks = some (n, r) ∧
      sessionC (P := P.withMethods M) scan doc w path target style asks = some (n, r') ∧
      r'.map sessionView = r.map sessionView := by
  obtain ⟨res, h1, _⟩ := C13_session_returns law.strict doc w path target style asks
  obtain ⟨n, h2⟩ := Counted.result_eq_ofRes ((C55_same_session scan (P := P.strict) doc w path target style asks).trans h1)
  obtain ⟨r, h3, h4⟩ := session_strict law agrees_self h2
  obtain ⟨r', h5, h6⟩ := session_strict law hM h2
  exact ⟨n, r, r', h3, h5, h6.trans h4.symm⟩

theorem toString_strict (law : P.Lawful) (hM : M.AgreesWithinContract) (doc : P.Node) (w : Nat) :
    prettyPrintToString (P := P.withMethods M) doc w = prettyPrintToString (P := P.strict) doc w := by
  have hle := prettyPrintToString_le (P := P.strict) (M := M) hM.extends_strict doc w
  obtain ⟨res, h1, h2⟩ := C13_to_string_returns law.strict doc w
  rw [h1]
  cases res with
  | ok s => exact hle.1 s (by rw [h1]; rfl)
  | error f => exact hle.2 f ⟨fun h => h2 (by rw [h]), fun _ _ => trivial⟩ (by rw [h1]; rfl)

/-- C58, for `pretty_print_to_string`. -/
theorem C58_to_string (law : P.Lawful) (hM : M.AgreesWithinContract) (doc : P.Node) (w : Nat) :
    prettyPrintToString (P := P.withMethods M) doc w = prettyPrintToString doc w :=
  (toString_strict law hM doc w).trans (toString_strict law agrees_self doc w).symm

theorem display_strict (law : P.Lawful) (hM : M.AgreesWithinContract) {L : Type}
    (content : L → Option (P.Node × PrintingOptions)) (isFull : Char → Bool) (note : PaneNotation L P.Style)
    (style : P.Style) (width height : Nat) :
    (displayPane (P := P.withMethods M) ⟨content, isFull⟩ note style width height).run =
      (displayPane (P := P.strict) ⟨content, isFull⟩ note style width height).run := by
  have hle := displayPaneRec_le (P := P.strict) (M := M) (B := True) hM.extends_strict (fun _ => law.strict)
    ⟨content, isFull⟩ note style { minRow := 0, maxRow := height, minCol := 0, maxCol := width }
  have hr : ∃ r, displayPane (P := P.strict) ⟨content, isFull⟩ note style width height = some r :=
    displayPaneRec_ends law.strict _ note style _
  obtain ⟨⟨calls, res⟩, h1⟩ := hr
  cases res with
  | ok u => exact (hle.1 calls u h1).trans h1.symm
  | error f => exact (hle.2 calls f ⟨fun _ => trivial, fun _ _ => trivial⟩ h1).trans h1.symm

/-- C58, for `display_pane`: the same calls are made on the window, and the result is the same. -/
theorem C58_display (law : P.Lawful) (hM : M.AgreesWithinContract) {L : Type}
    (content : L → Option (P.Node × PrintingOptions)) (isFull : Char → Bool) (note : PaneNotation L P.Style)
    (style : P.Style) (width height : Nat) :
    (displayPane (P := P.withMethods M) ⟨content, isFull⟩ note style width height).run =
      (displayPane (P := P) ⟨content, isFull⟩ note style width height).run :=
  (display_strict law hM content isFull note style width height).trans
    (display_strict law agrees_self content isFull note style width height).symm

namespace Ex

/-- An implementation that returns nonsense where `exP` panics, and panics where `exP` has an answer, for labels
    that are not in use. -/
def sloppy : Methods exP.Node exP.Id exP.Style exP.Label exP.Cond exP.Err :=
  { exP.methods with
    lookupStyle := fun p l => if l ∈ (Tree.notn p).1.labels then exP.lookupStyle p l else .error .panic
    unwrapText := fun p => match exP.numChildren p with | .ok none => exP.unwrapText p | _ => .ok "?"
    unwrapChild := fun p i => match exP.numChildren p with
      | .ok (some n) => if i < n then exP.unwrapChild p i else .ok p
      | _ => .ok p }

theorem sloppy_agrees : sloppy.AgreesWithinContract (P := exP) where
  id _ := rfl
  notn _ := rfl
  nodeStyle _ := rfl
  numChildren _ := rfl
  condition _ _ _ := rfl
  lookupStyle p l := by
    rintro ⟨a, h1, h2⟩
    have h1 : Except.ok (ε := DocFail Empty) (Tree.notn p).1 = .ok a := h1
    cases h1
    exact if_pos h2
  unwrapText p h := by
    change (match exP.numChildren p with | .ok none => exP.unwrapText p | _ => .ok "?") = _
    rw [h]
  unwrapChild p n i h hi := by
    change (match exP.numChildren p with
      | .ok (some n) => if i < n then exP.unwrapChild p i else .ok p
      | _ => .ok p) = _
    rw [h]
    exact if_pos hi
  unwrapLastChild _ _ _ _ := rfl
  unwrapPrevSibling _ _ _ _ _ _ _ := rfl

/-- It is another implementation. -/
example : sloppy.unwrapText exDoc = .ok "?" ∧ exP.unwrapText exDoc = .error .panic ∧
    sloppy.unwrapChild exDoc 2 = .ok exDoc ∧ exP.unwrapChild exDoc 2 = .error .panic ∧
    sloppy.lookupStyle exDoc "bold" = .error .panic ∧ exP.lookupStyle exDoc "bold" = .ok () :=
  ⟨rfl, rfl, rfl, rfl, rfl, rfl⟩

/-- C58 applies to it. -/
example (doc : exP.Node) (w : Nat) : prettyPrintToString (P := exP.withMethods sloppy) doc w =
    prettyPrintToString (P := exP) doc w := C58_to_string exLaw sloppy_agrees doc w

end Ex
end PPP
