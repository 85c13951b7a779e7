import Verif.Proofs.OwnLeast
import Verif.Props.Nested
/-
C59: the size of the notation of a single node does matter.
-/
namespace PPP
variable {P : PrettyDoc}

/-- C59.  Conversely, a session takes at least as many steps as there are constructs in the notation of the root that
    are displayed at every width (what is inside of its children, or of its choices, does not count), however few
    lines are asked for, and wherever the focus is. -/
theorem C59_at_least (law : P.Lawful) {scan : Nat} {doc : P.Node} {w : Nat} {path : List Nat} {target : FocusTarget}
    {style : Option P.Style} {asks : List Ask} {n : Nat} {a : FocusedLine P × List (Option (Line P))}
    (h : sessionC scan doc w path target style asks = some (n, .ok a)) : (docShape law doc false 0).fixed ≤ n := by
  have hs : Owes (sessionC scan doc w path target style asks) (docShape law doc false 0).fixed (fun _ φ => φ = 0) := by
    unfold sessionC
    exact Owes.then_done (prettyPrintC_fixed law scan doc w path target style)
  obtain ⟨φ, rfl, h2⟩ := hs n a h
  omega

namespace Ex
variable {n : Nat} {line : Nat → Option String}

/-- The notation of a file of `n + 1` lines. -/
theorem file_fixed : (docShape (file_law n line) none false 0).fixed = 5 * n + 2 := by
  rw [docShape_of (file_law n line) (a := .fold (.child 0) (.concat (.concat .left .newline) .right)) (s := ())
    rfl rfl]
  have hk : ∀ i, i < n + 1 → (kidShape (file_law n line) none i false 0).fixed = 1 := by
    intro i hi
    rw [kid_shape i hi]
    rcases line_shape (n := n) (line := line) i false 0 with e | ⟨w', e⟩ <;> rw [e] <;> rfl
  have hc : childIndex 0 (n + 1) = some 0 := by
    unfold childIndex
    rw [if_pos ⟨by omega, by omega⟩]
    rfl
  have ho : ∀ {α : Type} (a : α) (f : α → Shape), Shape.orLeaf (E := Unit) (.ok a) f = f a := fun _ _ => rfl
  simp only [Notation.shape, ho, hc, Shape.fixed]
  suffices H : ∀ k, k ≤ n → Shape.fixed (Nat.rec (motive := fun _ => Bool → Nat → Shape)
      (fun fl m => kidShape (file_law n line) none 0 fl m)
      (fun k acc fl m => Shape.orLeaf ((fileP n line).childAt none (k + 1)) fun _ =>
        .concat (.concat (.step (acc fl m)) (.newline m)) (kidShape (file_law n line) none (k + 1) fl m))
      k false 0) = 5 * k + 1 by
    have := H n (Nat.le_refl _)
    refine Eq.trans (b := 1 + (5 * n + 1)) (congrArg (1 + ·) ?_) (by omega)
    exact this
  intro k hk'
  induction k with
  | zero => exact hk 0 (by omega)
  | succ k ih =>
    have h1 : (fileP n line).childAt none (k + 1) = .ok (some (k + 1)) := by
      show (if k + 1 < n + 1 then Except.ok (some (k + 1)) else Except.error DocFail.panic) = _
      rw [if_pos (by omega)]
    simp only [h1, ho, Shape.fixed, ih (by omega), hk (k + 1) (by omega)]
    omega

/-- To print a single line of a file of `n + 1` lines whose lines are the children of a single node, at least `5 * n`
    steps are necessary. -/
example {w i k : Nat} {a} (h : sessionC (P := fileP n line) 0 none w [i] .start none [] = some (k, .ok a)) :
    5 * n + 2 ≤ k := by
  have := C59_at_least (file_law n line) h
  rwa [file_fixed] at this

/-- There are sessions that succeed: the first line of the document with two lines. -/
example (law : lazyP.Lawful) : ∃ k a, sessionC (P := lazyP) 0 .root 8 [] .start none [] = some (k, .ok a) ∧ 5 ≤ k := by
  obtain ⟨r, h, _⟩ := lazy_print none
  have hs : session (P := lazyP) .root 8 [] .start none [] = Exec.ofRes (.ok (r.focused, [])) := by
    unfold session; rw [h]; rfl
  obtain ⟨k, hk⟩ := Counted.result_eq_ofRes ((C55_same_session 0 (P := lazyP) .root 8 [] .start none []).trans hs)
  refine ⟨k, _, hk, ?_⟩
  have := C59_at_least law hk
  refine Nat.le_trans ?_ this
  rw [docShape_of law rfl rfl]
  have hpos : ∀ s : Shape, 1 ≤ s.fixed := fun s => by cases s <;> simp only [Shape.fixed] <;> omega
  simp only [Notation.shape, Shape.fixed]
  refine Nat.le_trans (m := 1 + (1 + 1 + (1 + 0)) + 1) (by omega) ?_
  exact Nat.add_le_add (Nat.add_le_add_left (Nat.add_le_add (Nat.add_le_add_left (hpos _) 1) (Nat.le_refl _)) 1) (hpos _)

end Ex
end PPP
