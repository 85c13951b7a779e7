import Verif.Proofs.WorkLeast
import Verif.Props.Example
/-
C55: how much work printing is.
-/
namespace PPP
variable {P : PrettyDoc}
open Counted

/-! ### The counted program is the program -/

/-- `pretty_print` and its counted copy return the same (and one ends if and only if the other one does). -/
theorem C55_same_prettyPrint (scan : Nat) (doc : P.Node) (width : Nat) (path : List Nat) (target : FocusTarget)
    (style : Option P.Style) :
    (prettyPrintC scan doc width path target style).result = prettyPrint doc width path target style :=
  result_eq (prettyPrint_er scan doc width path target style) (prettyPrint_re scan doc width path target style)

/-- So do `next` of the lines above and its counted copy. -/
theorem C55_same_nextUp (p : Printer P) : p.printPrevLineC.result = p.nextUp :=
  result_eq (printPrevLine_er p) (printPrevLine_re p)

/-- So do `next` of the lines below and its counted copy. -/
theorem C55_same_nextDown (p : Printer P) : p.printNextLineC.result = p.nextDown :=
  result_eq (printNextLine_er p) (printNextLine_re p)

/-- So do `pretty_print_to_string` and its counted copy. -/
theorem C55_same_to_string (scan : Nat) (doc : P.Node) (width : Nat) :
    (prettyPrintToStringC scan doc width).result = prettyPrintToString doc width :=
  result_eq (prettyPrintToString_er scan doc width) (prettyPrintToString_re scan doc width)

theorem browseC_result (asks : List Ask) (up down : Printer P) :
    (browseC asks up down).result = browse asks up down := by
  induction asks generalizing up down with
  | nil => rfl
  | cons a asks ih =>
    cases a with
    | above =>
      simp only [browseC, browse, result_bind, C55_same_nextUp]
      congr 1; funext x
      rw [ih]; rfl
    | below =>
      simp only [browseC, browse, result_bind, C55_same_nextDown]
      congr 1; funext x
      rw [ih]; rfl

/-- And so do whole sessions. -/
theorem C55_same_session (scan : Nat) (doc : P.Node) (width : Nat) (path : List Nat) (target : FocusTarget)
    (style : Option P.Style) (asks : List Ask) :
    (sessionC scan doc width path target style asks).result = session doc width path target style asks := by
  unfold sessionC session
  rw [result_bind, C55_same_prettyPrint]
  congr 1; funext r
  rw [result_bind, browseC_result]
  rfl

/-! ### How many steps -/

/-- Printing a document to a string takes at most 12 steps per unit of `docWork`. -/
theorem C55_to_string (law : P.Lawful) (scan : Nat) (doc : P.Node) (width : Nat) :
    (prettyPrintToStringC scan doc width).EndsWithin (12 * docWork law doc width + 11) :=
  prettyPrintToStringC_pays law scan doc width

/-- So does every session that starts at the root, whatever lines are asked for, plus a step for every
    line asked for. -/
theorem C55_session_root (law : P.Lawful) (scan : Nat) (doc : P.Node) (width : Nat) (target : FocusTarget)
    (style : Option P.Style) (asks : List Ask) :
    (sessionC scan doc width [] target style asks).EndsWithin (12 * docWork law doc width + 10 + asks.length) := by
  have := sessionC_pays law (scan := scan) doc width [] target style asks (.inl ⟨rfl, rfl⟩)
  rwa [Nat.one_mul] at this

/-- And so does every session that starts at any path, if the chunks that `seek_child` scans are not counted. -/
theorem C55_session (law : P.Lawful) (doc : P.Node) (width : Nat) (path : List Nat) (target : FocusTarget)
    (style : Option P.Style) (asks : List Ask) :
    (sessionC 0 doc width path target style asks).EndsWithin (12 * docWork law doc width + 10 + asks.length) := by
  have := sessionC_pays law (scan := 0) doc width path target style asks (.inr rfl)
  rwa [Nat.zero_mul, Nat.add_zero, Nat.one_mul] at this

/-- If they are counted, then the number of steps is at most quadratic: `seek_child` scans the rest of the
    line again for every child before the one that it seeks. -/
theorem C55_session_scan (law : P.Lawful) (scan : Nat) (doc : P.Node) (width : Nat) (path : List Nat)
    (target : FocusTarget) (style : Option P.Style) (asks : List Ask) :
    (sessionC scan doc width path target style asks).EndsWithin
      ((1 + scan * (12 * docWork law doc width + 5)) * (12 * docWork law doc width + 10) + asks.length) :=
  sessionC_pays law doc width path target style asks (.inr rfl)

/-! ### What `docWork` amounts to -/

theorem Shape.largest_pos (s : Shape) : 1 ≤ s.largest := by
  cases s <;> simp only [Shape.largest] <;> omega

theorem Shape.work_le_furthest (w : Nat) (s : Shape) (h : Nat → Nat) (L : Nat) (hL : s.furthest w h ≤ L) :
    s.work w h ≤ s.largest * (1 + L) := by
  induction s generalizing h with
  | leaf => simp only [Shape.work, Shape.largest]; omega
  | newline m =>
    simp only [Shape.work, Shape.largest]
    exact Nat.le_mul_of_pos_right _ (by omega)
  | text => simp only [Shape.work, Shape.largest]; omega
  | concat a b iha ihb =>
    simp only [Shape.furthest] at hL
    have h1 := iha (b.ahead h) (by omega)
    have h2 := ihb h (by omega)
    simp only [Shape.work, Shape.largest, Nat.add_mul]
    omega
  | choice a b iha ihb =>
    simp only [Shape.furthest] at hL
    have h1 := iha h (by omega)
    have h2 := ihb h (by omega)
    have h3 := Nat.mul_le_mul_right (1 + L) (Nat.le_max_left a.largest b.largest)
    have h4 := Nat.mul_le_mul_right (1 + L) (Nat.le_max_right a.largest b.largest)
    simp only [Shape.work, Shape.largest, Nat.add_mul (1 : Nat) (max _ _)]
    omega
  | child t ih =>
    have h1 := ih h hL
    simp only [Shape.work, Shape.largest, Nat.add_mul (1 : Nat) t.largest]
    omega
  | step t ih =>
    have h1 := ih h hL
    simp only [Shape.work, Shape.largest, Nat.add_mul (1 : Nat) t.largest]
    omega

/-- `docWork` is at most the size of the largest layout, times one more than the furthest look ahead. -/
theorem C55_lookahead (law : P.Lawful) (doc : P.Node) (width : Nat) :
    docWork law doc width ≤ docLargest law doc * (1 + docFurthest law doc width) :=
  Shape.work_le_furthest _ _ _ _ (Nat.le_refl _)

theorem Shape.ahead_le (s : Shape) (h : Nat → Nat) (H : Nat) (hH : ∀ r, h r ≤ H) (r : Nat) :
    s.ahead h r + s.steps ≤ 2 * s.largest + H := by
  induction s generalizing h H r with
  | leaf => have := hH r; simp only [Shape.ahead, Shape.steps, Shape.largest]; omega
  | newline => simp only [Shape.ahead, Shape.steps, Shape.largest]; omega
  | text w =>
    have := hH (r - w)
    simp only [Shape.ahead, Shape.steps, Shape.largest]; split <;> omega
  | concat a b iha ihb =>
    have := iha (b.ahead h) (2 * b.largest + H - b.steps) (fun r => by have := ihb h H hH r; omega) r
    have := a.steps_pos
    have := ihb h H hH 0
    simp only [Shape.ahead, Shape.steps, Shape.largest]; omega
  | choice a b iha ihb =>
    have := ihb h H hH r
    have := b.steps_pos
    simp only [Shape.ahead, Shape.steps, Shape.largest]; omega
  | child t ih =>
    have := ih h H hH r
    have := t.steps_pos
    simp only [Shape.ahead, Shape.steps, Shape.largest]; omega
  | step t ih =>
    have := ih h H hH r
    simp only [Shape.ahead, Shape.steps, Shape.largest]; omega

theorem Shape.furthest_le (w : Nat) (s : Shape) (h : Nat → Nat) (H : Nat) (hH : ∀ r, h r ≤ H) :
    s.furthest w h ≤ 2 * s.largest + H := by
  induction s generalizing h H with
  | concat a b iha ihb =>
    have h1 := iha (b.ahead h) (2 * b.largest + H) (fun r => by have := b.ahead_le h H hH r; omega)
    have h2 := ihb h H hH
    simp only [Shape.furthest, Shape.largest]; omega
  | choice a b iha ihb =>
    have h1 := iha h H hH
    have h2 := ihb h H hH
    have h3 := a.ahead_le h H hH w
    simp only [Shape.furthest, Shape.largest]; omega
  | child t ih => have := ih h H hH; simp only [Shape.furthest, Shape.largest]; omega
  | step t ih => have := ih h H hH; simp only [Shape.furthest, Shape.largest]; omega
  | _ => simp only [Shape.furthest]; omega

/-- However choices are nested, and whatever the width, printing takes at most quadratically many steps in the
    size of the largest layout. -/
theorem C55_quadratic (law : P.Lawful) (scan : Nat) (doc : P.Node) (width : Nat) :
    (prettyPrintToStringC scan doc width).EndsWithin
      (12 * (docLargest law doc * (1 + 2 * docLargest law doc)) + 11) := by
  obtain ⟨n, r, h1, h2⟩ := C55_to_string law scan doc width
  refine ⟨n, r, h1, Nat.le_trans h2 ?_⟩
  have h3 : docWork law doc width ≤ docLargest law doc * (1 + 2 * docLargest law doc) :=
    Shape.work_le_furthest _ _ _ _ (Shape.furthest_le width _ _ 0 fun _ => Nat.le_refl _)
  omega

/-! ### The counter counts -/

/-- If printing to a string succeeds, then it takes at least as many steps as the size of the smallest layout.
    (So the bounds above are not bounds of a counter that stands still.) -/
theorem C55_at_least (law : P.Lawful) {scan : Nat} {doc : P.Node} {width n : Nat} {s : String}
    (h : prettyPrintToStringC scan doc width = some (n, .ok s)) : docSmallest law doc ≤ n := by
  obtain ⟨φ, rfl, h2⟩ := prettyPrintToStringC_owes law scan doc width n s h
  exact h2

/-! ### An example -/

open Ex

/-- The example document (`[aa, bbb]`, with a choice after the comma), written out. -/
def exShape : Shape :=
  .concat (.concat (.concat (.text 1)
    (.step (.concat (.concat (.concat (.step (.child (.text 2))) (.text 1)) (.choice (.text 1) (.newline 0)))
      (.child (.text 3))))) .leaf) (.text 1)

theorem exShape_eq : docShape exLaw exDoc false 0 = exShape := by
  have h0 : kidShape exLaw exDoc 0 false 0 = .child (.text 2) := by
    show Shape.child (docShape exLaw (Tree.setNeedsSeparator (Tree.newText 1 leafN "aa")) false 0) = _
    rw [docShape_of exLaw (a := leafN.1) (s := ()) rfl rfl]
    rfl
  have h1 : kidShape exLaw exDoc 1 false 0 = .child (.text 3) := by
    show Shape.child (docShape exLaw (Tree.newText 2 leafN "bbb") false 0) = _
    rw [docShape_of exLaw (a := leafN.1) (s := ()) rfl rfl]
    rfl
  have ht : ∀ kid : Nat → Bool → Nat → Shape, listN.1.shape (P := exP) exDoc kid none false 0 =
      .concat (.concat (.concat (.text 1)
        (.step (.concat (.concat (.concat (.step (kid 0 false 0)) (.text 1)) (.choice (.text 1) (.newline 0)))
          (kid 1 false 0)))) .leaf) (.text 1) := fun _ => rfl
  rw [docShape_of exLaw (a := listN.1) (s := ()) rfl rfl, ht, h0, h1]
  rfl

/-- Its `docWork` at width 80: one for each of its 18 constructs (of the choice, only one option counts), and 5
    for the look at the rest of the line. -/
example : docWork exLaw exDoc 80 = 23 ∧ docLargest exLaw exDoc = 18 ∧ docFurthest exLaw exDoc 80 = 5 := by
  unfold docWork docLargest docFurthest
  rw [exShape_eq]
  exact ⟨rfl, rfl, rfl⟩

example : docSmallest exLaw exDoc = 18 := by
  unfold docSmallest
  rw [exShape_eq]
  rfl

/-- At width 1, less of the rest of the line is looked at. -/
example : docWork exLaw exDoc 1 = 21 ∧ docFurthest exLaw exDoc 1 = 3 := by
  unfold docWork docFurthest
  rw [exShape_eq]
  exact ⟨rfl, rfl⟩

/-- So focusing on the end of the second child, and asking for the line above and two lines below, takes at
    most 289 steps. -/
example : (sessionC (P := exP) 0 exDoc 80 [1] .end none [.above, .below, .below]).EndsWithin 289 := by
  have h := C55_session exLaw exDoc 80 [1] .end none [.above, .below, .below]
  have : docWork exLaw exDoc 80 = 23 := by unfold docWork; rw [exShape_eq]; rfl
  rw [this] at h
  exact h

end PPP
