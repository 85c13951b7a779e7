import Verif.Proofs.ExtendC
import Verif.Spec.Closed
import Verif.Props.Work
import Verif.Props.Rows
/-
C56: how much work it is to print a part of a document.
-/
namespace PPP
variable {P : PrettyDoc} {M : Methods P.Node P.Id P.Style P.Label P.Cond P.Err}

/-- What a session shows. -/
def sessionView (r : FocusedLine P × List (Option (Line P))) := (r.1.view, r.2.map (Option.map Line.view))

theorem sessionView_re (r : FocusedLine P × List (Option (Line P))) :
    sessionView (reSession M r) = sessionView r := by
  unfold sessionView reSession
  dsimp only
  rw [optLines_view_re]
  exact congrArg (Prod.mk · _) (Prod.ext (segments_view_re _) (segments_view_re _))

theorem Counted.result_eq_ofRes {E α : Type} {x : Counted E α} {r : Res E α} (h : x.result = Exec.ofRes r) :
    ∃ n, x = some (n, r) := by
  have h : x.map (·.2) = some r := h
  cases x with
  | none => cases h
  | some y =>
    obtain ⟨n, r'⟩ := y
    cases h
    exact ⟨n, rfl⟩

/-- C56.  Suppose that a session is possible on a document of which some nodes are unavailable: that is,
    it succeeds, or fails because of an error of the printer itself.  Then the same session on the document of
    which more is available shows the same, and takes exactly the same number of steps, whatever has become
    available. -/
theorem C56_same_steps (hM : M.Extends) {scan : Nat} {doc : P.Node} {width : Nat} {path : List Nat}
    {target : FocusTarget} {style : Option P.Style} {asks : List Ask} {n : Nat}
    {r : Res P.Err (FocusedLine P × List (Option (Line P)))}
    (h : sessionC scan doc width path target style asks = some (n, r)) (hr : ∀ f, r = .error f → f.NotFromDoc) :
    ∃ r', sessionC (P := P.withMethods M) scan doc width path target style asks = some (n, r') ∧
      r'.map sessionView = r.map sessionView := by
  have hle := sessionC_le scan hM.keeping doc width path target style asks
  match r with
  | .ok a => exact ⟨_, hle.1 n a h, congrArg Except.ok (sessionView_re a)⟩
  | .error f => exact ⟨_, hle.2 n f (hr f rfl).keptBy h, rfl⟩

/-- C56.  So the number of steps is bounded by the work of printing only what is available, in which a node that
    is not available counts as a single construct. -/
theorem C56_session (law : P.Lawful) (hM : M.Extends) {doc : P.Node} {width : Nat} {path : List Nat}
    {target : FocusTarget} {style : Option P.Style} {asks : List Ask}
    {r : Res P.Err (FocusedLine P × List (Option (Line P)))}
    (h : session doc width path target style asks = Exec.ofRes r) (hr : ∀ f, r = .error f → f.NotFromDoc) :
    (sessionC (P := P.withMethods M) 0 doc width path target style asks).EndsWithin
      (12 * docWork law doc width + 10 + asks.length) := by
  obtain ⟨n, hn⟩ := Counted.result_eq_ofRes ((C55_same_session 0 doc width path target style asks).trans h)
  obtain ⟨r', h1, _⟩ := C56_same_steps hM hn hr
  obtain ⟨k, r2, h2, h3⟩ := C55_session law doc width path target style asks
  rw [hn] at h2
  cases h2
  exact ⟨n, r', h1, h3⟩

/-! ### Lines around a focus -/

/-- First `k` lines above the focus, then `j` lines below it. -/
def aroundAsks (k j : Nat) : List Ask := List.replicate k .above ++ List.replicate j .below

theorem browse_below (j : Nat) (up down : Printer P) :
    browse (List.replicate j .below) up down = (·.1) <$> takeLines Printer.nextDown j down := by
  induction j generalizing down with
  | zero => rfl
  | succ j ih =>
    simp only [List.replicate_succ, browse, takeLines, map_bind, map_pure, ih]
    congr 1; funext x
    simp only [bind_map_left]

theorem browse_around (k j : Nat) (up down : Printer P) :
    browse (aroundAsks k j) up down = (do
      let (above, _) ← takeLines Printer.nextUp k up
      let (below, _) ← takeLines Printer.nextDown j down
      pure (above ++ below)) := by
  unfold aroundAsks
  induction k generalizing up with
  | zero =>
    simp only [List.replicate_zero, List.nil_append, browse_below, takeLines, pure_bind, ← bind_pure_comp]
  | succ k ih =>
    simp only [List.replicate_succ, List.cons_append, browse, takeLines, ih, bind_assoc, pure_bind]

theorem session_around (doc : P.Node) (width : Nat) (path : List Nat) (target : FocusTarget)
    (style : Option P.Style) (k j : Nat) :
    session doc width path target style (aroundAsks k j) =
      (fun r => (r.2.1, r.1 ++ r.2.2)) <$> printAround doc width path target style k j := by
  unfold session printAround
  simp only [browse_around, map_bind, map_pure, bind_assoc, pure_bind]

/-- C56.  Printing lines around a focus: if everything that is close (in the sense of C42) is available, then
    printing takes at most 12 steps per unit of the work of printing only what is available.  In
    other words, a part of the document that is not close costs nothing, whatever its size. -/
theorem C56_only_nearby (law : P.Lawful) {doc : P.Node} {w : Nat} {path : List Nat} {target : FocusTarget}
    {style : Option P.Style} {id : P.Id} {t : NTree P} (ht : rootTree law doc style = .ok (id, t)) {k j : Nat}
    (hnear : ∀ f, NearFails w id t path target k j f → f.NotFromDoc) (hM : M.Extends) :
    (sessionC (P := P.withMethods M) 0 doc w path target style (aroundAsks k j)).EndsWithin
      (12 * docWork law doc w + 10 + (k + j)) := by
  obtain ⟨r, h1, h2⟩ := printAround_returns law doc w path target style k j
  have hs : session doc w path target style (aroundAsks k j) =
      Exec.ofRes (r.map fun r => (r.2.1, r.1 ++ r.2.2)) := by
    rw [session_around, h1]
    cases r <;> rfl
  have h := C56_session law hM hs fun f hf => by
    match r with
    | .ok r => cases hf
    | .error f' =>
      cases hf
      rcases C42_only_nearby law ht h1 with h | h
      · rcases h with rfl | rfl | rfl | rfl | ⟨i, rfl⟩ <;> exact ⟨by simp, by simp⟩
      · exact hnear f h
  have e : (aroundAsks k j).length = k + j := by simp [aroundAsks]
  rwa [e] at h

/-- C56.  In a document that displays its children on separate lines, printing `k` lines above and `j` lines below
    the start or end of a node inside of child `i` takes no more steps than the work of printing the document
    with only the children from `i - k` to `i + j` available. -/
theorem C56_rows (law : P.Lawful) {doc : P.Node} {w : Nat} {i : Nat} {path : List Nat}
    {target : FocusTarget} {style : Option P.Style} {id : P.Id} {t : NTree P} {n k j : Nat}
    {rid : Nat → Res P.Err P.Id} {tc : Nat → NTree P}
    (hr : rootTree law doc style = .ok (id, t)) (hrows : IsRows t n rid tc) (hi : i < n)
    (hids : RowIdsDistinct id n i rid tc) (hwin : RowsAvailable n i k j rid tc)
    (ht : target = .start ∨ target = .end) (hM : M.Extends) :
    (sessionC (P := P.withMethods M) 0 doc w (i :: path) target style (aroundAsks k j)).EndsWithin
      (12 * docWork law doc w + 10 + (k + j)) := by
  obtain ⟨cid, D, E, E', D', h⟩ := near_of_rows (k := k) (j := j) hrows hi hids.1 hids.2 hwin
  exact C56_only_nearby law hr (fun f hf => (h.noNearFails ht hf).elim) hM

/-! ### Closing nodes -/

theorem closed_extends (isOpen : P.Node → Bool) (e : P.Err) : P.methods.Extends (P := P.closed isOpen e) where
  id _ _ h := h
  notn p a h := by
    have h : (if isOpen p then P.notn p else .error (.err e)) = .ok a := h
    split at h
    · exact h
    · cases h
  condition _ _ _ h := h
  lookupStyle _ _ _ h := h
  nodeStyle _ _ h := h
  numChildren _ _ h := h
  unwrapText _ _ h := h
  unwrapChild _ _ _ h := h
  unwrapLastChild _ _ h := h
  unwrapPrevSibling _ _ _ _ h := h

theorem closed_childOf (isOpen : P.Node → Bool) (e : P.Err) : (P.closed isOpen e).ChildOf = P.ChildOf := by
  have h : ∀ p i, (P.closed isOpen e).childAt p i = P.childAt p i := fun p i => by
    unfold PrettyDoc.childAt
    rw [show (P.closed isOpen e).numChildren p = P.numChildren p from rfl]
    rcases P.numChildren p with _ | _ | n <;> rfl
  funext c p
  unfold PrettyDoc.ChildOf
  simp only [h]

theorem closed_lawful (law : P.Lawful) (isOpen : P.Node → Bool) (e : P.Err) : (P.closed isOpen e).Lawful where
  wf := by
    rw [closed_childOf]
    exact law.wf
  valid p a h := law.valid p a ((closed_extends isOpen e).notn p a h)
  last := law.last
  prev := law.prev
  id_no_panic := law.id_no_panic
  notn_no_panic p h := by
    have h : (if isOpen p then P.notn p else .error (.err e)) = .error .panic := h
    split at h
    · exact law.notn_no_panic p h
    · cases h
  condition_no_panic := by
    rintro p c ⟨q, a, h1, h2, h3⟩
    rw [closed_childOf] at h3
    exact law.condition_no_panic p c ⟨q, a, (closed_extends isOpen e).notn q a h1, h2, h3⟩
  lookupStyle_no_panic := by
    rintro p l ⟨a, h1, h2⟩
    exact law.lookupStyle_no_panic p l ⟨a, (closed_extends isOpen e).notn p a h1, h2⟩
  nodeStyle_no_panic := law.nodeStyle_no_panic
  numChildren_no_panic := law.numChildren_no_panic
  unwrapText_no_panic := law.unwrapText_no_panic
  unwrapChild_no_panic := law.unwrapChild_no_panic

/-- C56.  Suppose that a session would be possible even if some nodes of a document were closed.  Then the work
    it does is bounded by that of printing the document with these nodes closed: they count as a single
    construct each, whatever there is inside of them. -/
theorem C56_closed (law : P.Lawful) (isOpen : P.Node → Bool) (e : P.Err) {doc : P.Node} {width : Nat}
    {path : List Nat} {target : FocusTarget} {style : Option P.Style} {asks : List Ask}
    {r : Res P.Err (FocusedLine (P.closed isOpen e) × List (Option (Line (P.closed isOpen e))))}
    (h : session (P := P.closed isOpen e) doc width path target style asks = Exec.ofRes r)
    (hr : ∀ f, r = .error f → f.NotFromDoc) :
    (sessionC 0 doc width path target style asks).EndsWithin
      (12 * docWork (closed_lawful law isOpen e) doc width + 10 + asks.length) :=
  C56_session (closed_lawful law isOpen e) (closed_extends isOpen e) h hr

namespace Ex

/-! ### An example -/

variable {n : Nat} {line : Nat → Option String}

theorem line_shape (m : Nat) (fl : Bool) (lv : Nat) :
    docShape (file_law n line) (some m) fl lv = .leaf ∨ ∃ w, docShape (file_law n line) (some m) fl lv = .text w := by
  rw [docShape_of (file_law n line) (a := .text) (s := ()) rfl rfl]
  simp only [Notation.shape]
  cases hl : line m with
  | none => exact .inl rfl
  | some s => exact .inr ⟨s.length, rfl⟩

theorem kid_shape (i : Nat) (hi : i < n + 1) (fl : Bool) (lv : Nat) :
    kidShape (file_law n line) none i fl lv = .child (docShape (file_law n line) (some i) fl lv) := by
  unfold kidShape
  have h : (fileP n line).childAt none i = .ok (some i) := by
    show (if i < n + 1 then Except.ok (some i) else Except.error DocFail.panic) = _
    rw [if_pos hi]
  rw [h]

/-- The work of printing a file of `n + 1` lines. -/
theorem file_work (w : Nat) : docWork (file_law n line) none w = 6 * n + 3 := by
  unfold docWork
  rw [docShape_of (file_law n line) (a := .fold (.child 0) (.concat (.concat .left .newline) .right)) (s := ())
    rfl rfl]
  have hk : ∀ i, i < n + 1 → ∀ h, (kidShape (file_law n line) none i false 0).work w h = 2 := by
    intro i hi h
    rw [kid_shape i hi]
    rcases line_shape (n := n) (line := line) i false 0 with e | ⟨w', e⟩ <;> rw [e] <;> rfl
  have hc : childIndex 0 (n + 1) = some 0 := by
    unfold childIndex
    rw [if_pos ⟨by omega, by omega⟩]
    rfl
  have ho : ∀ {α : Type} (a : α) (f : α → Shape), Shape.orLeaf (E := Unit) (.ok a) f = f a := fun _ _ => rfl
  simp only [Notation.shape, ho, hc, Shape.work]
  suffices H : ∀ k, k ≤ n → ∀ h, Shape.work w (Nat.rec (motive := fun _ => Bool → Nat → Shape)
      (fun fl m => kidShape (file_law n line) none 0 fl m)
      (fun k acc fl m => Shape.orLeaf ((fileP n line).childAt none (k + 1)) fun _ =>
        .concat (.concat (.step (acc fl m)) (.newline m)) (kidShape (file_law n line) none (k + 1) fl m))
      k false 0) h = 6 * k + 2 by
    have := H n (Nat.le_refl _) (fun _ => 0)
    refine Eq.trans (b := 1 + (6 * n + 2)) (congrArg (1 + ·) ?_) (by omega)
    exact this
  intro k hk'
  induction k with
  | zero => exact hk 0 (by omega)
  | succ k ih =>
    intro h
    have h1 : (fileP n line).childAt none (k + 1) = .ok (some (k + 1)) := by
      show (if k + 1 < n + 1 then Except.ok (some (k + 1)) else Except.error DocFail.panic) = _
      rw [if_pos (by omega)]
    simp only [h1, ho, Shape.work, ih (by omega), hk (k + 1) (by omega)]
    omega

/-- Printing line `i` of a file, with `k` lines above it and `j` lines below it, takes a number of steps
    that is linear in the number of lines, if only these lines are available; and it still does when the
    other ones are. -/
example {w i k j : Nat} (hi : i < n + 1) (h : ∀ m, i ≤ m + k → m ≤ i + j → (line m).isSome)
    {M : Methods _ _ _ _ _ _} (hM : M.Extends (P := fileP n line)) :
    (sessionC (P := (fileP n line).withMethods M) 0 none w [i] .start none (aroundAsks k j)).EndsWithin
      (72 * n + 46 + (k + j)) := by
  obtain ⟨t, h1, h2⟩ := file_tree (n := n) (line := line)
  have h := C56_rows (w := w) (path := []) (file_law n line) h1 h2 hi (file_ids i) (file_available h) (.inl rfl) hM
  rw [file_work] at h
  obtain ⟨a, r, h3, h4⟩ := h
  exact ⟨a, r, h3, by omega⟩

/-- The first line of the document with two lines takes the same number of steps whatever the second one is. -/
example {M : Methods _ _ _ _ _ _} (hM : M.Extends (P := lazyP)) (law : lazyP.Lawful) :
    (sessionC (P := lazyP.withMethods M) 0 .root 8 [] .start none []).EndsWithin
      (12 * docWork law .root 8 + 10) := by
  obtain ⟨r, h, _⟩ := lazy_print none
  exact C56_session (asks := []) law hM (r := .ok (r.focused, [])) (by unfold session; rw [h]; rfl)
    (fun f hf => nomatch hf)

end Ex
end PPP
