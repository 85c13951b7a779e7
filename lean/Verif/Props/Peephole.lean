import Verif.Proofs.ViewMain
import Verif.Props.Extend
/-
C42: printing some lines around a focus only looks at what is near it.
-/
namespace PPP
variable {P : PrettyDoc} {M : Methods P.Node P.Id P.Style P.Label P.Cond P.Err}

/-- The printer's own failures: it has found something wrong with the path, the focus or the text printed. -/
def PrinterFail (f : Fail P.Err) : Prop :=
  f = .overflow ∨ f = .err .textAfterEndOfLine ∨ f = .err .missingFocusMark ∨ f = .err .missingText ∨
    ∃ i, f = .err (.invalidPath i)

theorem printAround_returns (law : P.Lawful) (doc : P.Node) (w : Nat) (path : List Nat) (target : FocusTarget)
    (style : Option P.Style) (k j : Nat) : Returns (printAround doc w path target style k j) := by
  unfold printAround
  obtain ⟨r, hr, hp⟩ := C13_pretty_print_returns law doc w path target style
  cases r with
  | error f => rw [hr]; exact ⟨_, rfl, by simpa using hp⟩
  | ok r =>
    obtain ⟨h1, h2, _⟩ := C13_iterators_return law hr
    rw [hr, Exec.ofRes_ok_bind]
    obtain ⟨r1, hr1, hp1⟩ := h1 k
    cases r1 with
    | error f => rw [hr1]; exact ⟨_, rfl, by simpa using hp1⟩
    | ok r1 =>
      rw [hr1, Exec.ofRes_ok_bind]
      obtain ⟨r2, hr2, hp2⟩ := h2 j
      cases r2 with
      | error f => obtain ⟨_, _⟩ := r1; rw [hr2]; exact ⟨_, rfl, by simpa using hp2⟩
      | ok r2 => obtain ⟨_, _⟩ := r1; rw [hr2]; exact ⟨_, rfl, by simp⟩

/-- C42.  If printing around a focus fails, then either the printer itself has found something wrong, or something
    fails that one comes across when following the path and then reading the lines that are printed. In
    particular no failure (error, or mismatch between document and notation) in a part of the document further
    away plays a role. -/
theorem C42_only_nearby (law : P.Lawful) {doc : P.Node} {w : Nat} {path : List Nat} {target : FocusTarget}
    {style : Option P.Style} {id : P.Id} {t : NTree P} (hr : rootTree law doc style = .ok (id, t)) {k j : Nat}
    {f : Fail P.Err} (hf : printAround doc w path target style k j = Exec.ofRes (.error f)) :
    PrinterFail f ∨ NearFails w id t path target k j f := by
  have h := printAround_view (w := w) (path := path) (target := target) law hr k j (.error f)
    (by rw [hf]; rfl)
  rcases h with h | h
  · rcases h with rfl | rfl | h
    · exact .inl (.inl rfl)
    · obtain ⟨r, h1, h2⟩ := printAround_returns law doc w path target style k j
      rw [hf] at h1
      exact absurd (Exec.ofRes_inj h1).symm h2
    · exact .inl (.inr h)
  · exact .inr h

def reAround (M : Methods P.Node P.Id P.Style P.Label P.Cond P.Err)
    (r : List (Option (Line P)) × FocusedLine P × List (Option (Line P))) :
    List (Option (Line (P.withMethods M))) × FocusedLine (P.withMethods M) × List (Option (Line (P.withMethods M))) :=
  (r.1.map (Option.map (Line.re M)), r.2.1.re M, r.2.2.map (Option.map (Line.re M)))

theorem printAround_le {K : P.Err → Prop} (h : M.ExtendsKeeping K) (doc : P.Node) (w : Nat) (path : List Nat) (target : FocusTarget)
    (style : Option P.Style) (k j : Nat) : Le K (reAround M) (printAround doc w path target style k j)
      (printAround (P := P.withMethods M) doc w path target style k j) := by
  unfold printAround
  exact .bind (prettyPrint_le h doc w path target style) fun r => .bind (takeLines_up_le h k r.up) fun a =>
    .bind (takeLines_down_le h j r.down) fun b => .pure rfl

theorem optLines_view_re (lines : List (Option (Line P))) :
    (lines.map (Option.map (Line.re M))).map (Option.map Line.view) = lines.map (Option.map Line.view) := by
  rw [List.map_map]
  congr 1
  funext l
  cases l with
  | none => rfl
  | some l => exact congrArg some (Line.view_re l)

theorem aroundView_re (r : List (Option (Line P)) × FocusedLine P × List (Option (Line P))) :
    aroundView (reAround M r) = aroundView r := by
  unfold aroundView reAround
  dsimp only
  rw [optLines_view_re, optLines_view_re]
  refine congrArg (Prod.mk _) (congrArg (Prod.mk · _) ?_)
  exact Prod.ext (segments_view_re _) (segments_view_re _)

/-- C42.  Suppose that everything one comes across when following the path and reading the lines that are
    printed is available (none of it fails with an error of the document; elsewhere, nodes may be
    missing).  Then it does not matter what the rest of the document is: printing these lines gives
    the same result — the same lines, or the same error of the printer — when the missing nodes are
    there. -/
theorem C42_rest_is_irrelevant (law : P.Lawful) {doc : P.Node} {w : Nat} {path : List Nat} {target : FocusTarget}
    {style : Option P.Style} {id : P.Id} {t : NTree P} (hr : rootTree law doc style = .ok (id, t)) {k j : Nat}
    (hnear : ∀ f, NearFails w id t path target k j f → f.NotFromDoc) (hM : M.Extends) :
    aroundView <$> printAround (P := P.withMethods M) doc w path target style k j =
      aroundView <$> printAround doc w path target style k j := by
  have hle := printAround_le hM.keeping doc w path target style k j
  obtain ⟨r, h1, h2⟩ := printAround_returns law doc w path target style k j
  cases r with
  | ok r =>
    have h := hle.1 r (by rw [h1]; rfl)
    have h : printAround (P := P.withMethods M) doc w path target style k j = Exec.ofRes (.ok (reAround M r)) := h
    rw [h, h1]
    exact congrArg (fun x => Exec.ofRes (.ok x)) (aroundView_re r)
  | error f =>
    have hf : f.NotFromDoc := by
      rcases C42_only_nearby law hr h1 with h | h
      · rcases h with rfl | rfl | rfl | rfl | ⟨i, rfl⟩ <;> exact ⟨by simp, by simp⟩
      · exact hnear f h
    have h := hle.2 f hf.keptBy (by rw [h1]; rfl)
    have h : printAround (P := P.withMethods M) doc w path target style k j = Exec.ofRes (.error f) := h
    rw [h, h1]
    rfl

end PPP
