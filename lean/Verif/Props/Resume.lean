import Verif.Proofs.ResumeTwo
import Verif.Props.Safety
import Verif.Props.Example
/-
C47: the line iterators after an `Err`.
-/
namespace PPP
variable {P : PrettyDoc}

theorem printed_shape {doc : P.Node} {w path target style r}
    (h : prettyPrint doc w path target style = Exec.ofRes (.ok r)) :
    r.up = ⟨w, r.up.prev, []⟩ ∧ r.down = ⟨w, [], r.down.next⟩ := by
  unfold prettyPrint at h
  obtain ⟨p, _, h⟩ := Exec.bind_ok_inv h
  obtain ⟨p1, _, h⟩ := Exec.bind_ok_inv h
  split at h
  · exact absurd (Exec.ofRes_inj h) (by simp)
  · obtain ⟨⟨o, p2⟩, _, h⟩ := Exec.bind_ok_inv h
    cases o with
    | none => exact absurd (Exec.ofRes_inj h) (by simp)
    | some line =>
      simp only at h
      split at h
      · exact absurd (Exec.ofRes_inj h) (by simp)
      · have h := Exec.ofRes_inj h
        simp only [Except.ok.injEq] at h
        subst h
        exact ⟨rfl, rfl⟩

/-- **C47** (calls return).  However often `next` is called on an iterator that `pretty_print`
    returned, whatever it gave before — lines, errors or `None` — the call returns. -/
theorem C47_returns (law : P.Lawful) {doc : P.Node} {w path target style r}
    (h : prettyPrint doc w path target style = Exec.ofRes (.ok r)) (dir : Dir) (n : Nat) :
    Returns (r.calls dir n) := by
  obtain ⟨id, m, pv, hs⟩ := printed_stacks law h dir
  rw [Printed.calls_eq]
  exact Returns.of_sat (callsK_sat _ noPanic_ok id (fun _ => trivial) dir _ n hs) fun e he => he.1

/-- **C47** (exhaustion).  Going on after every error, an iterator gives some finite list of lines and
    errors and then `None` for ever — unless a width exceeds what a `u16` holds. -/
theorem C47_exhausts (law : P.Lawful) {doc : P.Node} {w path target style r}
    (h : prettyPrint doc w path target style = Exec.ofRes (.ok r)) (dir : Dir) :
    (∃ items, r.Gives dir items) ∨ ∃ n, r.calls dir n = Exec.ofRes (.error .overflow) := by
  obtain ⟨id, m, pv, hs⟩ := printed_stacks law h dir
  rcases hs.gives noPanic_ok id (fun _ => trivial) (by simp [noPanic]) dir
    (match (generalizing := false) dir with | .up => r.up.width | .down => r.down.width) m with ⟨items, g⟩ | ⟨k, g⟩
  · exact .inl ⟨items, (Printed.gives_iff r dir items).2 g⟩
  · refine .inr ⟨k, ?_⟩
    rw [Printed.calls_eq]
    exact g

/-- **C47** (the items are determined). -/
theorem C47_unique (r : Printed P) (dir : Dir) {items items'} (h : r.Gives dir items)
    (h' : r.Gives dir items') : items = items' :=
  GivesK.det ((Printed.gives_iff r dir items).1 h) ((Printed.gives_iff r dir items').1 h')

/-- **C47** (up to the first error).  Running the iterator and stopping at an error gives the lines
    before the first error among the items, and that error. -/
theorem C47_until_error (law : P.Lawful) {doc : P.Node} {w path target style r}
    (h : prettyPrint doc w path target style = Exec.ofRes (.ok r)) (dir : Dir) {items}
    (hg : r.Gives dir items) :
    (∀ lines, r.drain dir = Exec.ofRes (.ok lines) ↔ items = lines.map .ok) ∧
    (∀ e, r.drain dir = Exec.ofRes (.error (.err e)) ↔
      ∃ (good : List (Line P)) (rest : List _), items = good.map .ok ++ .error e :: rest) := by
  obtain ⟨id, m, pv, hs⟩ := printed_stacks law h dir
  have hg := (Printed.gives_iff r dir items).1 hg
  have hd := hg.drain noPanic_ok id (fun _ => trivial) hs
  obtain ⟨u, d⟩ := printed_shape h
  have hd' : r.drain dir = Exec.ofRes (uptoError items) := by
    cases dir with
    | up =>
      rw [← hd]
      simp only [Printed.drain, nextP, stackP]
      rw [u]
    | down =>
      rw [← hd]
      simp only [Printed.drain, nextP, stackP]
      rw [d]
  rw [hd']
  refine ⟨fun lines => ⟨fun e => uptoError_ok.1 (Exec.ofRes_inj e), fun e => ?_⟩,
    fun e => ⟨fun e' => uptoError_error.1 (Exec.ofRes_inj e'), fun e' => ?_⟩⟩
  · rw [uptoError_ok.2 e]
  · rw [uptoError_error.2 e']

/-- **C47** (nothing further down is lost, going down).  If a document consists of two parts, one above
    the other, its iterator gives what that of the first part gives, with all its errors, then the
    first line of the second part and then what the second part's iterator gives. -/
theorem C47_parts_down {doc c0 c1 : P.Node} {s : P.Style} (h : TwoParts doc c0 c1 s) {w : Nat} {r0 r1}
    (h0 : prettyPrint c0 w [] .start (some s) = Exec.ofRes (.ok r0))
    (h1 : prettyPrint c1 w [] .start (some s) = Exec.ofRes (.ok r1)) {items0 items1}
    (g0 : r0.Gives .down items0) (g1 : r1.Gives .down items1) :
    ∃ r, prettyPrint doc w [] .start none = Exec.ofRes (.ok r) ∧ r.focused = r0.focused ∧
      r.Gives .down (items0 ++ .ok r1.focused.toLine :: items1) :=
  two_parts_down h h0 h1 g0 g1

/-- **C47** (nothing further up is lost, going up). -/
theorem C47_parts_up {doc c0 c1 : P.Node} {s : P.Style} (h : TwoParts doc c0 c1 s) {w : Nat} {r0 r1}
    (h0 : prettyPrint c0 w [] .end (some s) = Exec.ofRes (.ok r0))
    (h1 : prettyPrint c1 w [] .end (some s) = Exec.ofRes (.ok r1)) {items0 items1}
    (g0 : r0.Gives .up items0) (g1 : r1.Gives .up items1) :
    ∃ r, prettyPrint doc w [] .end none = Exec.ofRes (.ok r) ∧ r.focused = r1.focused ∧
      r.Gives .up (items1 ++ .ok r0.focused.toLine :: items0) :=
  two_parts_up h h0 h1 g0 g1

/-! ### A document whose second of three lines is an error -/
namespace Ex

/-- `lit("x") ^ child(0)`. -/
def errN : TreeNotation := ⟨.literal "x" ^^^ .child 0, by decide⟩
/-- `child(0)`. -/
def childN : TreeNotation := ⟨.child 0, by decide⟩
/-- `child(0) ^ child(-1)`. -/
def aboveN : TreeNotation := ⟨.child 0 ^^^ .child (-1), by decide⟩

/-- Prints `x`, then has an error: its child is a text whose notation wants a child. -/
def errDoc : Tree Unit := Tree.newBranch 1 errN [Tree.newText 2 childN "zz"]
/-- Prints `aa`. -/
def okDoc : Tree Unit := Tree.newText 3 leafN "aa"
/-- One above the other. -/
def bothDoc : Tree Unit := Tree.newBranch 4 aboveN [errDoc, okDoc]

theorem both_parts : TwoParts (P := exP) bothDoc (Tree.setNeedsSeparator errDoc) okDoc () where
  hasId := ⟨4, rfl⟩
  style := rfl
  parts := ⟨0, -1, 2, 0, 1, rfl, rfl, rfl, rfl, rfl, rfl⟩

/-- The line `aa`. -/
theorem ok_prints : ∃ r, prettyPrint (P := exP) okDoc 10 [] .start (some ()) = Exec.ofRes (.ok r) ∧
    r.focused.toLine.toString = "aa" ∧ r.Gives .down [] := by
  refine ⟨_, start_of (P := exP) (next := []) (next' := [])
    (d := ⟨.text, okDoc, false, [], (), none⟩) (c := ⟨.textual (txt "aa" 2), nid 3⟩)
    (line := ⟨[⟨"aa", 2, ()⟩]⟩)
    (block := ⟨[], 0, false, [⟨.textual (txt "aa" 2), nid 3⟩]⟩) rfl ?_ ?_ ?_, rfl, ?_⟩
  · unfold Chunk.new
    rw [DCN.eval.eq_def]
    rfl
  · unfold expandFirst
    rw [expandFirstLoop.eq_def]
    simp only
    rw [expandFirstLoop.eq_def]
    rfl
  · rw [printNextLoop.eq_def]
    simp only
    erw [show Block.pushText (P := exP) ⟨[], 0, false, []⟩ (txt "aa" 2) =
      Exec.ofRes (.ok ⟨[⟨"aa", 2, ()⟩], 2, false, []⟩) from rfl]
    simp only [Exec.ofRes_ok_bind]
    rw [printNextLoop.eq_def]
    rfl
  · exact (Printed.gives_iff _ _ _).2 .nil

/-- The line `x`, and then an error. -/
theorem err_prints : ∃ r, prettyPrint (P := exP) (Tree.setNeedsSeparator errDoc) 10 [] .start (some ()) =
      Exec.ofRes (.ok r) ∧
    r.focused.toLine.toString = "x" ∧ r.Gives .down [.error .childNotationOnChildlessDoc] := by
  let D : Tree Unit := Tree.setNeedsSeparator errDoc
  let z : Tree Unit := Tree.newText 2 childN "zz"
  let dz : DCN exP := ⟨.child 0, z, false, [], (), none⟩
  let cx : Chunk exP := ⟨.textual (lit "x" 1), nid 1⟩
  let B : Block exP := ⟨[], 0, false, [⟨.child 0 dz, nid 1⟩]⟩
  refine ⟨_, start_of (P := exP) (next := [B]) (next' := [B])
    (d := ⟨.concat (.concat (.literal "x") .newline) (.child 0), D, false, [], (), none⟩)
    (c := ⟨.concat ⟨.concat (.literal "x") .newline, D, false, [], (), none⟩
      ⟨.child 0, D, false, [], (), none⟩, nid 1⟩)
    (line := ⟨[⟨"x", 1, ()⟩]⟩) (block := ⟨[], 0, false, [cx]⟩) rfl ?_ ?_ ?_, rfl, ?_⟩
  · unfold Chunk.new
    rw [DCN.eval.eq_def]
    rfl
  · have e1 : Chunk.new (P := exP) ⟨.child 0, D, false, [], (), none⟩ =
        Exec.ofRes (.ok ⟨.child 0 dz, nid 1⟩) := by
      unfold Chunk.new
      rw [DCN.eval.eq_def]
      rfl
    have e2 : Chunk.new (P := exP) ⟨.concat (.literal "x") .newline, D, false, [], (), none⟩ =
        Exec.ofRes (.ok ⟨.concat ⟨.literal "x", D, false, [], (), none⟩
          ⟨.newline, D, false, [], (), none⟩, nid 1⟩) := by
      unfold Chunk.new
      rw [DCN.eval.eq_def]
      rfl
    have e3 : Chunk.new (P := exP) ⟨.literal "x", D, false, [], (), none⟩ = Exec.ofRes (.ok cx) := by
      unfold Chunk.new
      rw [DCN.eval.eq_def]
      rfl
    have e4 : Chunk.new (P := exP) ⟨.newline, D, false, [], (), none⟩ =
        Exec.ofRes (.ok ⟨.newline [], nid 1⟩) := by
      unfold Chunk.new
      rw [DCN.eval.eq_def]
      rfl
    unfold expandFirst emptyBlock
    rw [expandFirstLoop.eq_def]
    simp only [e1, e2, Exec.ofRes_ok_bind]
    rw [expandFirstLoop.eq_def]
    simp only
    rw [expandFirstLoop.eq_def]
    simp only [e3, e4, Exec.ofRes_ok_bind]
    rw [expandFirstLoop.eq_def]
    simp only [Block.new_nil, Exec.ofRes_ok_bind]
    rw [expandFirstLoop.eq_def]
    simp only [cx]
    rw [expandFirstLoop.eq_def]
    rfl
  · rw [printNextLoop.eq_def]
    simp only [cx]
    erw [show Block.pushText (P := exP) ⟨[], 0, false, []⟩ (lit "x" 1) =
      Exec.ofRes (.ok ⟨[⟨"x", 1, ()⟩], 1, false, []⟩) from rfl]
    simp only [Exec.ofRes_ok_bind]
    rw [printNextLoop.eq_def]
    rfl
  · refine (Printed.gives_iff _ _ _).2 (.cons (s' := []) ?_ .nil)
    have e1 : Chunk.new dz = Exec.ofRes (.error (.err .childNotationOnChildlessDoc)) := by
      unfold Chunk.new
      rw [DCN.eval.eq_def]
      rfl
    unfold nextK
    simp only [B]
    rw [printLoopK.eq_def]
    simp only [Keep.of, e1]
    rfl

/-- The second of three lines is an error; the third one is printed all the same. -/
example : ∃ (r : Printed exP) (last : Line exP),
    prettyPrint (P := exP) bothDoc 10 [] .start none = Exec.ofRes (.ok r) ∧
    r.focused.toLine.toString = "x" ∧ last.toString = "aa" ∧
    r.Gives .down [.error .childNotationOnChildlessDoc, .ok last] := by
  obtain ⟨r0, h0, s0, g0⟩ := err_prints
  obtain ⟨r1, h1, s1, g1⟩ := ok_prints
  obtain ⟨r, h, hf, hg⟩ := C47_parts_down both_parts h0 h1 g0 g1
  exact ⟨r, r1.focused.toLine, h, by rw [hf]; exact s0, s1, hg⟩

end Ex
end PPP
