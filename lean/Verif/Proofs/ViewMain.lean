import Verif.Proofs.ViewFocus
import Verif.Props.Safety
/-
What is looked at when printing around a focus.
-/
namespace PPP
open Lean.Order
variable {P : PrettyDoc}

theorem seek_view {doc : P.Node} {w : Nat} {path : List Nat} {target : FocusTarget} {style : Option P.Style}
    (law : P.Lawful) {id : P.Id} {t : NTree P} (hr : rootTree law doc style = .ok (id, t)) {er : Fail P.Err → Prop}
    (ho : ∀ f, OwnFail f → er f) (hp : ∀ f, PathFails w id t path f → er f)
    (hf : ∀ f A x B, Zoom w id t path A x B → FocusFails w target A x B f → er f) {b : Block P}
    (hb : BlockV b [] []) :
    PSat (Printer.seek ⟨w, [], [b]⟩ doc path target style)
      (fun p => p.width = w ∧ ∃ A x B left right, Zoom w id t path A x B ∧ FocusAt w target A x B left right ∧
        FocusV w p left right) er := by
  obtain ⟨d, h1, h2⟩ := rootTree_rep law doc style hr
  unfold Printer.seek
  rw [h1, Exec.ofRes_ok_bind]
  refine .bind (Chunk.new_sat_ok h2).psat ?_ ?_
  · intro c hc
    refine .bind (seekPath_view (w := w) (id := id) (t := t) (full := path) ho hp path [] _ c [] (id, t) [] rfl rfl .root
      ⟨b, [], [], [], [], [], rfl, .nil, hb, .nil, rfl, rfl, hc⟩) ?_ fun _ h => h
    rintro ⟨p, c'⟩ ⟨hw, A, ⟨xid, xt⟩, B, hz, hat⟩
    have hparts : ∀ f, PartsFail xt f → er f := fun f hf =>
      hp f (.inl ⟨path, [], A, _, B, by simp, hz, hf⟩)
    have hff : ∀ f, FocusFails p.width target A (xid, xt) B f → er f := fun f h => hf f A _ B hz (hw ▸ h)
    simp only at hw hat
    dsimp only
    cases target with
    | start =>
      refine (seekStart_view hat (ho _ .overflow) hparts).mono ?_ fun _ h => h
      rintro r ⟨k1, k2⟩
      exact ⟨k1.trans hw, A, _, B, _, _, hz, .start, hw ▸ k2⟩
    | «end» =>
      refine (seekEnd_view hat ho hparts hff).mono ?_ fun _ h => h
      rintro r ⟨k1, k2⟩
      exact ⟨k1.trans hw, A, _, B, _, _, hz, .end, hw ▸ k2⟩
    | mark =>
      refine (seekMark_view hat ho hparts hff).mono ?_ fun _ h => h
      rintro r ⟨k1, left, right, k2, k3⟩
      exact ⟨k1.trans hw, A, _, B, _, _, hz, hw ▸ k2, hw ▸ k3⟩
    | text n =>
      refine (seekText_view hat ho hparts hff).mono ?_ fun _ h => h
      rintro r ⟨k1, left, right, k2, k3⟩
      exact ⟨k1.trans hw, A, _, B, _, _, hz, hw ▸ k2, hw ▸ k3⟩
  · rintro f rfl
    exact hp _ (.inl ⟨[], path, [], _, [], rfl, .root, by simp [NTree.parts]⟩)

/-- The iterators returned by `pretty_print`. -/
def PrintedV (w : Nat) (r : Printed P) (left right : View P) : Prop :=
  r.up.width = w ∧ r.down.width = w ∧ (∃ V R, Expands w left (V ++ R) ∧ Flatly R ∧ PrevV r.up.prev V) ∧
    ∃ R V, Expands w right (R ++ V) ∧ Flatly R ∧ NextV r.down.next V

theorem prettyPrint_view {doc : P.Node} {w : Nat} {path : List Nat} {target : FocusTarget} {style : Option P.Style}
    (law : P.Lawful) {id : P.Id} {t : NTree P} (hr : rootTree law doc style = .ok (id, t)) :
    PSat (prettyPrint doc w path target style)
      (fun r => ∃ A x B left right, Zoom w id t path A x B ∧ FocusAt w target A x B left right ∧ PrintedV w r left right)
      (fun f => OwnFail f ∨ NearFails w id t path target 0 0 f) := by
  unfold prettyPrint
  refine .bind (mid := fun p => ∃ b, p = ⟨w, [], [b]⟩ ∧ BlockV b [] []) (er' := OwnFail) ?_ ?_ fun _ h => .inl h
  · unfold Printer.new
    refine .bind (mid := fun b => BlockV b [] []) (er' := OwnFail) ?_ ?_ fun _ h => h
    · unfold Block.new
      simp only
      split
      · exact .pure ⟨.nil, .nil, Nat.zero_le _⟩
      · exact .error .overflow
    · intro b hb
      exact .pure ⟨b, rfl, hb⟩
  rintro _ ⟨b, rfl, hb⟩
  refine .bind (seek_view law hr (er := fun f => OwnFail f ∨ NearFails w id t path target 0 0 f) (fun _ h => .inl h)
    (fun _ h => .inr (.inl h)) (fun f A x B h1 h2 => .inr (.inr ⟨A, x, B, h1, .inl h2⟩)) hb) ?_ fun _ h => h
  rintro p ⟨hw, A, x, B, left, right, hz, hfo, block, next, A', done, items, B', h1, h2, h3, h4, h5, h6⟩
  obtain ⟨pw, prev, nxt⟩ := p
  simp only at hw h1 h2
  subst hw h1
  unfold Printer.printNextLine
  dsimp only
  have hb' : BlockV block [] items := ⟨.nil, h3.chunks, Nat.zero_le _⟩
  refine .bind (mid := fun r => ∃ line n, r = (some line, ⟨pw, prev, n⟩) ∧ AfterLine pw (items ++ B') n)
    (er' := FirstLineFails pw (items ++ B')) ?_ ?_ ?_
  · refine .bind (printNextLoop_view next block [] items B' hb' h4) ?_ fun _ h => h
    rintro ⟨line, n⟩ hn
    exact .pure ⟨line, n, rfl, by simpa using hn⟩
  · rintro _ ⟨line, n, rfl, R, V, k1, k2, k3⟩
    dsimp only
    split
    · exact .panicking fun _ h => .inl h
    · exact .pure ⟨A, x, B, left, right, hz, hfo, rfl, rfl, ⟨A', done, h5, h3.flat, h2⟩, R, V, h6.trans k1, k2, k3⟩
  · rintro f (hf | ⟨L, V, k1, k2, k3, k4⟩)
    · exact .inl hf
    · exact .inr (.inr ⟨A, x, B, hz, .inr ⟨left, right, hfo, .inr ⟨[], L, V, h6.trans k1, by simp, .inl rfl,
        Nat.zero_le _, k2, k3, k4⟩⟩⟩)

theorem Plain.newline (id : P.Id) (ind) : Plain ((id, .newline ind) : P.Id × NTree P) := trivial

theorem takeUp_view {left : View P} (w : Nat) : ∀ (k m : Nat) (p : Printer P) (V R : View P), p.width = w →
    Expands w left (V ++ R) → (∀ x ∈ R, Plain x) → newlines R ≤ m → PrevV p.prev V →
    PSat (takeLines Printer.nextUp k p) (fun _ => True) (fun f => OwnFail f ∨ UpFails w (m + k) left f) := by
  intro k
  induction k with
  | zero => intro m p V R _ _ _ _ _; exact .pure trivial
  | succ k ih =>
    intro m p V R hw hE hR hm hP
    obtain ⟨pw, prev, nxt⟩ := p
    simp only at hw hP
    subst hw
    unfold takeLines Printer.nextUp Printer.printPrevLine
    cases hP with
    | nil =>
      dsimp only
      refine .bind (mid := fun r => r.2 = ⟨pw, [], nxt⟩) (er' := fun _ => False) (.pure rfl) ?_ fun _ h => h.elim
      rintro ⟨line, p'⟩ rfl
      refine .bind (ih m ⟨pw, [], nxt⟩ [] R rfl hE hR hm .nil) (fun _ _ => .pure trivial) ?_
      rintro f (hf | ⟨V, L, R, g1, g2, g3, g4, g5, g6⟩)
      · exact .inl hf
      · exact .inr ⟨V, L, R, g1, g2, g3, g4, by omega, g6⟩
    | @cons b bs done items V id ind hb hbs =>
      have hR' : ∀ x ∈ (id, .newline ind) :: R, Plain x := by
        intro x hx
        rcases List.mem_cons.1 hx with rfl | hx
        · exact Plain.newline _ _
        · exact hR x hx
      dsimp only
      refine .bind (mid := fun r => ∃ prev', r.2 = ⟨pw, prev', nxt⟩ ∧ BeforeLine pw (V ++ done ++ items) prev')
        (er' := LastLineFails pw (V ++ done ++ items)) ?_ ?_ ?_
      · refine .bind (printPrevLoop_view bs b V done items hb hbs) ?_ fun _ h => h
        rintro ⟨line, prev'⟩ hp
        exact .pure ⟨prev', rfl, hp⟩
      · rintro ⟨line, p'⟩ ⟨prev', h1, V', R', k1, k2, k3⟩
        simp only at h1
        subst h1
        have hE' : Expands pw left (V' ++ (R' ++ (id, .newline ind) :: R)) := by
          refine hE.trans ?_
          have := k1.left ((id, .newline ind) :: R)
          simpa using this
        refine .bind (ih (m + 1) ⟨pw, prev', nxt⟩ V' _ rfl hE' ?_ ?_ k3) (fun _ _ => .pure trivial) ?_
        · intro x hx
          rcases List.mem_append.1 hx with hx | hx
          · exact k2.plain x hx
          · exact hR' x hx
        · have := newlines_oneLine k2.oneLine
          simp only [newlines_append, newlines]
          omega
        · intro f hf
          rwa [Nat.add_right_comm, Nat.add_assoc] at hf
      · rintro f (hf | ⟨V', L, k1, k2, k3, k4⟩)
        · exact .inl hf
        · refine .inr ⟨V', L, (id, .newline ind) :: R, ?_, hR', .inr ⟨_, _, rfl, _, rfl⟩, by simp [newlines],
            by simp only [newlines]; omega, k3, k2, k4⟩
          refine hE.trans ?_
          have := k1.left ((id, .newline ind) :: R)
          simpa using this

theorem takeDown_view {right : View P} (w : Nat) : ∀ (j m : Nat) (p : Printer P) (R V : View P), p.width = w →
    Expands w right (R ++ V) → (∀ x ∈ R, Plain x) → newlines R ≤ m → NextV p.next V →
    PSat (takeLines Printer.nextDown j p) (fun _ => True) (fun f => OwnFail f ∨ DownFails w (m + j) right f) := by
  intro j
  induction j with
  | zero => intro m p V R _ _ _ _ _; exact .pure trivial
  | succ j ih =>
    intro m p R V hw hE hR hm hN
    obtain ⟨pw, prev, nxt⟩ := p
    simp only at hw hN
    subst hw
    unfold takeLines Printer.nextDown Printer.printNextLine
    cases hN with
    | nil =>
      dsimp only
      refine .bind (mid := fun r => r.2 = ⟨pw, prev, []⟩) (er' := fun _ => False) (.pure rfl) ?_ fun _ h => h.elim
      rintro ⟨line, p'⟩ rfl
      refine .bind (ih m ⟨pw, prev, []⟩ R [] rfl hE hR hm .nil) (fun _ _ => .pure trivial) ?_
      rintro f (hf | ⟨R, L, V, g1, g2, g3, g4, g5⟩)
      · exact .inl hf
      · exact .inr ⟨R, L, V, g1, g2, g3, by omega, g5⟩
    | @cons b bs items V id ind hb hbs =>
      have hR' : ∀ x ∈ R ++ [(id, .newline ind)], Plain x := by
        intro x hx
        rcases List.mem_append.1 hx with hx | hx
        · exact hR x hx
        · simp only [List.mem_singleton] at hx; subst hx; exact Plain.newline _ _
      dsimp only
      refine .bind (mid := fun r => ∃ next', r.2 = ⟨pw, prev, next'⟩ ∧ AfterLine pw (items ++ V) next')
        (er' := FirstLineFails pw (items ++ V)) ?_ ?_ ?_
      · refine .bind (printNextLoop_view bs b [] items V ⟨.nil, hb, Nat.zero_le _⟩ hbs) ?_ fun _ h => h
        rintro ⟨line, prev'⟩ hp
        exact .pure ⟨prev', rfl, hp⟩
      · rintro ⟨line, p'⟩ ⟨next', h1, R', V', k1, k2, k3⟩
        simp only at h1
        subst h1
        have hE' : Expands pw right (R ++ [(id, .newline ind)] ++ R' ++ V') := by
          refine hE.trans ?_
          have := k1.right (R ++ [(id, .newline ind)])
          simpa using this
        refine .bind (ih (m + 1) ⟨pw, prev, next'⟩ _ V' rfl hE' ?_ ?_ k3) (fun _ _ => .pure trivial) ?_
        · intro x hx
          rcases List.mem_append.1 hx with hx | hx
          · exact hR' x hx
          · exact k2.plain x hx
        · have := newlines_oneLine k2.oneLine
          simp only [newlines_append, newlines]
          omega
        · intro f hf
          rwa [Nat.add_right_comm, Nat.add_assoc] at hf
      · rintro f (hf | ⟨L, V', k1, k2, k3, k4⟩)
        · exact .inl hf
        · refine .inr ⟨R ++ [(id, .newline ind)], L, V', ?_, hR', .inr ⟨_, _, rfl, _, rfl⟩,
            by simp only [newlines_append, newlines]; omega, k2, k3, k4⟩
          refine hE.trans ?_
          have := k1.right (R ++ [(id, .newline ind)])
          simpa using this

theorem UpFails.mono {w m m' : Nat} {A : View P} {f} (h : m ≤ m') (hf : UpFails w m A f) : UpFails w m' A f := by
  obtain ⟨V, L, R, g1, g2, g3, g4, g5, g6⟩ := hf
  exact ⟨V, L, R, g1, g2, g3, g4, Nat.le_trans g5 h, g6⟩
theorem DownFails.mono {w m m' : Nat} {A : View P} {f} (h : m ≤ m') (hf : DownFails w m A f) : DownFails w m' A f := by
  obtain ⟨V, L, R, g1, g2, g3, g4, g5⟩ := hf
  exact ⟨V, L, R, g1, g2, g3, Nat.le_trans g4 h, g5⟩

theorem NearFails.mono {w : Nat} {id : P.Id} {t : NTree P} {path target k k' j j' f} (hk : k ≤ k') (hj : j ≤ j')
    (h : NearFails w id t path target k j f) : NearFails w id t path target k' j' f := by
  rcases h with h | ⟨A, x, B, h1, h2 | ⟨left, right, h2, h3 | h3⟩⟩
  · exact .inl h
  · exact .inr ⟨A, x, B, h1, .inl h2⟩
  · exact .inr ⟨A, x, B, h1, .inr ⟨left, right, h2, .inl (h3.mono hk)⟩⟩
  · exact .inr ⟨A, x, B, h1, .inr ⟨left, right, h2, .inr (h3.mono hj)⟩⟩

theorem printAround_view {doc : P.Node} {w : Nat} {path : List Nat} {target : FocusTarget} {style : Option P.Style}
    (law : P.Lawful) {id : P.Id} {t : NTree P} (hr : rootTree law doc style = .ok (id, t)) (k j : Nat) :
    PSat (printAround doc w path target style k j) (fun _ => True)
      (fun f => OwnFail f ∨ NearFails w id t path target k j f) := by
  unfold printAround
  refine .bind (prettyPrint_view law hr) ?_ ?_
  · rintro r ⟨A, x, B, left, right, hz, hfo, hw1, hw2, ⟨V1, R1, h1, h2, h3⟩, R2, V2, h4, h5, h6⟩
    refine .bind (takeUp_view w k 0 r.up V1 R1 hw1 h1 h2.plain (Nat.le_of_eq (newlines_oneLine h2.oneLine)) h3) ?_ ?_
    · rintro ⟨above, p1⟩ _
      refine .bind (takeDown_view w j 0 r.down R2 V2 hw2 h4 h5.plain (Nat.le_of_eq (newlines_oneLine h5.oneLine)) h6) ?_ ?_
      · rintro ⟨below, p2⟩ _
        exact .pure trivial
      · rintro f (hf | hf)
        · exact .inl hf
        · exact .inr (.inr ⟨A, x, B, hz, .inr ⟨left, right, hfo, .inr (hf.mono (by omega))⟩⟩)
    · rintro f (hf | hf)
      · exact .inl hf
      · exact .inr (.inr ⟨A, x, B, hz, .inr ⟨left, right, hfo, .inl (hf.mono (by omega))⟩⟩)
  · rintro f (hf | hf)
    · exact .inl hf
    · exact .inr (hf.mono (Nat.zero_le _) (Nat.zero_le _))

end PPP
