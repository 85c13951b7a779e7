import Verif.Proofs.WorkLoops
import Verif.Spec.Session
/-
Whole sessions are paid for.
-/
namespace PPP
variable {P : PrettyDoc}
open Counted

theorem nil_eq : nil = fun _ => 0 := rfl

/-- The end of `seek`. -/
theorem seekTargetC_pays {w : Nat} {p : Printer P} {chunk : Chunk P} {φ} (h : SeekP w p chunk φ)
    (target : FocusTarget) :
    Pays 1 (match target with
      | .start => p.seekStartC chunk
      | .end => p.seekEndC chunk
      | .text pos => p.seekTextC chunk pos
      | .mark => p.seekMarkC chunk) (φ + 3) (fun p' ψ => p'.next ≠ [] ∧ PrinterP w p' ψ) := by
  obtain ⟨rfl, φ1, φ2, h1, ⟨block, rest, ks, s, φ3, h2, h3, h4, h5, h6⟩, h7⟩ := h
  obtain ⟨w, prev, next⟩ := p
  dsimp only at h1 h2 h4 h6
  subst h2
  cases target with
  | start =>
    dsimp only
    unfold Printer.seekStartC
    refine Pays.bind (k := φ1 + 4) (expandFirstC_pays (Nat.le_refl 4) h4 h3 h5) (by omega) ?_
    rintro ⟨next', block'⟩ ψ ⟨ψ1, ψ2, g1, g2, g3⟩ -
    refine Pays.pure ⟨by simp, rfl, φ1, ψ2 + 2 + ψ1, h1, ⟨ψ2, ψ1, g2, g1.weaken (by omega) (Nat.le_refl _),
      Nat.le_refl _⟩, by omega⟩
  | «end» =>
    dsimp only
    unfold Printer.seekEndC
    refine Pays.bind (k := φ3 + 4 + 2) (expandLastC_pays (by omega) h1 h3 h5) (by omega) ?_
    rintro ⟨prev', block'⟩ ψ ⟨ψ1, ψ2, g1, ⟨ks', g2, g2'⟩, g3⟩ hψ
    refine Pays.bind (k := φ3 + 4 + 1) (seekEndLoopC_pays (ψ1 + lpot w 8 ks' nil + 1) prev' block' ks' ψ1 g1 g2
      (Nat.le_refl _)) (by omega) ?_
    rintro ⟨prev'', block''⟩ ψ ⟨ψ1', ψ2', g1', g2'', g3'⟩ hψ'
    exact Pays.pure ⟨by simp, rfl, ψ1', ψ2' + 2 + φ3, g1', ⟨ψ2', φ3, g2'', h4.weaken (by omega) (Nat.le_refl _),
      Nat.le_refl _⟩, by omega⟩
  | text pos =>
    dsimp only
    unfold Printer.seekTextC
    refine Pays.bind (k := φ1 + 4 + 2) (expandFirstC_pays (Nat.le_refl 4) h4 h3 h5) (by omega) ?_
    rintro ⟨next', block'⟩ ψ ⟨ψ1, ψ2, g1, g2, g3⟩ hψ
    refine Pays.bind (k := 1) (seekTextLoopC_pays (φ1 + (ψ2 + 4 + ψ1) + 0 + 1) prev (block' :: next') none φ1
      (ψ2 + 4 + ψ1) 0 h1 ⟨ψ2, ψ1, g2, g1, Nat.le_refl _⟩ trivial (Nat.le_refl _)) (by omega) ?_
    rintro ⟨prev', next''⟩ ψ ⟨hne, ψ1', ψ2', g1', g2', g3'⟩ hψ'
    exact Pays.pure ⟨hne, rfl, ψ1', ψ2', g1', g2', by omega⟩
  | mark =>
    dsimp only
    unfold Printer.seekMarkC
    refine Pays.bind (k := φ1 + 4 + 2) (expandFirstC_pays (Nat.le_refl 4) h4 h3 h5) (by omega) ?_
    rintro ⟨next', block'⟩ ψ ⟨ψ1, ψ2, g1, g2, g3⟩ hψ
    refine Pays.bind (k := 1) (seekMarkLoopC_pays (φ1 + (ψ2 + 4 + ψ1) + 0 + 1) prev (block' :: next') none φ1
      (ψ2 + 4 + ψ1) 0 h1 ⟨ψ2, ψ1, g2, g1, Nat.le_refl _⟩ trivial (Nat.le_refl _)) (by omega) ?_
    rintro ⟨prev', next''⟩ ψ ⟨hne, ψ1', ψ2', g1', g2', g3'⟩ hψ'
    exact Pays.pure ⟨hne, rfl, ψ1', ψ2', g1', g2', by omega⟩

/-- The root of the document. -/
theorem rootC_pays (law : P.Lawful) (doc : P.Node) (style : Option P.Style) :
    Pays 1 (DCN.withOptionalStyleC doc style) 2
      (fun d φ => ShapeRep d (docShape law doc false 0) ∧ φ = 0) := by
  unfold DCN.withOptionalStyleC
  refine Pays.bind (k := 0) (Pays.call (by omega)) (Nat.le_refl 2) ?_
  rintro a φ ⟨ha, rfl⟩ -
  refine Pays.bind (k := 0) (Pays.call (by omega)) (Nat.le_refl _) ?_
  rintro s φ ⟨hs, rfl⟩ -
  refine Pays.pure ⟨?_, rfl⟩
  exact docShape_rep law doc ⟨false, [], _⟩ a s none ha hs

theorem seekC_pays (law : P.Lawful) {scan m : Nat} (doc : P.Node) (w : Nat) (path : List Nat)
    (target : FocusTarget) (style : Option P.Style)
    (hm : path = [] ∧ m = 1 ∨ m = 1 + scan * (12 * docWork law doc w + 5)) {p : Printer P}
    (hp : p.width = w ∧ p.prev = [] ∧ ∃ b, p.next = [b] ∧ b.chunks = []) :
    Pays m (p.seekC scan doc path target style) (12 * docWork law doc w + 9)
      (fun p' ψ => p'.next ≠ [] ∧ PrinterP w p' ψ) := by
  obtain ⟨rfl, hprev, b, hnext, hb⟩ := hp
  have hm1 : 1 ≤ m := by omega
  unfold Printer.seekC docWork at *
  generalize hs : docShape law doc false 0 = s at hm ⊢
  have e1 := s.work_core p.width nil
  have p1 := s.steps_pos
  have p2 := s.core.work_pos p.width nil
  change path = [] ∧ m = 1 ∨ m = 1 + scan * (12 * s.work p.width nil + 5) at hm
  change Pays m _ (12 * s.work p.width nil + 9) _
  refine Pays.bind (k := 12 * s.work p.width nil + 7) (Pays.scale (rootC_pays law doc style) hm1) (by omega) ?_ hm1
  rintro d φ ⟨hd, rfl⟩ -
  rw [hs] at hd
  refine Pays.bind (k := 12 * s.work p.width nil + 6 - 5 * s.steps) (Pays.scale (Chunk.newC_pays hd) hm1) (by omega) ?_ hm1
  rintro c φ ⟨hc, rfl⟩ -
  have hseek : SeekP p.width p c (4 + (12 * s.core.work p.width nil - 6)) := by
    refine ⟨rfl, 0, _, by rw [hprev]; trivial, ⟨b, [], [], s.core, 0, hnext, ?_, trivial, hc, Nat.le_refl _⟩, ?_⟩
    · rw [hb]; exact .nil
    · simp only [lpot, aheadL]
      omega
  have hpath : Pays m (p.seekPathC scan c path) (4 + (12 * s.core.work p.width nil - 6) + 3)
      (fun r ψ => ∃ φ', SeekP p.width r.1 r.2 φ' ∧ φ' + 3 ≤ ψ) := by
    rcases hm with ⟨rfl, rfl⟩ | hm
    · exact Pays.pure ⟨_, hseek, Nat.le_refl _⟩
    · exact seekPathC_pays (M := 12 * s.work p.width nil + 5) (by omega) path hseek (by omega)
  refine Pays.bind (k := 0) hpath (by omega) ?_ hm1
  rintro ⟨p', c'⟩ ψ ⟨φ', g1, g2⟩ -
  exact (Pays.scale (seekTargetC_pays g1 target) hm1).mono (by omega) (fun _ _ h => h)

theorem prettyPrintC_pays (law : P.Lawful) {scan m : Nat} (doc : P.Node) (w : Nat) (path : List Nat)
    (target : FocusTarget) (style : Option P.Style)
    (hm : path = [] ∧ m = 1 ∨ m = 1 + scan * (12 * docWork law doc w + 5)) :
    Pays m (prettyPrintC scan doc w path target style) (12 * docWork law doc w + 10)
      (fun r ψ => ∃ φ1 φ2, PrinterP w r.up φ1 ∧ PrinterP w r.down φ2 ∧ φ1 + φ2 ≤ ψ) := by
  have hm1 : 1 ≤ m := by omega
  unfold prettyPrintC
  have hnew : Pays m (Printer.newC w : Counted P.Err (Printer P)) 1 (fun p φ => (p.width = w ∧ p.prev = [] ∧
      ∃ b, p.next = [b] ∧ b.chunks = []) ∧ φ = 0) := by
    refine Pays.scale ?_ hm1
    unfold Printer.newC
    refine Pays.bind (k := 0) (Block.newC_pays [] []) (Nat.le_refl _) ?_
    rintro b φ ⟨hb, rfl⟩ -
    exact Pays.pure ⟨⟨rfl, rfl, b, rfl, hb⟩, rfl⟩
  refine Pays.bind (k := 12 * docWork law doc w + 9) hnew (by omega) ?_ hm1
  rintro p φ ⟨hp, rfl⟩ -
  refine Pays.bind (k := 0) (seekC_pays law doc w path target style hm hp) (by omega) ?_ hm1
  rintro p' ψ ⟨hne, hp'⟩ -
  split
  · exact Pays.panic
  · refine Pays.bind (k := 0) (Pays.scale (printNextLineC_pays' hp' hne) hm1) (by omega) ?_ hm1
    rintro ⟨l, q⟩ ψ ⟨hw, φ1, φ2, g1, g2, g3⟩ -
    cases l with
    | none => exact Pays.panic
    | some l =>
      dsimp only
      split
      · exact Pays.panic
      · exact Pays.pure ⟨φ1, φ2, ⟨rfl, φ1, 0, g1, trivial, by omega⟩, ⟨rfl, 0, φ2, trivial, g2, by omega⟩, by omega⟩

theorem browseC_pays {w : Nat} (asks : List Ask) : ∀ {up down : Printer P} {φ1 φ2}, PrinterP w up φ1 →
    PrinterP w down φ2 → Pays 1 (browseC asks up down) (φ1 + φ2 + asks.length) (fun _ φ => φ = 0) := by
  induction asks with
  | nil =>
    intro up down φ1 φ2 _ _
    exact Pays.mono (B := 0) (Q := fun _ φ => φ = 0) (Pays.pure rfl) (Nat.zero_le _) (fun _ _ h => h)
  | cons a asks ih =>
    intro up down φ1 φ2 h1 h2
    cases a with
    | above =>
      refine Pays.bind (k := φ2 + asks.length) (printPrevLineC_pays h1)
        (by simp only [List.length_cons]; omega) ?_
      rintro ⟨l, up'⟩ ψ hψ -
      refine Pays.bind (k := 0) (ih hψ h2) (by omega) ?_
      rintro ls φ rfl -
      exact Pays.pure rfl
    | below =>
      refine Pays.bind (k := φ1 + asks.length) (printNextLineC_pays h2)
        (by simp only [List.length_cons]; omega) ?_
      rintro ⟨l, down'⟩ ψ hψ -
      refine Pays.bind (k := 0) (ih h1 hψ) (by omega) ?_
      rintro ls φ rfl -
      exact Pays.pure rfl

theorem sessionC_pays (law : P.Lawful) {scan m : Nat} (doc : P.Node) (w : Nat) (path : List Nat)
    (target : FocusTarget) (style : Option P.Style) (asks : List Ask)
    (hm : path = [] ∧ m = 1 ∨ m = 1 + scan * (12 * docWork law doc w + 5)) :
    (sessionC scan doc w path target style asks).EndsWithin
      (m * (12 * docWork law doc w + 10) + asks.length) := by
  obtain ⟨n, r, h1, h2, h3⟩ := prettyPrintC_pays law doc w path target style hm
  unfold sessionC
  rw [h1]
  match r with
  | .error e => exact ⟨n, .error e, rfl, by omega⟩
  | .ok a =>
    obtain ⟨φ, ⟨φ1, φ2, g1, g2, g3⟩, g4⟩ := h3 a rfl
    obtain ⟨n', r', e1, e2, e3⟩ := browseC_pays asks g1 g2
    have hmφ : φ ≤ m * φ := Nat.le_mul_of_pos_left φ (by omega)
    have hb : (browseC asks a.up a.down >>= fun lines => (pure (a.focused, lines) :
        Counted P.Err (FocusedLine P × List (Option (Line P))))) = some (n', r'.map fun l => (a.focused, l)) := by
      rw [e1]
      cases r' <;> rfl
    refine ⟨n + n', r'.map fun l => (a.focused, l), ?_, by omega⟩
    show Counted.andThen (some (n, .ok a)) _ = _
    simp only [andThen]
    erw [hb]

theorem toStringLoopC_pays {w : Nat} (B : Nat) : ∀ (s : String) (p : Printer P) (φ), PrinterP w p φ →
    φ + 1 ≤ B → Pays 1 (toStringLoopC s p) B (fun _ φ => φ = 0) := by
  induction B using Nat.strongRecOn with
  | _ B ih =>
    intro s p φ h hB
    rw [toStringLoopC.eq_def]
    by_cases hne : p.next = []
    · have : p.printNextLineC = (tick 1 >>= fun _ => pure (none, p)) := by
        unfold Printer.printNextLineC
        rw [hne]
      rw [this]
      refine Pays.mono (B := 1) (Q := fun _ φ => φ = 0) ?_ (by omega) (fun _ _ h => h)
      exact ⟨1, .ok s, rfl, by omega, fun a _ => ⟨0, rfl, by omega⟩⟩
    · obtain ⟨rfl, φ1, φ2, h1, h2, h3⟩ := h
      obtain ⟨w, prev, next⟩ := p
      match next, hne, h2 with
      | b :: bs, _, h2 =>
        obtain ⟨ψ1, ψ2, ⟨ks, g1, g2⟩, g3, g4⟩ := h2
        dsimp only at g2
        unfold Printer.printNextLineC
        have hloop := printNextLoopC_pays (ψ2 + lpot w 8 ks nil + 1) bs b ks ψ2 g3 g1 (Nat.le_refl _)
        have hline : Pays 1 (tick 1 >>= fun _ => printNextLoopC w bs b >>= fun x =>
            (pure (some x.1, (⟨w, prev, x.2⟩ : Printer P)) : Counted P.Err _)) (φ1 + φ2)
            (fun r ψ => r.1 ≠ none ∧ PrinterP w r.2 ψ) := by
          refine Pays.tick1 (by omega) ?_
          refine Pays.bind (k := φ1) hloop (by omega) ?_
          rintro ⟨l, next'⟩ ψ hψ -
          exact Pays.pure ⟨by simp, rfl, φ1, ψ, h1, hψ, by omega⟩
        obtain ⟨n, r, e1, e2, e3⟩ := hline
        have hn : 1 ≤ n := by
          match hL : printNextLoopC w bs b, e1 with
          | none, e1 => cases e1
          | some (k, .error e), e1 => cases e1; omega
          | some (k, .ok a), e1 => cases e1; omega
        refine Pays.bind (k := 1) (B0 := B - 1) (Q := fun r ψ => r.1 ≠ none ∧ PrinterP w r.2 ψ ∧ ψ + 1 < B)
          ?_ (by omega) ?_
        · refine ⟨n, r, e1, by omega, fun a ha => ?_⟩
          obtain ⟨ψ, g5, g6⟩ := e3 a ha
          exact ⟨ψ, ⟨g5.1, g5.2, by omega⟩, by omega⟩
        · rintro ⟨l, p'⟩ ψ ⟨hl, hp', hψ⟩ -
          cases l with
          | none => exact absurd rfl hl
          | some l => exact ih _ hψ _ p' ψ hp' (Nat.le_refl _)

theorem prettyPrintToStringC_pays (law : P.Lawful) (scan : Nat) (doc : P.Node) (w : Nat) :
    (prettyPrintToStringC scan doc w).EndsWithin (12 * docWork law doc w + 11) := by
  have : Pays 1 (prettyPrintToStringC scan doc w) (12 * docWork law doc w + 11) (fun _ φ => φ = 0) := by
    unfold prettyPrintToStringC
    refine Pays.bind (k := 1) (prettyPrintC_pays law doc w [] .start none (.inl ⟨rfl, rfl⟩)) (by omega) ?_
    rintro r ψ ⟨φ1, φ2, g1, g2, g3⟩ -
    exact toStringLoopC_pays (ψ + 1) _ _ φ2 g2 (by omega)
  obtain ⟨n, r, h1, h2, _⟩ := this
  exact ⟨n, r, h1, by omega⟩

end PPP
