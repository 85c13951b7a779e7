import Verif.Proofs.Seek
/-
`prettyPrint` and its iterators, against the layout.
-/
namespace PPP
variable {P : PrettyDoc} (Q : Pred P) {I A : Prop}

/-! ### Lines and tokens -/

/-- Tokens that display the given segments. -/
def segToks (segs : List (Segment P)) : List (Tok P) :=
  segs.map fun s => .text ⟨s.str, s.width, s.style, false⟩

theorem linesFrom_segToks (cur segs : List (Segment P)) (T) :
    linesFrom cur (segToks segs ++ T) = linesFrom (cur ++ segs) T := by
  induction segs generalizing cur with
  | nil => simp [segToks]
  | cons s segs ih =>
    simp only [segToks, List.map_cons, List.cons_append, linesFrom] at ih ⊢
    rw [ih]
    simp [Textual.segment]

/-- Every nonempty list of lines is displayed by some tokens. -/
theorem exists_toks (ls : List (List (Segment P))) (s : List (Segment P)) :
    ∃ B, linesOf B = ls ++ [s] := by
  suffices h : ∀ ls : List (List (Segment P)), ∀ s cur, ∃ B, linesFrom cur B = (match ls with
      | [] => [cur ++ s]
      | l :: ls => (cur ++ l) :: (ls ++ [s])) by
    obtain ⟨B, hB⟩ := h ls s []
    refine ⟨B, ?_⟩
    rw [linesOf, hB]
    cases ls <;> simp
  intro ls
  induction ls with
  | nil => intro s cur; exact ⟨segToks s, by
      have := linesFrom_segToks cur s []
      simpa [linesFrom] using this⟩
  | cons l ls ih =>
    intro s cur
    obtain ⟨B, hB⟩ := ih s []
    refine ⟨segToks l ++ .nl [] :: B, ?_⟩
    rw [linesFrom_segToks]
    simp only [linesFrom, hB]
    cases ls <;> simp

theorem linesFrom_of_adv {segs line : List (Segment P)} {T1 : List (Tok P)}
    (h : ∀ B, [segs] = linesOf B → [line] = linesOf (B ++ T1)) : linesFrom segs T1 = [line] := by
  obtain ⟨B, hB⟩ := exists_toks ([] : List (List (Segment P))) segs
  have h1 := h B (by simpa using hB.symm)
  rw [linesOf, linesFrom_append (ls := []) (cur := segs) (by simpa [linesOf] using hB.symm)] at h1
  simpa using h1.symm

/-! ### Draining -/

theorem drain_eq (next : Printer P → Exec P.Err (Option (Line P) × Printer P)) (p) :
    drain next p = (next p >>= fun r => match r with
      | (none, _) => pure []
      | (some line, p) => do
        let lines ← drain next p
        pure (line :: lines)) := by
  rw [drain.eq_def]
  rfl

theorem drainDown_sat (hQ : QOk Q) (w : Nat) (n : Nat) :
    ∀ {p : Printer P} {tail}, p.width = w → RestR p.next tail → AllFailIn Q tail →
    sizes (trees tail) ≤ n →
    Sat (drain Printer.nextDown p)
      (fun lines => ∀ st, ∃ st' T, lt w tail [] st = some (st', T) ∧
        ∀ cur, linesFrom cur T = cur :: lines.map (·.segments))
      (fun e => Q e ∧ ∀ st, lt w tail [] st = none) := by
  induction n with
  | zero =>
    intro p tail hw hr hf hn
    rcases hr.uncons with ⟨h1, rfl⟩ | ⟨b, bs, id, ys', h1, rfl, _⟩
    · rw [drain_eq]
      simp only [Printer.nextDown, Printer.printNextLine, h1]
      refine fun st => ⟨st, [], by simp, fun cur => by simp [linesFrom]⟩
    · simp [NTree.size] at hn
  | succ n ih =>
    intro p tail hw hr hf hn
    rcases hr.uncons with ⟨h1, rfl⟩ | ⟨b, bs, id, ys', h1, rfl, h2, h3⟩
    · rw [drain_eq]
      simp only [Printer.nextDown, Printer.printNextLine, h1]
      refine fun st => ⟨st, [], by simp, fun cur => by simp [linesFrom]⟩
    · rw [drain_eq]
      simp only [Printer.nextDown, Printer.printNextLine, h1, hw]
      have hlt : ∀ st, lt w ((id, .newline b.segments) :: ys') [] st =
          (lt w ys' [] ⟨segsWidth b.segments, false⟩).map fun r => (r.1, .nl b.segments :: r.2) := by
        intro st; rw [lt_newline]; simp [h2]
      have hnone : AS.D w [] ⟨[], b.segments, ⟨segsWidth b.segments, false⟩, ys'⟩ = none →
          lt w ys' [] ⟨segsWidth b.segments, false⟩ = none := by
        intro hD
        simp only [AS.D, prevLines, Option.bind_some] at hD
        unfold lt
        cases hl : lay w ys' [] ⟨segsWidth b.segments, false⟩ with
        | error e => rfl
        | ok r => rw [hl] at hD; simp at hD
      have hDlt : ∀ {segs : List (Segment P)} {st items ls st2 Ls},
          AS.D w [] ⟨[], segs, st, items⟩ = some (ls, st2, Ls) →
          ls = [segs] ∧ lt w items [] st = some (st2, itemToks Ls) := by
        intro segs st items ls st2 Ls hD
        obtain ⟨ls0, q1, q2, q3⟩ := D_some hD
        simp only [prevLines] at q1 q2 q3
        injection q1 with q1
        subst q1
        exact ⟨by simpa using q2, by simp [lt, q3]⟩
      simp only [bind_assoc]
      refine Sat.bind' (printNextLoop_sat Q hQ w _ h3 hf.tail (Nat.le_refl _)) ?_ ?_
      · rintro ⟨line, next'⟩ ⟨st', tail', ex, g1, g2, g3, g4, g5⟩
        simp only [Exec.pure_bind'] at g1 g2 g4 ⊢
        simp only [trees_cons, sizes_cons, NTree.size] at hn
        refine Sat.bind' (ih (p := ⟨w, p.prev, next'⟩) rfl g2 g3 (by omega)) ?_ ?_
        · intro lines hlines st
          obtain ⟨st2, T2, k1, k2⟩ := hlines st'
          rcases g1 [] with ⟨m1, m2⟩ | ⟨ls, ls', st3, Ls, Ls', T1, m1, m2, m3, m4, _⟩
          · simp only [AS.D, prevLines, Option.bind_some] at m2
            unfold lt at k1
            cases hl : lay w tail' [] st' with
            | error e => rw [hl] at k1; simp at k1
            | ok r => rw [hl] at m2; simp at m2
          · obtain ⟨rfl, e1⟩ := hDlt m1
            obtain ⟨rfl, e2⟩ := hDlt m2
            rw [k1] at e2
            simp only [Option.some.injEq, Prod.mk.injEq] at e2
            obtain ⟨rfl, rfl⟩ := e2
            have hl1 : linesFrom b.segments T1 = [line.segments] := linesFrom_of_adv m4
            refine ⟨st2, _, by rw [hlt, e1]; rfl, ?_⟩
            intro cur
            simp only [linesFrom, m3]
            rw [linesFrom_append (B := T1) (ls := []) (cur := line.segments) (by simpa using hl1.symm)]
            simp [k2]
        · rintro e ⟨k1, k2⟩
          refine ⟨k1, fun st => ?_⟩
          rw [hlt, hnone ((g1 []).none_left (D_none_of_lt (k2 st')))]
          rfl
      · rintro e ⟨g1, g2⟩
        exact ⟨g1, fun st => by rw [hlt, hnone (g2 [])]; rfl⟩

theorem drainUp_sat (hQ : QOk Q) (w : Nat) (n : Nat) :
    ∀ {p : Printer P} {pv}, p.width = w → All2 BlockR p.prev pv → PvFailIn Q pv →
    pvSize pv ≤ n →
    Sat (drain Printer.nextUp p)
      (fun lines => prevLines w pv = some (lines.map (·.segments)).reverse)
      (fun e => Q e ∧ prevLines w pv = none) := by
  induction n with
  | zero =>
    intro p pv hw hr hf hn
    cases pv with
    | cons b pv => simp [pvSize] at hn
    | nil =>
      have h1 : p.prev = [] := by cases h : p.prev with
        | nil => rfl
        | cons => rw [h] at hr; cases hr
      rw [drain_eq]
      simp only [Printer.nextUp, Printer.printPrevLine, h1]
      rfl
  | succ n ih =>
    intro p pv hw hr hf hn
    cases pv with
    | nil =>
      have h1 : p.prev = [] := by cases h : p.prev with
        | nil => rfl
        | cons => rw [h] at hr; cases hr
      rw [drain_eq]
      simp only [Printer.nextUp, Printer.printPrevLine, h1]
      rfl
    | cons bs pv =>
      obtain ⟨segs, st, xs⟩ := bs
      cases h1 : p.prev with
      | nil => rw [h1] at hr; cases hr
      | cons b prev =>
        rw [h1] at hr
        cases hr with
        | cons hb hr =>
          have hf0 : PvFailIn Q pv := fun q hq => hf q (by simp [hq])
          have hfx : AllFailIn Q xs := hf ⟨segs, st, xs⟩ (by simp)
          rw [drain_eq]
          simp only [Printer.nextUp, Printer.printPrevLine, h1, hw, bind_assoc]
          have hnone : AS.D w [] ⟨pv, segs, st, xs⟩ = none →
              prevLines w (⟨segs, st, xs⟩ :: pv) = none := by
            intro hD
            simp only [AS.D] at hD
            simp only [prevLines, BSpec.lines, lt]
            cases hp : prevLines w pv with
            | none => rfl
            | some r =>
              rw [hp] at hD
              simp only [Option.bind_some] at hD ⊢
              cases hl : lay w xs [] st with
              | error e => rfl
              | ok r => rw [hl] at hD; simp at hD
          refine Sat.bind' (printPrevLoop_sat Q hQ w _ hr hf0 hb hfx (Nat.le_refl _)) ?_ ?_
          · rintro ⟨line, prev'⟩ ⟨pv', st', g1, g2, g3, g4⟩
            simp only [Exec.pure_bind'] at g1 g2 ⊢
            simp only [pvSize, List.map_cons, List.sum_cons] at hn
            simp only [pvSize] at g4
            refine Sat.bind' (ih (p := ⟨w, prev', p.next⟩) rfl g2 g3
              (by simp only [pvSize]; omega)) ?_ ?_
            · intro lines hlines
              simp only [Sat_pure]
              rcases g1 with ⟨m1, m2⟩ | ⟨ls, ls', st3, Ls, Ls', T1, m1, m2, m3, m4, _⟩
              · simp only [AS.D, hlines, Option.bind_some, lay] at m2
                simp at m2
              · obtain ⟨ls0, q1, q2, q3⟩ := D_some m1
                obtain ⟨ls1, r1, r2, r3⟩ := D_some m2
                simp only [lay, Except.ok.injEq, Prod.mk.injEq] at q1 q2 q3 r1 r2 r3
                rw [hlines] at r1
                injection r1 with r1
                subst r1
                rw [← r3.2] at m3
                simp only [itemToks_nil, List.append_nil] at m3
                obtain ⟨B, hB⟩ := exists_toks ls0 segs
                have h4 := m4 B (by rw [q2, hB])
                rw [linesOf, linesFrom_append (by simpa [linesOf] using hB.symm), r2] at h4
                simp only [prevLines, q1, Option.bind_some, BSpec.lines, lt, q3, Option.map_some,
                  m3, List.map_cons, List.reverse_cons]
                rw [h4]
            · rintro e ⟨k1, k2⟩
              refine ⟨k1, hnone (g1.none_left ?_)⟩
              simp [AS.D, k2]
          · rintro e ⟨k1, k2⟩
            exact ⟨k1, hnone k2⟩

end PPP
