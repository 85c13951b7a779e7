import Verif.Proofs.Core
import Verif.Proofs.Denote
/-
The lines that are output, and where the focus is in them.
-/
namespace PPP
variable {P : PrettyDoc} (Q : Pred P) {I A : Prop}

theorem output_of_D (hQ : QOk Q) {w : Nat} {r : Printed P} {S ex st' tail B st Ls}
    (h : PrintedR Q w r S ex st' tail) (hD : S.D w [] = some (linesOf B, st, Ls)) :
    ∃ ups downs, drain Printer.nextUp r.up = Exec.ofRes (.ok ups) ∧
      drain Printer.nextDown r.down = Exec.ofRes (.ok downs) ∧
      ups.reverse.map (·.segments) ++ [r.focused.leftSegments] = linesOf B ∧
      ups.reverse.map (·.segments) ++ [r.focused.leftSegments ++ r.focused.rightSegments] ++
        downs.map (·.segments) = linesOf (B ++ itemToks Ls) := by
  obtain ⟨ls, h1, h2, h3⟩ := D_some hD
  obtain ⟨ls', Ls', T1, g1, g2, g3, _⟩ := adv_prefix h.adv hD
  obtain ⟨ls0, k1, k2, k3⟩ := D_some g1
  simp only at k1 k2 k3
  rw [h1] at k1
  injection k1 with k1
  subst k1
  rcases (drainUp_sat Q hQ w _ h.upw h.up h.pvf (Nat.le_refl _)).exists_res with
    ⟨ups, u1, u2⟩ | ⟨e, _, _, u2⟩
  · rcases (drainDown_sat Q hQ w _ h.downw h.down h.tailf (Nat.le_refl _)).exists_res with
      ⟨downs, d1, d2⟩ | ⟨e, _, _, d2⟩
    · refine ⟨ups, downs, u1, d1, ?_, ?_⟩
      · rw [h2, h.left, List.map_reverse, Option.some.inj (u2.symm.trans h1)]
      · obtain ⟨st2, T2, e1, e2⟩ := d2 st'
        simp only [lt, k3, Option.some.injEq, Prod.mk.injEq] at e1
        obtain ⟨rfl, rfl⟩ := e1
        rw [List.map_reverse, Option.some.inj (u2.symm.trans h1), h.left, h.right, g2,
          ← List.append_assoc]
        have hB1 := g3 B rfl
        rw [k2] at hB1
        rw [linesOf, linesFrom_append (by rw [hB1, linesOf]), e2]
        simp
    · have := d2 st'
      simp [lt, k3] at this
  · rw [h1] at u2; simp at u2

theorem D_of_output (hQ : QOk Q) {w : Nat} {r : Printed P} {S ex st' tail ups downs}
    (h : PrintedR Q w r S ex st' tail) (hu : drain Printer.nextUp r.up = Exec.ofRes (.ok ups))
    (hd : drain Printer.nextDown r.down = Exec.ofRes (.ok downs)) : S.D w [] ≠ none := by
  intro hD
  have hu' := drainUp_sat Q hQ w _ h.upw h.up h.pvf (Nat.le_refl _)
  have hd' := drainDown_sat Q hQ w _ h.downw h.down h.tailf (Nat.le_refl _)
  rw [hu] at hu'
  rw [hd] at hd'
  simp only [Sat_ofRes_ok] at hu' hd'
  obtain ⟨st2, T, h1, _⟩ := hd' st'
  have := adv_none h.adv hD
  simp only [AS.D, hu', Option.bind_some] at this
  unfold lt at h1
  cases hl : lay w tail [] st' with
  | error e => rw [hl] at h1; simp at h1
  | ok r => rw [hl] at this; simp at this

/-! ### Lines up to the cutting of a text -/

theorem splitAtTok_eq {p : Tok P → Bool} {T b a : List (Tok P)} {x} (h : splitAtTok p T = some (b, x, a)) :
    T = b ++ x :: a ∧ p x = true ∧ ∀ y ∈ b, p y = false := by
  induction T generalizing b with
  | nil => simp [splitAtTok] at h
  | cons t T ih =>
    simp only [splitAtTok] at h
    split at h
    · simp only [Option.some.injEq, Prod.mk.injEq] at h
      obtain ⟨rfl, rfl, rfl⟩ := h
      exact ⟨rfl, by assumption, by simp⟩
    · cases hs : splitAtTok p T with
      | none => rw [hs] at h; simp at h
      | some r =>
        obtain ⟨b', x', a'⟩ := r
        rw [hs] at h
        simp only [Option.map_some, Option.some.injEq, Prod.mk.injEq] at h
        obtain ⟨rfl, rfl, rfl⟩ := h
        obtain ⟨h1, h2, h3⟩ := ih hs
        refine ⟨by rw [h1]; rfl, h2, ?_⟩
        intro y hy
        rcases List.mem_cons.1 hy with rfl | hy
        · exact Bool.eq_false_iff.2 ‹¬ _›
        · exact h3 y hy

theorem linesFrom_congr {β : Type} (f : List (Segment P) → β)
    (hf : ∀ a b c, f a = f b → f (a ++ c) = f (b ++ c)) {cur cur' : List (Segment P)}
    (h : f cur = f cur') (T : List (Tok P)) :
    (linesFrom cur T).map f = (linesFrom cur' T).map f := by
  induction T generalizing cur cur' with
  | nil => simp [linesFrom, h]
  | cons t T ih =>
    cases t with
    | text t => exact ih (hf _ _ _ h)
    | nl ind => simp [linesFrom, h]
    | eol => exact ih h
    | mark id => exact ih h

theorem linesFrom_congr_append {β : Type} (f : List (Segment P) → β)
    {T T' : List (Tok P)} (hT : ∀ cur, (linesFrom cur T).map f = (linesFrom cur T').map f)
    (B : List (Tok P)) (cur) : (linesFrom cur (B ++ T)).map f = (linesFrom cur (B ++ T')).map f := by
  induction B generalizing cur with
  | nil => exact hT cur
  | cons t B ih => cases t <;> simp [linesFrom, ih]

theorem linesFrom_drop_mark (id : P.Id) (A : List (Tok P)) (B : List (Tok P)) (cur) :
    linesFrom cur (B ++ .mark id :: A) = linesFrom cur (B ++ A) := by
  induction B generalizing cur with
  | nil => rfl
  | cons t B ih => cases t <;> simp [linesFrom, ih]

theorem splitAt_chars (t : Textual P) (pos : Nat) (cur : List (Segment P)) :
    styledChars (cur ++ [(t.splitAt pos).1.segment] ++ [(t.splitAt pos).2.segment]) =
    styledChars (cur ++ [t.segment]) := by
  simp only [styledChars, Textual.splitAt, Textual.segment, List.flatMap_append, List.flatMap_cons,
    List.flatMap_nil, List.append_nil, String.toList_ofList, List.append_assoc]
  rw [← List.map_append, List.take_append_drop]

theorem styledChars_append (a b : List (Segment P)) :
    styledChars (a ++ b) = styledChars a ++ styledChars b := by simp [styledChars]

/-- The focus does not change the lines, except that a text containing it is cut in two. -/
theorem focusToks_lines {target : FocusTarget} {id : P.Id} {node after B A : List (Tok P)}
    (h : focusToks target id node after = .ok (B, A)) (T0 : List (Tok P)) :
    (linesOf (T0 ++ B ++ A)).map styledChars = (linesOf (T0 ++ (node ++ after))).map styledChars ∧
    ((∀ pos, target ≠ .text pos) → linesOf (T0 ++ B ++ A) = linesOf (T0 ++ (node ++ after))) ∧
    ((∀ pos, target = .text pos → ∀ t ∈ node ++ after, ∀ x, t = .text x → x.isFromText = true →
      (x.splitAt pos).1.width + (x.splitAt pos).2.width = x.width) →
      (linesOf (T0 ++ B ++ A)).map segsWidth = (linesOf (T0 ++ (node ++ after))).map segsWidth) := by
  cases target with
  | start =>
    simp only [focusToks, Except.ok.injEq, Prod.mk.injEq] at h
    obtain ⟨rfl, rfl⟩ := h
    simp
  | «end» =>
    simp only [focusToks, Except.ok.injEq, Prod.mk.injEq] at h
    obtain ⟨rfl, rfl⟩ := h
    simp
  | mark =>
    simp only [focusToks] at h
    split at h
    · rename_i b x a hs
      simp only [Except.ok.injEq, Prod.mk.injEq] at h
      obtain ⟨rfl, rfl⟩ := h
      obtain ⟨h1, h2, _⟩ := splitAtTok_eq hs
      have : linesOf (T0 ++ b ++ a) = linesOf (T0 ++ (node ++ after)) := by
        rw [h1, linesOf, linesOf, ← List.append_assoc]
        cases x with
        | mark i => rw [linesFrom_drop_mark]
        | _ => simp [Tok.isMark] at h2
      exact ⟨by rw [this], fun _ => this, fun _ => by rw [this]⟩
    · simp at h
  | text pos =>
    simp only [focusToks] at h
    split at h
    · rename_i b t a hs
      simp only [Except.ok.injEq, Prod.mk.injEq] at h
      obtain ⟨rfl, rfl⟩ := h
      obtain ⟨h1, h2, _⟩ := splitAtTok_eq hs
      have hfrom : t.isFromText = true := h2
      refine ⟨?_, fun h => absurd rfl (h pos), fun hadd => ?_⟩
      · rw [h1, linesOf, linesOf]
        simp only [List.append_assoc]
        rw [← List.append_assoc T0 b, ← List.append_assoc T0 b]
        refine linesFrom_congr_append _ ?_ _ _
        intro cur
        simp only [List.cons_append, List.nil_append, linesFrom]
        refine linesFrom_congr _ ?_ (splitAt_chars t pos cur) a
        intro x y z hxy
        rw [styledChars_append, styledChars_append, hxy]
      · have hw := hadd pos rfl (.text t) (by rw [h1]; simp) t rfl hfrom
        rw [h1, linesOf, linesOf]
        simp only [List.append_assoc]
        rw [← List.append_assoc T0 b, ← List.append_assoc T0 b]
        refine linesFrom_congr_append _ ?_ _ _
        intro cur
        simp only [List.cons_append, List.nil_append, linesFrom]
        refine linesFrom_congr _ ?_ ?_ a
        · intro x y z hxy
          simp only [segsWidth, List.map_append, List.sum_append] at hxy ⊢
          omega
        · simp only [segsWidth, Textual.segment, List.map_append, List.sum_append, List.map_cons,
            List.map_nil, List.sum_cons, List.sum_nil]
          omega
    · simp at h

theorem segsString_eq (segs : List (Segment P)) :
    segsString segs = String.ofList ((styledChars segs).map Prod.fst) := by
  have h : ∀ acc : String, segs.foldl (fun acc seg => acc ++ seg.str) acc =
      acc ++ String.ofList ((styledChars segs).map Prod.fst) := by
    induction segs with
    | nil => intro acc; simp [styledChars]
    | cons s segs ih =>
      intro acc
      rw [List.foldl_cons, ih]
      rw [← String.toList_inj]
      simp [styledChars, Function.comp_def]
  rw [segsString, h]
  simp

/-! ### Iterators -/

theorem nextUp_none {p p' : Printer P} (h : p.nextUp = Exec.ofRes (.ok (none, p'))) : p' = p := by
  unfold Printer.nextUp Printer.printPrevLine at h
  split at h
  · have := Exec.ofRes_inj h
    simp at this
    exact this.symm
  · rename_i b bs hb
    have h' := congrArg (fun x => ExceptT.run x) h
    simp only [Exec.run_bind] at h'
    split at h'
    · simp [Exec.ofRes, ExceptT.run, ExceptT.mk] at h'
    · rename_i a _
      simp [Exec.pure_eq, Exec.ofRes, ExceptT.run, ExceptT.mk] at h'
    · simp [Exec.ofRes, ExceptT.run, ExceptT.mk] at h'

theorem nextDown_none {p p' : Printer P} (h : p.nextDown = Exec.ofRes (.ok (none, p'))) : p' = p := by
  unfold Printer.nextDown Printer.printNextLine at h
  split at h
  · have := Exec.ofRes_inj h
    simp at this
    exact this.symm
  · rename_i b bs hb
    have h' := congrArg (fun x => ExceptT.run x) h
    simp only [Exec.run_bind] at h'
    split at h'
    · simp [Exec.ofRes, ExceptT.run, ExceptT.mk] at h'
    · rename_i a _
      simp [Exec.pure_eq, Exec.ofRes, ExceptT.run, ExceptT.mk] at h'
    · simp [Exec.ofRes, ExceptT.run, ExceptT.mk] at h'

theorem exec_cases {E α : Type} (x : Exec E α) :
    x.run = none ∨ ∃ r, x = Exec.ofRes r := by
  cases h : x.run with
  | none => exact .inl rfl
  | some r => exact .inr ⟨r, h⟩

theorem drain_ok_cases {next : Printer P → Exec P.Err (Option (Line P) × Printer P)} {p lines}
    (h : drain next p = Exec.ofRes (.ok lines)) :
    (∃ p', next p = Exec.ofRes (.ok (none, p')) ∧ lines = []) ∨
    (∃ line p' lines', next p = Exec.ofRes (.ok (some line, p')) ∧ lines = line :: lines' ∧
      drain next p' = Exec.ofRes (.ok lines')) := by
  rw [drain_eq] at h
  have h' := congrArg (fun x => ExceptT.run x) h
  simp only [Exec.run_bind] at h'
  rcases exec_cases (next p) with hn | ⟨r, hn⟩
  · rw [hn] at h'; simp [Exec.ofRes, ExceptT.run, ExceptT.mk] at h'
  · rw [hn] at h ⊢
    match r with
    | .error e => rw [Exec.ofRes_error_bind] at h; exact absurd (Exec.ofRes_inj h) (by simp)
    | .ok (none, p') =>
      rw [Exec.ofRes_ok_bind] at h
      have := Exec.ofRes_inj h
      simp at this
      exact .inl ⟨p', rfl, this⟩
    | .ok (some line, p') =>
      rw [Exec.ofRes_ok_bind] at h
      simp only at h
      rcases exec_cases (drain next p') with hn' | ⟨r', hn'⟩
      · have h'' := congrArg (fun x => ExceptT.run x) h
        simp only [Exec.run_bind] at h''
        rw [hn'] at h''; simp [Exec.ofRes, ExceptT.run, ExceptT.mk] at h''
      · match r' with
        | .error e =>
          rw [hn', Exec.ofRes_error_bind] at h; exact absurd (Exec.ofRes_inj h) (by simp)
        | .ok lines' =>
          rw [hn', Exec.ofRes_ok_bind] at h
          have := Exec.ofRes_inj h
          simp at this
          exact .inr ⟨line, p', lines', rfl, this.symm, hn'⟩

/-- Taking `n` lines from an iterator gives the first `n` of the lines it has, then `None`s. -/
theorem takeLines_of_drain {next : Printer P → Exec P.Err (Option (Line P) × Printer P)}
    (hfuse : ∀ {p p'}, next p = Exec.ofRes (.ok (none, p')) → p' = p) (n : Nat) :
    ∀ {p lines}, drain next p = Exec.ofRes (.ok lines) →
    ∃ p', takeLines next n p = Exec.ofRes (.ok
      ((lines.map some).take n ++ List.replicate (n - lines.length) none, p')) ∧
      drain next p' = Exec.ofRes (.ok (lines.drop n)) := by
  induction n with
  | zero => intro p lines h; exact ⟨p, by simp [takeLines, Exec.pure_eq], by simpa using h⟩
  | succ n ih =>
    intro p lines h
    rcases drain_ok_cases h with ⟨p', h1, rfl⟩ | ⟨line, p', lines', h1, rfl, h2⟩
    · obtain rfl := hfuse h1
      obtain ⟨q, h3, h4⟩ := ih h
      refine ⟨q, ?_, by simpa using h4⟩
      rw [takeLines, h1, Exec.ofRes_ok_bind]
      simp only
      rw [h3, Exec.ofRes_ok_bind]
      simp [Exec.pure_eq, List.replicate_succ]
    · obtain ⟨q, h3, h4⟩ := ih h2
      refine ⟨q, ?_, by simpa using h4⟩
      rw [takeLines, h1, Exec.ofRes_ok_bind]
      simp only
      rw [h3, Exec.ofRes_ok_bind]
      simp [Exec.pure_eq]

theorem toStringLoop_eq (s : String) (p : Printer P) :
    toStringLoop s p = (p.nextDown >>= fun r => match r with
      | (none, _) => pure s
      | (some line, p) => toStringLoop (s ++ "\n" ++ line.toString) p) := by
  rw [toStringLoop.eq_def]
  rfl

theorem intercalate_cons' (a : String) (l : List String) :
    "\n".intercalate (a :: l) = l.foldl (fun s x => s ++ "\n" ++ x) a := by
  induction l generalizing a with
  | nil => simp
  | cons b l ih =>
    rw [String.intercalate_cons_of_ne_nil (by simp), List.foldl_cons, ih]
    have h : ∀ (l : List String) (x y : String), x ++ l.foldl (fun s x => s ++ "\n" ++ x) y =
        l.foldl (fun s x => s ++ "\n" ++ x) (x ++ y) := by
      intro l
      induction l with
      | nil => intro x y; rfl
      | cons c l ihl => intro x y; rw [List.foldl_cons, List.foldl_cons, ihl]; simp [String.append_assoc]
    rw [h]

theorem toStringLoop_of_drain {lines : List (Line P)} : ∀ {p : Printer P} (s : String),
    drain Printer.nextDown p = Exec.ofRes (.ok lines) →
    toStringLoop s p = Exec.ofRes (.ok ("\n".intercalate (s :: lines.map Line.toString))) := by
  induction lines with
  | nil =>
    intro p s h
    rcases drain_ok_cases h with ⟨p', h1, _⟩ | ⟨_, _, _, _, h1, _⟩
    · rw [toStringLoop_eq, h1]
      simp [Exec.pure_eq]
    · simp at h1
  | cons line lines ih =>
    intro p s h
    rcases drain_ok_cases h with ⟨_, _, h1⟩ | ⟨line', p', lines', h1, h2, h3⟩
    · simp at h1
    · simp only [List.cons.injEq] at h2
      obtain ⟨rfl, rfl⟩ := h2
      rw [toStringLoop_eq, h1, Exec.ofRes_ok_bind]
      simp only
      rw [ih _ h3, List.map_cons, intercalate_cons', intercalate_cons', List.foldl_cons]

/-- Converting to a string fails or diverges in the same way as draining. -/
theorem toStringLoop_sat (hQ : QOk Q) (w : Nat) (n : Nat) :
    ∀ {p : Printer P} {tail} (s : String), p.width = w → RestR p.next tail → AllFailIn Q tail →
    sizes (trees tail) ≤ n →
    Sat (toStringLoop s p) (fun _ => ∃ lines, drain Printer.nextDown p = Exec.ofRes (.ok lines))
      (fun e => Q e ∧ drain Printer.nextDown p = Exec.ofRes (.error e)) := by
  induction n with
  | zero =>
    intro p tail s hw hr hf hn
    rcases hr.uncons with ⟨h1, rfl⟩ | ⟨b, bs, id, ys', h1, rfl, _⟩
    · rw [toStringLoop_eq, drain_eq]
      simp only [Printer.nextDown, Printer.printNextLine, h1]
      exact ⟨[], rfl⟩
    · simp [NTree.size] at hn
  | succ n ih =>
    intro p tail s hw hr hf hn
    rcases hr.uncons with ⟨h1, rfl⟩ | ⟨b, bs, id, ys', h1, rfl, h2, h3⟩
    · rw [toStringLoop_eq, drain_eq]
      simp only [Printer.nextDown, Printer.printNextLine, h1]
      exact ⟨[], rfl⟩
    · rw [toStringLoop_eq, drain_eq]
      simp only [Printer.nextDown, Printer.printNextLine, h1, hw]
      rcases (printNextLoop_sat Q hQ w _ h3 hf.tail (Nat.le_refl _)).exists_res with
        ⟨⟨line, next'⟩, e1, st', tail', ex, g1, g2, g3, g4, g5⟩ | ⟨e, e1, g1, g2⟩
      · rw [e1]
        simp only [Exec.ofRes_ok_bind, Exec.pure_bind'] at g1 g2 g4 ⊢
        simp only [trees_cons, sizes_cons, NTree.size] at hn
        refine (ih (p := ⟨w, p.prev, next'⟩) _ rfl g2 g3 (by omega)).mono ?_ ?_
        · rintro _ ⟨lines, hl⟩
          refine ⟨line :: lines, ?_⟩
          have : Printer.nextDown (P := P) = fun p => p.printNextLine := rfl
          rw [hl]; rfl
        · rintro e ⟨he, hl⟩
          refine ⟨he, ?_⟩
          rw [hl]; rfl
      · rw [e1]
        exact ⟨g1, rfl⟩

end PPP
