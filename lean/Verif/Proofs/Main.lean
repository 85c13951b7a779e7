import Verif.Proofs.Output
import Verif.Proofs.DocPred
import Verif.Spec.Output
/-
The main theorem about `pretty_print`, for lawful documents.
-/
namespace PPP
variable {P : PrettyDoc}

/-! ### Ids -/

theorem tree_closed {Φ : NTree P → Prop} (hfail : ∀ f, Φ (.fail f)) (hempty : Φ .empty)
    (heol : Φ .eol) (hmark : Φ .mark) (hnl : ∀ i, Φ (.newline i)) (htext : ∀ t, Φ (.text t))
    (hconcat : ∀ a b, Φ a → Φ b → Φ (.concat a b)) (hchoice : ∀ a b, Φ a → Φ b → Φ (.choice a b))
    (node : P.Node) {kid : Nat → Ctx P → NTree P} (hkid : ∀ i c, Φ (kid i c))
    (a : Notation P.Label P.Cond) : ∀ {env : Option (FoldEnv P)},
      (∀ e, env = some e → ∀ c, Φ (e.acc c)) → ∀ c, Φ (a.tree node kid env c) := by
  have hor : ∀ {α : Type} (x : Call P.Err α) (f : α → NTree P), (∀ a, Φ (f a)) → Φ (.orFail x f) := by
    intro α x f h
    cases x with
    | error e => exact hfail _
    | ok a => exact h a
  induction a with
  | empty => intro env he c; exact hempty
  | newline => intro env he c; exact hnl _
  | endOfLine => intro env he c; exact heol
  | focusMark => intro env he c; exact hmark
  | literal s => intro env he c; exact htext _
  | text =>
    intro env he c
    refine hor _ _ fun r => ?_
    cases r with
    | some n => exact hfail _
    | none => exact hor _ _ fun s => htext _
  | flat a ih => intro env he c; exact ih he _
  | indent pre label a ih =>
    intro env he c
    cases label with
    | none => exact ih he _
    | some l => exact hor _ _ fun s => ih he _
  | concat a b iha ihb => intro env he c; exact hconcat _ _ (iha he c) (ihb he c)
  | choice a b iha ihb =>
    intro env he c
    simp only [Notation.tree]
    split
    · exact iha he c
    · exact hchoice _ _ (iha he c) (ihb he c)
  | check cond pos a b iha ihb =>
    intro env he c
    simp only [Notation.tree]
    split
    · exact hfail _
    · refine hor _ _ fun r => ?_
      cases r with
      | true => exact iha he c
      | false => exact ihb he c
  | child i =>
    intro env he c
    refine hor _ _ fun r => ?_
    cases r with
    | none => exact hfail _
    | some n =>
      simp only
      split
      · exact hfail _
      · exact hkid _ _
  | style l a ih => intro env he c; exact hor _ _ fun s => ih he _
  | count z o m ihz iho ihm =>
    intro env he c
    refine hor _ _ fun r => ?_
    match r with
    | none => exact hfail _
    | some 0 => exact ihz he c
    | some 1 => exact iho he c
    | some (n + 2) => exact ihm he c
  | fold f j ihf ihj =>
    intro env he c
    refine hor _ _ fun r => ?_
    match r with
    | none => exact hfail _
    | some 0 => exact hempty
    | some (n + 1) =>
      simp only
      induction n generalizing c with
      | zero => exact ihf (fun e h => by simp at h) c
      | succ n ih =>
        refine hor _ _ fun _ => ihj ?_ c
        intro e he c
        simp only [Option.some.injEq] at he
        subst he
        exact ih c
  | left =>
    intro env he c
    cases env with
    | none => exact hfail _
    | some e => exact he e rfl c
  | right =>
    intro env he c
    cases env with
    | none => exact hfail _
    | some e => exact hkid _ _

theorem docTree_idAbsent (law : P.Lawful) {i : P.Id} (node : P.Node) :
    (∀ q, P.Below q node → P.id q ≠ .ok i) → ∀ flat indent outer t,
    docTree law node flat indent outer = .ok t → t.IdAbsent i := by
  induction node using law.wf.induction with
  | _ node ih =>
    intro hq flat indent outer t h
    rw [docTree_eq] at h
    cases ha : P.notn node with
    | error e => rw [ha] at h; cases h
    | ok a =>
      cases hs : P.nodeStyle node with
      | error e => rw [ha, hs] at h; cases h
      | ok s =>
        rw [ha, hs] at h
        cases h
        refine tree_closed (Φ := NTree.IdAbsent i) (fun _ => trivial) trivial trivial trivial
          (fun _ => trivial) (fun _ => trivial) (fun _ _ h g => ⟨h, g⟩) (fun _ _ h g => ⟨h, g⟩)
          node ?_ a (fun e h => by simp at h) _
        intro j c
        unfold docKid NTree.orFail
        cases hc : P.childAt node j with
        | error e => trivial
        | ok ch =>
          have hb : P.Below ch node := .single ⟨j, hc⟩
          cases hd : docTree law ch c.flat c.indent (some c.style) with
          | error f => simp [NTree.IdAbsent, hd]
          | ok t =>
            simp only [hd, NTree.IdAbsent]
            refine ⟨?_, ih ch ⟨j, hc⟩ (fun q hq' => hq q (hq'.trans hb)) _ _ _ _ hd⟩
            intro h
            cases hid : P.id ch with
            | error e => rw [hid] at h; simp [Call.toRes] at h
            | ok k =>
              rw [hid] at h
              simp only [Call.toRes, Except.ok.injEq] at h
              subst h
              exact hq ch hb hid

theorem docTree_idsDistinct (law : P.Lawful) {doc : P.Node} (hids : P.IdsOnPaths doc) (node : P.Node) :
    P.Within doc node → ∀ {i}, P.id node = .ok i → ∀ flat indent outer t,
    docTree law node flat indent outer = .ok t → t.IdsDistinct i := by
  induction node using law.wf.induction with
  | _ node ih =>
    intro hwithin i hi flat indent outer t h
    rw [docTree_eq] at h
    cases ha : P.notn node with
    | error e => rw [ha] at h; cases h
    | ok a =>
      cases hs : P.nodeStyle node with
      | error e => rw [ha, hs] at h; cases h
      | ok s =>
        rw [ha, hs] at h
        cases h
        refine tree_closed (Φ := NTree.IdsDistinct i) (fun _ => trivial) trivial trivial trivial
          (fun _ => trivial) (fun _ => trivial) (fun _ _ h g => ⟨h, g⟩) (fun _ _ h g => ⟨h, g⟩)
          node ?_ a (fun e h => by simp at h) _
        intro j c
        unfold docKid NTree.orFail
        cases hc : P.childAt node j with
        | error e => trivial
        | ok ch =>
          have hb : P.Below ch node := .single ⟨j, hc⟩
          cases hd : docTree law ch c.flat c.indent (some c.style) with
          | error f => simp [NTree.IdsDistinct, hd]
          | ok t =>
            simp only [hd, NTree.IdsDistinct]
            refine ⟨?_, docTree_idAbsent law ch
              (fun q hq' => hids node q i hwithin (hq'.trans hb) hi) _ _ _ _ hd, ?_⟩
            · intro h
              cases hid : P.id ch with
              | error e => rw [hid] at h; simp [Call.toRes] at h
              | ok k =>
                rw [hid] at h
                simp only [Call.toRes, Except.ok.injEq] at h
                subst h
                exact hids node ch k hwithin hb hi hid
            · intro k hk
              cases hid : P.id ch with
              | error e => rw [hid] at hk; simp [Call.toRes] at hk
              | ok k' =>
                rw [hid] at hk
                simp only [Call.toRes, Except.ok.injEq] at hk
                subst hk
                exact ih ch ⟨j, hc⟩ (hwithin.child hc) hid _ _ _ _ hd

theorem rootTree_idsDistinct (law : P.Lawful) {doc : P.Node} (hids : P.IdsOnPaths doc) {style id t}
    (h : rootTree law doc style = .ok (id, t)) : t.IdsDistinct id := by
  unfold rootTree at h
  cases hd : docTree law doc false [] style with
  | error f => rw [hd] at h; cases h
  | ok t' =>
    rw [hd] at h
    cases hid : P.id doc with
    | error e => rw [hid] at h; cases h
    | ok i =>
      rw [hid] at h
      cases h
      exact docTree_idsDistinct law hids doc (.inl rfl) hid _ _ _ _ hd

/-! ### Texts -/

theorem docPred_tgtOk (doc : P.Node) (Q' : Fail P.Err → Prop) (target : FocusTarget) :
    TgtOk { docPred P doc with fail := Q' } ((∀ pos, target ≠ .text pos) ∨ P.TextsAdditive doc) target where
  add := by
    intro pos ht hA t h hf
    rcases hA with hA | hA
    · exact absurd ht (hA pos)
    · obtain ⟨h1, h2⟩ := h
      obtain ⟨p, s, h0, h3, a, h4⟩ := h2 hf
      have := hA p s h0 h3 a (t.str.toList.take pos) (t.str.toList.drop pos)
        (by rw [List.take_append_drop]; exact h4.symm)
      simp only [Textual.splitAt, List.take_append_drop, String.ofList_toList] at this ⊢
      omega
  split := by
    intro pos ht t h
    refine ⟨rfl, fun hf => ?_⟩
    obtain ⟨p, s, h0, h3, h4⟩ := h.2 hf
    refine ⟨p, s, h0, h3, ?_⟩
    simp only [Textual.splitAt, String.toList_ofList]
    exact (List.drop_suffix _ _).trans h4

/-! ### Main theorem -/

/-- The result of `pretty_print` when the layout exists. -/
theorem print_ok {I : Prop} (law : P.Lawful) {doc : P.Node} {style id t} {w : Nat} {L : LTree P}
    (hr : rootTree law doc style = .ok (id, t)) (hL : t.layoutDoc w id = .ok L)
    (path : List Nat) {target : FocusTarget} (hfocus : FocusOk P doc target)
    (hI : I → P.IdsOnPaths doc) :
    (∃ r ups downs T0 id' nodeT afterT B A,
      prettyPrint doc w path target style = Exec.ofRes (.ok r) ∧
      drain Printer.nextUp r.up = Exec.ofRes (.ok ups) ∧
      drain Printer.nextDown r.down = Exec.ofRes (.ok downs) ∧
      L.toks = T0 ++ (nodeT ++ afterT) ∧ focusToks target id' nodeT afterT = .ok (B, A) ∧
      ups.reverse.map (·.segments) ++ [r.focused.leftSegments] = linesOf (T0 ++ B) ∧
      ups.reverse.map (·.segments) ++ [r.focused.leftSegments ++ r.focused.rightSegments] ++
        downs.map (·.segments) = linesOf (T0 ++ B ++ A) ∧
      (I → ∃ l, L.locate id path = .ok l ∧ l.before = T0 ∧ l.id = id' ∧ l.node.toks = nodeT ∧
        l.after = afterT)) ∨
    (∃ j, prettyPrint doc w path target style = Exec.ofRes (.error (.err (.invalidPath j))) ∧
      j ∈ path ∧ (I → L.locate id path = .error j)) ∨
    (∃ e, prettyPrint doc w path target style = Exec.ofRes (.error (.err e)) ∧
      ((target = .mark ∧ e = .missingFocusMark) ∨ ((∃ pos, target = .text pos) ∧ e = .missingText)) ∧
      (I → ∃ l, L.locate id path = .ok l ∧ focusToks target l.id l.node.toks l.after = .error e)) := by
  have hf := rootTree_failIn law doc style
  rw [hr] at hf
  obtain ⟨d, hd, hrep⟩ := rootTree_rep law doc style hr
  have hcore := prettyPrint_core (docPred P doc) (I := I) docPred_ok
    (docPred_tgtOk doc (docPred P doc).fail target) hd hrep hf
    (fun h => rootTree_idsDistinct law (hI h) hr) w path
  rcases hcore.exists_res with ⟨r, e1, S, ex, st', tail, h1, h2⟩ | ⟨e, e1, h⟩
  · left
    obtain ⟨_, h3⟩ := h2 hfocus
    obtain ⟨T0, id', nodeT, afterT, B, A, st, Ls, g1, g2, g3, g4, g5⟩ := h3 L hL
    obtain ⟨ups, downs, k1, k2, k3, k4⟩ := output_of_D _ docPred_ok h1 g3
    rw [g4] at k4
    exact ⟨r, ups, downs, T0, id', nodeT, afterT, B, A, e1, k1, k2, g1, g2, k3, k4, g5⟩
  · right
    rcases h with ⟨_, h⟩ | ⟨j, rfl, hj, h⟩ | ⟨e', rfl, he, h⟩
    · obtain ⟨f, hf⟩ := h hfocus
      rw [hL] at hf; simp at hf
    · exact .inl ⟨j, e1, hj, fun hi => h hi L hL⟩
    · exact .inr ⟨e', e1, he, fun hi => h hi L hL⟩

/-- If the layout does not exist, then the whole document cannot be printed. -/
theorem print_error (law : P.Lawful) {doc : P.Node} {style id t} {w : Nat} {f}
    (hr : rootTree law doc style = .ok (id, t)) (hL : t.layoutDoc w id = .error f)
    (path : List Nat) {target : FocusTarget} (hfocus : FocusOk P doc target) {r}
    (hp : prettyPrint doc w path target style = Exec.ofRes (.ok r)) {ups downs}
    (hu : drain Printer.nextUp r.up = Exec.ofRes (.ok ups)) 
    (hd : drain Printer.nextDown r.down = Exec.ofRes (.ok downs)) : False := by
  have hf := rootTree_failIn law doc style
  rw [hr] at hf
  obtain ⟨d, hd', hrep⟩ := rootTree_rep law doc style hr
  have hcore := prettyPrint_core (docPred P doc) (I := False) docPred_ok
    (docPred_tgtOk doc (docPred P doc).fail target) hd' hrep hf (fun h => h.elim) w path
  rw [hp] at hcore
  obtain ⟨S, ex, st', tail, h1, h2⟩ := hcore
  exact D_of_output _ docPred_ok h1 hu hd ((h2 hfocus).1 ⟨f, hL⟩)

/-- If the root cannot be looked at, printing fails in the same way. -/
theorem print_root_error (law : P.Lawful) {doc : P.Node} {style f}
    (hr : rootTree law doc style = .error f) (w : Nat) (path : List Nat) (target : FocusTarget) :
    prettyPrint doc w path target style = Exec.ofRes (.error f) := by
  unfold prettyPrint
  have hnew : Printer.new (P := P) w = Exec.ofRes (.ok ⟨w, [], [⟨[], 0, false, []⟩]⟩) := by
    simp [Printer.new, Block.new, segsWidth, Exec.pure_eq]
  rw [hnew]
  simp only [Exec.ofRes_ok_bind]
  have hs : Printer.seek (P := P) ⟨w, [], [⟨[], 0, false, []⟩]⟩ doc path target style =
      Exec.ofRes (.error f) := by
    unfold Printer.seek
    rcases rootTree_error law doc style hr with h | ⟨d, h, h1, h2⟩
    · rw [h]; rfl
    · rw [h]
      simp only [Exec.ofRes_ok_bind]
      unfold Chunk.new call
      rw [h1, h2]
      rfl
  rw [hs]
  rfl

/-- Everything terminates, and the only failures are those allowed by `Q`, or bad focus requests. -/
theorem print_terminates (law : P.Lawful) {doc : P.Node} {style id t}
    (hr : rootTree law doc style = .ok (id, t)) {Q' : Fail P.Err → Prop}
    (hQ : QOk { docPred P doc with fail := Q' }) (hf : t.FailIn { docPred P doc with fail := Q' })
    (w : Nat) (path : List Nat) (target : FocusTarget) :
    Sat (prettyPrint doc w path target style)
      (fun r => Sat (drain Printer.nextUp r.up) (fun _ => True) Q' ∧
        Sat (drain Printer.nextDown r.down) (fun _ => True) Q' ∧
        ∀ s, Sat (toStringLoop s r.down)
          (fun _ => ∃ lines, drain Printer.nextDown r.down = Exec.ofRes (.ok lines)) Q')
      (fun e => Q' e ∨ (∃ j, e = .err (.invalidPath j) ∧ j ∈ path) ∨
        (e = .err .missingFocusMark ∧ target = .mark) ∨
        (e = .err .missingText ∧ ∃ pos, target = .text pos)) := by
  obtain ⟨d, hd', hrep⟩ := rootTree_rep law doc style hr
  refine (prettyPrint_core _ (I := False) hQ
    (docPred_tgtOk doc Q' target) hd' hrep hf (fun h => h.elim) w path).mono ?_ ?_
  · rintro r ⟨S, ex, st', tail, h1, _⟩
    refine ⟨?_, ?_, ?_⟩
    · exact (drainUp_sat _ hQ w _ h1.upw h1.up h1.pvf (Nat.le_refl _)).mono
        (fun _ _ => trivial) (fun e h => h.1)
    · exact (drainDown_sat _ hQ w _ h1.downw h1.down h1.tailf (Nat.le_refl _)).mono
        (fun _ _ => trivial) (fun e h => h.1)
    · intro s
      exact (toStringLoop_sat _ hQ w _ s h1.downw h1.down h1.tailf (Nat.le_refl _)).mono
        (fun _ h => h) (fun e h => h.1)
  · rintro e (⟨h, _⟩ | ⟨j, rfl, hj, _⟩ | ⟨e', rfl, (⟨h, rfl⟩ | ⟨h, rfl⟩), _⟩)
    · exact .inl h
    · exact .inr (.inl ⟨j, rfl, hj⟩)
    · exact .inr (.inr (.inl ⟨rfl, h⟩))
    · exact .inr (.inr (.inr ⟨rfl, h⟩))

/-- Taking lines never fails in a way that draining does not. -/
theorem takeLines_of_drain_error {next : Printer P → Exec P.Err (Option (Line P) × Printer P)} (n : Nat) :
    ∀ {p e}, drain next p = Exec.ofRes (.error e) →
    (∃ r, takeLines next n p = Exec.ofRes (.ok r)) ∨ takeLines next n p = Exec.ofRes (.error e) := by
  induction n with
  | zero => intro p e h; exact .inl ⟨([], p), rfl⟩
  | succ n ih =>
    intro p e h
    rw [drain_eq] at h
    rw [takeLines]
    rcases exec_cases (next p) with hn | ⟨r, hn⟩
    · have h' := congrArg (fun x => ExceptT.run x) h
      simp only [Exec.run_bind] at h'
      rw [hn] at h'; simp [Exec.ofRes, ExceptT.run, ExceptT.mk] at h'
    · rw [hn] at h ⊢
      match r with
      | .error e' =>
        rw [Exec.ofRes_error_bind] at h
        have := Exec.ofRes_inj h
        simp at this
        subst this
        exact .inr rfl
      | .ok (none, p') =>
        rw [Exec.ofRes_ok_bind] at h
        exact absurd (Exec.ofRes_inj h) (by simp)
      | .ok (some line, p') =>
        simp only [Exec.ofRes_ok_bind] at h ⊢
        rcases exec_cases (drain next p') with hn' | ⟨r', hn'⟩
        · have h'' := congrArg (fun x => ExceptT.run x) h
          simp only [Exec.run_bind] at h''
          rw [hn'] at h''; simp [Exec.ofRes, ExceptT.run, ExceptT.mk] at h''
        · match r' with
          | .ok lines =>
            rw [hn', Exec.ofRes_ok_bind] at h; exact absurd (Exec.ofRes_inj h) (by simp)
          | .error e' =>
            rw [hn', Exec.ofRes_error_bind] at h
            have := Exec.ofRes_inj h
            simp at this
            subst this
            rcases ih hn' with ⟨r, h1⟩ | h1
            · rw [h1]; exact .inl ⟨_, rfl⟩
            · rw [h1]; exact .inr rfl

end PPP
