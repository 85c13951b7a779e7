import Verif.Model.OracleTest
import Verif.Props.Oracle
import Verif.Props.Focus
import Verif.Props.EolValid
import Verif.Proofs.Reach
/-
The test of the printer against the oracle.
-/
namespace PPP
variable {P : PrettyDoc}

theorem mapM_ok {E α β : Type} {f : α → Exec E β} (g : α → β) : ∀ (as : List α),
    (∀ a ∈ as, f a = Exec.ofRes (.ok (g a))) → as.mapM f = Exec.ofRes (.ok (as.map g)) := by
  intro as
  induction as with
  | nil => intro _; rfl
  | cons a as ih =>
    intro h
    rw [List.mapM_cons, h a (by simp), Exec.ofRes_ok_bind, ih fun b hb => h b (by simp [hb]), Exec.ofRes_ok_bind]
    rfl

theorem forM_ok {E α : Type} {f : α → Exec E Unit} : ∀ (as : List α),
    (∀ a ∈ as, f a = Exec.ofRes (.ok ())) → as.forM f = Exec.ofRes (.ok ()) := by
  intro as
  induction as with
  | nil => intro _; rfl
  | cons a as ih =>
    intro h
    show (f a >>= fun _ => as.forM f) = _
    rw [h a (by simp), Exec.ofRes_ok_bind]
    exact ih fun b hb => h b (by simp [hb])

/-- All the methods of the nodes of the document that lead to other nodes succeed. -/
structure PrettyDoc.Walkable (P : PrettyDoc) (doc : P.Node) : Prop where
  count : ∀ q, P.Within doc q → ∃ r, P.numChildren q = .ok r
  child : ∀ q n i, P.Within doc q → P.numChildren q = .ok (some n) → i < n → ∃ c, P.unwrapChild q i = .ok c

theorem walkable_child {doc c : P.Node} (h : P.Walkable doc) (hc : P.ChildOf c doc) : P.Walkable c := by
  have hw : ∀ q, P.Within c q → P.Within doc q := by
    rintro q (rfl | hq)
    · exact .inr (.single hc)
    · exact .inr (hq.tail hc)
  exact ⟨fun q hq => h.count q (hw q hq), fun q n i hq => h.child q n i (hw q hq)⟩

theorem allPathsRec_ok (law : P.Lawful) : ∀ (doc : P.Node), P.Walkable doc → ∀ pre,
    ∃ ps : List (List Nat), allPathsRec doc pre = Exec.ofRes (.ok (ps.map (pre ++ ·))) ∧ ∀ p, p ∈ ps ↔ PathIn P doc p := by
  intro doc
  induction doc using law.wf.induction with
  | _ doc ih =>
    intro hwk pre
    obtain ⟨r, hr⟩ := hwk.count doc (.inl rfl)
    have hnc : unwrapping (call (P.numChildren doc)) = Exec.ofRes (.ok r) := by rw [hr]; rfl
    have hkid : ∀ i, i < r.getD 0 → ∃ c, P.unwrapChild doc i = .ok c ∧ P.childAt doc i = .ok c := by
      intro i hi
      cases r with
      | none => simp at hi
      | some n =>
        obtain ⟨c, hc⟩ := hwk.child doc n i (.inl rfl) hr hi
        refine ⟨c, hc, ?_⟩
        unfold PrettyDoc.childAt
        rw [hr]
        simp only
        rw [if_pos (by simpa using hi), hc]
    have key : ∀ i, ∃ ps : List (List Nat), i < r.getD 0 →
        (unwrapping (call (P.unwrapChild doc i)) >>= fun child => allPathsRec child (pre ++ [i])) =
          Exec.ofRes (.ok (ps.map (pre ++ ·))) ∧
        ∀ p, p ∈ ps ↔ ∃ q c, p = i :: q ∧ P.childAt doc i = .ok c ∧ PathIn P c q := by
      intro i
      by_cases hi : i < r.getD 0
      · obtain ⟨c, h1, h2⟩ := hkid i hi
        obtain ⟨ps, h3, h4⟩ := ih c ⟨i, h2⟩ (walkable_child hwk ⟨i, h2⟩) (pre ++ [i])
        refine ⟨ps.map (i :: ·), fun _ => ⟨?_, ?_⟩⟩
        · have : unwrapping (call (P.unwrapChild doc i)) = Exec.ofRes (.ok c) := by rw [h1]; rfl
          rw [this, Exec.ofRes_ok_bind, h3, List.map_map]
          congr 3
          funext x
          simp
        · intro p
          simp only [List.mem_map, h4]
          constructor
          · rintro ⟨q, hq, rfl⟩; exact ⟨q, c, rfl, h2, hq⟩
          · rintro ⟨q, c', rfl, hc', hq⟩
            rw [h2] at hc'
            cases hc'
            exact ⟨q, hq, rfl⟩
      · exact ⟨[], fun h => absurd h hi⟩
    obtain ⟨g, hg⟩ := Classical.axiomOfChoice key
    refine ⟨[] :: ((List.range (r.getD 0)).map g).flatten, ?_, ?_⟩
    · rw [allPathsRec.eq_def, hnc, Exec.ofRes_ok_bind]
      rw [mapM_ok (fun i => (g i).map (pre ++ ·)) _ fun i hi => (hg i (List.mem_range.1 hi)).1]
      rw [Exec.ofRes_ok_bind]
      show Exec.ofRes _ = _
      congr 2
      simp only [List.map_cons, List.append_nil, List.map_flatten, List.map_map]
      rfl
    · intro p
      simp only [List.mem_cons, List.mem_flatten, List.mem_map, List.mem_range]
      constructor
      · rintro (rfl | ⟨_, ⟨i, hi, rfl⟩, hp⟩)
        · exact .nil
        · obtain ⟨q, c, rfl, h1, h2⟩ := ((hg i hi).2 p).1 hp
          exact .cons h1 h2
      · intro hp
        cases hp with
        | nil => exact .inl rfl
        | @cons _ c i q h1 h2 =>
          have hi : i < r.getD 0 := by
            unfold PrettyDoc.childAt at h1
            rw [hr] at h1
            cases r with
            | none => cases h1
            | some n =>
              simp only at h1
              split at h1
              · simpa using ‹i < n›
              · cases h1
          exact .inr ⟨_, ⟨i, hi, rfl⟩, ((hg i hi).2 _).2 ⟨q, c, rfl, h1, h2⟩⟩

theorem allPaths_ok (law : P.Lawful) {doc : P.Node} (h : P.Walkable doc) :
    ∃ ps, allPaths doc = Exec.ofRes (.ok ps) ∧ ∀ p, p ∈ ps ↔ PathIn P doc p := by
  obtain ⟨ps, h1, h2⟩ := allPathsRec_ok law doc h []
  refine ⟨ps, ?_, h2⟩
  unfold allPaths
  rw [h1]
  simp

theorem printAboveAndBelow_ok {doc : P.Node} {w : Nat} {path target} {o : Output P}
    (h : printAll doc w path target none = Exec.ofRes (.ok o)) :
    ∃ a l r b, printAboveAndBelow doc w path target = Exec.ofRes (.ok (a, l, r, b)) ∧
      "\n".intercalate (concatLines a l r b) = linesString o.lines := by
  obtain ⟨r, ups, downs, h1, h2, h3, rfl⟩ := printAll_inv h
  refine ⟨(ups.map Line.toString).reverse, r.focused.toLeftString, r.focused.toRightString,
    downs.map Line.toString, ?_, ?_⟩
  · unfold printAboveAndBelow
    rw [h1, unwrapping_ok, Exec.ofRes_ok_bind, h2, unwrapping_ok, Exec.ofRes_ok_bind, h3, unwrapping_ok,
      Exec.ofRes_ok_bind]
    rfl
  · unfold concatLines linesString Output.lines FocusedLine.toLeftString FocusedLine.toRightString
    rw [← segsString_append]
    simp only [List.map_append, List.map_map, List.map_reverse, List.map_cons, List.map_nil]
    rfl

theorem compareLines_self {E : Type} (s : String) : (compareLines s s : Exec E Unit) = Exec.ofRes (.ok ()) := by
  unfold compareLines
  rw [if_neg (by simp)]
  rfl

/-- All of the checks pass. -/
theorem assertPpImpl_ok (law : P.Lawful) {doc : P.Node} (hwk : P.Walkable doc) {w : Nat} {s : String}
    (ho : oracularPrettyPrint doc w = Exec.ofRes (.ok s)) (hp : prettyPrintToString doc w = Exec.ofRes (.ok s))
    (hf : ∀ path, PathIn P doc path → ∀ target, target = .start ∨ target = .end →
      ∃ o, printAll doc w path target none = Exec.ofRes (.ok o) ∧ linesString o.lines = s)
    (expected : Option (List String)) :
    assertPpImpl doc w expected = Exec.ofRes (.ok ()) ↔ ∀ lines, expected = some lines → "\n".intercalate lines = s := by
  have hrest : (unwrapping (prettyPrintToString doc w) >>= fun lines =>
      compareLines s lines >>= fun _ => allPaths doc >>= fun paths => paths.forM fun path =>
        [FocusTarget.start, FocusTarget.end].forM fun target =>
          printAboveAndBelow doc w path target >>= fun x =>
            compareLines s ("\n".intercalate (concatLines x.1 x.2.1 x.2.2.1 x.2.2.2))) = Exec.ofRes (.ok ()) := by
    obtain ⟨ps, h1, h2⟩ := allPaths_ok law hwk
    rw [hp, unwrapping_ok, Exec.ofRes_ok_bind, compareLines_self, Exec.ofRes_ok_bind, h1, Exec.ofRes_ok_bind]
    refine forM_ok _ fun path hpath => forM_ok _ fun target ht => ?_
    obtain ⟨o, h3, h4⟩ := hf path ((h2 path).1 hpath) target (by simpa using ht)
    obtain ⟨a, l, r, b, h5, h6⟩ := printAboveAndBelow_ok h3
    rw [h5, Exec.ofRes_ok_bind]
    dsimp only
    rw [h6, h4, compareLines_self]
  unfold assertPpImpl
  rw [ho, Exec.ofRes_ok_bind]
  cases expected with
  | none =>
    refine iff_of_true ?_ (by simp)
    exact hrest
  | some lines =>
    simp only [Option.some.injEq, forall_eq']
    by_cases he : "\n".intercalate lines = s
    · rw [he]
      refine iff_of_true ?_ rfl
      rw [compareLines_self]
      exact hrest
    · refine iff_of_false ?_ he
      unfold compareLines
      rw [if_pos he]
      intro h
      exact absurd (Exec.ofRes_inj (show Exec.ofRes (.error .panic) = _ from h)) (by simp)

/-! ### What it means that the checks pass -/

theorem unwrapping_inv {E α : Type} {x : Exec E α} {a : α} (h : unwrapping x = Exec.ofRes (.ok a)) :
    x = Exec.ofRes (.ok a) := by
  rcases exec_cases x with hx | ⟨r, rfl⟩
  · have h' : (unwrapping x).run = some (.ok a) := by rw [h]; rfl
    unfold unwrapping at h'
    simp [ExceptT.run_mk, hx] at h'
  · cases r with
    | ok b => exact h
    | error f =>
      cases f with
      | err e => exact absurd (Exec.ofRes_inj h) (by simp)
      | panic => exact h
      | overflow => exact h

theorem forM_inv {E α : Type} {f : α → Exec E Unit} : ∀ (as : List α),
    as.forM f = Exec.ofRes (.ok ()) → ∀ a ∈ as, f a = Exec.ofRes (.ok ()) := by
  intro as
  induction as with
  | nil => intro _ a ha; simp at ha
  | cons a as ih =>
    intro h b hb
    obtain ⟨u, h1, h2⟩ := bind_ok_inv (show (f a >>= fun _ => as.forM f) = _ from h)
    rcases List.mem_cons.1 hb with rfl | hb
    · exact h1
    · exact ih h2 b hb

theorem compareLines_inv {E : Type} {a b : String} (h : (compareLines a b : Exec E Unit) = Exec.ofRes (.ok ())) :
    b = a := by
  unfold compareLines at h
  by_cases he : b = a
  · exact he
  · rw [if_pos he] at h
    exact absurd (Exec.ofRes_inj (show Exec.ofRes (.error .panic) = _ from h)) (by simp)

theorem printAboveAndBelow_inv {doc : P.Node} {w : Nat} {path target a l r b}
    (h : printAboveAndBelow doc w path target = Exec.ofRes (.ok (a, l, r, b))) :
    ∃ o, printAll doc w path target none = Exec.ofRes (.ok o) ∧
      "\n".intercalate (concatLines a l r b) = linesString o.lines := by
  have h0 := h
  unfold printAboveAndBelow at h
  obtain ⟨r', h1, h⟩ := bind_ok_inv h
  obtain ⟨ups, h2, h⟩ := bind_ok_inv h
  obtain ⟨downs, h3, h⟩ := bind_ok_inv h
  have hp := printAll_of (unwrapping_inv h1) (unwrapping_inv h2) (unwrapping_inv h3)
  obtain ⟨a', l', rr, b', g1, g2⟩ := printAboveAndBelow_ok hp
  rw [h0] at g1
  have := Exec.ofRes_inj g1
  simp only [Except.ok.injEq, Prod.mk.injEq] at this
  obtain ⟨rfl, rfl, rfl, rfl⟩ := this
  exact ⟨_, hp, g2⟩

/-- If the checks pass, then what they check is so. -/
theorem assertPpImpl_inv (law : P.Lawful) {doc : P.Node} (hwk : P.Walkable doc) {w : Nat} {expected : Option (List String)}
    (h : assertPpImpl doc w expected = Exec.ofRes (.ok ())) :
    ∃ s, oracularPrettyPrint doc w = Exec.ofRes (.ok s) ∧ prettyPrintToString doc w = Exec.ofRes (.ok s) ∧
      (∀ lines, expected = some lines → "\n".intercalate lines = s) ∧
      ∀ path, PathIn P doc path → ∀ target, target = .start ∨ target = .end →
        ∃ o, printAll doc w path target none = Exec.ofRes (.ok o) ∧ linesString o.lines = s := by
  unfold assertPpImpl at h
  obtain ⟨s, h1, h⟩ := bind_ok_inv h
  have key : (∀ lines, expected = some lines → "\n".intercalate lines = s) ∧
      (unwrapping (prettyPrintToString doc w) >>= fun lines =>
      compareLines s lines >>= fun _ => allPaths doc >>= fun paths => paths.forM fun path =>
        [FocusTarget.start, FocusTarget.end].forM fun target =>
          printAboveAndBelow doc w path target >>= fun x =>
            compareLines s ("\n".intercalate (concatLines x.1 x.2.1 x.2.2.1 x.2.2.2))) = Exec.ofRes (.ok ()) := by
    cases expected with
    | none => exact ⟨by simp, h⟩
    | some lines =>
      obtain ⟨_, h2, h⟩ := bind_ok_inv h
      refine ⟨?_, h⟩
      intro ls hls
      cases hls
      exact compareLines_inv h2
  obtain ⟨he, h⟩ := key
  obtain ⟨p, h2, h⟩ := bind_ok_inv h
  obtain ⟨_, h3, h⟩ := bind_ok_inv h
  obtain rfl := compareLines_inv h3
  obtain ⟨paths, h4, h⟩ := bind_ok_inv h
  refine ⟨p, h1, unwrapping_inv h2, he, ?_⟩
  intro path hpath target ht
  obtain ⟨ps, g1, g2⟩ := allPaths_ok law hwk
  rw [g1] at h4
  obtain rfl : ps = paths := by simpa using Exec.ofRes_inj h4
  have h5 := forM_inv _ (forM_inv _ h path ((g2 path).2 hpath)) target (by simpa using ht)
  obtain ⟨⟨a, l, r, b⟩, h6, h7⟩ := bind_ok_inv h5
  obtain ⟨o, h8, h9⟩ := printAboveAndBelow_inv h6
  exact ⟨o, h8, by rw [← h9]; exact compareLines_inv h7⟩

end PPP
