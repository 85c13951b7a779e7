import Verif.Proofs.Depth
import Verif.Props.Laws
import Verif.Props.Example
/-
C74: how much stack printing takes.
-/
namespace PPP
variable {P : PrettyDoc}

/-- **C74.**  The single invocations of `Model/Depth.lean`, one after the other, are `eval`. -/
theorem C74_eval_step (d : DCN P) :
    d.eval = d.evalStep >>= fun
      | .inl cn => pure cn
      | .inr d' => d'.eval := eval_step d

/-- **C74.**  Whatever comes up while a document is printed, `eval` nests at most `max 1 m * H` calls on it, if
    the notation of each node has at most height `H`, and each node has at most `m` children.  Neither the
    number of nodes of the document matters, nor how deeply they are nested. -/
theorem C74_depth (law : P.Lawful) {doc : P.Node} {m H : Nat} (hH : P.HeightsWithin doc H)
    (hm : P.KidsWithin doc m) {rootStyle : Option P.Style} {d : DCN P} (h : Reached doc rootStyle d) :
    ∃ k, d.Nests k ∧ k ≤ max 1 m * H := by
  obtain ⟨φ, hφ⟩ := reached_inv law hH hm h
  obtain ⟨k, k1, k2, _⟩ := eval_parts law hH hm _ (Nat.le_refl _) hφ
  exact ⟨k, k2, Nat.le_trans k1 (hφ.cost_le hm)⟩

/-- Every document has finitely many nodes, so the numbers of their children are bounded. -/
theorem kidsWithin_exists (law : P.Lawful) (doc : P.Node) : ∃ m, P.KidsWithin doc m := by
  induction doc using law.wf.induction with
  | _ doc ih =>
    have H : ∀ n, ∃ m, ∀ i < n, ∀ c, P.childAt doc i = .ok c → P.KidsWithin c m := by
      intro n
      induction n with
      | zero => exact ⟨0, fun i hi => by omega⟩
      | succ n ihn =>
        obtain ⟨m, hm⟩ := ihn
        match hc : P.childAt doc n with
        | .error _ =>
          refine ⟨m, fun i hi c h => ?_⟩
          rcases Nat.lt_succ_iff_lt_or_eq.1 hi with hi | rfl
          · exact hm i hi c h
          · rw [hc] at h; cases h
        | .ok c' =>
          obtain ⟨m', hm'⟩ := ih c' ⟨n, hc⟩
          refine ⟨max m m', fun i hi c h p k hp hk => ?_⟩
          rcases Nat.lt_succ_iff_lt_or_eq.1 hi with hi | rfl
          · exact Nat.le_trans (hm i hi c h p k hp hk) (Nat.le_max_left ..)
          · rw [hc] at h
            cases h
            exact Nat.le_trans (hm' p k hp hk) (Nat.le_max_right ..)
    have hlt : ∀ {i c}, P.childAt doc i = .ok c → ∃ n, P.numChildren doc = .ok (some n) ∧ i < n := by
      intro i c h
      unfold PrettyDoc.childAt at h
      split at h
      · rename_i n hn
        refine ⟨n, hn, ?_⟩
        split at h
        · assumption
        · cases h
      · cases h
      · cases h
    have hin : ∀ {p}, P.Within doc p → p = doc ∨ ∃ c, P.ChildOf c doc ∧ P.Within c p := by
      intro p hp
      refine PrettyDoc.Within.induct (Φ := fun p => p = doc ∨ ∃ c, P.ChildOf c doc ∧ P.Within c p) (.inl rfl) ?_ hp
      rintro p q (rfl | ⟨c, h1, h2⟩) ⟨i, hi⟩
      · exact .inr ⟨q, ⟨i, hi⟩, .inl rfl⟩
      · exact .inr ⟨c, h1, h2.child hi⟩
    match hn : P.numChildren doc with
    | .error _ =>
      refine ⟨0, fun p k hp hk => ?_⟩
      rcases hin hp with rfl | ⟨c, ⟨i, hi⟩, _⟩
      · rw [hn] at hk; cases hk
      · obtain ⟨n, h, _⟩ := hlt hi; rw [hn] at h; cases h
    | .ok none =>
      refine ⟨0, fun p k hp hk => ?_⟩
      rcases hin hp with rfl | ⟨c, ⟨i, hi⟩, _⟩
      · rw [hn] at hk; cases hk
      · obtain ⟨n, h, _⟩ := hlt hi; rw [hn] at h; cases h
    | .ok (some n) =>
      obtain ⟨m, hm⟩ := H n
      refine ⟨max n m, fun p k hp hk => ?_⟩
      rcases hin hp with rfl | ⟨c, ⟨i, hi⟩, hc⟩
      · rw [hn] at hk; cases hk; exact Nat.le_max_left ..
      · obtain ⟨n', h, hi'⟩ := hlt hi
        rw [hn] at h
        cases h
        exact Nat.le_trans (hm i hi' c hi p k hc hk) (Nat.le_max_right ..)

/-- **C74.**  If in addition the `Left` in a `join` is always part of a concatenation (or the second option of a
    choice), then `eval` nests at most `2 * H` calls: the number of children does not matter either. -/
theorem C74_depth_guarded (law : P.Lawful) {doc : P.Node} {H : Nat} (hH : P.HeightsWithin doc H)
    (hg : P.Guarded doc) {rootStyle : Option P.Style} {d : DCN P}
    (h : Reached doc rootStyle d) : ∃ k, d.Nests k ∧ k ≤ 2 * H := by
  obtain ⟨m, hm⟩ := kidsWithin_exists law doc
  obtain ⟨φ, hφ⟩ := reached_inv law hH hm h
  obtain ⟨k, k1, k2, k3, _⟩ := eval_parts law hH hm _ (Nat.le_refl _) hφ
  exact ⟨k, k2, Nat.le_trans (k3 hg) hφ.cost'_le⟩

/-- **C74.**  The number of nested calls is determined by what is evaluated. -/
theorem C74_depth_unique {d : DCN P} {k k' : Nat} (h : d.Nests k) (h' : d.Nests k') : k = k' := h.unique h'

/-! ### Skipping children -/

theorem evalStep_child {node c : P.Node} {n j : Nat} {i : Int} {a : Notation P.Label P.Cond} {s : P.Style}
    (h1 : P.numChildren node = .ok (some n)) (h2 : normalizeChildIndex i n = some j)
    (h3 : P.unwrapChild node j = .ok c) (h4 : P.notn c = .ok a) (h5 : P.nodeStyle c = .ok s)
    (flat : Bool) (indent : Indent P) (style : P.Style) (jp : Option (JoinPos P)) :
    (DCN.evalStep (P := P) ⟨.child i, node, flat, indent, style, jp⟩).run =
      some (.ok (.inl (.child j ⟨a, c, flat, indent, P.combine style s, jp⟩))) := by
  simp only [DCN.evalStep, h1, h2, h3, h4, h5, call, Call.toRes, Exec.ofRes_ok_bind]
  rfl

theorem evalStep_left {node c c' p : P.Node} {k : Nat} {f j : Notation P.Label P.Cond}
    (h : P.unwrapPrevSibling c p (k + 1) = .ok c')
    (flat : Bool) (indent : Indent P) (style : P.Style) :
    (DCN.evalStep (P := P) ⟨.left, node, flat, indent, style, some ⟨p, c, k + 2, f, j⟩⟩).run =
      some (.ok (.inr ⟨j, node, flat, indent, style, some ⟨p, c', k + 1, f, j⟩⟩)) := by
  simp only [DCN.evalStep, h, call, Call.toRes, Exec.ofRes_ok_bind]
  rfl

theorem evalStep_fold {node c : P.Node} {n : Nat} {f j : Notation P.Label P.Cond}
    (h1 : P.numChildren node = .ok (some (n + 2))) (h2 : P.unwrapLastChild node = .ok c)
    (flat : Bool) (indent : Indent P) (style : P.Style) (jp : Option (JoinPos P)) :
    (DCN.evalStep (P := P) ⟨.fold f j, node, flat, indent, style, jp⟩).run =
      some (.ok (.inr ⟨j, node, flat, indent, style, some ⟨node, c, n + 1, f, j⟩⟩)) := by
  simp only [DCN.evalStep, h1, h2, call, Call.toRes, Exec.ofRes_ok_bind]
  rfl

/-- All children except for the comments, one per line.  (The first child is displayed even if it is a
    comment.)  It skips a child by a `Left` on its own. -/
def skipComments : TreeNotation :=
  ⟨.fold (.child 0) (.check .isComment .rightChild .left
    (.concat .left (.concat .newline .right))), by decide⟩

/-- A comment. -/
def aComment (S : Type) [Inhabited S] : Tree S := (Tree.newText 1 ⟨.text, by decide⟩ "comment").intoComment

/-- `n` comments. -/
def comments (S : Type) [Inhabited S] (n : Nat) : Tree S :=
  Tree.newBranch 0 skipComments (List.replicate n (aComment S))

section
variable {S : Type} [Inhabited S] (combine : S → S → S) (fromLabel : String → S) (strWidth : String → Nat)

theorem markSeparators_comments (n : Nat) :
    markSeparators (List.replicate n (aComment S)) = (List.replicate n (aComment S), false) := by
  induction n with
  | zero => rfl
  | succ n ih =>
    rw [List.replicate_succ]
    unfold markSeparators
    rw [ih]
    rfl

theorem comments_eq (n : Nat) :
    comments S n = .branch (List.replicate n (aComment S)) 0 skipComments default [] false false := by
  unfold comments Tree.newBranch
  rw [markSeparators_comments]

theorem comments_child (n i : Nat) (hi : i < n) : (comments S n).unwrapChild i = .ok (aComment S) := by
  rw [comments_eq]
  simp only [Tree.unwrapChild, Tree.children?]
  rw [List.getElem?_replicate, if_pos hi]

local notation "TD" => treeDoc S combine fromLabel strWidth

theorem comments_join (n i : Nat) (hi : i + 1 < n) (flat : Bool) (indent : Indent TD) (style : S) (first join)
    (hf : first = .child 0)
    (hj : join = .check .isComment .rightChild .left (.concat .left (.concat .newline .right))) :
    DCN.Nests (P := TD) ⟨join, comments S n, flat, indent, style,
      some ⟨comments S n, aComment S, i + 1, first, join⟩⟩ (2 * (i + 1) + 1) := by
  induction i with
  | zero =>
    subst hf hj
    refine .calls (d' := ⟨.left, comments S n, flat, indent, style, some ⟨comments S n, aComment S, 1, _, _⟩⟩) rfl ?_
    refine .calls (d' := ⟨.child 0, comments S n, flat, indent, style, none⟩) rfl ?_
    refine .returns (cn := .child 0 ⟨.text, aComment S, flat, indent, combine style default, none⟩) ?_
    have h1 : PrettyDoc.numChildren TD (comments S n) = .ok (some n) := by
      rw [comments_eq]; simp [treeDoc, Tree.children?]
    have h2 : normalizeChildIndex 0 n = some 0 := by
      unfold normalizeChildIndex
      simp
      omega
    have h3 : PrettyDoc.unwrapChild TD (comments S n) 0 = .ok (aComment S) := comments_child n 0 (by omega)
    exact evalStep_child (P := TD) h1 h2 h3 rfl rfl flat indent style none
  | succ i ih =>
    have ih := ih (by omega)
    subst hf hj
    refine .calls (d' := ⟨.left, comments S n, flat, indent, style,
      some ⟨comments S n, aComment S, i + 2, _, _⟩⟩) rfl ?_
    refine .calls (d' := ⟨_, comments S n, flat, indent, style,
      some ⟨comments S n, aComment S, i + 1, _, _⟩⟩) ?_ ih
    have h3 : PrettyDoc.unwrapPrevSibling TD (aComment S) (comments S n) (i + 1) = .ok (aComment S) :=
      comments_child n (i + 1) (by omega)
    exact evalStep_left (P := TD) h3 flat indent style

theorem comments_nests (n : Nat) (s : S) :
    DCN.Nests (P := TD) ⟨skipComments.1, comments S (n + 2), false, [], s, none⟩ (2 * (n + 2)) := by
  refine .calls (d' := ⟨_, comments S (n + 2), false, [], s,
    some ⟨comments S (n + 2), aComment S, n + 1, .child 0, _⟩⟩) ?_
    (comments_join combine fromLabel strWidth (n + 2) n (by omega) false [] s (.child 0) _ rfl rfl)
  have h1 : PrettyDoc.numChildren TD (comments S (n + 2)) = .ok (some (n + 2)) := by
    rw [comments_eq]; simp [treeDoc, Tree.children?]
  have h2 : PrettyDoc.unwrapLastChild TD (comments S (n + 2)) = .ok (aComment S) := by
    rw [(treeDoc_lawful combine fromLabel strWidth).last _ (n + 1) h1]
    exact comments_child _ _ (by omega)
  exact evalStep_fold (P := TD) h1 h2 false [] s none

/-- **C74 (a finding).**  The number of children does matter if a `Left` stands on its own: `n ≥ 2` comments, in
    a notation of height 5 that skips them, take `2 * n` nested calls of `eval`.  (For enough comments the
    program runs out of stack.) -/
theorem C74_depth_grows (n : Nat) :
    ∃ d : DCN TD, Reached (comments S (n + 2)) none d ∧ d.Nests (2 * (n + 2)) := by
  refine ⟨⟨skipComments.1, comments S (n + 2), false, [], default, none⟩, .root ?_,
    comments_nests combine fromLabel strWidth n default⟩
  rw [comments_eq]
  rfl

end

namespace Ex

/-- The notation that skips comments is a small one. -/
example : skipComments.1.height = 5 ∧ ¬ skipComments.1.JoinsGuarded := by
  refine ⟨by decide, ?_⟩
  show ¬ (true = false)
  decide

/-- The example document meets the hypotheses: `eval` nests at most 16 calls. -/
theorem C74_list_depth {d : DCN exP} (h : Reached exDoc none d) : ∃ k, d.Nests k ∧ k ≤ 2 * 8 := by
  refine C74_depth_guarded exLaw (H := 8) ?_ ?_ h
  · intro p a hp ha
    rcases exWithin hp with rfl | rfl | rfl <;> cases ha <;> decide
  · intro p a hp ha
    rcases exWithin hp with rfl | rfl | rfl <;> cases ha
    · exact ⟨⟨⟨trivial, rfl⟩, trivial⟩, trivial⟩
    · trivial
    · trivial

/-- Several notations come up: the root, and what is evaluated after it. -/
example : ∃ d d' : DCN exP, Reached exDoc none d ∧ Reached exDoc none d' ∧ d.notn ≠ d'.notn := by
  refine ⟨⟨listN.1, exDoc, false, [], (), none⟩,
    ⟨.literal "]", exDoc, false, [], (), none⟩, .root rfl, .part (.root rfl)
      (cn := .concat ⟨.literal "[" + (.fold (.child 0)
        (.left + .literal "," + (.choice (.literal " ") .newline) + .right)) + .focusMark, exDoc, false, [], (), none⟩ ⟨.literal "]", exDoc, false, [], (), none⟩) ?_ ?_, ?_⟩
  · rw [C74_eval_step]; rfl
  · simp [CN.parts]
  · decide

end Ex
end PPP
