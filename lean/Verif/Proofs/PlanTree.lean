import Verif.Spec.Nested
import Verif.Proofs.PlanView
import Verif.Proofs.DimTree
/-
Where the nodes of a document are, if every node displays its children on separate lines.
-/
namespace PPP
variable {P : PrettyDoc}

/-! ### Intervals of lines -/

/-- How many newlines there are in a tree without choices. -/
def NTree.span : NTree P → Nat
  | .newline _ => 1
  | .concat a b => a.span + b.span
  | .child _ _ t => t.span
  | _ => 0

/-- Of a list of trees. -/
def spans (ps : List (NTree P)) : Nat := (ps.map NTree.span).sum

theorem spans_append (A B : List (NTree P)) : spans (A ++ B) = spans A + spans B := by simp [spans]

theorem spans_cons (x : NTree P) (B : List (NTree P)) : spans (x :: B) = x.span + spans B := by simp [spans]

theorem spans_parts (t : NTree P) : spans t.parts = t.span := by
  induction t with
  | concat a b iha ihb => simp only [NTree.parts, NTree.span, spans_append, iha, ihb]
  | _ => simp [NTree.parts, spans, NTree.span]

/-- The first line of child `i`, and the tree of it. -/
def findKid (i : Nat) : List (NTree P) → Nat → Option (Nat × NTree P)
  | [], _ => none
  | .child k c t :: ps, a => if k = i then some (a, t) else findKid i ps (a + (NTree.child k c t).span)
  | p :: ps, a => findKid i ps (a + p.span)

/-- The first and last line of the node at the path, in a tree whose first line is `a`; if there is no such node, of
    the last node that there is on the path. -/
def ivl (t : NTree P) (a : Nat) : List Nat → Nat × Nat
  | [] => (a, a + t.span)
  | i :: q =>
    match findKid i t.parts a with
    | none => (a, a + t.span)
    | some (a', tc) => ivl tc a' q

theorem findKid_inside {i : Nat} {ps : List (NTree P)} {a a' : Nat} {tc} (h : findKid i ps a = some (a', tc)) :
    a ≤ a' ∧ a' + tc.span ≤ a + spans ps := by
  induction ps generalizing a with
  | nil => cases h
  | cons p ps ih =>
    have rest : findKid i ps (a + p.span) = some (a', tc) → a ≤ a' ∧ a' + tc.span ≤ a + spans (p :: ps) := by
      intro h
      have := ih h
      rw [spans_cons]
      omega
    cases p with
    | child k c t =>
      simp only [findKid] at h
      split at h
      · cases h
        rw [spans_cons]
        simp only [NTree.span]
        omega
      · exact rest h
    | _ => exact rest h

theorem findKid_first {i : Nat} {A B : List (NTree P)} {c tc} (hA : ∀ k c t, .child k c t ∈ A → k ≠ i) (a : Nat) :
    findKid i (A ++ .child i c tc :: B) a = some (a + spans A, tc) := by
  induction A generalizing a with
  | nil => simp [findKid, spans]
  | cons p A ih =>
    have rest : findKid i (A ++ .child i c tc :: B) (a + p.span) = some (a + spans (p :: A), tc) := by
      rw [ih fun k c t h => hA k c t (by simp [h]), spans_cons, Nat.add_assoc]
    cases p with
    | child k c' t =>
      simp only [List.cons_append, findKid, if_neg (hA k c' t (by simp))]
      exact rest
    | _ => exact rest

theorem ivl_inside (q : List Nat) (t : NTree P) (a : Nat) :
    a ≤ (ivl t a q).1 ∧ (ivl t a q).1 ≤ (ivl t a q).2 ∧ (ivl t a q).2 ≤ a + t.span := by
  induction q generalizing t a with
  | nil => simp [ivl]
  | cons i q ih =>
    simp only [ivl]
    cases h : findKid i t.parts a with
    | none => simp
    | some x =>
      obtain ⟨a', tc⟩ := x
      have h1 := findKid_inside h
      rw [spans_parts] at h1
      have h2 := ih tc a'
      dsimp only
      omega

theorem ivl_append (q q' : List Nat) (t : NTree P) (a : Nat) :
    (ivl t a q).1 ≤ (ivl t a (q ++ q')).1 ∧ (ivl t a (q ++ q')).2 ≤ (ivl t a q).2 := by
  induction q generalizing t a with
  | nil =>
    have := ivl_inside q' t a
    simp only [List.nil_append, ivl]
    omega
  | cons i q ih =>
    simp only [List.cons_append, ivl]
    cases h : findKid i t.parts a with
    | none => simp
    | some x => exact ih x.2 x.1

/-! ### A node laid out over lines -/

/-- `Laid S d id t a f b g`: (a part of) the tree of node `id` is on the lines from `a` to `b`, and so are the
    nodes inside of it, at the places that are given by the plan; `f` says whether there may be a child on the first
    line, and `g` whether another one could be added to the last line. -/
inductive Laid (S : Plan P) : Nat → P.Id → NTree P → Nat → Bool → Nat → Bool → Prop where
  | empty {d id a f} : Laid S d id .empty a f a f
  | plain {d id t a f} : t.IsPlain → t.span = 0 → Laid S d id t a f a f
  | newline {d id ind a f} : Laid S d id (.newline ind) a f (a + 1) true
  | concat {d id t u a f b g c h} : Laid S d id t a f b g → Laid S d id u b g c h → Laid S d id (.concat t u) a f c h
  | child {d id i cid tc g} : S.loc cid = S.loc id ++ [i] → Laid S d cid tc (S.st cid) true (S.en cid) g →
      Laid S (d + 1) id (.child i (.ok cid) tc) (S.st cid) true (S.en cid) false

/-- The same plan for the dimmed document. -/
def Plan.dim (S : Plan P) (o : P.Node → Bool) : Plan (P.dimmed o) := ⟨S.loc, S.st, S.en, S.oi⟩

variable {S : Plan P} {o : P.Node → Bool}

theorem Laid.dims {d id t a f b g s t' s'} (h : Laid S d id t a f b g) (hd : Dims (o := o) S.oi t s t' s') :
    (S.dim o).Placed (shown (P := P.dimmed o) id t') a b ∧ Sp f (shown (P := P.dimmed o) id t') g ∧
      (S.dim o).Ok t' id := by
  induction hd generalizing d id a f b g with
  | fail =>
    cases h with
    | plain h _ => exact h.elim
  | empty =>
    cases h with
    | empty => exact ⟨.nil, .nil, trivial⟩
    | plain h _ => exact h.elim
  | eol =>
    cases h with
    | plain _ _ => exact ⟨.flat trivial (by rintro ⟨_, h⟩; cases h) .nil, .flat trivial (by rintro ⟨_, h⟩; cases h) .nil, trivial⟩
  | mark =>
    cases h with
    | plain _ _ => exact ⟨.flat trivial (by rintro ⟨_, h⟩; cases h) .nil, .flat trivial (by rintro ⟨_, h⟩; cases h) .nil, trivial⟩
  | text =>
    cases h with
    | plain _ _ => exact ⟨.flat trivial (by rintro ⟨_, h⟩; cases h) .nil, .flat trivial (by rintro ⟨_, h⟩; cases h) .nil, trivial⟩
  | newline =>
    cases h with
    | plain _ h => cases h
    | newline => exact ⟨.newline ⟨_, rfl⟩ .nil, .newline ⟨_, rfl⟩ .nil, trivial⟩
  | concat _ _ iha ihb =>
    cases h with
    | plain h _ => exact h.elim
    | concat h1 h2 =>
      obtain ⟨h3, h4, h5⟩ := iha h1
      obtain ⟨h6, h7, h8⟩ := ihb h2
      simp only [shown, NTree.parts, List.map_append]
      exact ⟨h3.append h6, h4.append h7, h5, h8⟩
  | choice _ _ _ _ =>
    cases h with
    | plain h _ => exact h.elim
  | step _ ih => exact ih h
  | opened ho _ ih =>
    cases h with
    | plain h _ => exact h.elim
    | child hl h =>
      obtain ⟨h1, h2, h3⟩ := ih h
      refine ⟨?_, .item (fun h => h) .nil, hl, fun _ => ⟨h1, ⟨_, h2⟩, h3⟩, fun h => ?_⟩
      · exact .child (S := S.dim o) .nil
      · have h : S.oi _ = false := h
        rw [ho] at h
        cases h
  | noId =>
    cases h with
    | plain h _ => exact h.elim
  | dark ho =>
    cases h with
    | plain h _ => exact h.elim
    | child hl h =>
      refine ⟨?_, .item (fun h => h) .nil, hl, fun h => ?_, fun _ => ⟨_, rfl⟩⟩
      · exact .child (S := S.dim o) .nil
      · have h : S.oi _ = true := h
        rw [ho] at h
        cases h

/-! ### Work -/

/-- How many of the lines from `lo` to `hi` there are from line `x` to before line `y`. -/
def countIn (lo hi x y : Nat) : Nat := min (hi + 1) y - max lo x

/-- The first line on which there could be another child. -/
def cursor (a : Nat) (f : Bool) : Nat := if f then a else a + 1

theorem Laid.cursor_le {d id t a f b g} (hS : ∀ cid, S.st cid ≤ S.en cid) (h : Laid S d id t a f b g) :
    cursor a f ≤ cursor b g := by
  induction h with
  | empty => exact Nat.le_refl _
  | plain => exact Nat.le_refl _
  | newline => simp only [cursor]; split <;> simp
  | concat _ _ iha ihb => exact Nat.le_trans iha ihb
  | @child d id i cid tc g _ _ _ =>
    have := hS cid
    simp only [cursor, if_true]
    simp; omega

theorem countIn_add (lo hi : Nat) {x y z : Nat} (h1 : x ≤ y) (h2 : y ≤ z) :
    countIn lo hi x y + countIn lo hi y z ≤ countIn lo hi x z := by
  unfold countIn; omega

theorem Laid.work {c lo hi w : Nat} (hS : ∀ cid, S.st cid ≤ S.en cid)
    (ho : ∀ cid, S.oi cid = true → S.st cid ≤ hi ∧ lo ≤ S.en cid) (hlh : lo ≤ hi)
    {d id t a f b g s t' s'} (h : Laid S d id t a f b g) (hd : Dims (o := o) S.oi t s t' s') (hs : s.KidsAtMost c)
    (after : Nat → Nat) :
    s'.work w after ≤ s.own + c * d * countIn lo hi (cursor a f) (cursor b g) := by
  induction hd generalizing d id a f b g after with
  | fail =>
    cases h with
    | plain h _ => exact h.elim
  | empty => simp only [Shape.work, Shape.own]; omega
  | eol => simp only [Shape.work, Shape.own]; omega
  | mark => simp only [Shape.work, Shape.own]; omega
  | text => simp only [Shape.work, Shape.own]; omega
  | newline => simp only [Shape.work, Shape.own]; omega
  | concat _ _ iha ihb =>
    cases h with
    | plain h _ => exact h.elim
    | @concat _ _ _ _ _ _ m gm _ _ h1 h2 =>
      rename_i sa sb _ _ sa' sb' _ _
      have e1 := iha h1 hs.1 (sb'.ahead after)
      have e2 := ihb h2 hs.2 after
      have e3 := Nat.mul_le_mul_left (c * d) (countIn_add lo hi (h1.cursor_le hS) (h2.cursor_le hS))
      rw [Nat.mul_add] at e3
      simp only [Shape.work, Shape.own]
      omega
  | choice _ _ _ _ =>
    cases h with
    | plain h _ => exact h.elim
  | step _ ih =>
    have := ih h hs after
    simp only [Shape.work, Shape.own]
    omega
  | @opened i cid tc s tc' s' hop _ ih =>
    cases h with
    | plain h _ => exact h.elim
    | @child d _ _ _ _ g _ h =>
      have e := ih h hs.2 after
      have hc : cursor (S.en cid) g ≤ S.en cid + 1 := by unfold cursor; split <;> omega
      have hn : 1 ≤ countIn lo hi (S.st cid) (S.en cid + 1) := by
        have := ho cid hop
        have := hS cid
        unfold countIn; omega
      have hm : countIn lo hi (S.st cid) (cursor (S.en cid) g) ≤ countIn lo hi (S.st cid) (S.en cid + 1) := by
        unfold countIn; omega
      simp only [cursor, if_true] at e hm ⊢
      simp only [Shape.work, Shape.own, Bool.false_eq_true, if_false]
      generalize countIn lo hi (S.st cid) (S.en cid + 1) = N at hn hm ⊢
      have e1 := Nat.mul_le_mul_left (c * d) hm
      have e2 := Nat.mul_le_mul_left c hn
      have e3 : c * (d + 1) * N = c * d * N + c * N := by rw [Nat.mul_add, Nat.add_mul, Nat.mul_one]
      have := hs.1
      omega
  | noId =>
    cases h with
    | plain h _ => exact h.elim
  | dark _ => simp only [Shape.work, Shape.own]; omega

/-! ### The plan of a document -/

open Classical in
/-- The plan of the document: which nodes are there, on which lines; the nodes that are on the lines from `lo` to `hi`
    are open. -/
noncomputable def planOf (root : P.Id × NTree P) (lo hi : Nat) : Plan P :=
  let loc := fun cid => if h : ∃ q t, NodeAt root q cid t then h.choose else []
  { loc := loc
    st := fun cid => (ivl root.2 0 (loc cid)).1
    en := fun cid => (ivl root.2 0 (loc cid)).2
    oi := fun cid => decide ((ivl root.2 0 (loc cid)).1 ≤ hi ∧ lo ≤ (ivl root.2 0 (loc cid)).2) }

variable {root : P.Id × NTree P} {lo hi : Nat}

theorem planOf_loc (hu : UniqueIds root) {q cid t} (h : NodeAt root q cid t) : (planOf root lo hi).loc cid = q := by
  have hx : ∃ q t, NodeAt root q cid t := ⟨q, t, h⟩
  have e : (planOf root lo hi).loc cid = hx.choose := dif_pos hx
  rw [e]
  obtain ⟨t', h'⟩ := hx.choose_spec
  exact hu _ _ _ _ _ h' h

theorem planOf_st (cid : P.Id) : (planOf root lo hi).st cid = (ivl root.2 0 ((planOf root lo hi).loc cid)).1 := rfl
theorem planOf_en (cid : P.Id) : (planOf root lo hi).en cid = (ivl root.2 0 ((planOf root lo hi).loc cid)).2 := rfl
theorem planOf_oi (cid : P.Id) : (planOf root lo hi).oi cid = true ↔
    (planOf root lo hi).st cid ≤ hi ∧ lo ≤ (planOf root lo hi).en cid := decide_eq_true_iff

/-- Whether there may be another child on the last line of these parts. -/
def flagAfter (f : Bool) : List (NTree P) → Bool
  | [] => f
  | .newline _ :: ps => flagAfter true ps
  | .child _ _ _ :: ps => flagAfter false ps
  | _ :: ps => flagAfter f ps

theorem flagAfter_append (f : Bool) (A B : List (NTree P)) : flagAfter f (A ++ B) = flagAfter (flagAfter f A) B := by
  induction A generalizing f with
  | nil => rfl
  | cons p A ih => cases p <;> exact ih _

theorem flagAfter_false {f : Bool} {A : List (NTree P)} (h : flagAfter f A = false) :
    f = false ∧ (∀ ind, .newline ind ∉ A) ∨
    ∃ A' i c t B, A = A' ++ .child i c t :: B ∧ ∀ ind, .newline ind ∉ B := by
  induction A generalizing f with
  | nil => exact .inl ⟨h, by simp⟩
  | cons p A ih =>
    have later : (∃ A' i c t B, A = A' ++ .child i c t :: B ∧ ∀ ind, .newline ind ∉ B) →
        ∃ A' i c t B, p :: A = A' ++ .child i c t :: B ∧ ∀ ind, .newline ind ∉ B := by
      rintro ⟨A', i, c, t, B, rfl, hB⟩
      exact ⟨p :: A', i, c, t, B, rfl, hB⟩
    cases p with
    | newline ind =>
      rcases ih (f := true) h with ⟨h1, _⟩ | h1
      · cases h1
      · exact .inr (later h1)
    | child i c t =>
      rcases ih (f := false) h with ⟨_, h1⟩ | h1
      · exact .inr ⟨[], i, c, t, A, rfl, h1⟩
      · exact .inr (later h1)
    | _ =>
      rcases ih (f := f) h with ⟨h1, h2⟩ | h1
      · exact .inl ⟨h1, by simp [h2]⟩
      · exact .inr (later h1)

theorem NTree.IsPlain.cases {t : NTree P} (h : t.IsPlain) : t.span = 0 ∧ t.parts = [t] ∧ (∀ f, flagAfter f [t] = f) ∨
    ∃ ind, t = .newline ind := by
  cases t with
  | newline ind => exact .inr ⟨ind, rfl⟩
  | text _ => exact .inl ⟨rfl, rfl, fun _ => rfl⟩
  | mark => exact .inl ⟨rfl, rfl, fun _ => rfl⟩
  | eol => exact .inl ⟨rfl, rfl, fun _ => rfl⟩
  | _ => exact h.elim

theorem NestedRows.part {d : Nat} {t : NTree P} (h : NestedRows d t) {p} (hp : p ∈ t.parts) :
    p.IsPlain ∨ ∃ d' i id tc, d = d' + 1 ∧ p = .child i (.ok id) tc ∧ NestedRows d' tc := by
  cases d with
  | zero => exact .inl (h p hp)
  | succ d =>
    rcases h.2 p hp with h | ⟨i, id, tc, rfl, h⟩
    · exact .inl h
    · exact .inr ⟨d, i, id, tc, rfl, rfl, h⟩

theorem NestedRows.separate {d : Nat} {t : NTree P} (h : NestedRows d t) : SeparateLines t.parts := by
  cases d with
  | zero =>
    intro A i r t' B j r' t'' C e
    exact (h (.child i r t') (by rw [e]; simp)).elim
  | succ d => exact h.1

theorem laid_parts {S : Plan P} {d : Nat} {id : P.Id} {tp : NTree P} (hr : NestedRows d tp)
    (hkid : ∀ A i cid tc B d', tp.parts = A ++ .child i (.ok cid) tc :: B → (∀ k c t, .child k c t ∈ A → k ≠ i) →
      d = d' + 1 → NestedRows d' tc → S.loc cid = S.loc id ++ [i] ∧ S.st cid = S.st id + spans A ∧
        S.en cid = S.st cid + tc.span ∧ ∃ g, Laid S d' cid tc (S.st cid) true (S.en cid) g)
    (u : NTree P) : ∀ A B, tp.parts = A ++ u.parts ++ B →
      Laid S d id u (S.st id + spans A) (flagAfter true A) (S.st id + spans A + u.span)
        (flagAfter (flagAfter true A) u.parts) := by
  induction u with
  | empty => intro A B _; exact .empty
  | concat a b iha ihb =>
    intro A B e
    have h1 := iha A (b.parts ++ B) (by rw [e]; simp [NTree.parts])
    have h2 := ihb (A ++ a.parts) B (by rw [e]; simp [NTree.parts])
    rw [spans_append, spans_parts, flagAfter_append] at h2
    simp only [NTree.span, NTree.parts, flagAfter_append]
    have := h1.concat (by rw [Nat.add_assoc]; exact h2)
    simpa only [Nat.add_assoc] using this
  | child i c tc _ =>
    intro A B e
    have e' : tp.parts = A ++ .child i c tc :: B := by rw [e]; simp [NTree.parts]
    rcases hr.part (p := .child i c tc) (by rw [e']; simp) with h | ⟨d', i', cid, tc', hd, h1, h2⟩
    · exact h.elim
    · cases h1
      have hA : ∀ k c t, .child k c t ∈ A → k ≠ i := by
        intro k c t hm
        obtain ⟨A1, A2, rfl⟩ := List.append_of_mem hm
        exact (hr.separate A1 k c t A2 i (.ok cid) tc B (by rw [e']; simp)).1
      obtain ⟨h3, h4, h5, g, h6⟩ := hkid A i cid tc B d' e' hA hd h2
      have hf : flagAfter true A = true := by
        cases hf : flagAfter true A with
        | true => rfl
        | false =>
          rcases flagAfter_false hf with ⟨h, _⟩ | ⟨A1, k, c, t, A2, rfl, h⟩
          · cases h
          · obtain ⟨-, ind, h7⟩ := hr.separate A1 k c t A2 i (.ok cid) tc B (by rw [e']; simp)
            exact absurd h7 (h ind)
      rw [hf, ← h4, show (NTree.child i (Except.ok cid) tc).span = tc.span from rfl, ← h5, hd]
      exact .child h3 h6
  | newline ind => intro A B _; exact .newline
  | text tx => intro A B _; exact .plain trivial rfl
  | mark => intro A B _; exact .plain trivial rfl
  | eol => intro A B _; exact .plain trivial rfl
  | fail f =>
    intro A B e
    rcases hr.part (p := .fail f) (by rw [e]; simp [NTree.parts]) with h | ⟨_, _, _, _, _, h, _⟩
    · exact h.elim
    · cases h
  | choice a b _ _ =>
    intro A B e
    rcases hr.part (p := .choice a b) (by rw [e]; simp [NTree.parts]) with h | ⟨_, _, _, _, _, h, _⟩
    · exact h.elim
    · cases h

theorem planOf_laid (hu : UniqueIds root) {d q id t} (hn : NodeAt root q id t) (hr : NestedRows d t)
    (hi' : ∀ q', ivl root.2 0 (q ++ q') = ivl t ((planOf root lo hi).st id) q') :
    ∃ g, Laid (planOf root lo hi) d id t ((planOf root lo hi).st id) true ((planOf root lo hi).st id + t.span) g := by
  induction d using Nat.strongRecOn generalizing q id t with
  | _ d ih =>
    have hl := planOf_loc (lo := lo) (hi := hi) hu hn
    have h := laid_parts (S := planOf root lo hi) (id := id) hr ?_ t [] [] (by simp)
    · refine ⟨flagAfter true t.parts, ?_⟩
      simpa [spans, flagAfter] using h
    · intro A i cid tc B d' e hA hd hr'
      have hn' := hn.child (i := i) (cid := cid) (tc := tc) (by rw [e]; simp)
      have hl' := planOf_loc (lo := lo) (hi := hi) hu hn'
      have hiv : ∀ q', ivl root.2 0 (q ++ [i] ++ q') = ivl tc ((planOf root lo hi).st id + spans A) q' := by
        intro q'
        rw [show q ++ [i] ++ q' = q ++ i :: q' by simp, hi' (i :: q')]
        simp only [ivl]
        rw [e, findKid_first hA]
      have h0 := hiv []
      rw [List.append_nil] at h0
      have hst : (planOf root lo hi).st cid = (planOf root lo hi).st id + spans A := by
        rw [planOf_st cid, hl', h0]; rfl
      have hen : (planOf root lo hi).en cid = (planOf root lo hi).st cid + tc.span := by
        rw [planOf_en cid, hl', h0, hst]; rfl
      refine ⟨by rw [hl', hl], hst, hen, ?_⟩
      rw [hen]
      exact ih d' (by omega) hn' hr' (by rw [hst]; exact hiv)

end PPP
