import Verif.Proofs.Loops
/-
Seeking to a child.
-/
namespace PPP
variable {P : PrettyDoc} (Q : Pred P)

/-- Put more tokens in front of a located node. -/
def Located.pre (T : List (Tok P)) (l : Located P) : Located P := { l with before := T ++ l.before }
/-- Put more tokens after a located node. -/
def Located.post (T : List (Tok P)) (l : Located P) : Located P := { l with after := l.after ++ T }

@[simp] theorem Located.pre_nil (l : Located P) : l.pre [] = l := rfl
@[simp] theorem Located.pre_pre (T T' : List (Tok P)) (l : Located P) :
    (l.pre T').pre T = l.pre (T ++ T') := by simp [Located.pre]

/-- The first child `i` displayed by the node `pid`, in a flattened layout. -/
def findItems (pid : P.Id) (i : Nat) : List (P.Id × LTree P) → Option (Located P)
  | [] => none
  | x :: rest =>
    match (if x.1 = pid then x.2.findChild i else none) with
    | some l => some (l.post (itemToks rest))
    | none => (findItems pid i rest).map (Located.pre x.2.toks)

theorem findItems_cons_none {pid : P.Id} {i : Nat} {x : P.Id × LTree P}
    (h : x.1 ≠ pid ∨ x.2.findChild i = none) (rest) :
    findItems pid i (x :: rest) = (findItems pid i rest).map (Located.pre x.2.toks) := by
  simp only [findItems]
  rcases h with h | h
  · simp [h]
  · by_cases hx : x.1 = pid <;> simp [hx, h]

theorem findItems_append_none {pid : P.Id} {i : Nat} {xs : List (P.Id × LTree P)}
    (h : ∀ x ∈ xs, x.1 ≠ pid ∨ x.2.findChild i = none) (rest) :
    findItems pid i (xs ++ rest) = (findItems pid i rest).map (Located.pre (itemToks xs)) := by
  induction xs with
  | nil => simp; cases findItems pid i rest <;> rfl
  | cons x xs ih =>
    rw [List.cons_append, findItems_cons_none (h x (by simp)), ih (fun y hy => h y (by simp [hy]))]
    cases findItems pid i rest <;> simp

theorem findItems_none {pid : P.Id} {i : Nat} {xs : List (P.Id × LTree P)}
    (h : ∀ x ∈ xs, x.1 ≠ pid ∨ x.2.findChild i = none) : findItems pid i xs = none := by
  have := findItems_append_none h []
  simpa [findItems] using this

/-- Looking in the flattened layout of a node is looking in the layout. -/
theorem findItems_flat (pid : P.Id) (i : Nat) (L : LTree P) (rest)
    (h : ∀ x ∈ rest, x.1 ≠ pid) :
    findItems pid i (tag pid L.flat ++ rest) = (L.findChild i).map (Located.post (itemToks rest)) := by
  have gen : ∀ (L : LTree P) (rest : List (P.Id × LTree P)),
      findItems pid i (tag pid L.flat ++ rest) =
        match L.findChild i with
        | some l => some (l.post (itemToks rest))
        | none => (findItems pid i rest).map (Located.pre L.toks) := by
    intro L
    induction L with
    | empty => intro rest; simp [LTree.flat, LTree.findChild, LTree.toks]; cases findItems pid i rest <;> rfl
    | concat a b iha ihb =>
      intro rest
      simp only [LTree.flat, tag_append, List.append_assoc, iha, ihb, LTree.findChild, LTree.toks]
      cases ha : a.findChild i with
      | some l =>
        simp only [Located.post, itemToks_append, itemToks_tag_flat]
        simp
      | none =>
        simp only []
        cases hb : b.findChild i with
        | some l => simp [Located.post, Located.pre]
        | none => cases findItems pid i rest <;> simp
    | eol | newline | text | mark => intro rest; simp [LTree.flat, findItems, LTree.findChild]
    | child p j c t => intro rest; simp [LTree.flat, findItems]
  rw [gen]
  cases L.findChild i with
  | some l => rfl
  | none =>
    have : findItems pid i rest = none := findItems_none fun x hx => .inl (h x hx)
    simp [this]

/-! ### Ids in the sequence -/

theorem spine_all {A : NTree P → Prop} (hA : ∀ a b, A (.concat a b) → A a ∧ A b) {t : NTree P} :
    ∀ {s}, A t → t.spine = .ok s → ∀ x ∈ s, A x := by
  induction t with
  | concat a b iha ihb =>
    intro s h hs x hx
    obtain ⟨sa, sb, ha, hb, rfl⟩ := NTree.spine_concat_ok hs
    rcases List.mem_append.1 hx with hx | hx
    · exact iha (hA _ _ h).1 ha x hx
    · exact ihb (hA _ _ h).2 hb x hx
  | newline ind =>
    intro s h hs x hx; simp [NTree.spine] at hs; split at hs <;> simp at hs
    subst hs; simp at hx; subst hx; exact h
  | fail f => intro s h hs; simp [NTree.spine] at hs
  | empty => intro s h hs x hx; simp [NTree.spine] at hs; subst hs; simp at hx
  | _ => intro s h hs x hx; simp [NTree.spine] at hs; subst hs; simp at hx; subst hx; exact h

/-- Where the id `pid` may occur in the items while seeking to one of its children: first items of
    descendants, then items of the node itself, then items of its ancestors. -/
def IdInv (pid : P.Id) (ys : List (Item P)) : Prop :=
  ∃ desc own outer, ys = desc ++ (own ++ outer) ∧
    (∀ x ∈ desc, x.1 ≠ pid ∧ x.2.IdAbsent pid) ∧
    (∀ x ∈ own, x.1 = pid ∧ x.2.IdsDistinct pid ∧ ∀ o ∈ outer, x.2.IdAbsent o.1) ∧
    (∀ x ∈ outer, x.1 ≠ pid)

theorem IdInv.tail {pid : P.Id} {x : Item P} {ys} (h : IdInv pid (x :: ys)) : IdInv pid ys := by
  obtain ⟨desc, own, outer, h1, h2, h3, h4⟩ := h
  match desc, own, outer with
  | d :: desc, own, outer =>
    simp at h1
    exact ⟨desc, own, outer, h1.2, fun x hx => h2 x (by simp [hx]), h3, h4⟩
  | [], o :: own, outer =>
    simp at h1
    exact ⟨[], own, outer, h1.2, by simp, fun x hx => h3 x (by simp [hx]), h4⟩
  | [], [], o :: outer =>
    simp at h1
    exact ⟨[], [], outer, h1.2, by simp, by simp, fun x hx => h4 x (by simp [hx])⟩
  | [], [], [] => simp at h1

theorem IdInv.drop {pid : P.Id} {xs ys : List (Item P)} (h : IdInv pid (xs ++ ys)) :
    IdInv pid ys := by
  induction xs with
  | nil => exact h
  | cons x xs ih => exact ih h.tail

theorem IdInv.child {pid : P.Id} {id j c t s} {ys : List (Item P)}
    (h : IdInv pid ((id, .child j (.ok c) t) :: ys))
    (hex : ∃ y ∈ ((id, .child j (.ok c) t) :: ys : List (Item P)), y.1 = pid)
    (hs : t.spine = .ok s) : c ≠ pid ∧ IdInv pid (tag c s ++ ys) := by
  obtain ⟨desc, own, outer, h1, h2, h3, h4⟩ := h
  have hdesc : c ≠ pid → t.IdAbsent pid → ∀ x ∈ tag c s, x.1 ≠ pid ∧ x.2.IdAbsent pid := by
    intro hc ha x hx
    simp only [tag, List.mem_map] at hx
    obtain ⟨y, hy, rfl⟩ := hx
    exact ⟨hc, spine_all (A := fun t => t.IdAbsent pid) (fun _ _ h => h) ha hs y hy⟩
  match desc, own with
  | d :: desc, own =>
    simp at h1
    obtain ⟨rfl, rfl⟩ := h1
    have hd := (h2 _ (List.mem_cons_self)).2
    have hc : c ≠ pid := fun hc => hd.1 (by rw [hc])
    refine ⟨hc, tag c s ++ desc, own, outer, by simp, ?_, h3, h4⟩
    intro x hx
    rcases List.mem_append.1 hx with hx | hx
    · exact hdesc hc hd.2 x hx
    · exact h2 x (by simp [hx])
  | [], o :: own =>
    simp at h1
    obtain ⟨rfl, rfl⟩ := h1
    have ho := (h3 _ (List.mem_cons_self))
    have hd := ho.2.1
    have hc : c ≠ pid := fun hc => hd.1 (by rw [hc])
    refine ⟨hc, tag c s, own, outer, by simp, hdesc hc hd.2.1, fun x hx => h3 x (by simp [hx]), h4⟩
  | [], [] =>
    simp at h1
    subst h1
    obtain ⟨y, hy, hpid⟩ := hex
    exact absurd hpid (h4 y hy)

theorem IdInv.choice {pid : P.Id} {id a b s} {r : Bool} {ys : List (Item P)}
    (h : IdInv pid ((id, .choice a b) :: ys))
    (hex : ∃ y ∈ ((id, .choice a b) :: ys : List (Item P)), y.1 = pid)
    (hs : (if r then a else b).spine = .ok s) : IdInv pid (tag id s ++ ys) := by
  obtain ⟨desc, own, outer, h1, h2, h3, h4⟩ := h
  match desc, own with
  | d :: desc, own =>
    simp at h1
    obtain ⟨rfl, rfl⟩ := h1
    have hd := (h2 _ (List.mem_cons_self))
    refine ⟨tag id s ++ desc, own, outer, by simp, ?_, h3, h4⟩
    intro x hx
    rcases List.mem_append.1 hx with hx | hx
    · simp only [tag, List.mem_map] at hx
      obtain ⟨y, hy, rfl⟩ := hx
      refine ⟨hd.1, spine_all (A := fun t => t.IdAbsent pid) (fun _ _ h => h) ?_ hs y hy⟩
      cases r
      · exact hd.2.2
      · exact hd.2.1
    · exact h2 x (by simp [hx])
  | [], o :: own =>
    simp at h1
    obtain ⟨rfl, rfl⟩ := h1
    have ho := (h3 _ (List.mem_cons_self))
    refine ⟨[], tag id s ++ own, outer, by simp, by simp, ?_, h4⟩
    intro x hx
    rcases List.mem_append.1 hx with hx | hx
    · simp only [tag, List.mem_map] at hx
      obtain ⟨y, hy, rfl⟩ := hx
      refine ⟨ho.1, spine_all (A := fun t => t.IdsDistinct pid) (fun _ _ h => h) ?_ hs y hy, ?_⟩
      · cases r
        · exact ho.2.1.2
        · exact ho.2.1.1
      · intro o' ho'
        refine spine_all (A := fun t => t.IdAbsent o'.1) (fun _ _ h => h) ?_ hs y hy
        have := ho.2.2 o' ho'
        cases r
        · exact this.2
        · exact this.1
    · exact h3 x (by simp [hx])
  | [], [] =>
    simp at h1
    subst h1
    obtain ⟨y, hy, hpid⟩ := hex
    exact absurd hpid (h4 y hy)

/-- When the child has been found, nothing that follows belongs to it. -/
theorem IdInv.found {pid : P.Id} {j c t} {ys : List (Item P)}
    (h : IdInv pid ((pid, .child j (.ok c) t) :: ys)) :
    t.IdsDistinct c ∧ (∀ y ∈ ys, y.1 ≠ c ∧ t.IdAbsent y.1) := by
  obtain ⟨desc, own, outer, h1, h2, h3, h4⟩ := h
  match desc, own with
  | d :: desc, own =>
    simp at h1
    obtain ⟨rfl, rfl⟩ := h1
    exact absurd rfl (h2 _ (List.mem_cons_self)).1
  | [], o :: own =>
    simp at h1
    obtain ⟨rfl, rfl⟩ := h1
    have ho := (h3 _ (List.mem_cons_self))
    have hd := ho.2.1
    refine ⟨hd.2.2 c rfl, ?_⟩
    intro y hy
    rcases List.mem_append.1 hy with hy | hy
    · have := (h3 y (by simp [hy])).1
      rw [this]
      exact ⟨fun hc => hd.1 (by rw [hc]), hd.2.1⟩
    · have := ho.2.2 y hy
      exact ⟨fun hc => this.1 (by rw [hc]), this.2⟩
  | [], [] =>
    simp at h1
    have := h4 (pid, .child j (.ok c) t) (by simp [← h1])
    simp at this

/-! ### Advancing while searching -/

/-- Like `Adv`; and if `I` holds then what is searched is still ahead. -/
def AdvF (I : Prop) (pid : P.Id) (i : Nat) (w : Nat) (S S' : AS P) : Prop :=
  (S.D w [] = none ∧ S'.D w [] = none) ∨
  ∃ ls ls' st Ls Ls' T1, S.D w [] = some (ls, st, Ls) ∧ S'.D w [] = some (ls', st, Ls') ∧
    itemToks Ls = T1 ++ itemToks Ls' ∧ (∀ B, ls = linesOf B → ls' = linesOf (B ++ T1)) ∧
    (I → findItems pid i Ls = (findItems pid i Ls').map (Located.pre T1))

variable {I : Prop} {pid : P.Id} {i : Nat}

theorem AdvF.of_D_eq {w : Nat} {S S' : AS P} (h : S.D w [] = S'.D w []) :
    AdvF I pid i w S S' := by
  match hD : S.D w [] with
  | none => exact .inl ⟨hD, h ▸ hD⟩
  | some (ls, st, Ls) =>
    refine .inr ⟨ls, ls, st, Ls, Ls, [], hD, h ▸ hD, rfl, by simp, fun _ => ?_⟩
    cases findItems pid i Ls <;> rfl

theorem AdvF.refl (w : Nat) (S : AS P) : AdvF I pid i w S S := .of_D_eq rfl

theorem AdvF.trans {w : Nat} {S S' S'' : AS P} (h : AdvF I pid i w S S')
    (h' : AdvF I pid i w S' S'') : AdvF I pid i w S S'' := by
  rcases h with ⟨h1, h2⟩ | ⟨ls, ls', st, Ls, Ls', T1, h1, h2, h3, h4, h5⟩
  · rcases h' with ⟨g1, g2⟩ | ⟨_, _, _, _, _, _, g1, _⟩
    · exact .inl ⟨h1, g2⟩
    · simp [h2] at g1
  · rcases h' with ⟨g1, g2⟩ | ⟨gs, gs', gt, Gs, Gs', G1, g1, g2, g3, g4, g5⟩
    · simp [h2] at g1
    · rw [h2] at g1
      injection g1 with g1; injection g1 with ga g1; injection g1 with gb gc
      subst ga gb gc
      refine .inr ⟨ls, gs', st, Ls, Gs', T1 ++ G1, h1, g2, by rw [h3, g3, List.append_assoc], ?_, ?_⟩
      · intro B hB
        rw [← List.append_assoc]
        exact g4 _ (h4 _ hB)
      · intro hI
        rw [h5 hI, g5 hI]
        cases findItems pid i Gs' <;> simp

theorem AdvF.none_left {w : Nat} {S S' : AS P} (h : AdvF I pid i w S S')
    (hn : S'.D w [] = none) : S.D w [] = none := by
  rcases h with ⟨h1, _⟩ | ⟨_, _, _, _, _, _, _, h2, _⟩
  · exact h1
  · simp [hn] at h2

theorem AdvF.adv {w : Nat} {S S' : AS P} (h : AdvF I pid i w S S') : Adv w [] S S' := by
  rcases h with h | ⟨ls, ls', st, Ls, Ls', T1, h1, h2, h3, h4, _⟩
  · exact .inl h
  · exact .inr ⟨ls, ls', st, Ls, Ls', T1, h1, h2, h3, h4, fun _ _ => trivial⟩

/-- An `Adv` step in which the passed part of the layout does not show the child. -/
theorem AdvF.of_adv {w : Nat} {S S' : AS P} (h : Adv w [] S S')
    (hfind : I → ∀ ls st Ls ls' st' Ls', S.D w [] = some (ls, st, Ls) →
      S'.D w [] = some (ls', st', Ls') → ∃ T, itemToks Ls = T ++ itemToks Ls' ∧
      findItems pid i Ls = (findItems pid i Ls').map (Located.pre T)) : AdvF I pid i w S S' := by
  rcases h with h | ⟨ls, ls', st, Ls, Ls', T1, h1, h2, h3, h4, _⟩
  · exact .inl h
  · refine .inr ⟨ls, ls', st, Ls, Ls', T1, h1, h2, h3, h4, fun hI => ?_⟩
    obtain ⟨T, g1, g2⟩ := hfind hI _ _ _ _ _ _ h1 h2
    have : T = T1 := by rw [h3] at g1; exact (List.append_cancel_right g1).symm
    rw [← this]; exact g2

theorem D_some {w : Nat} {k} {S : AS P} {ls st Ls} (h : S.D w k = some (ls, st, Ls)) :
    ∃ ls0, prevLines w S.pv = some ls0 ∧ ls = ls0 ++ [S.segs] ∧
      lay w S.items k S.st = .ok (st, Ls) := by
  unfold AS.D at h
  cases hp : prevLines w S.pv with
  | none => simp [hp] at h
  | some ls0 =>
    rw [hp, Option.bind_some] at h
    cases hl : lay w S.items k S.st with
    | error _ => simp [hl] at h
    | ok r => simp [hl] at h; exact ⟨ls0, rfl, h.1.symm, by rw [← h.2.1, ← h.2.2]⟩

theorem lay_cons_ok {w : Nat} {x : Item P} {xs k st st2 Ls} (h : lay w (x :: xs) k st = .ok (st2, Ls)) :
    ∃ st1 L Ls', x.2.layout w x.1 (trees xs ++ k) st = .ok (st1, L) ∧
      lay w xs k st1 = .ok (st2, Ls') ∧ Ls = tag x.1 L.flat ++ Ls' := by
  simp only [lay] at h
  cases hx : x.2.layout w x.1 (trees xs ++ k) st with
  | error _ => simp [hx] at h
  | ok r =>
    simp only [hx] at h
    cases hl : lay w xs k r.1 with
    | error _ => simp [hl] at h
    | ok r' =>
      simp [hl] at h
      exact ⟨r.1, r.2, r'.2, rfl, by rw [hl, ← h.1], h.2.symm⟩

theorem AdvF.text {w : Nat} {pv : List (BSpec P)} {segs st id t xs}
    (he : st.eol = false) (hw : st.col + t.width ≤ maxWidth) :
    AdvF I pid i w ⟨pv, segs, st, (id, .text t) :: xs⟩
      ⟨pv, segs ++ [t.segment], ⟨st.col + t.width, false⟩, xs⟩ := by
  refine .of_adv (.text he hw trivial) ?_
  intro _ ls st2 Ls ls' st2' Ls' h1 h2
  obtain ⟨_, _, _, h1⟩ := D_some h1
  obtain ⟨_, _, _, h2⟩ := D_some h2
  obtain ⟨st1, L, Ls1, g1, g2, rfl⟩ := lay_cons_ok h1
  simp [NTree.layout, he, hw] at g1
  obtain ⟨rfl, rfl⟩ := g1
  simp only at h2
  rw [h2] at g2
  simp at g2
  obtain ⟨rfl, rfl⟩ := g2
  exact ⟨[.text t], by simp [LTree.flat, LTree.toks], by
    rw [show (tag id (LTree.text t).flat ++ Ls') = (id, .text t) :: Ls' from rfl,
      findItems_cons_none (.inr rfl)]; rfl⟩

theorem AdvF.eol {w : Nat} {pv : List (BSpec P)} {segs st id xs} :
    AdvF I pid i w ⟨pv, segs, st, (id, .eol) :: xs⟩ ⟨pv, segs, ⟨st.col, true⟩, xs⟩ := by
  refine .of_adv (.eol trivial) ?_
  intro _ ls st2 Ls ls' st2' Ls' h1 h2
  obtain ⟨_, _, _, h1⟩ := D_some h1
  obtain ⟨_, _, _, h2⟩ := D_some h2
  obtain ⟨st1, L, Ls1, g1, g2, rfl⟩ := lay_cons_ok h1
  simp [NTree.layout] at g1
  obtain ⟨rfl, rfl⟩ := g1
  simp only at h2
  rw [h2] at g2
  simp at g2
  obtain ⟨rfl, rfl⟩ := g2
  exact ⟨[.eol], by simp [LTree.flat, LTree.toks], by
    rw [show (tag id (LTree.eol).flat ++ Ls') = (id, .eol) :: Ls' from rfl,
      findItems_cons_none (.inr rfl)]; rfl⟩

theorem AdvF.mark {w : Nat} {pv : List (BSpec P)} {segs st id xs} :
    AdvF I pid i w ⟨pv, segs, st, (id, .mark) :: xs⟩ ⟨pv, segs, st, xs⟩ := by
  refine .of_adv (.mark trivial) ?_
  intro _ ls st2 Ls ls' st2' Ls' h1 h2
  obtain ⟨_, _, _, h1⟩ := D_some h1
  obtain ⟨_, _, _, h2⟩ := D_some h2
  obtain ⟨st1, L, Ls1, g1, g2, rfl⟩ := lay_cons_ok h1
  simp [NTree.layout] at g1
  obtain ⟨rfl, rfl⟩ := g1
  simp only at h2
  rw [h2] at g2
  simp at g2
  obtain ⟨rfl, rfl⟩ := g2
  exact ⟨[.mark id], by simp [LTree.flat, LTree.toks], by
    rw [show (tag id (LTree.mark id).flat ++ Ls') = (id, .mark id) :: Ls' from rfl,
      findItems_cons_none (.inr rfl)]; rfl⟩

theorem AdvF.child {w : Nat} {pv : List (BSpec P)} {segs st id j c t s xs}
    (hne : ¬ (id = pid ∧ j = i)) (hs : t.spine = .ok s) (hc : I → c ≠ pid) :
    AdvF I pid i w ⟨pv, segs, st, (id, .child j (.ok c) t) :: xs⟩
      ⟨pv, segs, st, tag c s ++ xs⟩ := by
  refine .of_adv (AdvR.child.trans (AdvR.spine hs)) ?_
  intro hI ls st2 Ls ls' st2' Ls' h1 h2
  obtain ⟨_, _, _, h1⟩ := D_some h1
  obtain ⟨_, _, _, h2⟩ := D_some h2
  simp only [lay_spine_append w c hs] at h2
  obtain ⟨st1, L, Ls1, g1, g2, rfl⟩ := lay_cons_ok h1
  obtain ⟨st1', L', Ls1', f1, f2, rfl⟩ := lay_cons_ok h2
  simp only [NTree.layout, Except.bind_eq] at g1
  simp only at f1 f2 g2
  rw [f1] at g1
  simp at g1
  obtain ⟨rfl, rfl⟩ := g1
  rw [f2] at g2
  simp at g2
  obtain ⟨rfl, rfl⟩ := g2
  refine ⟨[], by simp [LTree.flat, LTree.toks], ?_⟩
  rw [show (tag id (LTree.child id j c L').flat ++ Ls1') = (id, .child id j c L') :: Ls1' from rfl,
    findItems_cons_none, findItems_append_none (xs := tag c L'.flat)]
  · cases findItems pid i Ls1' <;> simp [LTree.toks]
  · intro x hx
    simp only [tag, List.mem_map] at hx
    obtain ⟨y, _, rfl⟩ := hx
    exact .inl (hc hI)
  · by_cases hid : id = pid
    · have : j ≠ i := fun hj => hne ⟨hid, hj⟩
      exact .inr (by simp [LTree.findChild, this])
    · exact .inl hid

theorem AdvF.choice {w : Nat} {pv : List (BSpec P)} {segs st id a b s xs r}
    (hc : a.check = .ok ()) (h : fitsLine w st (a :: (trees xs ++ [])) = .ok r)
    (hs : (if r then a else b).spine = .ok s) :
    AdvF I pid i w ⟨pv, segs, st, (id, .choice a b) :: xs⟩
      ⟨pv, segs, st, tag id s ++ xs⟩ := by
  apply AdvF.of_D_eq
  rw [D_choice hc h]
  simp [AS.D, lay_spine_append w id hs]

/-- The item cannot show (an unexpanded) child `i` of `pid`. -/
def Irrelevant (pid : P.Id) (i : Nat) (x : Item P) : Prop :=
  x.1 ≠ pid ∨ match x.2 with
    | .choice _ _ => False
    | .child j _ _ => j ≠ i
    | .concat _ _ => False
    | _ => True

theorem lay_irrelevant {w : Nat} {xs : List (Item P)} (h : ∀ x ∈ xs, Irrelevant pid i x) :
    ∀ {k st st2 Ls}, lay w xs k st = .ok (st2, Ls) →
      ∀ x ∈ Ls, x.1 ≠ pid ∨ x.2.findChild i = none := by
  induction xs with
  | nil => intro k st st2 Ls hl; simp [lay] at hl; simp [hl.2]
  | cons x xs ih =>
    intro k st st2 Ls hl y hy
    obtain ⟨st1, L, Ls', h1, h2, rfl⟩ := lay_cons_ok hl
    rcases List.mem_append.1 hy with hy | hy
    · simp only [tag, List.mem_map] at hy
      obtain ⟨z, hz, rfl⟩ := hy
      rcases h x (by simp) with hx | hx
      · exact .inl hx
      · right
        obtain ⟨id, t⟩ := x
        cases t with
        | fail f => simp [NTree.layout] at h1
        | empty => simp [NTree.layout] at h1; simp [← h1.2, LTree.flat] at hz
        | eol =>
          simp [NTree.layout] at h1; simp [← h1.2, LTree.flat] at hz; subst hz; rfl
        | mark =>
          simp [NTree.layout] at h1; simp [← h1.2, LTree.flat] at hz; subst hz; rfl
        | newline ind =>
          simp only [NTree.layout] at h1
          split at h1 <;> simp at h1
          simp [← h1.2, LTree.flat] at hz; subst hz; rfl
        | text t =>
          simp only [NTree.layout] at h1
          split at h1
          · simp at h1
          · split at h1 <;> simp at h1
            simp [← h1.2, LTree.flat] at hz; subst hz; rfl
        | concat a b => exact hx.elim
        | choice a b => exact hx.elim
        | child j c t =>
          simp only [NTree.layout] at h1
          cases c with
          | error _ => simp [Except.bind_eq] at h1
          | ok c =>
            simp only [Except.bind_eq] at h1
            cases hl2 : t.layout w c (trees xs ++ k) st with
            | error _ => simp [hl2] at h1
            | ok r =>
              simp [hl2] at h1
              simp [← h1.2, LTree.flat] at hz
              subst hz
              simp at hx
              simp [LTree.findChild, hx]
    · exact ih (fun x hx => h x (by simp [hx])) h2 y hy

theorem AdvF.skip {w : Nat} {pv : List (BSpec P)} {segs st xs id ind ys}
    (hw : segsWidth ind ≤ maxWidth) (hirr : ∀ x ∈ xs, Irrelevant pid i x) :
    AdvF I pid i w ⟨pv, segs, st, xs ++ (id, .newline ind) :: ys⟩
      ⟨⟨segs, st, xs⟩ :: pv, ind, ⟨segsWidth ind, false⟩, ys⟩ := by
  refine .of_adv (AdvR.skip hw trivial (.inr fun _ => trivial)) ?_
  intro _ ls st2 Ls ls' st2' Ls' h1 h2
  obtain ⟨_, _, _, h1⟩ := D_some h1
  obtain ⟨_, _, _, h2⟩ := D_some h2
  simp only [lay_append] at h1
  simp only at h2
  cases hx : lay w xs (trees ((id, .newline ind) :: ys) ++ []) st with
  | error _ => rw [hx] at h1; simp at h1
  | ok r =>
    rw [hx] at h1
    simp only [] at h1
    cases hy : lay w ((id, .newline ind) :: ys) [] r.1 with
    | error _ => simp [hy] at h1
    | ok r' =>
      simp [hy] at h1
      obtain ⟨st1, L, Ls1, g1, g2, hLs⟩ := lay_cons_ok hy
      simp [NTree.layout, hw] at g1
      obtain ⟨rfl, rfl⟩ := g1
      rw [h2] at g2
      simp at g2
      obtain ⟨rfl, rfl⟩ := g2
      rw [hLs] at h1
      obtain ⟨rfl, rfl⟩ := h1
      refine ⟨itemToks r.2 ++ [.nl ind], by simp [LTree.flat, LTree.toks], ?_⟩
      rw [findItems_append_none (lay_irrelevant hirr hx),
        show (tag id (LTree.newline ind).flat ++ Ls') = (id, .newline ind) :: Ls' from rfl,
        findItems_cons_none (.inr rfl)]
      cases findItems pid i Ls' <;> simp [LTree.toks]

end PPP
