import Verif.Spec.Layout
/-
Laying out a sequence of trees: facts about the specification only.
-/
namespace PPP
variable {P : PrettyDoc}

theorem Except.bind_eq {ε α β : Type} (x : Except ε α) (f : α → Except ε β) :
    (x >>= f) = match x with
      | .ok a => f a
      | .error e => .error e := by
  cases x <;> rfl

/-- Continuations that agree on whether the rest of the line fits. -/
def KEquiv (k k' : List (NTree P)) : Prop := ∀ rem e, fitK k rem e = fitK k' rem e

theorem KEquiv.refl (k : List (NTree P)) : KEquiv k k := fun _ _ => rfl
theorem KEquiv.symm {k k' : List (NTree P)} (h : KEquiv k k') : KEquiv k' k :=
  fun r e => (h r e).symm
theorem KEquiv.trans {k k' k'' : List (NTree P)} (h : KEquiv k k') (h' : KEquiv k' k'') :
    KEquiv k k'' := fun r e => (h r e).trans (h' r e)

theorem KEquiv.cons (t : NTree P) {k k' : List (NTree P)} (h : KEquiv k k') :
    KEquiv (t :: k) (t :: k') := by
  intro r e
  simp only [fitK]
  cases t.fit r e with
  | error _ => rfl
  | ok s => cases s with
    | done _ => rfl
    | more r e => exact h r e

theorem KEquiv.append (xs : List (NTree P)) {k k' : List (NTree P)} (h : KEquiv k k') :
    KEquiv (xs ++ k) (xs ++ k') := by
  induction xs with
  | nil => exact h
  | cons x xs ih => exact ih.cons x

theorem KEquiv.newline (k : List (NTree P)) (ind) (ys : List (NTree P)) :
    KEquiv (k ++ .newline ind :: ys) k := by
  induction k with
  | nil => intro r e; rfl
  | cons x xs ih => exact ih.cons x

theorem layout_congr (w : Nat) (t : NTree P) : ∀ (id : P.Id) {k k' : List (NTree P)} (st),
    KEquiv k k' → t.layout w id k st = t.layout w id k' st := by
  induction t with
  | fail | empty | eol | newline | text | mark => intros; simp [NTree.layout]
  | concat a b iha ihb =>
    intro id k k' st h
    simp only [NTree.layout]
    rw [iha id st (h.cons b)]
    cases a.layout w id (b :: k') st with
    | error _ => rfl
    | ok r => simp only [Except.bind_eq, ihb id r.1 h]
  | choice a b iha ihb =>
    intro id k k' st h
    simp only [NTree.layout, fitsLine]
    rw [iha id st h, ihb id st h, (h.cons a) (w - st.col) st.eol]
  | child i cid t ih =>
    intro id k k' st h
    simp only [NTree.layout]
    cases cid with
    | error _ => rfl
    | ok c => simp only [Except.bind_eq, ih c st h]

/-- The parts of a tree after splitting its outermost concatenations. -/
def NTree.spine : NTree P → Res P.Err (List (NTree P))
  | .fail f => .error f
  | .empty => .ok []
  | .newline ind =>
    if segsWidth ind ≤ maxWidth then .ok [.newline ind] else .error .overflow
  | .concat a b => do
    let sa ← a.spine
    let sb ← b.spine
    .ok (sa ++ sb)
  | .eol => .ok [.eol]
  | .text t => .ok [.text t]
  | .choice a b => .ok [.choice a b]
  | .child i cid t => .ok [.child i cid t]
  | .mark => .ok [.mark]

theorem NTree.check_of_spine {t : NTree P} {s} (h : t.spine = .ok s) : t.check = .ok () := by
  cases t <;> simp_all [NTree.spine, NTree.check]

theorem NTree.spine_concat_ok {a b : NTree P} {s} (h : (NTree.concat a b).spine = .ok s) :
    ∃ sa sb, a.spine = .ok sa ∧ b.spine = .ok sb ∧ s = sa ++ sb := by
  simp only [NTree.spine, Except.bind_eq] at h
  cases ha : a.spine with
  | error _ => simp [ha] at h
  | ok sa =>
    cases hb : b.spine with
    | error _ => simp [ha, hb] at h
    | ok sb => simp [ha, hb] at h; exact ⟨sa, sb, rfl, rfl, h.symm⟩

theorem KEquiv.concat {a b : NTree P} (ha : a.check = .ok ()) (hb : b.check = .ok ()) (k) :
    KEquiv (.concat a b :: k) (a :: b :: k) := by
  intro r e
  simp only [fitK, NTree.fit, ha, hb]
  simp only [Except.bind_eq]
  cases a.fit r e with
  | error _ => rfl
  | ok s => cases s with
    | done _ => rfl
    | more r e => rfl

theorem KEquiv.spine (t : NTree P) : ∀ {s} (_ : t.spine = .ok s) (k), KEquiv (t :: k) (s ++ k) := by
  induction t with
  | fail f => intro s h; simp [NTree.spine] at h
  | empty => intro s h k; simp [NTree.spine] at h; subst h; intro r e; rfl
  | newline ind =>
    intro s h k; simp [NTree.spine] at h; split at h <;> simp at h; subst h; exact .refl _
  | eol | text | mark | choice | child =>
    intro s h k; simp [NTree.spine] at h; subst h; exact .refl _
  | concat a b iha ihb =>
    intro s h k
    obtain ⟨sa, sb, ha, hb, rfl⟩ := NTree.spine_concat_ok h
    refine (KEquiv.concat (NTree.check_of_spine ha) (NTree.check_of_spine hb) k).trans ?_
    refine (iha ha (b :: k)).trans ?_
    rw [List.append_assoc]
    exact (ihb hb k).append sa

theorem layout_spine_error (w : Nat) (t : NTree P) : ∀ {f} (_ : t.spine = .error f) (id k st),
    ∃ f', t.layout w id k st = .error f' := by
  induction t with
  | fail f => intro _ _ id k st; exact ⟨f, rfl⟩
  | empty | eol | text | mark | choice | child => intro _ h; simp [NTree.spine] at h
  | newline ind =>
    intro f h id k st
    simp only [NTree.spine] at h
    split at h
    · simp at h
    · next hw => exact ⟨.overflow, by simp [NTree.layout, hw]⟩
  | concat a b iha ihb =>
    intro f h id k st
    simp only [NTree.layout]
    cases ha : a.spine with
    | error g =>
      obtain ⟨f', hf⟩ := iha ha id (b :: k) st
      exact ⟨f', by rw [hf]; rfl⟩
    | ok sa =>
      cases hb : b.spine with
      | ok sb => simp [NTree.spine, ha, hb, Except.bind_eq] at h
      | error g =>
        cases a.layout w id (b :: k) st with
        | error f' => exact ⟨f', rfl⟩
        | ok r =>
          obtain ⟨f', hf⟩ := ihb hb id k r.1
          exact ⟨f', by simp only [Except.bind_eq, hf]⟩

/-! ### Sequences -/

/-- A tree and the id of the node that it belongs to. -/
abbrev Item (P : PrettyDoc) := P.Id × NTree P

def trees (xs : List (Item P)) : List (NTree P) := xs.map Prod.snd

@[simp] theorem trees_nil : trees ([] : List (Item P)) = [] := rfl
@[simp] theorem trees_cons (x : Item P) (xs) : trees (x :: xs) = x.2 :: trees xs := rfl
@[simp] theorem trees_append (xs ys : List (Item P)) : trees (xs ++ ys) = trees xs ++ trees ys := by
  simp [trees]

/-- The parts of a layout after splitting its outermost concatenations. -/
def LTree.flat : LTree P → List (LTree P)
  | .empty => []
  | .concat a b => a.flat ++ b.flat
  | .eol => [.eol]
  | .newline ind => [.newline ind]
  | .text t => [.text t]
  | .child p i id t => [.child p i id t]
  | .mark id => [.mark id]

/-- Tag every part with the id of the node it belongs to. -/
def tag {α : Type} (id : P.Id) (xs : List α) : List (P.Id × α) := xs.map fun x => (id, x)

@[simp] theorem tag_nil {α : Type} (id : P.Id) : tag id ([] : List α) = [] := rfl
@[simp] theorem tag_cons {α : Type} (id : P.Id) (x : α) (xs) :
    tag id (x :: xs) = (id, x) :: tag id xs := rfl
@[simp] theorem tag_append {α : Type} (id : P.Id) (xs ys : List α) :
    tag id (xs ++ ys) = tag id xs ++ tag id ys := by simp [tag]
@[simp] theorem trees_tag (id : P.Id) (xs : List (NTree P)) : trees (tag id xs) = xs := by
  simp [trees, tag, Function.comp_def]

/-- Lay out a sequence of items followed by the trees `k`; the result is the flattened layout. -/
def lay (w : Nat) : List (Item P) → (k : List (NTree P)) → LineSt →
    Res P.Err (LineSt × List (P.Id × LTree P))
  | [], _, st => .ok (st, [])
  | x :: xs, k, st =>
    match x.2.layout w x.1 (trees xs ++ k) st with
    | .error e => .error e
    | .ok r =>
      match lay w xs k r.1 with
      | .error e => .error e
      | .ok r' => .ok (r'.1, tag x.1 r.2.flat ++ r'.2)

theorem lay_congr (w : Nat) (xs : List (Item P)) : ∀ {k k' : List (NTree P)} (st),
    KEquiv k k' → lay w xs k st = lay w xs k' st := by
  induction xs with
  | nil => intros; rfl
  | cons x xs ih =>
    intro k k' st h
    simp only [lay]
    rw [layout_congr w x.2 x.1 st (h.append (trees xs))]
    cases x.2.layout w x.1 (trees xs ++ k') st with
    | error _ => rfl
    | ok r => simp only [ih r.1 h]

theorem lay_append (w : Nat) (xs ys : List (Item P)) (k st) :
    lay w (xs ++ ys) k st =
      match lay w xs (trees ys ++ k) st with
      | .error e => .error e
      | .ok r =>
        match lay w ys k r.1 with
        | .error e => .error e
        | .ok r' => .ok (r'.1, r.2 ++ r'.2) := by
  induction xs generalizing st with
  | nil => simp only [List.nil_append, lay]; cases lay w ys k st <;> rfl
  | cons x xs ih =>
    simp only [List.cons_append, lay, trees_append, List.append_assoc]
    cases x.2.layout w x.1 (trees xs ++ (trees ys ++ k)) st with
    | error _ => rfl
    | ok r =>
      simp only [ih r.1]
      cases lay w xs (trees ys ++ k) r.1 with
      | error _ => rfl
      | ok r1 =>
        simp only []
        cases lay w ys k r1.1 with
        | error _ => rfl
        | ok r2 => simp

theorem lay_singleton (w : Nat) (id : P.Id) (t : NTree P) (k st) :
    lay w [(id, t)] k st =
      match t.layout w id k st with
      | .error e => .error e
      | .ok r => .ok (r.1, tag id r.2.flat) := by
  simp only [lay, trees_nil, List.nil_append]
  cases t.layout w id k st <;> simp

theorem lay_concat (w : Nat) (id : P.Id) (a b : NTree P) (k st) :
    lay w [(id, .concat a b)] k st = lay w [(id, a), (id, b)] k st := by
  rw [lay_singleton, show [(id, a), (id, b)] = [(id, a)] ++ [(id, b)] from rfl, lay_append,
    lay_singleton]
  simp only [NTree.layout, trees_cons, trees_nil, List.cons_append, List.nil_append]
  cases a.layout w id (b :: k) st with
  | error _ => rfl
  | ok r =>
    simp only [Except.bind_eq, lay_singleton]
    cases b.layout w id k r.1 with
    | error _ => rfl
    | ok r' => simp [LTree.flat]

theorem lay_spine (w : Nat) (id : P.Id) (t : NTree P) : ∀ {s} (_ : t.spine = .ok s) (k st),
    lay w (tag id s) k st = lay w [(id, t)] k st := by
  induction t with
  | fail f => intro s h; simp [NTree.spine] at h
  | empty => intro s h k st; simp [NTree.spine] at h; subst h; rfl
  | newline ind =>
    intro s h k st; simp [NTree.spine] at h; split at h <;> simp at h; subst h; rfl
  | eol | text | mark | choice | child =>
    intro s h k st; simp [NTree.spine] at h; subst h; rfl
  | concat a b iha ihb =>
    intro s h k st
    obtain ⟨sa, sb, ha, hb, rfl⟩ := NTree.spine_concat_ok h
    rw [lay_concat, show [(id, a), (id, b)] = [(id, a)] ++ [(id, b)] from rfl, tag_append,
      lay_append, lay_append, iha ha, trees_tag]
    rw [lay_congr w [(id, a)] (k' := trees [(id, b)] ++ k) st ((KEquiv.spine b hb k).symm)]
    simp only [ihb hb]

/-- Spine splitting in front of more items. -/
theorem lay_spine_append (w : Nat) (id : P.Id) {t : NTree P} {s} (h : t.spine = .ok s) (xs k st) :
    lay w (tag id s ++ xs) k st = lay w ((id, t) :: xs) k st := by
  rw [lay_append, show (id, t) :: xs = [(id, t)] ++ xs from rfl, lay_append, lay_spine w id t h]

theorem lay_spine_error (w : Nat) (id : P.Id) {t : NTree P} {f} (h : t.spine = .error f) (xs k st) :
    ∃ f', lay w ((id, t) :: xs) k st = .error f' := by
  obtain ⟨f', hf⟩ := layout_spine_error w t h id (trees xs ++ k) st
  exact ⟨f', by simp [lay, hf]⟩

theorem lay_newline_ctx (w : Nat) (xs : List (Item P)) (k ind ys st) :
    lay w xs (k ++ .newline ind :: ys) st = lay w xs k st :=
  lay_congr w xs st (KEquiv.newline k ind ys)

/-! ### Tokens -/

theorem LTree.flat_toks (L : LTree P) : L.flat.flatMap LTree.toks = L.toks := by
  induction L <;> simp_all [LTree.flat, LTree.toks]

/-- The tokens of a flattened layout. -/
def itemToks (ls : List (P.Id × LTree P)) : List (Tok P) := ls.flatMap fun l => l.2.toks

@[simp] theorem itemToks_nil : itemToks ([] : List (P.Id × LTree P)) = [] := rfl
@[simp] theorem itemToks_append (a b : List (P.Id × LTree P)) :
    itemToks (a ++ b) = itemToks a ++ itemToks b := by simp [itemToks]
@[simp] theorem itemToks_cons (a : P.Id × LTree P) (b) :
    itemToks (a :: b) = a.2.toks ++ itemToks b := by simp [itemToks]
@[simp] theorem itemToks_tag_flat (id : P.Id) (L : LTree P) : itemToks (tag id L.flat) = L.toks := by
  rw [← LTree.flat_toks L]
  simp only [itemToks, tag, List.flatMap_map]

/-- The tokens displayed by a sequence of items followed by the trees `k`; `none` if the layout
    fails. -/
def lt (w : Nat) (xs : List (Item P)) (k : List (NTree P)) (st : LineSt) :
    Option (LineSt × List (Tok P)) :=
  match lay w xs k st with
  | .error _ => none
  | .ok r => some (r.1, itemToks r.2)

theorem lt_congr (w : Nat) (xs : List (Item P)) {k k' : List (NTree P)} (st) (h : KEquiv k k') :
    lt w xs k st = lt w xs k' st := by simp [lt, lay_congr w xs st h]

theorem lt_newline_ctx (w : Nat) (xs : List (Item P)) (k ind ys st) :
    lt w xs (k ++ .newline ind :: ys) st = lt w xs k st := by simp [lt, lay_newline_ctx]

theorem lt_newline_ctx' (w : Nat) (xs : List (Item P)) (ind ys st) :
    lt w xs (.newline ind :: ys) st = lt w xs [] st := lt_newline_ctx w xs [] ind ys st

theorem lt_append (w : Nat) (xs ys : List (Item P)) (k st) :
    lt w (xs ++ ys) k st =
      (lt w xs (trees ys ++ k) st).bind fun r =>
        (lt w ys k r.1).map fun r' => (r'.1, r.2 ++ r'.2) := by
  simp only [lt, lay_append]
  cases lay w xs (trees ys ++ k) st with
  | error _ => rfl
  | ok r =>
    simp only [Option.bind_some]
    cases lay w ys k r.1 with
    | error _ => rfl
    | ok r' => simp

@[simp] theorem lt_nil (w : Nat) (k : List (NTree P)) (st) : lt w [] k st = some (st, []) := rfl

theorem lt_cons (w : Nat) (id : P.Id) (t : NTree P) (xs k st) :
    lt w ((id, t) :: xs) k st =
      (lt w [(id, t)] (trees xs ++ k) st).bind fun r =>
        (lt w xs k r.1).map fun r' => (r'.1, r.2 ++ r'.2) := by
  rw [show (id, t) :: xs = [(id, t)] ++ xs from rfl, lt_append]

theorem lt_single (w : Nat) (id : P.Id) (t : NTree P) (k st) :
    lt w [(id, t)] k st =
      match t.layout w id k st with
      | .error _ => none
      | .ok r => some (r.1, r.2.toks) := by
  simp only [lt, lay_singleton]
  cases t.layout w id k st <;> simp

theorem lt_text (w : Nat) (id : P.Id) (t : Textual P) (xs k st) :
    lt w ((id, .text t) :: xs) k st =
      if st.eol = true then none
      else if st.col + t.width ≤ maxWidth then
        (lt w xs k ⟨st.col + t.width, false⟩).map fun r => (r.1, .text t :: r.2)
      else none := by
  rw [lt_cons, lt_single]
  by_cases h1 : st.eol = true
  · simp [NTree.layout, h1]
  · by_cases h2 : st.col + t.width ≤ maxWidth <;> simp [NTree.layout, h1, h2, LTree.toks]

theorem lt_eol (w : Nat) (id : P.Id) (xs : List (Item P)) (k st) :
    lt w ((id, .eol) :: xs) k st =
      (lt w xs k ⟨st.col, true⟩).map fun r => (r.1, .eol :: r.2) := by
  rw [lt_cons, lt_single]; rfl

theorem lt_mark (w : Nat) (id : P.Id) (xs : List (Item P)) (k st) :
    lt w ((id, .mark) :: xs) k st = (lt w xs k st).map fun r => (r.1, .mark id :: r.2) := by
  rw [lt_cons, lt_single]; rfl

theorem lt_newline (w : Nat) (id : P.Id) (ind) (xs : List (Item P)) (k st) :
    lt w ((id, .newline ind) :: xs) k st =
      if segsWidth ind ≤ maxWidth then
        (lt w xs k ⟨segsWidth ind, false⟩).map fun r => (r.1, .nl ind :: r.2)
      else none := by
  rw [lt_cons, lt_single]
  by_cases h2 : segsWidth ind ≤ maxWidth <;> simp [NTree.layout, h2, LTree.toks]

theorem lt_child_ok (w : Nat) (id : P.Id) (i : Nat) (c : P.Id) (t : NTree P) (xs k st) :
    lt w ((id, .child i (.ok c) t) :: xs) k st = lt w ((c, t) :: xs) k st := by
  rw [lt_cons, lt_cons w c, lt_single, lt_single]
  simp only [NTree.layout, Except.bind_eq]
  cases t.layout w c (trees xs ++ k) st <;> rfl

theorem lt_child_error (w : Nat) (id : P.Id) (i : Nat) (f) (t : NTree P) (xs k st) :
    lt w ((id, .child i (.error f) t) :: xs) k st = none := by
  rw [lt_cons, lt_single]; rfl

theorem lay_choice (w : Nat) (id : P.Id) (a b : NTree P) (xs k st) :
    lay w ((id, .choice a b) :: xs) k st =
      match a.check, fitsLine w st (a :: (trees xs ++ k)) with
      | .error e, _ => .error e
      | .ok (), .error e => .error e
      | .ok (), .ok true => lay w ((id, a) :: xs) k st
      | .ok (), .ok false => lay w ((id, b) :: xs) k st := by
  simp only [lay, NTree.layout, Except.bind_eq]
  cases a.check with
  | error _ => rfl
  | ok u =>
    cases fitsLine w st (a :: (trees xs ++ k)) with
    | error _ => rfl
    | ok r => cases r <;> simp

theorem lt_spine_append (w : Nat) (id : P.Id) {t : NTree P} {s} (h : t.spine = .ok s) (xs k st) :
    lt w (tag id s ++ xs) k st = lt w ((id, t) :: xs) k st := by
  simp [lt, lay_spine_append w id h]

theorem lt_spine_error (w : Nat) (id : P.Id) {t : NTree P} {f} (h : t.spine = .error f) (xs k st) :
    lt w ((id, t) :: xs) k st = none := by
  obtain ⟨f', hf⟩ := lay_spine_error w id h xs k st
  simp [lt, hf]

/-! ### Lines -/

theorem linesFrom_append_nl (cur : List (Segment P)) (T1 : List (Tok P)) (ind T2) :
    linesFrom cur (T1 ++ .nl ind :: T2) = linesFrom cur T1 ++ linesFrom ind T2 := by
  induction T1 generalizing cur with
  | nil => rfl
  | cons t ts ih => cases t <;> simp [linesFrom, ih]

theorem linesFrom_ne_nil (cur : List (Segment P)) (T) : linesFrom cur T ≠ [] := by
  induction T generalizing cur with
  | nil => simp [linesFrom]
  | cons t ts ih => cases t <;> simp [linesFrom, ih]

/-- Cutting at the first line break gives the first line; the rest follows. -/
theorem linesFrom_append {ls : List (List (Segment P))} {cur0 cur : List (Segment P)}
    {B : List (Tok P)} (h : ls ++ [cur] = linesFrom cur0 B) (T : List (Tok P)) :
    linesFrom cur0 (B ++ T) = ls ++ linesFrom cur T := by
  induction B generalizing cur0 ls with
  | nil =>
    simp only [linesFrom] at h
    match ls, h with
    | [], h => simp at h; simp [h]
    | [_], h => simp at h
    | _ :: _ :: _, h => simp at h
  | cons b B ih =>
    cases b with
    | text t => exact ih h
    | eol => exact ih h
    | mark id => exact ih h
    | nl ind =>
      simp only [linesFrom] at h
      match ls, h with
      | [], h =>
        simp at h
        exact absurd h.2 (linesFrom_ne_nil _ _)
      | l :: ls, h =>
        simp at h
        simp [linesFrom, h.1, ih h.2]

end PPP
