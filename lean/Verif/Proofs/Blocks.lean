import Verif.Proofs.Fits
/-
Abstract printer states, how they denote lines, and how far along in the layout they are.
-/
namespace PPP
variable {P : PrettyDoc}

/-! ### Predicates on trees -/

/-- A predicate on the leaves of a tree: on failures, texts and indentations. -/
structure Pred (P : PrettyDoc) where
  fail : Fail P.Err → Prop
  text : Textual P → Prop
  nl : List (Segment P) → Prop

instance : CoeFun (Pred P) (fun _ => Fail P.Err → Prop) := ⟨Pred.fail⟩

/-- Every leaf of the tree satisfies `Q`. -/
def NTree.FailIn (Q : Pred P) : NTree P → Prop
  | .fail f => Q f
  | .text t => Q.text t
  | .newline ind => Q.nl ind
  | .concat a b => a.FailIn Q ∧ b.FailIn Q
  | .choice a b => a.FailIn Q ∧ b.FailIn Q
  | .child _ cid t => (∀ f, cid = .error f → Q f) ∧ t.FailIn Q
  | _ => True

/-- A tree that can be a chunk of a block. -/
def NTree.Atomic : NTree P → Prop
  | .fail _ => False
  | .empty => False
  | .newline _ => False
  | .concat _ _ => False
  | _ => True

/-! ### Abstract blocks and states -/

/-- An abstract block. -/
structure BSpec (P : PrettyDoc) where
  segs : List (Segment P)
  st : LineSt
  items : List (Item P)

/-- Expanded chunks represent items. -/
abbrev ChunksR (chunks : List (Chunk P)) (items : List (Item P)) : Prop :=
  All2 (fun c x => ChunkR c x ∧ x.2.Atomic) chunks items

theorem ChunksR.weaken {chunks : List (Chunk P)} {items} (h : ChunksR chunks items) :
    All2 ChunkR chunks items := h.mono fun _ _ h => h.1

structure BlockR (b : Block P) (s : BSpec P) : Prop where
  segs : b.segments = s.segs
  col : b.prefixLen = s.st.col
  eol : b.atEol = s.st.eol
  chunks : ChunksR b.chunks s.items

/-- The blocks that follow the current one represent items starting with a newline. -/
inductive RestR : List (Block P) → List (Item P) → Prop where
  | nil : RestR [] []
  | cons {b bs id items tail} : b.prefixLen = segsWidth b.segments →
      segsWidth b.segments ≤ maxWidth → b.atEol = false → ChunksR b.chunks items →
      RestR bs tail → RestR (b :: bs) ((id, .newline b.segments) :: (items ++ tail))

/-- The lines of a block. -/
def BSpec.lines (w : Nat) (b : BSpec P) : Option (List (List (Segment P))) :=
  (lt w b.items [] b.st).map fun r => linesFrom b.segs r.2

/-- The lines of the blocks before the current one (nearest first). -/
def prevLines (w : Nat) : List (BSpec P) → Option (List (List (Segment P)))
  | [] => some []
  | b :: pv => (prevLines w pv).bind fun ls => (b.lines w).map fun l => ls ++ l

/-- An abstract printer state: previous blocks, and the current line and what follows. -/
structure AS (P : PrettyDoc) where
  pv : List (BSpec P)
  segs : List (Segment P)
  st : LineSt
  items : List (Item P)

/-- What a state denotes, when the trees `k` follow: the lines before the current position
    (including the left part of the current line), the state after the items, and their layout. -/
def AS.D (w : Nat) (k : List (NTree P)) (S : AS P) :
    Option (List (List (Segment P)) × LineSt × List (P.Id × LTree P)) :=
  (prevLines w S.pv).bind fun ls =>
    match lay w S.items k S.st with
    | .error _ => none
    | .ok r => some (ls ++ [S.segs], r.1, r.2)

/-- `S'` is further along than `S` in the same layout (possibly not at all), and every token passed
    on the way satisfies `R`. -/
def AdvR (R : Tok P → Prop) (w : Nat) (k : List (NTree P)) (S S' : AS P) : Prop :=
  (S.D w k = none ∧ S'.D w k = none) ∨
  ∃ ls ls' st Ls Ls' T1, S.D w k = some (ls, st, Ls) ∧ S'.D w k = some (ls', st, Ls') ∧
    itemToks Ls = T1 ++ itemToks Ls' ∧ (∀ B, ls = linesOf B → ls' = linesOf (B ++ T1)) ∧
    ∀ tok ∈ T1, R tok

/-- `S'` is further along than `S` in the same layout (possibly not at all). -/
abbrev Adv (w : Nat) (k : List (NTree P)) (S S' : AS P) : Prop := AdvR (fun _ => True) w k S S'

variable {R : Tok P → Prop}

theorem AdvR.mono {R' : Tok P → Prop} {w : Nat} {k} {S S' : AS P} (h : AdvR R w k S S')
    (hR : ∀ t, R t → R' t) : AdvR R' w k S S' := by
  rcases h with h | ⟨ls, ls', st, Ls, Ls', T1, h1, h2, h3, h4, h5⟩
  · exact .inl h
  · exact .inr ⟨ls, ls', st, Ls, Ls', T1, h1, h2, h3, h4, fun t ht => hR t (h5 t ht)⟩

theorem AdvR.of_D_eq {w : Nat} {k} {S S' : AS P} (h : S.D w k = S'.D w k) : AdvR R w k S S' := by
  match hD : S.D w k with
  | none => exact .inl ⟨hD, h ▸ hD⟩
  | some (ls, st, Ls) => exact .inr ⟨ls, ls, st, Ls, Ls, [], hD, h ▸ hD, rfl, by simp, by simp⟩

theorem AdvR.refl (w : Nat) (k) (S : AS P) : AdvR R w k S S := .of_D_eq rfl

theorem AdvR.trans {w : Nat} {k} {S S' S'' : AS P} (h : AdvR R w k S S') (h' : AdvR R w k S' S'') :
    AdvR R w k S S'' := by
  rcases h with ⟨h1, h2⟩ | ⟨ls, ls', st, Ls, Ls', T1, h1, h2, h3, h4, h5⟩
  · rcases h' with ⟨g1, g2⟩ | ⟨_, _, _, _, _, _, g1, _⟩
    · exact .inl ⟨h1, g2⟩
    · simp [h2] at g1
  · rcases h' with ⟨g1, g2⟩ | ⟨gs, gs', gt, Gs, Gs', G1, g1, g2, g3, g4, g5⟩
    · simp [h2] at g1
    · rw [h2] at g1
      injection g1 with g1; injection g1 with ga g1; injection g1 with gb gc
      subst ga gb gc
      refine .inr ⟨ls, gs', st, Ls, Gs', T1 ++ G1, h1, g2, by rw [h3, g3, List.append_assoc], ?_, ?_⟩
      · intro B hB
        rw [← List.append_assoc]
        exact g4 _ (h4 _ hB)
      · intro t ht
        rcases List.mem_append.1 ht with ht | ht
        · exact h5 t ht
        · exact g5 t ht

theorem AdvR.none_left {w : Nat} {k} {S S' : AS P} (h : AdvR R w k S S') (hn : S'.D w k = none) :
    S.D w k = none := by
  rcases h with ⟨h1, _⟩ | ⟨_, _, _, _, _, _, _, h2, _⟩
  · exact h1
  · simp [hn] at h2

/-- The layouts agree up to tokens. -/
theorem AdvR.of_lt {w : Nat} {k} {pv : List (BSpec P)} {segs st xs segs' st' xs'} {T1 : List (Tok P)}
    (h : lt w xs k st = (lt w xs' k st').map fun r => (r.1, T1 ++ r.2))
    (hl : linesFrom segs T1 = [segs']) (hR : ∀ t ∈ T1, R t) :
    AdvR R w k ⟨pv, segs, st, xs⟩ ⟨pv, segs', st', xs'⟩ := by
  match hp : prevLines w pv with
  | none => exact .inl ⟨by simp [AS.D, hp], by simp [AS.D, hp]⟩
  | some ls =>
    match hx' : lay w xs' k st' with
    | .error e =>
      match hx : lay w xs k st with
      | .error e => exact .inl ⟨by simp [AS.D, hp, hx], by simp [AS.D, hp, hx']⟩
      | .ok r => simp [lt, hx', hx] at h
    | .ok r' =>
      match hx : lay w xs k st with
      | .error e => simp [lt, hx', hx] at h
      | .ok r =>
        simp only [lt, hx', hx, Option.map_some, Option.some.injEq, Prod.mk.injEq] at h
        refine .inr ⟨ls ++ [segs], ls ++ [segs'], r.1, r.2, r'.2, T1, by simp [AS.D, hp, hx],
          by simp [AS.D, hp, hx', h.1], h.2, ?_, hR⟩
        intro B hB
        rw [linesOf, linesFrom_append hB, hl]

theorem AdvR.text {w : Nat} {k} {pv : List (BSpec P)} {segs st id t xs}
    (he : st.eol = false) (hw : st.col + t.width ≤ maxWidth) (hR : R (.text t)) :
    AdvR R w k ⟨pv, segs, st, (id, .text t) :: xs⟩
      ⟨pv, segs ++ [t.segment], ⟨st.col + t.width, false⟩, xs⟩ :=
  .of_lt (T1 := [.text t]) (by simp [lt_text, he, hw]) rfl (by simpa using hR)

theorem AdvR.eol {w : Nat} {k} {pv : List (BSpec P)} {segs st id xs} (hR : R .eol) :
    AdvR R w k ⟨pv, segs, st, (id, .eol) :: xs⟩ ⟨pv, segs, ⟨st.col, true⟩, xs⟩ :=
  .of_lt (T1 := [.eol]) (by simp [lt_eol]) rfl (by simpa using hR)

theorem AdvR.mark {w : Nat} {k} {pv : List (BSpec P)} {segs st id xs} (hR : R (.mark id)) :
    AdvR R w k ⟨pv, segs, st, (id, .mark) :: xs⟩ ⟨pv, segs, st, xs⟩ :=
  .of_lt (T1 := [.mark id]) (by simp [lt_mark]) rfl (by simpa using hR)

theorem AdvR.spine {w : Nat} {k} {pv : List (BSpec P)} {segs st id t s xs} (h : t.spine = .ok s) :
    AdvR R w k ⟨pv, segs, st, (id, t) :: xs⟩ ⟨pv, segs, st, tag id s ++ xs⟩ :=
  .of_D_eq (by simp [AS.D, lay_spine_append w id h])

theorem AdvR.child {w : Nat} {k} {pv : List (BSpec P)} {segs st id i cid t xs} :
    AdvR R w k ⟨pv, segs, st, (id, .child i (.ok cid) t) :: xs⟩ ⟨pv, segs, st, (cid, t) :: xs⟩ :=
  .of_lt (T1 := []) (by simp [lt_child_ok]) rfl (by simp)

theorem D_choice {w : Nat} {k} {pv : List (BSpec P)} {segs st id a b xs r}
    (hc : a.check = .ok ()) (h : fitsLine w st (a :: (trees xs ++ k)) = .ok r) :
    AS.D w k ⟨pv, segs, st, (id, .choice a b) :: xs⟩ =
    AS.D w k ⟨pv, segs, st, (id, if r then a else b) :: xs⟩ := by
  simp only [AS.D, lay_choice, hc, h]
  cases r <;> rfl

theorem AdvR.choice {w : Nat} {k} {pv : List (BSpec P)} {segs st id a b xs r}
    (hc : a.check = .ok ()) (h : fitsLine w st (a :: (trees xs ++ k)) = .ok r) :
    AdvR R w k ⟨pv, segs, st, (id, .choice a b) :: xs⟩
      ⟨pv, segs, st, (id, if r then a else b) :: xs⟩ :=
  .of_D_eq (D_choice hc h)

theorem lt_skip {w : Nat} {k} {st xs} {id : P.Id} {ind ys} (hw : segsWidth ind ≤ maxWidth) :
    lt w (xs ++ (id, .newline ind) :: ys) k st =
      (lt w xs [] st).bind fun r => (lt w ys k ⟨segsWidth ind, false⟩).map fun r' =>
        (r'.1, r.2 ++ .nl ind :: r'.2) := by
  rw [lt_append, trees_cons, List.cons_append, lt_newline_ctx']
  congr 1
  funext r
  rw [lt_newline]
  simp [hw, Function.comp_def]

/-- Moving on to the next line. -/
theorem AdvR.skip {w : Nat} {k} {pv : List (BSpec P)} {segs st xs id ind ys}
    (hw : segsWidth ind ≤ maxWidth) (hR : R (.nl ind)) (hxs : xs = [] ∨ ∀ t, R t) :
    AdvR R w k ⟨pv, segs, st, xs ++ (id, .newline ind) :: ys⟩
      ⟨⟨segs, st, xs⟩ :: pv, ind, ⟨segsWidth ind, false⟩, ys⟩ := by
  have hlt := lt_skip (w := w) (k := k) (st := st) (xs := xs) (id := id) (ys := ys) hw
  match hp : prevLines w pv with
  | none => exact .inl ⟨by simp [AS.D, hp], by simp [AS.D, prevLines, hp]⟩
  | some ls =>
    match hx : lt w xs [] st with
    | none =>
      rw [hx, Option.bind_none] at hlt
      refine .inl ⟨?_, by simp [AS.D, prevLines, hp, BSpec.lines, hx]⟩
      match h : lay w (xs ++ (id, .newline ind) :: ys) k st with
      | .error _ => simp [AS.D, h]
      | .ok r => simp [lt, h] at hlt
    | some (st1, T1) =>
      rw [hx] at hlt
      simp only [Option.bind_some] at hlt
      match hy : lay w ys k ⟨segsWidth ind, false⟩ with
      | .error _ =>
        refine .inl ⟨?_, by simp [AS.D, hy]⟩
        match h : lay w (xs ++ (id, .newline ind) :: ys) k st with
        | .error _ => simp [AS.D, h]
        | .ok r => simp [lt, h, hy] at hlt
      | .ok r' =>
        match h : lay w (xs ++ (id, .newline ind) :: ys) k st with
        | .error _ => simp [lt, h, hy] at hlt
        | .ok r =>
          simp only [lt, h, hy, Option.map_some, Option.some.injEq, Prod.mk.injEq] at hlt
          refine .inr ⟨ls ++ [segs], ls ++ linesFrom segs T1 ++ [ind], r.1, r.2, r'.2,
            T1 ++ [.nl ind], by simp [AS.D, hp, h],
            by simp [AS.D, prevLines, hp, BSpec.lines, hx, hy, hlt.1], by simp [hlt.2], ?_, ?_⟩
          · intro B hB
            rw [linesOf, linesFrom_append hB, linesFrom_append_nl]
            simp [linesFrom]
          · intro t ht
            rcases List.mem_append.1 ht with ht | ht
            · rcases hxs with rfl | hxs
              · simp at hx; simp [hx] at ht
              · exact hxs t
            · simp at ht; subst ht; exact hR

end PPP
