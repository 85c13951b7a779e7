import Verif.Spec.Ink
import Verif.Spec.Output
import Verif.Proofs.Denote
import Verif.Proofs.FocusTest
/-
All layouts of a steady document show the same characters.
-/
namespace PPP
variable {P : PrettyDoc} {keep : Char → Bool}

theorem kept_append (s t : String) : kept keep (s ++ t) = kept keep s ++ kept keep t := by
  simp [kept]

theorem toksString_append (A B : List (Tok P)) : toksString (A ++ B) = toksString A ++ toksString B := by
  induction A with
  | nil => simp [toksString]
  | cons t A ih => simp only [List.cons_append, toksString, ih, String.append_assoc]

/-- Nothing that matters is in the indentation. -/
def Pale (keep : Char → Bool) (ind : List (Segment P)) : Prop := ∀ s ∈ ind, kept keep s.str = []

theorem Pale.string {ind : List (Segment P)} (h : Pale keep ind) : kept keep (segsString ind) = [] := by
  induction ind with
  | nil => simp [kept, segsString_toList]
  | cons s ind ih =>
    have h1 := h s (List.mem_cons_self ..)
    have h2 := ih (fun x hx => h x (List.mem_cons_of_mem _ hx))
    simp only [kept, segsString_toList, List.flatMap_cons, List.filter_append] at h1 h2 ⊢
    rw [h1, h2]; rfl

/-- All layouts of the tree show `l`, if they exist. -/
def NTree.Inks (keep : Char → Bool) : NTree P → List Char → Prop
  | .fail _, _ => True
  | .newline ind, l => Pale keep ind ∧ l = []
  | .text t, l => l = kept keep t.str
  | .concat a b, l => ∃ x y, l = x ++ y ∧ a.Inks keep x ∧ b.Inks keep y
  | .choice a b, l => a.Inks keep l ∧ b.Inks keep l
  | .child _ _ t, l => t.Inks keep l
  | .empty, l => l = []
  | .eol, l => l = []
  | .mark, l => l = []

theorem layout_inks (hk : keep '\n' = false) {w : Nat} (t : NTree P) : ∀ {id k st st' r l},
    t.layout w id k st = .ok (st', r) → t.Inks keep l → kept keep (toksString r.toks) = l := by
  induction t with
  | fail f => intro id k st st' r l h; cases h
  | empty => rintro id k st st' r l h rfl; cases h; rfl
  | mark => rintro id k st st' r l h rfl; cases h; rfl
  | eol => rintro id k st st' r l h rfl; cases h; rfl
  | newline ind =>
    rintro id k st st' r l h ⟨hp, rfl⟩
    simp only [NTree.layout] at h
    split at h <;> cases h
    have := hp.string
    simp only [LTree.toks, toksString, Tok.chars, kept_append, this]
    simp [kept, hk]
  | text t =>
    rintro id k st st' r l h rfl
    simp only [NTree.layout] at h
    split at h
    · cases h
    · split at h <;> cases h
      simp [LTree.toks, toksString, Tok.chars]
  | concat a b iha ihb =>
    rintro id k st st' r l h ⟨x, y, rfl, hx, hy⟩
    simp only [NTree.layout] at h
    cases ha : a.layout w id (b :: k) st with
    | error f => rw [ha] at h; cases h
    | ok p =>
      obtain ⟨st1, ra⟩ := p
      cases hb : b.layout w id k st1 with
      | error f => simp [ha, hb, bind, Except.bind] at h
      | ok q =>
        obtain ⟨st2, rb⟩ := q
        simp only [ha, hb, bind, Except.bind, Except.ok.injEq, Prod.mk.injEq] at h
        obtain ⟨_, rfl⟩ := h
        rw [LTree.toks, toksString_append, kept_append, iha ha hx, ihb hb hy]
  | choice a b iha ihb =>
    rintro id k st st' r l h ⟨hx, hy⟩
    simp only [NTree.layout, bind, Except.bind] at h
    split at h
    · cases h
    · split at h
      · cases h
      · split at h
        · exact iha h hx
        · exact ihb h hy
  | child i cid t ih =>
    rintro id k st st' r l h hl
    simp only [NTree.layout, bind, Except.bind] at h
    split at h
    · cases h
    · split at h
      · cases h
      · rename_i p hp
        obtain ⟨st1, r1⟩ := p
        simp only [Except.ok.injEq, Prod.mk.injEq] at h
        obtain ⟨_, rfl⟩ := h
        show kept keep (toksString r1.toks) = l
        exact ih hp hl

/-- How the surroundings of a place in a notation correspond. -/
structure InkCtx (keep : Char → Bool) (node : P.Node) (e : InkEnv P.Cond) (kid : Nat → Ctx P → NTree P)
    (env : Option (FoldEnv P)) (l : List Char) (k : Nat) : Prop where
  text : ∀ s, P.unwrapText node = .ok s → e.text = kept keep s
  num : ∀ n, P.numChildren node = .ok n → e.numChildren = n
  kid : ∀ i c, Pale keep c.indent → (kid i c).Inks keep (e.kid i)
  here : ∀ c b, P.condition node c = .ok b → e.cond c none = b
  there : ∀ i q c b, P.childAt node i = .ok q → P.condition q c = .ok b → e.cond c (some i) = b
  acc : ∀ f, env = some f → (∀ c, Pale keep c.indent → (f.acc c).Inks keep l) ∧ f.next = k

theorem InkCtx.join {node : P.Node} {e kid env l k} (h : InkCtx keep node e kid env l k) {f : FoldEnv P} {l' : List Char}
    (hf : ∀ c, Pale keep c.indent → (f.acc c).Inks keep l') : InkCtx keep node e kid (some f) l' f.next :=
  { h with acc := by rintro _ ⟨⟩; exact ⟨hf, rfl⟩ }

theorem InkCtx.first {node : P.Node} {e kid env l k l' k'} (h : InkCtx keep node e kid env l k) :
    InkCtx keep node e kid none l' k' :=
  { h with acc := by rintro _ ⟨⟩ }

theorem InkCtx.cond {node : P.Node} {e kid env l k} (h : InkCtx keep node e kid env l k) {pos : CheckPos} {q c b}
    (hq : inspected node env pos = .ok q) (hc : P.condition q c = .ok b) : e.cond c (e.inspects k pos) = b := by
  cases pos with
  | here => cases hq; exact h.here c b hc
  | child i =>
    cases hn : P.numChildren node with
    | error f => simp [inspected, hn, Call.toRes, bind, Except.bind] at hq
    | ok n =>
      simp only [inspected, hn, Call.toRes, bind, Except.bind] at hq
      simp only [InkEnv.inspects, h.num n hn]
      cases n with
      | none => cases hq
      | some n =>
        dsimp only at hq
        cases hi : childIndex i n with
        | none => rw [hi] at hq; cases hq
        | some j =>
          rw [hi] at hq
          dsimp only at hq
          simp only [Option.bind_some, hi, Option.getD_some]
          cases hj : P.childAt node j with
          | error f => rw [hj] at hq; cases hq
          | ok q' => rw [hj] at hq; cases hq; exact h.there j _ c b hj hc
  | leftChild =>
    cases env with
    | none => cases hq
    | some f =>
      obtain ⟨_, rfl⟩ := h.acc f rfl
      simp only [inspected] at hq
      cases hj : P.childAt node (f.next - 1) with
      | error g => rw [hj] at hq; cases hq
      | ok q' => rw [hj] at hq; cases hq; exact h.there _ _ c b hj hc
  | rightChild =>
    cases env with
    | none => cases hq
    | some f =>
      obtain ⟨_, rfl⟩ := h.acc f rfl
      simp only [inspected] at hq
      cases hj : P.childAt node f.next with
      | error g => rw [hj] at hq; cases hq
      | ok q' => rw [hj] at hq; cases hq; exact h.there _ _ c b hj hc

theorem pale_snoc {ind : List (Segment P)} {s : Segment P} (h : Pale keep ind) (hs : kept keep s.str = []) :
    Pale keep (ind ++ [s]) := by
  intro x hx
  rcases List.mem_append.1 hx with hx | hx
  · exact h x hx
  · rw [List.mem_singleton.1 hx]; exact hs

theorem tree_inks {node : P.Node} {e : InkEnv P.Cond} {kid : Nat → Ctx P → NTree P} (a : Notation P.Label P.Cond) :
    ∀ {env l k c}, InkCtx keep node e kid env l k → a.Agrees keep e l k → Pale keep c.indent →
      (a.tree node kid env c).Inks keep (a.ink keep e l k) := by
  induction a with
  | empty => intros; rfl
  | endOfLine => intros; rfl
  | focusMark => intros; rfl
  | newline => intro env l k c _ _ hp; exact ⟨hp, rfl⟩
  | literal s => intros; rfl
  | text =>
    intro env l k c h _ _
    simp only [Notation.tree, NTree.orFail]
    split
    · trivial
    · split
      · trivial
      · split
        · trivial
        · rename_i s hs
          exact h.text s hs
  | flat a ih => intro env l k c h ha hp; exact ih h ha hp
  | indent s o a ih =>
    intro env l k c h ha hp
    cases o with
    | none => exact ih h ha.2 (pale_snoc hp ha.1)
    | some lab =>
      simp only [Notation.tree, NTree.orFail]
      split
      · trivial
      · exact ih h ha.2 (pale_snoc hp ha.1)
  | concat a b iha ihb => intro env l k c h ha hp; exact ⟨_, _, rfl, iha h ha.1 hp, ihb h ha.2 hp⟩
  | choice a b iha ihb =>
    intro env l k c h ha hp
    simp only [Notation.tree]
    split
    · exact iha h ha.2.1 hp
    · refine ⟨iha h ha.2.1 hp, ?_⟩
      show NTree.Inks keep _ (a.ink keep e l k)
      rw [ha.1]
      exact ihb h ha.2.2 hp
  | check cond pos a b iha ihb =>
    intro env l k c h ha hp
    simp only [Notation.tree, NTree.orFail]
    split
    · trivial
    · rename_i q hq
      split
      · trivial
      · rename_i v hv
        have hc := h.cond hq hv
        simp only [Notation.Agrees, Notation.ink, hc] at ha ⊢
        cases v with
        | true => exact iha h (by simpa using ha) hp
        | false => exact ihb h (by simpa using ha) hp
  | child i =>
    intro env l k c h _ hp
    simp only [Notation.tree, NTree.orFail]
    split
    · trivial
    · rename_i n hn
      simp only [Notation.ink, h.num n hn]
      split
      · trivial
      · split
        · trivial
        · rename_i j hj
          simp only [Option.bind_some, hj, Option.getD_some]
          exact h.kid _ _ hp
  | style lab a ih =>
    intro env l k c h ha hp
    simp only [Notation.tree, NTree.orFail]
    split
    · trivial
    · exact ih h ha hp
  | count z o m ihz iho ihm =>
    intro env l k c h ha hp
    simp only [Notation.tree, NTree.orFail]
    split
    · trivial
    · rename_i n hn
      simp only [Notation.ink, Notation.Agrees, h.num n hn] at ha ⊢
      split
      · trivial
      · exact ihz h ha hp
      · exact iho h ha hp
      · rename_i n h0 h1
        match n with
        | 0 => exact (h0 rfl).elim
        | 1 => exact (h1 rfl).elim
        | n + 2 => exact ihm h ha hp
  | fold first join ihf ihj =>
    intro env l k c h ha hp
    simp only [Notation.tree, NTree.orFail]
    split
    · trivial
    · rename_i n hn
      simp only [Notation.ink, h.num n hn]
      split
      · trivial
      · rfl
      · rename_i n
        clear hn
        induction n generalizing c with
        | zero => exact ihf h.first ha.1 hp
        | succ n ih =>
          dsimp only
          split
          · trivial
          · exact ihj (InkCtx.join h (fun c hp => ih hp)) (ha.2 _ _) hp
  | left =>
    intro env l k c h _ hp
    cases env with
    | none => trivial
    | some f => exact (h.acc f rfl).1 c hp
  | right =>
    intro env l k c h _ hp
    cases env with
    | none => trivial
    | some f =>
      obtain ⟨_, rfl⟩ := h.acc f rfl
      exact h.kid _ _ hp

theorem docInk_eq (law : P.Lawful) (p : P.Node) : docInk keep law p =
    match P.notn p with
    | .error _ => []
    | .ok a => a.ink keep (nodeInk keep p fun i =>
        match P.childAt p i with
        | .error _ => []
        | .ok c => docInk keep law c) [] 0 := by
  rw [docInk]
  cases P.notn p with
  | error f => rfl
  | ok a =>
    dsimp only
    congr 2
    funext i
    split <;> rename_i h <;> rw [h]

theorem nodeInk_ctx {p : P.Node} {ki : Nat → List Char} {kid : Nat → Ctx P → NTree P} {l k}
    (hk : ∀ i c, Pale keep c.indent → (kid i c).Inks keep (ki i)) :
    InkCtx keep p (nodeInk keep p ki) kid none l k where
  text s hs := by simp [nodeInk, hs]
  num n hn := by simp [nodeInk, hn]
  kid := hk
  here c b h := by simp [nodeInk, h]
  there i q c b hq h := by simp [nodeInk, hq, h]
  acc := by rintro _ ⟨⟩

theorem docTree_inks (law : P.Lawful) (p : P.Node)
    (hs : ∀ q, P.Within p q → ∀ a, P.notn q = .ok a → a.Steady keep) :
    ∀ flat indent outer t, Pale keep indent → docTree law p flat indent outer = .ok t →
      t.Inks keep (docInk keep law p) := by
  induction p using law.wf.induction with
  | _ p ih =>
  intro flat indent outer t hp ht
  rw [docTree_eq] at ht
  rw [docInk_eq]
  cases hn : P.notn p with
  | error f => rw [hn] at ht; cases ht
  | ok a =>
    cases hy : P.nodeStyle p with
    | error f => rw [hn, hy] at ht; cases ht
    | ok s =>
      rw [hn, hy] at ht
      cases ht
      refine tree_inks a (nodeInk_ctx fun i c hp => ?_) (hs p (.inl rfl) a hn _) hp
      unfold docKid NTree.orFail
      cases hc : P.childAt p i with
      | error f => trivial
      | ok q =>
        dsimp only
        cases hd : docTree law q c.flat c.indent (some c.style) with
        | error f => trivial
        | ok t =>
          have hq : P.ChildOf q p := ⟨i, hc⟩
          refine ih q hq (fun r hr => hs r (.inr ?_)) _ _ _ t hp hd
          rcases hr with rfl | hr
          · exact .single hq
          · exact .tail hr hq

end PPP
