import Verif.Spec.Marks
import Verif.Proofs.Equiv
import Verif.Props.Focus
/-
Trees and layouts without focus marks and `Empty`s, with concatenations grouped to the right.
-/
namespace PPP
variable {P : PrettyDoc}

/-! ### Trees -/

/-- The tree without marks and empties, followed by `K`. -/
def NTree.onto : NTree P → NTree P → NTree P
  | .empty, K => K
  | .mark, K => K
  | .concat a b, K => a.onto (b.onto K)
  | .choice a b, K => .concat (.choice (a.onto .empty) (b.onto .empty)) K
  | .child i id t, K => .concat (.child i id (t.onto .empty)) K
  | .fail f, K => .concat (.fail f) K
  | .eol, K => .concat .eol K
  | .newline ind, K => .concat (.newline ind) K
  | .text t, K => .concat (.text t) K

/-- The tree without marks and empties. -/
def NTree.strip (t : NTree P) : NTree P := t.onto .empty

/-- Follow the end of a stripped tree by `K`. -/
def NTree.join : NTree P → NTree P → NTree P
  | .concat x y, K => .concat x (y.join K)
  | .empty, K => K
  | t, _ => t

theorem NTree.onto_join (t : NTree P) : ∀ K K', (t.onto K).join K' = t.onto (K.join K') := by
  induction t with
  | concat a b iha ihb => intro K K'; simp only [NTree.onto]; rw [iha, ihb]
  | _ => intros; rfl

theorem NTree.onto_strip (t K : NTree P) : t.onto K = t.strip.join K := by
  rw [NTree.strip, NTree.onto_join]; rfl

/-- Trees that differ in nothing but marks, empties and grouping. -/
def StripEq (t u : NTree P) : Prop := t.strip = u.strip

namespace StripEq

theorem refl (t : NTree P) : StripEq t t := rfl
theorem symm {t u : NTree P} (h : StripEq t u) : StripEq u t := Eq.symm h
theorem trans {t u v : NTree P} (h : StripEq t u) (h' : StripEq u v) : StripEq t v := Eq.trans h h'

theorem onto {t u : NTree P} (h : StripEq t u) (K : NTree P) : t.onto K = u.onto K := by
  rw [t.onto_strip, u.onto_strip, show t.strip = u.strip from h]

theorem concat {a a' b b' : NTree P} (ha : StripEq a a') (hb : StripEq b b') :
    StripEq (.concat a b) (.concat a' b') := by
  unfold StripEq NTree.strip
  simp only [NTree.onto]
  rw [hb.onto, ha.onto]

theorem choice {a a' b b' : NTree P} (ha : StripEq a a') (hb : StripEq b b') :
    StripEq (.choice a b) (.choice a' b') := by
  unfold StripEq NTree.strip
  simp only [NTree.onto]
  rw [hb.onto, ha.onto]

theorem child {i id} {t t' : NTree P} (h : StripEq t t') : StripEq (.child i id t) (.child i id t') := by
  unfold StripEq NTree.strip
  simp only [NTree.onto]
  rw [h.onto]

theorem assoc (a b c : NTree P) : StripEq (.concat (.concat a b) c) (.concat a (.concat b c)) := rfl
theorem empty_left (a : NTree P) : StripEq (.concat .empty a) a := rfl
theorem empty_right (a : NTree P) : StripEq (.concat a .empty) a := rfl

end StripEq

theorem NTree.onto_noFail (t : NTree P) : ∀ K, (t.onto K).NoFail ↔ t.NoFail ∧ K.NoFail := by
  induction t with
  | concat a b iha ihb => intro K; simp only [NTree.onto, NTree.NoFail]; rw [iha, ihb, and_assoc]
  | choice a b iha ihb =>
    intro K; simp only [NTree.onto, NTree.NoFail]; rw [iha, ihb]; simp [NTree.NoFail]
  | child i id t ih => intro K; simp only [NTree.onto, NTree.NoFail]; rw [ih]; simp [NTree.NoFail]
  | _ => intro K; simp [NTree.onto, NTree.NoFail]

theorem NTree.strip_noFail (t : NTree P) : t.strip.NoFail ↔ t.NoFail := by
  rw [NTree.strip, NTree.onto_noFail]; simp [NTree.NoFail]

theorem NTree.noFail_check {t : NTree P} (h : t.NoFail) : t.check = .ok () := by
  cases t <;> first | rfl | exact h.elim

/-- The result of fitting `K` after something. -/
def thenFit (r : Res P.Err FitSt) (K : Nat → Bool → Res P.Err FitSt) : Res P.Err FitSt :=
  match r with
  | .ok (.done b) => .ok (.done b)
  | .ok (.more rem e) => K rem e
  | .error f => .error f

theorem concat_fit {a b : NTree P} (ha : a.NoFail) (hb : b.NoFail) (rem e) :
    (NTree.concat a b).fit rem e = thenFit (a.fit rem e) b.fit := by
  simp only [NTree.fit, NTree.noFail_check ha, NTree.noFail_check hb, Except.bind_eq]
  unfold thenFit
  rcases a.fit rem e with f | (r | ⟨rem, e⟩) <;> rfl

theorem thenFit_more (r : Res P.Err FitSt) : thenFit r (NTree.empty (P := P)).fit = r := by
  rcases r with f | (r | ⟨rem, e⟩) <;> rfl

theorem thenFit_assoc (r : Res P.Err FitSt) (K K' : Nat → Bool → Res P.Err FitSt) :
    thenFit (thenFit r K) K' = thenFit r (fun rem e => thenFit (K rem e) K') := by
  rcases r with f | (r | ⟨rem, e⟩) <;> rfl

theorem NTree.onto_fit (t : NTree P) : t.NoFail → ∀ {K}, K.NoFail → ∀ rem e,
    (t.onto K).fit rem e = thenFit (t.fit rem e) K.fit := by
  induction t with
  | fail f => intro h; exact h.elim
  | empty => intros; rfl
  | mark => intros; rfl
  | eol => intro h K hK rem e; exact concat_fit (a := .eol) trivial hK rem e
  | newline ind => intro h K hK rem e; exact concat_fit (a := .newline ind) trivial hK rem e
  | text t => intro h K hK rem e; exact concat_fit (a := .text t) trivial hK rem e
  | concat a b iha ihb =>
    intro h K hK rem e
    simp only [NTree.onto]
    rw [iha h.1 ((NTree.onto_noFail _ _).2 ⟨h.2, hK⟩), concat_fit h.1 h.2, thenFit_assoc]
    congr
    funext rem e
    exact ihb h.2 hK rem e
  | choice a b iha ihb =>
    intro h K hK rem e
    simp only [NTree.onto]
    rw [concat_fit (a := .choice (a.onto .empty) (b.onto .empty))
      ⟨(NTree.onto_noFail _ _).2 ⟨h.1, trivial⟩, (NTree.onto_noFail _ _).2 ⟨h.2, trivial⟩⟩ hK]
    simp only [NTree.fit]
    rw [ihb h.2 (K := .empty) trivial, thenFit_more]
  | child i id t ih =>
    intro h K hK rem e
    simp only [NTree.onto]
    rw [concat_fit (a := .child i id (t.onto .empty)) ⟨h.1, (NTree.onto_noFail _ _).2 ⟨h.2, trivial⟩⟩ hK]
    simp only [NTree.fit]
    rw [ih h.2 (K := .empty) trivial, thenFit_more]

theorem fitK_onto {t K : NTree P} (ht : t.NoFail) (hK : K.NoFail) {k k' : List (NTree P)}
    (h : ∀ rem e, fitK (K :: k') rem e = fitK k rem e) (rem e) :
    fitK (t.onto K :: k') rem e = fitK (t :: k) rem e := by
  simp only [fitK, t.onto_fit ht hK, Except.bind_eq]
  rcases t.fit rem e with f | (r | ⟨rem, e⟩)
  · rfl
  · rfl
  · simp only [thenFit]
    rw [← h rem e]
    simp only [fitK, Except.bind_eq]

/-! ### Layouts -/

/-- The layout without marks and empties, followed by `K`. -/
def LTree.onto : LTree P → LTree P → LTree P
  | .empty, K => K
  | .mark _, K => K
  | .concat a b, K => a.onto (b.onto K)
  | .child p i id t, K => .concat (.child p i id (t.onto .empty)) K
  | .eol, K => .concat .eol K
  | .newline ind, K => .concat (.newline ind) K
  | .text t, K => .concat (.text t) K

/-- The layout without marks and empties. -/
def LTree.strip (L : LTree P) : LTree P := L.onto .empty

/-- Strip the layout in a result. -/
def stripRes (r : Res P.Err (LineSt × LTree P)) : Res P.Err (LineSt × LTree P) :=
  match r with
  | .ok (st, L) => .ok (st, L.strip)
  | .error f => .error f

/-- First one layout, then another. -/
def thenLay (r : Res P.Err (LineSt × LTree P)) (K : LineSt → Res P.Err (LineSt × LTree P)) :
    Res P.Err (LineSt × LTree P) :=
  match r with
  | .ok (st, L) =>
    match K st with
    | .ok (st, L') => .ok (st, L.onto L')
    | .error f => .error f
  | .error f => .error f

theorem stripRes_concat (a b : NTree P) (w : Nat) (id : P.Id) (k st) :
    stripRes ((NTree.concat a b).layout w id k st) =
      thenLay (a.layout w id (b :: k) st) fun st => stripRes (b.layout w id k st) := by
  simp only [NTree.layout, Except.bind_eq]
  rcases a.layout w id (b :: k) st with f | ⟨st, L⟩
  · rfl
  · simp only [thenLay]
    rcases b.layout w id k st with f | ⟨st, L⟩ <;> rfl

theorem thenLay_empty (r : Res P.Err (LineSt × LTree P)) {w : Nat} {id : P.Id} {k} :
    thenLay r (fun st => stripRes ((NTree.empty (P := P)).layout w id k st)) = stripRes r := by
  rcases r with f | ⟨st, L⟩ <;> rfl

theorem thenLay_leaf {w : Nat} {id : P.Id} {k : List (NTree P)} {st : LineSt} {x K : NTree P} {k' k''}
    (hx : x.layout w id k' st = x.layout w id k'' st) :
    stripRes ((NTree.concat x K).layout w id k st) = thenLay (x.layout w id k' st) (fun st => stripRes (K.layout w id k st)) ↔
    thenLay (x.layout w id (K :: k) st) (fun st => stripRes (K.layout w id k st)) =
      thenLay (x.layout w id k'' st) fun st => stripRes (K.layout w id k st) := by
  rw [stripRes_concat, hx]

theorem thenLay_congr {r r' : Res P.Err (LineSt × LTree P)} (h : stripRes r = stripRes r')
    (hj : ∀ (L L' K : LTree P), L.strip = L'.strip → L.onto K = L'.onto K)
    (K : LineSt → Res P.Err (LineSt × LTree P)) : thenLay r K = thenLay r' K := by
  rcases r with f | ⟨st, L⟩ <;> rcases r' with f' | ⟨st', L'⟩ <;>
    simp only [stripRes, Except.ok.injEq, Prod.mk.injEq, Except.error.injEq, reduceCtorEq] at h
  · rw [h]
  · obtain ⟨rfl, h⟩ := h
    simp only [thenLay]
    rcases K st with f | ⟨st', K⟩
    · rfl
    · simp only [hj _ _ K h]

/-- Follow the end of a stripped layout by `K`. -/
def LTree.join : LTree P → LTree P → LTree P
  | .concat x y, K => .concat x (y.join K)
  | .empty, K => K
  | t, _ => t

theorem LTree.onto_join (t : LTree P) : ∀ K K', (t.onto K).join K' = t.onto (K.join K') := by
  induction t with
  | concat a b iha ihb => intro K K'; simp only [LTree.onto]; rw [iha, ihb]
  | _ => intros; rfl

theorem LTree.onto_congr {L L' : LTree P} (h : L.strip = L'.strip) (K : LTree P) : L.onto K = L'.onto K := by
  have e : ∀ L : LTree P, L.onto K = L.strip.join K := fun L => by rw [LTree.strip, LTree.onto_join]; rfl
  rw [e L, e L', h]

theorem LTree.onto_assoc (A B K : LTree P) : A.onto (B.onto K) = (LTree.concat A B).onto K := rfl

theorem NTree.onto_layout (w : Nat) (t : NTree P) : t.NoFail → ∀ {id : P.Id} {K : NTree P}, K.NoFail →
    ∀ {k k' : List (NTree P)}, (∀ rem e, fitK (K :: k') rem e = fitK k rem e) → ∀ st,
    stripRes ((t.onto K).layout w id k' st) =
      thenLay (t.layout w id k st) fun st => stripRes (K.layout w id k' st) := by
  induction t with
  | fail f => intro h; exact h.elim
  | empty =>
    intro _ id K hK k k' hk st
    simp only [NTree.onto, NTree.layout, thenLay]
    rcases K.layout w id k' st with f | ⟨st, L⟩ <;> rfl
  | mark =>
    intro _ id K hK k k' hk st
    simp only [NTree.onto, NTree.layout, thenLay]
    rcases K.layout w id k' st with f | ⟨st, L⟩ <;> rfl
  | eol => intro _ id K hK k k' hk st; exact stripRes_concat ..
  | newline ind => intro _ id K hK k k' hk st; exact stripRes_concat ..
  | text t => intro _ id K hK k k' hk st; exact stripRes_concat ..
  | concat a b iha ihb =>
    intro h id K hK k k' hk st
    have hbK : (b.onto K).NoFail := (NTree.onto_noFail _ _).2 ⟨h.2, hK⟩
    simp only [NTree.onto]
    rw [iha h.1 hbK (k := b :: k) (fun rem e => fitK_onto h.2 hK hk rem e)]
    simp only [NTree.layout, Except.bind_eq]
    rcases a.layout w id (b :: k) st with f | ⟨st, La⟩
    · rfl
    · simp only [thenLay]
      rw [ihb h.2 hK hk st]
      simp only [thenLay]
      rcases b.layout w id k st with f | ⟨st, Lb⟩
      · rfl
      · simp only
        rcases K.layout w id k' st with f | ⟨st, LK⟩ <;> rfl
  | choice a b iha ihb =>
    intro h id K hK k k' hk st
    have hk' : ∀ rem e, fitK (.empty :: K :: k') rem e = fitK k rem e := fun rem e => by
      rw [← hk rem e]; rfl
    simp only [NTree.onto]
    rw [stripRes_concat]
    refine thenLay_congr ?_ (fun _ _ K h => LTree.onto_congr h K) _
    have hfit : fitsLine w st (a.onto .empty :: K :: k') = fitsLine w st (a :: k) := by
      unfold fitsLine
      split
      · exact fitK_onto (K := .empty) h.1 trivial hk' _ _
      · rfl
    have hca : (a.onto .empty).check = .ok () := NTree.noFail_check ((NTree.onto_noFail _ _).2 ⟨h.1, trivial⟩)
    simp only [NTree.layout, hca, NTree.noFail_check h.1, hfit, Except.bind_eq]
    rcases fitsLine w st (a :: k) with f | (_ | _)
    · rfl
    · simp only [Bool.false_eq_true, if_false]
      rw [ihb h.2 (K := .empty) trivial hk', thenLay_empty]
    · simp only [if_true]
      rw [iha h.1 (K := .empty) trivial hk', thenLay_empty]
  | child i cid t ih =>
    intro h id K hK k k' hk st
    have hk' : ∀ rem e, fitK (.empty :: K :: k') rem e = fitK k rem e := fun rem e => by
      rw [← hk rem e]; rfl
    simp only [NTree.onto]
    rw [stripRes_concat]
    refine thenLay_congr ?_ (fun _ _ K h => LTree.onto_congr h K) _
    obtain ⟨⟨c, rfl⟩, hn⟩ := h
    simp only [NTree.layout, Except.bind_eq]
    have e := ih hn (id := c) (K := .empty) trivial hk' st
    rw [thenLay_empty] at e
    rcases h1 : (t.onto .empty).layout w c (K :: k') st with f | ⟨st1, L1⟩ <;>
      rcases h2 : t.layout w c k st with f' | ⟨st2, L2⟩ <;>
      rw [h1, h2] at e <;>
      simp only [stripRes, Except.ok.injEq, Prod.mk.injEq, Except.error.injEq, reduceCtorEq] at e
    · rw [e]
    · obtain ⟨rfl, e⟩ := e
      simp only [stripRes, LTree.strip, LTree.onto, show L1.onto .empty = L2.onto .empty from e]

/-- Trees that differ in nothing but marks, empties and grouping have layouts that differ in nothing
    else. -/
theorem layoutDoc_stripEq {t u : NTree P} (h : StripEq t u) (hn : t.NoFail) {w : Nat} {id : P.Id} {L}
    (hL : t.layoutDoc w id = .ok L) : ∃ L', u.layoutDoc w id = .ok L' ∧ L.strip = L'.strip := by
  have hu : u.NoFail := by rw [← NTree.strip_noFail, ← show t.strip = u.strip from h, NTree.strip_noFail]; exact hn
  have e1 := NTree.onto_layout w t hn (id := id) (K := .empty) trivial (k := []) (k' := []) (fun _ _ => rfl) ⟨0, false⟩
  have e2 := NTree.onto_layout w u hu (id := id) (K := .empty) trivial (k := []) (k' := []) (fun _ _ => rfl) ⟨0, false⟩
  rw [thenLay_empty] at e1 e2
  have hs : t.onto .empty = u.onto .empty := h
  rw [hs, e2] at e1
  simp only [NTree.layoutDoc, Except.bind_eq] at hL ⊢
  rcases h1 : t.layout w id [] ⟨0, false⟩ with f | ⟨st1, L1⟩ <;>
    rcases h2 : u.layout w id [] ⟨0, false⟩ with f' | ⟨st2, L2⟩ <;>
    rw [h1, h2] at e1 <;> rw [h1] at hL <;>
    simp only [stripRes, Except.ok.injEq, Prod.mk.injEq, Except.error.injEq, reduceCtorEq] at e1 hL
  subst hL
  exact ⟨L2, rfl, e1.2.symm⟩

/-! ### Notations -/

/-- What `Left` and `Right` stand for is the same. -/
def EnvStrip : Option (FoldEnv P) → Option (FoldEnv P) → Prop
  | none, none => True
  | some e, some e' => e.next = e'.next ∧ ∀ c, StripEq (e.acc c) (e'.acc c)
  | _, _ => False

theorem EnvStrip.symm {e e' : Option (FoldEnv P)} (h : EnvStrip e e') : EnvStrip e' e := by
  cases e <;> cases e' <;> first | trivial | exact h.elim | exact ⟨h.1.symm, fun c => (h.2 c).symm⟩

theorem EnvStrip.refl (e : Option (FoldEnv P)) : EnvStrip e e := by
  cases e
  · trivial
  · exact ⟨rfl, fun c => .refl _⟩

theorem orFail_strip {α : Type} {c c' : Call P.Err α} {f f' : α → NTree P} (hc : c = c')
    (h : ∀ a, c = .ok a → StripEq (f a) (f' a)) : StripEq (.orFail c f) (.orFail c' f') := by
  subst hc
  cases c with
  | error e => exact .refl _
  | ok a => exact h a rfl

theorem inspected_ink {R : P.Node → P.Node → Prop} {p q : P.Node} (hR : InkAlike R) (hpq : R p q)
    {env env' : Option (FoldEnv P)} (he : EnvStrip env env') (pos : CheckPos) :
    (∃ f, inspected p env pos = .error f ∧ inspected q env' pos = .error f) ∨
      ∃ p' q', inspected p env pos = .ok p' ∧ inspected q env' pos = .ok q' ∧ R p' q' := by
  have hchild : ∀ j, (∃ f, Call.toRes (P.childAt p j) = .error f ∧ Call.toRes (P.childAt q j) = .error f) ∨
      ∃ p' q', Call.toRes (P.childAt p j) = .ok p' ∧ Call.toRes (P.childAt q j) = .ok q' ∧ R p' q' := by
    intro j
    cases hc : P.childAt p j with
    | error e =>
      rw [hR.child_error p q j e hpq hc]
      exact .inl ⟨_, rfl, rfl⟩
    | ok c =>
      obtain ⟨d, h1, h2⟩ := hR.child p q j c hpq hc
      rw [h1]
      exact .inr ⟨c, d, rfl, rfl, h2⟩
  cases pos with
  | here => exact .inr ⟨p, q, rfl, rfl, hpq⟩
  | child i =>
    simp only [inspected, toRes_bind, ← hR.numChildren p q hpq]
    cases P.numChildren p with
    | error e => exact .inl ⟨_, rfl, rfl⟩
    | ok n =>
      cases n with
      | none => exact .inl ⟨_, rfl, rfl⟩
      | some n =>
        simp only
        cases childIndex i n with
        | none => exact .inl ⟨_, rfl, rfl⟩
        | some j => exact hchild j
  | leftChild =>
    cases env <;> cases env'
    · exact .inl ⟨_, rfl, rfl⟩
    · exact he.elim
    · exact he.elim
    · simp only [inspected, ← he.1]
      exact hchild _
  | rightChild =>
    cases env <;> cases env'
    · exact .inl ⟨_, rfl, rfl⟩
    · exact he.elim
    · exact he.elim
    · simp only [inspected, ← he.1]
      exact hchild _

/-- The same notation on two nodes that are alike. -/
theorem tree_ink {R : P.Node → P.Node → Prop} {p q : P.Node} {kid kid' : Nat → Ctx P → NTree P}
    (hR : InkAlike R) (hpq : R p q) (hkid : ∀ j c, StripEq (kid j c) (kid' j c))
    (a : Notation P.Label P.Cond) : ∀ {env env'}, EnvStrip env env' →
    ∀ c, StripEq (a.tree p kid env c) (a.tree q kid' env' c) := by
  have hn := hR.numChildren p q hpq
  induction a with
  | empty => intros; exact .refl _
  | newline => intros; exact .refl _
  | endOfLine => intros; exact .refl _
  | literal s => intros; exact .refl _
  | focusMark => intros; exact .refl _
  | text =>
    intro env env' he c
    refine orFail_strip hn ?_
    intro n _
    cases n with
    | some n => exact .refl _
    | none => exact orFail_strip (hR.unwrapText p q hpq) (fun _ _ => .refl _)
  | flat a ih => intro env env' he c; exact ih he _
  | indent pre l a ih =>
    intro env env' he c
    cases l with
    | none => exact ih he _
    | some l => exact orFail_strip (hR.lookupStyle p q l hpq) (fun s _ => ih he _)
  | concat a b iha ihb => intro env env' he c; exact .concat (iha he c) (ihb he c)
  | choice a b iha ihb =>
    intro env env' he c
    simp only [Notation.tree]
    split
    · exact iha he c
    · exact .choice (iha he c) (ihb he c)
  | check cond pos a b iha ihb =>
    intro env env' he c
    simp only [Notation.tree]
    rcases inspected_ink hR hpq he pos with ⟨f, h1, h2⟩ | ⟨p', q', h1, h2, h3⟩
    · rw [h1, h2]; exact .refl _
    · rw [h1, h2]
      refine orFail_strip (hR.condition p' q' cond h3) ?_
      rintro (_ | _) _
      · exact ihb he c
      · exact iha he c
  | child i =>
    intro env env' he c
    refine orFail_strip hn ?_
    intro n _
    cases n with
    | none => exact .refl _
    | some n =>
      simp only
      cases childIndex i n with
      | none => exact .refl _
      | some j => exact hkid j c
  | style l a ih =>
    intro env env' he c
    exact orFail_strip (hR.lookupStyle p q l hpq) (fun s _ => ih he _)
  | count z o m ihz iho ihm =>
    intro env env' he c
    refine orFail_strip hn ?_
    intro n _
    match n with
    | none => exact .refl _
    | some 0 => exact ihz he c
    | some 1 => exact iho he c
    | some (k + 2) => exact ihm he c
  | fold first join ihf ihj =>
    intro env env' he c
    refine orFail_strip hn ?_
    intro n _
    match n with
    | none => exact .refl _
    | some 0 => exact .refl _
    | some (n + 1) =>
      have key : ∀ k c, StripEq (foldTree p kid first join k c) (foldTree q kid' first join k c) := by
        intro k
        induction k with
        | zero => intro c; exact ihf (env := none) (env' := none) trivial c
        | succ k ih =>
          intro c
          change StripEq (.orFail (P.childAt p (k + 1)) _) (.orFail (P.childAt q (k + 1)) _)
          cases hc : P.childAt p (k + 1) with
          | error e => rw [hR.child_error p q _ e hpq hc]; exact .refl _
          | ok ch =>
            obtain ⟨dh, hdh, _⟩ := hR.child p q (k + 1) ch hpq hc
            rw [hdh]
            exact ihj (env := some ⟨foldTree p kid first join k, k + 1⟩)
              (env' := some ⟨foldTree q kid' first join k, k + 1⟩) ⟨rfl, ih⟩ c
      exact key n c
  | left =>
    intro env env' he c
    cases env <;> cases env'
    · exact .refl _
    · exact he.elim
    · exact he.elim
    · exact he.2 c
  | right =>
    intro env env' he c
    cases env <;> cases env'
    · exact .refl _
    · exact he.elim
    · exact he.elim
    · simp only [Notation.tree, ← he.1]
      exact hkid _ c

/-- Equal nodes are alike. -/
theorem inkAlike_eq : InkAlike (P := P) (fun p q => p = q) := by
  constructor
  · rintro p q rfl; rfl
  · rintro p q rfl; rfl
  · rintro p q c rfl; rfl
  · rintro p q l rfl; rfl
  · rintro p q rfl; rfl
  · rintro p q rfl; rfl
  · rintro p q i c rfl hc; exact ⟨c, hc, rfl⟩
  · rintro p q i e rfl h; exact h
  · rintro p q a rfl h; exact ⟨a, h, .refl a⟩
  · rintro p q e rfl h; exact h

theorem tree_envStrip {p : P.Node} {kid : Nat → Ctx P → NTree P} (a : Notation P.Label P.Cond) {env env'}
    (he : EnvStrip env env') (c : Ctx P) : StripEq (a.tree p kid env c) (a.tree p kid env' c) :=
  tree_ink inkAlike_eq rfl (fun _ _ => .refl _) a he c

/-- Notations that differ in nothing but marks, empties and grouping have trees that differ in nothing
    else. -/
theorem sameInk_tree {p : P.Node} {kid : Nat → Ctx P → NTree P} {a b : Notation P.Label P.Cond}
    (hab : SameInk a b) : ∀ {env env'}, EnvStrip env env' →
    ∀ c, StripEq (a.tree p kid env c) (b.tree p kid env' c) := by
  induction hab with
  | refl a => intro env env' he c; exact tree_envStrip a he c
  | symm _ ih => intro env env' he c; exact (ih he.symm c).symm
  | trans _ _ ih1 ih2 => intro env env' he c; exact (ih1 he c).trans (ih2 (.refl _) c)
  | mark => intros; rfl
  | empty_left x => intro env env' he c; exact (StripEq.empty_left _).trans (tree_envStrip x he c)
  | empty_right x => intro env env' he c; exact (StripEq.empty_right _).trans (tree_envStrip x he c)
  | assoc x y z =>
    intro env env' he c
    exact (StripEq.assoc _ _ _).trans
      (.concat (tree_envStrip x he c) (.concat (tree_envStrip y he c) (tree_envStrip z he c)))
  | concat _ _ iha ihb => intro env env' he c; exact .concat (iha he c) (ihb he c)
  | choice _ _ iha ihb =>
    intro env env' he c
    simp only [Notation.tree]
    split
    · exact iha he c
    · exact .choice (iha he c) (ihb he c)
  | @check cond pos a a' b b' _ _ iha ihb =>
    intro env env' he c
    simp only [Notation.tree]
    rcases inspected_ink inkAlike_eq (p := p) rfl he pos with ⟨f, h1, h2⟩ | ⟨p', q', h1, h2, h3⟩
    · rw [h1, h2]; exact .refl _
    · rw [h1, h2]
      refine orFail_strip (by rw [h3]) ?_
      rintro (_ | _) _
      · exact ihb he c
      · exact iha he c
  | flat _ ih => intro env env' he c; exact ih he _
  | @indent s l a a' _ ih =>
    intro env env' he c
    cases l with
    | none => exact ih he _
    | some l => exact orFail_strip rfl (fun s _ => ih he _)
  | style _ ih => intro env env' he c; exact orFail_strip rfl (fun s _ => ih he _)
  | count _ _ _ ihz iho ihm =>
    intro env env' he c
    refine orFail_strip rfl ?_
    intro n _
    match n with
    | none => exact .refl _
    | some 0 => exact ihz he c
    | some 1 => exact iho he c
    | some (k + 2) => exact ihm he c
  | @fold f f' j j' _ _ ihf ihj =>
    intro env env' he c
    refine orFail_strip rfl ?_
    intro n _
    match n with
    | none => exact .refl _
    | some 0 => exact .refl _
    | some (n + 1) =>
      have key : ∀ k c, StripEq (foldTree p kid f j k c) (foldTree p kid f' j' k c) := by
        intro k
        induction k with
        | zero => intro c; exact ihf (env := none) (env' := none) trivial c
        | succ k ih =>
          intro c
          exact orFail_strip rfl (fun _ _ => ihj (env := some ⟨foldTree p kid f j k, k + 1⟩)
            (env' := some ⟨foldTree p kid f' j' k, k + 1⟩) ⟨rfl, ih⟩ c)
      exact key n c

/-- Documents that are alike but for marks, empties and grouping have trees that are. -/
theorem docTree_ink (law : P.Lawful) {R : P.Node → P.Node → Prop} (hR : InkAlike R) (p : P.Node) :
    ∀ {q}, R p q → ∀ flat indent outer,
    (∃ f, docTree law p flat indent outer = .error f ∧ docTree law q flat indent outer = .error f) ∨
      ∃ t u, docTree law p flat indent outer = .ok t ∧ docTree law q flat indent outer = .ok u ∧ StripEq t u := by
  induction p using law.wf.induction with
  | h p ih =>
    intro q hpq flat indent outer
    cases ha : P.notn p with
    | error e =>
      have hb := hR.notn_error p q e hpq ha
      rw [docTree_eq, docTree_eq, ha, hb]
      exact .inl ⟨_, rfl, rfl⟩
    | ok a =>
      obtain ⟨b, hb, hab⟩ := hR.notn p q a hpq ha
      cases hs : P.nodeStyle p with
      | error e =>
        have hs' := (hR.nodeStyle p q hpq).symm.trans hs
        rw [docTree_eq, docTree_eq, ha, hb, hs, hs']
        exact .inl ⟨_, rfl, rfl⟩
      | ok s =>
        have hs' := (hR.nodeStyle p q hpq).symm.trans hs
        refine .inr ⟨_, _, docTree_of law ha hs _ _ _, docTree_of law hb hs' _ _ _, ?_⟩
        have hkid : ∀ j c, StripEq (docKid law p j c) (docKid law q j c) := by
          intro j c
          unfold docKid
          cases hc : P.childAt p j with
          | error e =>
            rw [hR.child_error p q j e hpq hc]
            exact .refl _
          | ok x =>
            obtain ⟨y, hy, hxy⟩ := hR.child p q j x hpq hc
            rw [hy]
            simp only [NTree.orFail]
            rcases ih x ⟨j, hc⟩ hxy c.flat c.indent (some c.style) with ⟨f, h1, h2⟩ | ⟨t, u, h1, h2, h3⟩
            · rw [h1, h2]; exact .refl _
            · rw [h1, h2, ← hR.id x y hxy]
              exact .child h3
        exact (sameInk_tree hab (.refl none) _).trans (tree_ink hR hpq hkid b (.refl none) _)

/-! ### Positions -/

/-- Not a focus mark. -/
def Tok.notMark : Tok P → Bool
  | .mark _ => false
  | _ => true

/-- The tokens without focus marks. -/
def noMarks (T : List (Tok P)) : List (Tok P) := T.filter Tok.notMark

theorem noMarks_append (A B : List (Tok P)) : noMarks (A ++ B) = noMarks A ++ noMarks B :=
  List.filter_append ..

theorem linesFrom_noMarks (T : List (Tok P)) : ∀ cur, linesFrom cur (noMarks T) = linesFrom cur T := by
  induction T with
  | nil => intro cur; rfl
  | cons t T ih =>
    intro cur
    cases t with
    | mark i => exact ih cur
    | text x => exact ih _
    | nl ind => exact congrArg (cur :: ·) (ih _)
    | eol => exact ih _

theorem linesOf_noMarks (T : List (Tok P)) : linesOf (noMarks T) = linesOf T := linesFrom_noMarks T []

theorem LTree.onto_toks (L : LTree P) : ∀ K : LTree P, (L.onto K).toks = noMarks L.toks ++ K.toks := by
  induction L with
  | concat a b iha ihb =>
    intro K
    simp only [LTree.onto, LTree.toks]
    rw [iha, ihb, noMarks_append, List.append_assoc]
  | child p i id t ih =>
    intro K
    simp only [LTree.onto, LTree.toks]
    rw [ih]
    simp [LTree.toks]
  | _ => intro K; rfl

theorem LTree.strip_toks (L : LTree P) : L.strip.toks = noMarks L.toks := by
  rw [LTree.strip, LTree.onto_toks]; simp [LTree.toks]

/-- A located node, without marks. -/
def Located.strip (l : Located P) : Located P := ⟨noMarks l.before, l.id, l.node.strip, noMarks l.after⟩

theorem LTree.onto_findChild (i : Nat) (L : LTree P) : ∀ K : LTree P, (L.onto K).findChild i =
    match L.findChild i with
    | some l => some { l.strip with after := noMarks l.after ++ K.toks }
    | none => (K.findChild i).map fun l => { l with before := noMarks L.toks ++ l.before } := by
  induction L with
  | concat a b iha ihb =>
    intro K
    simp only [LTree.onto, LTree.findChild]
    rw [iha]
    cases ha : a.findChild i with
    | some l => simp only [LTree.onto_toks, noMarks_append, List.append_assoc, Located.strip]
    | none =>
      simp only
      rw [ihb]
      cases hb : b.findChild i with
      | some l => simp [Located.strip, noMarks_append]
      | none =>
        simp only [Option.map_map, LTree.toks]
        cases K.findChild i with
        | none => rfl
        | some l => simp [noMarks_append]
  | child p j id t ih =>
    intro K
    by_cases h : j = i
    · simp only [LTree.onto, LTree.findChild, if_pos h]
      rfl
    · simp only [LTree.onto, LTree.findChild, if_neg h]
      rw [show (LTree.child p j id t).toks = t.toks from rfl]
      cases K.findChild i with
      | none => rfl
      | some l =>
        simp only [Option.map_some, LTree.toks]
        rw [show (t.onto .empty).toks = noMarks t.toks from t.strip_toks]
  | empty => intro K; cases hk : K.findChild i <;> simp [LTree.onto, LTree.findChild, hk, LTree.toks, noMarks]
  | mark id =>
    intro K
    cases hk : K.findChild i <;> simp [LTree.onto, LTree.findChild, hk, LTree.toks, noMarks, Tok.notMark]
  | eol =>
    intro K
    cases hk : K.findChild i <;> simp [LTree.onto, LTree.findChild, hk, LTree.toks, noMarks]
    rfl
  | newline ind =>
    intro K
    cases hk : K.findChild i <;> simp [LTree.onto, LTree.findChild, hk, LTree.toks, noMarks]
    rfl
  | text t =>
    intro K
    cases hk : K.findChild i <;> simp [LTree.onto, LTree.findChild, hk, LTree.toks, noMarks]
    rfl

theorem LTree.strip_findChild (i : Nat) (L : LTree P) :
    L.strip.findChild i = (L.findChild i).map Located.strip := by
  rw [LTree.strip, LTree.onto_findChild]
  cases L.findChild i with
  | none => rfl
  | some l => simp [LTree.toks, Located.strip]

/-- What is found by following a path, without marks. -/
def stripLoc : Except Nat (Located P) → Except Nat (Located P)
  | .ok l => .ok l.strip
  | .error j => .error j

theorem LTree.strip_locate (path : List Nat) : ∀ (id : P.Id) (L : LTree P),
    L.strip.locate id path = stripLoc (L.locate id path) := by
  induction path with
  | nil => intro id L; rfl
  | cons i path ih =>
    intro id L
    simp only [LTree.locate]
    rw [LTree.strip_findChild]
    cases L.findChild i with
    | none => rfl
    | some l =>
      simp only [Option.map_some, Located.strip]
      rw [ih]
      cases l.node.locate l.id path with
      | error j => rfl
      | ok l' => simp [stripLoc, Located.strip, noMarks_append]

/-- Layouts that differ in nothing but marks, empties and grouping have the same positions. -/
theorem locate_stripEq {L L' : LTree P} (h : L.strip = L'.strip) {id : P.Id} {path : List Nat} {l : Located P}
    (hl : L.locate id path = .ok l) :
    ∃ l', L'.locate id path = .ok l' ∧ noMarks l.before = noMarks l'.before ∧ l.id = l'.id ∧
      noMarks l.node.toks = noMarks l'.node.toks ∧ noMarks l.after = noMarks l'.after := by
  have e := L.strip_locate path id
  rw [h, L'.strip_locate, hl] at e
  cases hl' : L'.locate id path with
  | error j => rw [hl'] at e; cases e
  | ok l' =>
    rw [hl'] at e
    simp only [stripLoc, Except.ok.injEq] at e
    refine ⟨l', rfl, (congrArg Located.before e).symm, (congrArg Located.id e).symm, ?_,
      (congrArg Located.after e).symm⟩
    have := congrArg Located.node e
    simp only [Located.strip] at this
    rw [← LTree.strip_toks, ← LTree.strip_toks, this]

theorem locate_stripEq_error {L L' : LTree P} (h : L.strip = L'.strip) {id : P.Id} {path : List Nat} {j : Nat}
    (hl : L.locate id path = .error j) : L'.locate id path = .error j := by
  have e := L.strip_locate path id
  rw [h, L'.strip_locate, hl] at e
  cases hl' : L'.locate id path with
  | error j => rw [hl'] at e; exact e
  | ok l' => rw [hl'] at e; cases e

theorem splitAtTok_noMarks {p : Tok P → Bool} (hp : ∀ i, p (.mark i) = false) (T : List (Tok P)) :
    splitAtTok p (noMarks T) = (splitAtTok p T).map fun (b, x, a) => (noMarks b, x, noMarks a) := by
  induction T with
  | nil => rfl
  | cons t T ih =>
    cases hm : t.notMark with
    | false =>
      cases t <;> simp only [Tok.notMark, Bool.true_eq_false] at hm
      rename_i i
      have e : noMarks (.mark i :: T) = noMarks T := rfl
      simp only [splitAtTok, hp i, Bool.false_eq_true, if_false]
      rw [e, ih]
      cases splitAtTok p T with
      | none => rfl
      | some r => rfl
    | true =>
      have e : noMarks (t :: T) = t :: noMarks T := by simp [noMarks, hm]
      rw [e]
      simp only [splitAtTok]
      split
      · rfl
      · rw [ih]
        cases splitAtTok p T with
        | none => rfl
        | some r => simp [noMarks, hm]

/-- The focus is at the same place of the text. -/
theorem focusToks_noMarks {target : FocusTarget} (ht : target ≠ .mark) {id : P.Id} {N A N' A' : List (Tok P)}
    (hN : noMarks N = noMarks N') (hA : noMarks A = noMarks A') :
    match focusToks target id N A, focusToks target id N' A' with
    | .ok (B, X), .ok (B', X') => noMarks B = noMarks B' ∧ noMarks X = noMarks X'
    | .error e, .error e' => e = e'
    | _, _ => False := by
  cases target with
  | start => simp [focusToks, noMarks_append, hN, hA]
  | «end» => simp only [focusToks]; exact ⟨hN, hA⟩
  | mark => exact absurd rfl ht
  | text pos =>
    have e := splitAtTok_noMarks (P := P) (p := Tok.isDocText) (fun _ => rfl) (N ++ A)
    have e' := splitAtTok_noMarks (P := P) (p := Tok.isDocText) (fun _ => rfl) (N' ++ A')
    rw [noMarks_append, hN, hA, ← noMarks_append, e'] at e
    simp only [focusToks]
    cases h1 : splitAtTok Tok.isDocText (N ++ A) with
    | none =>
      cases h2 : splitAtTok Tok.isDocText (N' ++ A') with
      | none => rfl
      | some r => rw [h1, h2] at e; cases e
    | some r =>
      cases h2 : splitAtTok Tok.isDocText (N' ++ A') with
      | none => rw [h1, h2] at e; cases e
      | some r' =>
        rw [h1, h2] at e
        obtain ⟨b, x, a⟩ := r
        obtain ⟨b', x', a'⟩ := r'
        simp only [Option.map_some, Option.some.injEq, Prod.mk.injEq] at e
        obtain ⟨e1, rfl, e3⟩ := e
        cases x' with
        | text t =>
          simp only [noMarks_append, e1]
          exact ⟨trivial, by simp only [noMarks, List.filter_cons] at e3 ⊢; rw [e3]⟩
        | _ => rfl

end PPP
