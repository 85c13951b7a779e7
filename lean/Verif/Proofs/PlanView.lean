import Verif.Proofs.ViewRows
/-
Reading lines of a document whose children are on separate lines: where the nodes are, and which of them may be looked
into.
-/
namespace PPP
variable {Q : PrettyDoc}

/-! ### One item per line -/

/-- `Sp f V g`: on every line of the view, there is at most one item that can be looked into.  `f` says whether there
    may be one on the first line, and `g` whether another one could be added to the last line. -/
inductive Sp : Bool → View Q → Bool → Prop where
  | nil {f} : Sp f [] f
  | flat {f g x V} : Plain x → ¬ IsNewline x → Sp f V g → Sp f (x :: V) g
  | newline {f g x V} : IsNewline x → Sp true V g → Sp f (x :: V) g
  | item {g x V} : ¬ Plain x → Sp false V g → Sp true (x :: V) g

theorem IsNewline.plain {x : Q.Id × NTree Q} (h : IsNewline x) : Plain x := by
  obtain ⟨i, x⟩ := x
  obtain ⟨ind, h⟩ := h
  dsimp only at h
  subst h
  exact trivial

theorem Sp.append {f g h : Bool} {A B : View Q} (hA : Sp f A g) (hB : Sp g B h) : Sp f (A ++ B) h := by
  induction hA with
  | nil => exact hB
  | flat h1 h2 _ ih => exact .flat h1 h2 (ih hB)
  | newline h1 _ ih => exact .newline h1 (ih hB)
  | item h1 _ ih => exact .item h1 (ih hB)

theorem Sp.split {f h : Bool} {A B : View Q} (hAB : Sp f (A ++ B) h) : ∃ g, Sp f A g ∧ Sp g B h := by
  induction A generalizing f with
  | nil => exact ⟨f, .nil, hAB⟩
  | cons x A ih =>
    cases hAB with
    | flat h1 h2 h3 =>
      obtain ⟨g, h4, h5⟩ := ih h3
      exact ⟨g, .flat h1 h2 h4, h5⟩
    | newline h1 h3 =>
      obtain ⟨g, h4, h5⟩ := ih h3
      exact ⟨g, .newline h1 h4, h5⟩
    | item h1 h3 =>
      obtain ⟨g, h4, h5⟩ := ih h3
      exact ⟨g, .item h1 h4, h5⟩

theorem Sp.weaken {f g : Bool} {V : View Q} (h : Sp f V g) : ∃ g', Sp true V g' := by
  induction h with
  | nil => exact ⟨_, .nil⟩
  | flat h1 h2 _ ih =>
    obtain ⟨g', ih⟩ := ih
    exact ⟨g', .flat h1 h2 ih⟩
  | newline h1 h2 _ => exact ⟨_, .newline h1 h2⟩
  | item h1 h2 _ => exact ⟨_, .item h1 h2⟩

theorem Sp.plain_line {g : Bool} {L R : View Q} (h : Sp false (L ++ R) g) (hl : OneLine L) : ∀ x ∈ L, Plain x := by
  induction L with
  | nil => intro x hx; cases hx
  | cons y L ih =>
    intro x hx
    cases h with
    | flat h1 h2 h3 =>
      rcases List.mem_cons.1 hx with rfl | hx
      · exact h1
      · exact ih h3 (fun z hz => hl z (by simp [hz])) x hx
    | newline h1 _ => exact absurd h1 (hl y (by simp))

/-! ### Where everything is -/

/-- Which node there is where: the path to the node with the given id, the numbers of its first and its last line, and
    whether it is open. -/
structure Plan (Q : PrettyDoc) where
  loc : Q.Id → List Nat
  st : Q.Id → Nat
  en : Q.Id → Nat
  oi : Q.Id → Bool

variable {S : Plan Q}

/-- The view starts on line `a` and ends on line `b`. -/
inductive Plan.Placed (S : Plan Q) : View Q → Nat → Nat → Prop where
  | nil {a} : S.Placed [] a a
  | flat {x V a b} : Plain x → ¬ IsNewline x → S.Placed V a b → S.Placed (x :: V) a b
  | newline {x V a b} : IsNewline x → S.Placed V (a + 1) b → S.Placed (x :: V) a b
  | child {p i cid tc V b} : S.Placed V (S.en cid) b → S.Placed ((p, .child i (.ok cid) tc) :: V) (S.st cid) b
  | fail {p g V b} : S.Placed V (S.en p) b → S.Placed ((p, .fail g) :: V) (S.st p) b

theorem Plan.Placed.append {A B : View Q} {a b c : Nat} (hA : S.Placed A a b) (hB : S.Placed B b c) :
    S.Placed (A ++ B) a c := by
  induction hA with
  | nil => exact hB
  | flat h1 h2 _ ih => exact .flat h1 h2 (ih hB)
  | newline h1 _ ih => exact .newline h1 (ih hB)
  | child _ ih => exact .child (ih hB)
  | fail _ ih => exact .fail (ih hB)

theorem Plan.Placed.split {A B : View Q} {a c : Nat} (h : S.Placed (A ++ B) a c) :
    ∃ b, S.Placed A a b ∧ S.Placed B b c := by
  induction A generalizing a with
  | nil => exact ⟨a, .nil, h⟩
  | cons x A ih =>
    cases h with
    | flat h1 h2 h3 =>
      obtain ⟨b, h4, h5⟩ := ih h3
      exact ⟨b, .flat h1 h2 h4, h5⟩
    | newline h1 h3 =>
      obtain ⟨b, h4, h5⟩ := ih h3
      exact ⟨b, .newline h1 h4, h5⟩
    | child h3 =>
      obtain ⟨b, h4, h5⟩ := ih h3
      exact ⟨b, .child h4, h5⟩
    | fail h3 =>
      obtain ⟨b, h4, h5⟩ := ih h3
      exact ⟨b, .fail h4, h5⟩

theorem newlines_cons_flat {x : Q.Id × NTree Q} {V : View Q} (h : ¬ IsNewline x) : newlines (x :: V) = newlines V := by
  have := newlines_append [x] V
  rw [newlines_oneLine (L := [x]) (by intro y hy; simp only [List.mem_singleton] at hy; exact hy ▸ h)] at this
  simpa using this

theorem newlines_cons_newline {x : Q.Id × NTree Q} {V : View Q} (h : IsNewline x) :
    newlines (x :: V) = newlines V + 1 := by
  obtain ⟨i, x⟩ := x
  obtain ⟨ind, h⟩ := h
  dsimp only at h
  subst h
  rfl

theorem Plan.Placed.plain {R : View Q} {a b : Nat} (h : S.Placed R a b) (hR : ∀ x ∈ R, Plain x) :
    b = a + newlines R := by
  induction h with
  | nil => simp [newlines]
  | flat h1 h2 _ ih => rw [newlines_cons_flat h2]; exact ih fun x hx => hR x (by simp [hx])
  | newline h1 _ ih => rw [newlines_cons_newline h1, ih fun x hx => hR x (by simp [hx])]; omega
  | @child p i cid tc V b _ ih => exact (hR (p, .child i (.ok cid) tc) List.mem_cons_self : False).elim
  | @fail p g V b _ ih => exact (hR (p, .fail g) List.mem_cons_self : False).elim

/-! ### Which items there are -/

/-- What is known about (a part of) the notation tree of the node `id`, according to the plan. -/
def Plan.Ok (S : Plan Q) : NTree Q → Q.Id → Prop
  | .concat a b, id => S.Ok a id ∧ S.Ok b id
  | .child i (.ok cid) tc, id =>
    S.loc cid = S.loc id ++ [i] ∧
    (S.oi cid = true → S.Placed (shown cid tc) (S.st cid) (S.en cid) ∧ (∃ g, Sp true (shown cid tc) g) ∧
      S.Ok tc cid) ∧
    (S.oi cid = false → ∃ g, tc = .fail g)
  | .child _ (.error _) _, _ => False
  | .choice _ _, _ => False
  | .fail _, _ => False
  | _, _ => True

theorem Plan.Ok.parts {t : NTree Q} {id : Q.Id} (h : S.Ok t id) : ∀ p ∈ t.parts, S.Ok p id := by
  induction t with
  | concat a b iha ihb =>
    intro p hp
    simp only [NTree.parts, List.mem_append] at hp
    rcases hp with hp | hp
    · exact iha h.1 p hp
    · exact ihb h.2 p hp
  | empty => intro p hp; simp [NTree.parts] at hp
  | _ => intro p hp; simp only [NTree.parts, List.mem_singleton] at hp; subst hp; exact h

theorem Plan.Ok.noFail {t : NTree Q} {id : Q.Id} (h : S.Ok t id) (f) : .fail f ∉ t.parts := fun hf => h.parts _ hf

/-- An item of a view. -/
def Plan.Item (S : Plan Q) (x : Q.Id × NTree Q) : Prop := S.Ok x.2 x.1 ∨ ∃ g, x.2 = .fail g

theorem Plan.Ok.items {t : NTree Q} {id : Q.Id} (h : S.Ok t id) : ∀ x ∈ shown id t, S.Item x := by
  intro x hx
  simp only [shown, List.mem_map] at hx
  obtain ⟨p, hp, rfl⟩ := hx
  exact .inl (h.parts p hp)

/-- A view from line `a` to line `b`. -/
structure Plan.Inv (S : Plan Q) (V : View Q) (a b : Nat) : Prop where
  placed : S.Placed V a b
  items : ∀ x ∈ V, S.Item x
  sp : ∃ g, Sp true V g

theorem Plan.Inv.split {A B : View Q} {a c : Nat} (h : S.Inv (A ++ B) a c) : ∃ b, S.Inv A a b ∧ S.Inv B b c := by
  obtain ⟨h1, h2, g, h3⟩ := h
  obtain ⟨b, h4, h5⟩ := h1.split
  obtain ⟨g', h6, h7⟩ := h3.split
  exact ⟨b, ⟨h4, fun x hx => h2 x (by simp [hx]), g', h6⟩, ⟨h5, fun x hx => h2 x (by simp [hx]), h7.weaken⟩⟩

theorem Plan.Inv.step {A X B : View Q} {x : Q.Id × NTree Q} {a b : Nat} (h : S.Inv (A ++ x :: B) a b)
    (hx : LooksInto w x X) : S.Inv (A ++ X ++ B) a b := by
  have hi := h.items x (by simp)
  cases hx with
  | @child id i cid t =>
    rcases hi with hi | ⟨g, hi⟩
    rotate_left
    · cases hi
    obtain ⟨h1, h2, h3⟩ := hi
    have hX : S.Placed (shown cid t) (S.st cid) (S.en cid) ∧ (∃ g, Sp true (shown cid t) g) ∧
        ∀ x ∈ shown cid t, S.Item x := by
      cases ho : S.oi cid with
      | true =>
        obtain ⟨h4, h5, h6⟩ := h2 ho
        exact ⟨h4, h5, h6.items⟩
      | false =>
        obtain ⟨g, rfl⟩ := h3 ho
        refine ⟨.fail .nil, ⟨_, .item (fun h => h) .nil⟩, ?_⟩
        intro x hx
        simp only [shown, NTree.parts, List.map_cons, List.map_nil, List.mem_singleton] at hx
        exact .inr ⟨g, by rw [hx]⟩
    obtain ⟨hX1, ⟨gX, hX2⟩, hX3⟩ := hX
    obtain ⟨m, h4, h5⟩ := h.placed.split
    obtain ⟨g, hg⟩ := h.sp
    obtain ⟨f, h6, h7⟩ := hg.split
    cases h5 with
    | flat hp _ _ => exact hp.elim
    | newline hp _ => exact hp.plain.elim
    | child h5 =>
      cases h7 with
      | flat hp _ _ => exact hp.elim
      | newline hp _ => exact hp.plain.elim
      | item _ h7 =>
        refine ⟨(h4.append hX1).append h5, ?_, ?_⟩
        · intro y hy
          simp only [List.mem_append] at hy
          rcases hy with (hy | hy) | hy
          · exact h.items y (by simp [hy])
          · exact hX3 y hy
          · exact h.items y (by simp [hy])
        · cases gX with
          | false => exact ⟨g, (h6.append hX2).append h7⟩
          | true =>
            obtain ⟨g', h8⟩ := h7.weaken
            exact ⟨g', (h6.append hX2).append h8⟩
  | first => rcases hi with hi | ⟨g, hi⟩ <;> cases hi
  | second => rcases hi with hi | ⟨g, hi⟩ <;> cases hi

theorem Plan.Inv.expands {U V : View Q} {a b : Nat} (h : S.Inv U a b) (hE : Expands w U V) : S.Inv V a b := by
  induction hE with
  | refl => exact h
  | step _ hx ih => exact ih.step hx

/-! ### Failures -/

theorem ReadFails.atFirst {w : Nat} {L : View Q} {f} (hi : ∀ x ∈ L, S.Item x) (h : ReadFails w L f) :
    ∃ R p i cid tc rest, Flatly R ∧ L = R ++ (p, .child i (.ok cid) tc) :: rest ∧ S.oi cid = false ∧
      S.loc cid = S.loc p ++ [i] := by
  obtain ⟨R, z, rest, h1, h2, rfl | ⟨R', id, a, b, rest', _, rfl, _⟩⟩ := h
  · obtain ⟨p, z⟩ := z
    have hz := hi (p, z) (by simp)
    cases z with
    | child i cid tc =>
      rcases hz with hz | ⟨g, hz⟩
      rotate_left
      · cases hz
      cases cid with
      | error e => exact hz.elim
      | ok cid =>
        refine ⟨R, p, i, cid, tc, rest, h1, rfl, ?_, hz.1⟩
        cases ho : S.oi cid with
        | false => rfl
        | true =>
          rcases h2 with h2 | h2
          · cases h2
          · exact absurd h2 ((hz.2.1 ho).2.2.noFail f)
    | choice a b => rcases hz with hz | ⟨g, hz⟩ <;> cases hz
    | _ => exact h2.elim
  · rcases hi (id, .choice a b) (by simp) with hz | ⟨g, hz⟩ <;> cases hz

/-- The numbers of the lines that are read: the focus is on line `F`; from line `lo` to line `hi`. -/
structure Plan.Covers (S : Plan Q) (path : List Nat) (F lo hi : Nat) : Prop where
  /-- Whatever is on these lines is open. -/
  window : ∀ cid, S.st cid ≤ hi → lo ≤ S.en cid → S.oi cid = true
  /-- The nodes on the path are open. -/
  onPath : ∀ cid, S.loc cid <+: path → S.oi cid = true
  le : ∀ cid, S.st cid ≤ S.en cid
  lo_le : lo ≤ F
  le_hi : F ≤ hi

variable {path : List Nat} {F lo hi : Nat}

/-- Reading on from line `F`. -/
theorem Plan.Inv.noDown (hS : S.Covers path F lo hi) {B : View Q} {b w j : Nat} {f} (h : S.Inv B F b) (hj : F + j ≤ hi) :
    ¬ DownFails w j B f := by
  rintro ⟨R, L, V, hE, hR, _, hn, _, _, hr⟩
  have h' := h.expands hE
  obtain ⟨R2, p, i, cid, tc, rest, h1, rfl, h3, _⟩ := hr.atFirst (fun x hx => h'.items x (by simp [hx]))
  have h4 := h'.placed
  rw [show R ++ (R2 ++ (p, NTree.child i (.ok cid) tc) :: rest) ++ V =
    R ++ (R2 ++ ((p, NTree.child i (.ok cid) tc) :: rest ++ V)) by simp] at h4
  obtain ⟨m, h5, h6⟩ := h4.split
  obtain ⟨m', h7, h8⟩ := h6.split
  have e1 := h5.plain hR
  have e2 := h7.plain h1.plain
  rw [newlines_oneLine h1.oneLine] at e2
  have e3 : m' = S.st cid := by
    cases h8 with
    | flat hp _ _ => exact hp.elim
    | newline hp _ => exact hp.plain.elim
    | child _ => rfl
  have := hS.window cid (by omega) (by have := hS.le cid; have := hS.lo_le; omega)
  rw [this] at h3
  cases h3

/-- What is on a line, if there is a child on it. -/
theorem Plan.Inv.onLine {V V' R rest : View Q} {p i cid tc a b}
    (h : S.Inv (V ++ (R ++ (p, .child i (.ok cid) tc) :: rest) ++ V') a b) (hl : OneLine rest) (hR : Flatly R) :
    (∀ x ∈ rest, Plain x) ∧ S.Placed (V ++ R) a (S.st cid) ∧ S.Placed (rest ++ V') (S.en cid) b := by
  have h1 := h.placed
  obtain ⟨g, h2⟩ := h.sp
  rw [show V ++ (R ++ (p, NTree.child i (.ok cid) tc) :: rest) ++ V' =
    (V ++ R) ++ (p, NTree.child i (.ok cid) tc) :: (rest ++ V') by simp] at h1 h2
  obtain ⟨m, h3, h4⟩ := h1.split
  obtain ⟨f, h5, h6⟩ := h2.split
  cases h4 with
  | flat hp _ _ => exact hp.elim
  | newline hp _ => exact hp.plain.elim
  | child h4 =>
    cases h6 with
    | flat hp _ _ => exact hp.elim
    | newline hp _ => exact hp.plain.elim
    | item _ h6 => exact ⟨h6.plain_line hl, h3, h4⟩

/-- Reading backwards from line `F`. -/
theorem Plan.Inv.noUp (hS : S.Covers path F lo hi) {A : View Q} {a w k : Nat} {f} (h : S.Inv A a F) (hk : lo = F - k) :
    ¬ UpFails w k A f := by
  rintro ⟨V, L, R, hE, hR, _, _, hn, hl, _, hr⟩
  have h' := h.expands hE
  obtain ⟨R2, p, i, cid, tc, rest, h1, rfl, h3, _⟩ := hr.atFirst (fun x hx => h'.items x (by simp [hx]))
  have hl' : OneLine rest := hl.sub (by intro z hz; simp [hz])
  obtain ⟨h4, _, h5⟩ := h'.onLine hl' h1
  have e := h5.plain (by
    intro x hx
    rcases List.mem_append.1 hx with hx | hx
    · exact h4 x hx
    · exact hR x hx)
  rw [newlines_append, newlines_oneLine hl'] at e
  have := hS.window cid (by have := hS.le cid; have := hS.le_hi; omega) (by omega)
  rw [this] at h3
  cases h3

/-- Reading the line with the number `F`, which is where one view ends and the next one begins. -/
theorem Plan.Inv.noEnd (hS : S.Covers path F lo hi) {A V L V' B : View Q} {a b w : Nat} {f}
    (h1 : S.Placed A a F) (h : S.Inv (A ++ (V' ++ B)) a b) (hE : Expands w A (V ++ L)) (hl : OneLine (L ++ V')) :
    ¬ ReadFails w (L ++ V') f := by
  intro hr
  have h' := h.expands (hE.append (.refl (V' ++ B)))
  have hA : S.Placed (V ++ L) a F ∧ S.Placed (V' ++ B) F b := by
    obtain ⟨m, h3, h4⟩ := h.split
    obtain ⟨m', h5, h6⟩ := h'.split
    have hm : ∀ {U : View Q} {x y z}, S.Placed U x y → S.Placed U x z → y = z := by
      intro U x y z h1 h2
      induction h1 generalizing z with
      | nil => cases h2; rfl
      | flat g1 g2 _ ih =>
        cases h2 with
        | flat _ _ h2 => exact ih h2
        | newline h _ => exact absurd h g2
        | child _ => exact g1.elim
        | fail _ => exact g1.elim
      | newline g1 _ ih =>
        cases h2 with
        | flat _ h _ => exact absurd g1 h
        | newline _ h2 => exact ih h2
        | child _ => exact g1.plain.elim
        | fail _ => exact g1.plain.elim
      | child _ ih =>
        cases h2 with
        | flat h _ _ => exact h.elim
        | newline h _ => exact h.plain.elim
        | child h2 => exact ih h2
      | fail _ ih =>
        cases h2 with
        | flat h _ _ => exact h.elim
        | newline h _ => exact h.plain.elim
        | fail h2 => exact ih h2
    have := hm h3.placed h1
    subst this
    have h7 := (h3.expands hE).placed
    exact ⟨h7, h4.placed⟩
  have h'' : S.Inv (V ++ (L ++ V') ++ B) a b := by
    have e : V ++ (L ++ V') ++ B = V ++ L ++ (V' ++ B) := by simp
    rw [e]; exact h'
  obtain ⟨R2, p, i, cid, tc, rest, h3, he, h5, _⟩ := hr.atFirst (fun x hx => h''.items x (by
    simp only [List.mem_append] at hx ⊢
    rcases hx with hx | hx <;> simp [hx]))
  rw [he] at hl h''
  have hl' : OneLine rest := hl.sub (by intro z hz; simp [hz])
  obtain ⟨h6, -, -⟩ := h''.onLine hl' h3
  suffices S.st cid ≤ F ∧ F ≤ S.en cid by
    have := hS.window cid (by have := hS.le_hi; omega) (by have := hS.lo_le; omega)
    rw [this] at h5
    cases h5
  have hle := hS.le cid
  rcases List.append_eq_append_iff.1 he with ⟨as, ha, hb⟩ | ⟨bs, ha, hb⟩
  · -- in the second view
    subst ha
    rw [hb, show as ++ (p, NTree.child i (.ok cid) tc) :: rest ++ B =
      as ++ ((p, NTree.child i (.ok cid) tc) :: (rest ++ B)) by simp] at hA
    obtain ⟨m, h7, h8⟩ := hA.2.split
    have hf : Flatly as := fun x hx => h3 x (by simp [hx])
    have e := h7.plain hf.plain
    rw [newlines_oneLine hf.oneLine] at e
    cases h8 with
    | flat hp _ _ => exact hp.elim
    | newline hp _ => exact hp.plain.elim
    | child _ => omega
  · cases bs with
    | nil =>
      simp only [List.nil_append] at hb
      rw [← hb, List.cons_append] at hA
      obtain ⟨-, h8⟩ := hA
      cases h8 with
      | flat hp _ _ => exact hp.elim
      | newline hp _ => exact hp.plain.elim
      | child _ => omega
    | cons y bs =>
      simp only [List.cons_append, List.cons.injEq] at hb
      obtain ⟨rfl, hb⟩ := hb
      rw [ha, show V ++ (R2 ++ (p, NTree.child i (.ok cid) tc) :: bs) =
        (V ++ R2) ++ (p, NTree.child i (.ok cid) tc) :: bs by simp] at hA
      obtain ⟨m, h7, h8⟩ := hA.1.split
      cases h8 with
      | flat hp _ _ => exact hp.elim
      | newline hp _ => exact hp.plain.elim
      | child h8 =>
        have e := h8.plain (fun x hx => h6 x (by rw [hb]; simp [hx]))
        rw [newlines_oneLine (L := bs) (hl'.sub (by intro z hz; rw [hb]; simp [hz]))] at e
        omega

/-! ### Following the path -/

theorem Plan.zoom (hS : S.Covers path F lo hi) {id : Q.Id} {t : NTree Q} {T : Nat} (h0 : S.st id = 0)
    (h1 : S.en id = T) (hl : S.loc id = []) (ht : S.Ok t id) (hr : S.Inv (shown id t) 0 T) {q A x B}
    (hz : Zoom w id t q A x B) (hq : q <+: path) :
    S.Inv (A ++ shown x.1 x.2 ++ B) 0 T ∧ S.loc x.1 = q ∧ S.Ok x.2 x.1 ∧ S.Placed A 0 (S.st x.1) ∧
      S.Placed (shown x.1 x.2) (S.st x.1) (S.en x.1) ∧ S.Placed B (S.en x.1) T := by
  induction hz with
  | root =>
    refine ⟨by simpa using hr, hl, ht, ?_, ?_, ?_⟩
    · rw [h0]; exact .nil
    · rw [h0, h1]; exact hr.placed
    · rw [h1]; exact .nil
  | @child q A pid tp B i A' cid tc B' _ hE ih =>
    obtain ⟨h2, h3, h4, -, -, -⟩ := ih ((List.prefix_append _ _).trans hq)
    have h5 := h2.expands hE
    have h6 := h5.items (pid, .child i (.ok cid) tc) (by simp)
    rcases h6 with h6 | ⟨g, h6⟩
    rotate_left
    · cases h6
    have hloc : S.loc cid = q ++ [i] := by rw [h6.1, h3]
    have ho := hS.onPath cid (by rw [hloc]; exact hq)
    obtain ⟨h7, h8, h9⟩ := h6.2.1 ho
    obtain ⟨m, h10, h11⟩ := h5.placed.split
    refine ⟨h5.step (w := w) .child, hloc, h9, ?_⟩
    cases h11 with
    | flat hp _ _ => exact hp.elim
    | newline hp _ => exact hp.plain.elim
    | child h11 => exact ⟨h10, h7, h11⟩

theorem Plan.noPathFails (hS : S.Covers path F lo hi) {id : Q.Id} {t : NTree Q} {T : Nat} (h0 : S.st id = 0)
    (h1 : S.en id = T) (hl : S.loc id = []) (ht : S.Ok t id) (hr : S.Inv (shown id t) 0 T) {w f} :
    ¬ PathFails w id t path f := by
  rintro (⟨q, rest, A, x, B, rfl, hz, hf⟩ | ⟨q, i, rest, A, pid, tp, B, V, L, V', y, rfl, hz, hE, _, hol, _, hy, hm, hrf⟩)
  · obtain ⟨-, -, h2, -⟩ := Plan.zoom hS h0 h1 hl ht hr hz (List.prefix_append _ _)
    exact h2.noFail f hf
  · obtain ⟨h2, h3, -, -, -, -⟩ := Plan.zoom hS h0 h1 hl ht hr hz (List.prefix_append _ _)
    have h4 := h2.expands hE
    obtain ⟨R, p, j, cid, tc, rest', h5, rfl, h7, h8⟩ := hrf.atFirst (fun x hx => h4.items x (by simp [hx]))
    obtain ⟨h9, -, -⟩ := h4.onLine (hol.sub (by intro z hz; simp [hz])) h5
    -- `y` is this child
    have hyc : ¬ Plain y := by
      obtain ⟨y1, y2⟩ := y
      obtain ⟨_, ⟨c, t', rfl⟩ | ⟨a, b, rfl⟩⟩ := hm <;> exact fun h => h
    have : y = (p, .child j (.ok cid) tc) := by
      simp only [List.mem_append, List.mem_cons] at hy
      rcases hy with hy | hy | hy
      · exact absurd (h5.plain y hy) hyc
      · exact hy
      · exact absurd (h9 y hy) hyc
    subst this
    obtain ⟨rfl, ⟨c, t', e⟩ | ⟨a, b, e⟩⟩ := hm
    · cases e
      have := hS.onPath cid (by
        rw [h8, h3, show q ++ i :: rest = q ++ [i] ++ rest by simp]
        exact List.prefix_append _ _)
      rw [this] at h7
      cases h7
    · cases e

theorem Plan.noNearFails (hS : S.Covers path F lo hi) {id : Q.Id} {t : NTree Q} {T : Nat} (h0 : S.st id = 0)
    (h1 : S.en id = T) (hl : S.loc id = []) (ht : S.Ok t id) (hr : S.Inv (shown id t) 0 T) {w k j f}
    {target : FocusTarget}
    (hF : ∀ cid, S.loc cid = path → target = .start ∧ F = S.st cid ∨ target = .end ∧ F = S.en cid)
    (hk : lo = F - k) (hj : F + j ≤ hi) :
    ¬ NearFails w id t path target k j f := by
  rintro (h | ⟨A, ⟨cid, tc⟩, B, hz, h⟩)
  · exact Plan.noPathFails hS h0 h1 hl ht hr h
  obtain ⟨h2, h3, h4, h5, h6, h7⟩ := Plan.zoom hS h0 h1 hl ht hr hz (List.prefix_refl _)
  dsimp only at h2 h3 h4 h5 h6 h7
  rcases hF cid h3 with ⟨rfl, rfl⟩ | ⟨rfl, rfl⟩
  · rcases h with h | ⟨left, right, h8, h9⟩
    · cases h
    · cases h8
      rw [List.append_assoc] at h2
      obtain ⟨m, h10, h11⟩ := h2.split
      have hA : S.Inv A 0 (S.st cid) := ⟨h5, h10.items, h10.sp⟩
      have hB : S.Inv (shown cid tc ++ B) (S.st cid) T := ⟨h6.append h7, h11.items, h11.sp⟩
      rcases h9 with h9 | h9
      · exact hA.noUp hS hk h9
      · exact hB.noDown hS hj h9
  · rcases h with h | ⟨left, right, h8, h9⟩
    · cases h with
      | «end» hE hV hol hB hrf =>
        exact Plan.Inv.noEnd hS (h5.append h6) h2 hE hol hrf
    · cases h8
      obtain ⟨m, h10, h11⟩ := h2.split
      have hA : S.Inv (A ++ shown cid tc) 0 (S.en cid) := ⟨h5.append h6, h10.items, h10.sp⟩
      have hB : S.Inv B (S.en cid) T := ⟨h7, h11.items, h11.sp⟩
      rcases h9 with h9 | h9
      · exact hA.noUp hS hk h9
      · exact hB.noDown hS hj h9

end PPP
