import Verif.Proofs.GroupView
import Verif.Proofs.DimTree
import Verif.Spec.Nested
/-
Documents with groups: the trees of nodes on one line, and of nodes that are laid out over lines.
-/
namespace PPP
variable {P : PrettyDoc}

/-- Only texts and marks. -/
def NTree.Flatly (t : NTree P) : Prop := ∀ p ∈ t.parts, p.IsPlain ∧ ∀ ind, p ≠ .newline ind

theorem NTree.Flatly.single {t : NTree P} (h : t.Flatly) (e : t.parts = [t]) : t.IsPlain ∧ ∀ ind, t ≠ .newline ind :=
  h t (by rw [e]; simp)

theorem NTree.Flatly.shown {t : NTree P} (h : t.Flatly) (id : P.Id) : ∀ x ∈ shown id t, Plain x ∧ ¬ IsNewline x := by
  intro x hx
  simp only [PPP.shown, List.mem_map] at hx
  obtain ⟨p, hp, rfl⟩ := hx
  obtain ⟨h1, h2⟩ := h p hp
  refine ⟨?_, fun ⟨ind, e⟩ => h2 ind e⟩
  cases p <;> first | trivial | exact h1.elim

/-- `FlatT S off wd id t x y`: (a part of) the tree of node `id`, if it is on one line, takes up the columns from `x` to
    `y`; the node `cid` in it begins in column `off cid` of its parent and has `wd cid` columns. -/
inductive FlatT (S : GPlan P) (off wd : P.Id → Nat) : P.Id → NTree P → Nat → Nat → Prop where
  | empty {id x} : FlatT S off wd id .empty x x
  | mark {id x} : FlatT S off wd id .mark x x
  | eol {id x} : FlatT S off wd id .eol x x
  | text {id x t} : FlatT S off wd id (.text t) x (x + t.width)
  | concat {id t u x y z} : FlatT S off wd id t x y → FlatT S off wd id u y z → FlatT S off wd id (.concat t u) x z
  | kid {id i cid tc x} : S.loc cid = S.loc id ++ [i] → off cid = x → (S.leaf cid = true → tc.Flatly) →
      (S.small id = true → S.small cid = true ∧ S.st cid = S.st id ∧ S.en cid = S.st id) →
      FlatT S off wd cid tc 0 (wd cid) → FlatT S off wd id (.child i (.ok cid) tc) x (x + wd cid)

/-- `TallT S off wd w id t a f b g`: (a part of) the tree of node `id` goes from line `a` to line `b`; `f` and `g` say
    whether there may be another long node on the first line and on the last line. -/
inductive TallT (S : GPlan P) (off wd : P.Id → Nat) (w : Nat) : P.Id → NTree P → Nat → Bool → Nat → Bool → Prop where
  | empty {id a f} : TallT S off wd w id .empty a f a f
  | mark {id a f} : TallT S off wd w id .mark a f a f
  | eol {id a f} : TallT S off wd w id .eol a f a f
  | text {id t a f} : TallT S off wd w id (.text t) a f a f
  | soft {id ind a f} : S.small id = true → TallT S off wd w id (.newline ind) a f a f
  | newline {id ind a f} : S.small id = false → TallT S off wd w id (.newline ind) a f (a + 1) true
  | concat {id t u a f b g c h} : TallT S off wd w id t a f b g → TallT S off wd w id u b g c h →
      TallT S off wd w id (.concat t u) a f c h
  | leafKid {id i cid tc f} : S.loc cid = S.loc id ++ [i] → S.leaf cid = true → S.st cid = S.en cid → tc.Flatly →
      TallT S off wd w id (.child i (.ok cid) tc) (S.st cid) f (S.en cid) f
  | kid {id i cid tc f g} : S.loc cid = S.loc id ++ [i] → S.leaf cid = false → (f = false → S.small cid = true) →
      TallT S off wd w cid tc (S.st cid) (!S.small cid) (S.en cid) g →
      TallT S off wd w id (.child i (.ok cid) tc) (S.st cid) f (S.en cid) false
  | choice {id t u y f g} : S.leaf id = false → (f = false → S.small id = true) → FlatT S off wd id t 0 y →
      (S.small id = false → w < y) → TallT S off wd w id u (S.st id) (!S.small id) (S.en id) g →
      TallT S off wd w id (.choice t u) (S.st id) f (S.en id) false

/-- The same plan for the dimmed document. -/
def GPlan.dim (S : GPlan P) (o : P.Node → Bool) : GPlan (P.dimmed o) := ⟨S.loc, S.st, S.en, S.oi, S.leaf, S.small⟩

variable {S : GPlan P} {off wd : P.Id → Nat} {w : Nat} {o : P.Node → Bool}

theorem Dims.flatly {oi : P.Id → Bool} {t s t' s'} (hd : Dims (o := o) oi t s t' s') (h : t.Flatly) : t'.Flatly := by
  have one : ∀ {p : NTree (P.dimmed o)}, p.parts = [p] → p.IsPlain → (∀ ind, p ≠ .newline ind) → p.Flatly := by
    intro p h1 h2 h3 x hx
    rw [h1] at hx
    simp only [List.mem_singleton] at hx
    subst hx
    exact ⟨h2, h3⟩
  induction hd with
  | empty => intro p hp; simp [NTree.parts] at hp
  | eol => exact one rfl trivial (fun _ e => by cases e)
  | mark => exact one rfl trivial (fun _ e => by cases e)
  | text => exact one rfl trivial (fun _ e => by cases e)
  | concat _ _ iha ihb =>
    intro p hp
    rcases List.mem_append.1 hp with hp | hp
    · exact iha (fun p hp => h p (List.mem_append_left _ hp)) p hp
    · exact ihb (fun p hp => h p (List.mem_append_right _ hp)) p hp
  | step _ ih => exact ih h
  | newline => exact absurd rfl ((h.single rfl).2 _)
  | fail => exact (h.single rfl).1.elim
  | choice => exact (h.single rfl).1.elim
  | opened => exact (h.single rfl).1.elim
  | noId => exact (h.single rfl).1.elim
  | dark => exact (h.single rfl).1.elim

theorem run_mark {Q : PrettyDoc} {S : GPlan Q} {id : Q.Id} {t : NTree Q} {a f} (h1 : t.parts = [t]) (h2 : Plain (id, t))
    (h3 : ¬ IsNewline (id, t)) : S.Run (shown id t) a f a f := by
  unfold shown
  rw [h1]
  exact .one (.flat h2 h3)

theorem FlatT.dims_small {id t x y s t' s'} (h : FlatT S off wd id t x y) (hd : Dims (o := o) S.oi t s t' s')
    (hs : S.small id = true) (f : Bool) :
    (∃ g, (S.dim o).Run (shown (P := P.dimmed o) id t') (S.st id) f (S.st id) g) ∧ (S.dim o).Ok w t' id := by
  induction hd generalizing id x y f with
  | fail => cases h
  | empty => exact ⟨⟨_, .nil⟩, trivial⟩
  | eol => exact ⟨⟨_, run_mark rfl trivial (by rintro ⟨_, h⟩; cases h)⟩, trivial⟩
  | mark => exact ⟨⟨_, run_mark rfl trivial (by rintro ⟨_, h⟩; cases h)⟩, trivial⟩
  | text => exact ⟨⟨_, run_mark rfl trivial (by rintro ⟨_, h⟩; cases h)⟩, trivial⟩
  | newline => cases h
  | concat _ _ iha ihb =>
    cases h with
    | concat h1 h2 =>
      obtain ⟨⟨g, h3⟩, h4⟩ := iha h1 hs f
      obtain ⟨⟨g', h5⟩, h6⟩ := ihb h2 hs g
      refine ⟨⟨g', ?_⟩, h4, h6⟩
      simp only [shown, NTree.parts, List.map_append]
      exact h3.append h5
  | choice _ _ _ _ => cases h
  | step _ ih => exact ih h hs f
  | @opened i cid tc s tc' s' ho hd ih =>
    cases h with
    | kid h1 h2 h3 h4 h5 =>
      obtain ⟨h6, h7, h8⟩ := h4 hs
      obtain ⟨⟨g, h9⟩, h10⟩ := ih h5 h6 false
      have hst : (S.dim o).st cid = (S.dim o).en cid := h7.trans h8.symm
      have hr : ∃ g, (S.dim o).Run (shown (P := P.dimmed o) id (.child i (.ok cid) tc')) ((S.dim o).st cid) f
          ((S.dim o).en cid) g := by
        cases hl : S.leaf cid with
        | true => exact ⟨_, .one (.leaf (n := cid) (S := S.dim o) rfl hl hst)⟩
        | false => exact ⟨_, .one (.small (n := cid) (S := S.dim o) rfl hl h6 hst)⟩
      refine ⟨?_, h1, fun _ => ⟨⟨fun hl => ?_, fun _ => ⟨g, ?_⟩⟩, h10⟩, fun h => ?_⟩
      · obtain ⟨g, hr⟩ := hr
        have e1 : (S.dim o).st cid = S.st id := h7
        have e2 : (S.dim o).en cid = S.st id := h8
        rw [e1, e2] at hr
        exact ⟨g, hr⟩
      · exact (hd.flatly (h3 hl)).shown cid
      · have e1 : (!(S.dim o).small cid) = false := by
          have : (S.dim o).small cid = true := h6
          rw [this]; rfl
        rw [e1, ← hst]
        exact h9
      · have h : S.oi cid = false := h
        rw [ho] at h
        cases h
  | noId => cases h
  | @dark i cid tc s g ho =>
    cases h with
    | kid h1 h2 h3 h4 h5 =>
      obtain ⟨h6, h7, h8⟩ := h4 hs
      have hst : (S.dim o).st cid = (S.dim o).en cid := h7.trans h8.symm
      have hr : ∃ g', (S.dim o).Run (shown (P := P.dimmed o) id (.child i (.ok cid) (.fail g))) ((S.dim o).st cid) f
          ((S.dim o).en cid) g' := by
        cases hl : S.leaf cid with
        | true => exact ⟨_, .one (.leaf (n := cid) (S := S.dim o) rfl hl hst)⟩
        | false => exact ⟨_, .one (.small (n := cid) (S := S.dim o) rfl hl h6 hst)⟩
      refine ⟨?_, h1, fun h => ?_, fun _ => ⟨_, rfl⟩⟩
      · obtain ⟨g, hr⟩ := hr
        have e1 : (S.dim o).st cid = S.st id := h7
        have e2 : (S.dim o).en cid = S.st id := h8
        rw [e1, e2] at hr
        exact ⟨g, hr⟩
      · have h : S.oi cid = true := h
        rw [ho] at h
        cases h

theorem FlatT.dims_noFail {id t x y s t' s'} (h : FlatT S off wd id t x y) (hd : Dims (o := o) S.oi t s t' s') :
    ∀ f, .fail f ∉ t'.parts := by
  induction hd generalizing id x y with
  | fail => cases h
  | choice _ _ _ _ => cases h
  | newline => cases h
  | step _ ih => exact ih h
  | concat _ _ iha ihb =>
    cases h with
    | concat h1 h2 =>
      intro f hf
      rcases List.mem_append.1 hf with hf | hf
      · exact iha h1 f hf
      · exact ihb h2 f hf
  | _ => intro f hf; simp [NTree.parts] at hf

theorem FlatT.dims_early (hoff : ∀ cid, S.oi cid = false → w < off cid) {id t x y s t' s'}
    (h : FlatT S off wd id t x y) (hd : Dims (o := o) S.oi t s t' s') (c : Nat) {V : View (P.dimmed o)}
    (hV : EarlyV w (c + y) V) : EarlyV w (c + x) (shown (P := P.dimmed o) id t' ++ V) := by
  induction hd generalizing id x y c V with
  | fail => cases h
  | empty => cases h; exact hV
  | eol =>
    cases h
    exact .plain trivial (by rintro ⟨_, h⟩; cases h) hV
  | mark =>
    cases h
    exact .plain trivial (by rintro ⟨_, h⟩; cases h) hV
  | @text tx tx' _ hw =>
    cases h
    refine .plain trivial (by rintro ⟨_, h⟩; cases h) ?_
    simp only [columns, Nat.add_zero, hw]
    rwa [Nat.add_assoc]
  | newline => cases h
  | concat _ _ iha ihb =>
    cases h with
    | concat h1 h2 =>
      simp only [shown, NTree.parts, List.map_append, List.append_assoc]
      exact iha h1 c (ihb h2 c hV)
  | choice _ _ _ _ => cases h
  | step _ ih => exact ih h c hV
  | @opened i cid tc s tc' s' ho hd ih =>
    cases h with
    | @kid _ _ _ _ x h1 h2 h3 h4 h5 =>
      refine .child (h5.dims_noFail hd) ?_
      have := ih h5 (c + x) (V := V) (by rwa [Nat.add_assoc])
      rwa [Nat.add_zero] at this
  | noId => cases h
  | dark ho =>
    cases h with
    | kid h1 h2 h3 h4 h5 =>
      have := hoff _ ho
      exact .far (by omega)

theorem TallT.dims (hoff : ∀ cid, S.oi cid = false → w < off cid) (hsm : ∀ cid, S.small cid = true → S.st cid = S.en cid)
    {id t a f b g s t' s'} (h : TallT S off wd w id t a f b g) (hd : Dims (o := o) S.oi t s t' s') :
    (S.dim o).Run (shown (P := P.dimmed o) id t') a f b g ∧ (S.dim o).Ok w t' id := by
  induction hd generalizing id a f b g with
  | fail => cases h
  | empty => cases h; exact ⟨.nil, trivial⟩
  | eol => cases h; exact ⟨run_mark rfl trivial (by rintro ⟨_, h⟩; cases h), trivial⟩
  | mark => cases h; exact ⟨run_mark rfl trivial (by rintro ⟨_, h⟩; cases h), trivial⟩
  | text => cases h; exact ⟨run_mark rfl trivial (by rintro ⟨_, h⟩; cases h), trivial⟩
  | newline =>
    cases h with
    | soft h => exact ⟨.one (.soft ⟨_, rfl⟩ h), trivial⟩
    | newline h => exact ⟨.one (.newline ⟨_, rfl⟩ h), trivial⟩
  | concat _ _ iha ihb =>
    cases h with
    | concat h1 h2 =>
      obtain ⟨h3, h4⟩ := iha h1
      obtain ⟨h5, h6⟩ := ihb h2
      refine ⟨?_, h4, h6⟩
      simp only [shown, NTree.parts, List.map_append]
      exact h3.append h5
  | choice hd1 hd2 _ ihb =>
    cases h with
    | @choice _ _ _ y _ g h1 h2 h3 h4 h5 =>
      obtain ⟨h6, h7⟩ := ihb h5
      refine ⟨?_, h1, ⟨⟨fun hl => ?_, fun _ => ⟨g, h6⟩⟩, h7⟩, fun hs => ?_, fun hs => ?_, h3.dims_noFail hd1⟩
      · cases f with
        | true => exact .one (.long (n := id) (S := S.dim o) rfl h1)
        | false => exact .one (.small (n := id) (S := S.dim o) rfl h1 (h2 rfl) (hsm id (h2 rfl)))
      · have hl : S.leaf id = true := hl
        rw [h1] at hl; cases hl
      · have hs : S.small id = true := hs
        obtain ⟨⟨g', h8⟩, h9⟩ := h3.dims_small (w := w) hd1 hs false
        refine ⟨⟨fun hl => ?_, fun _ => ⟨g', ?_⟩⟩, h9⟩
        · have hl : S.leaf id = true := hl
          rw [h1] at hl; cases hl
        · have e1 : (!(S.dim o).small id) = false := by
            have : (S.dim o).small id = true := hs
            rw [this]; rfl
          have e2 : (S.dim o).en id = S.st id := (hsm id hs).symm
          rw [e1, e2]
          exact h8
      · have := h3.dims_early hoff hd1 0 (V := []) (.far (by have := h4 hs; omega))
        simpa using this
  | step _ ih => exact ih h
  | @opened i cid tc s tc' s' ho hd ih =>
    cases h with
    | leafKid h1 h2 h3 h4 =>
      refine ⟨.one (.leaf (n := cid) (S := S.dim o) rfl h2 h3), h1, fun _ => ⟨⟨fun _ => ?_, fun hl => ?_⟩, ?_⟩, fun h => ?_⟩
      · exact (hd.flatly h4).shown cid
      · have hl : S.leaf cid = false := hl
        rw [h2] at hl; cases hl
      · have key : ∀ {t : NTree (P.dimmed o)}, t.Flatly → (S.dim o).Ok w t cid := by
          intro t
          induction t with
          | concat a b iha ihb =>
            intro h
            exact ⟨iha fun p hp => h p (List.mem_append_left _ hp), ihb fun p hp => h p (List.mem_append_right _ hp)⟩
          | child => intro h; exact (h.single rfl).1.elim
          | choice => intro h; exact (h.single rfl).1.elim
          | fail => intro h; exact (h.single rfl).1.elim
          | _ => intro _; trivial
        exact key (hd.flatly h4)
      · have h : S.oi cid = false := h
        rw [ho] at h
        cases h
    | @kid _ _ _ _ _ g h1 h2 h3 h4 =>
      obtain ⟨h5, h6⟩ := ih h4
      refine ⟨?_, h1, fun _ => ⟨⟨fun hl => ?_, fun _ => ⟨g, h5⟩⟩, h6⟩, fun h => ?_⟩
      · cases f with
        | true => exact .one (.long (n := cid) (S := S.dim o) rfl h2)
        | false => exact .one (.small (n := cid) (S := S.dim o) rfl h2 (h3 rfl) (hsm cid (h3 rfl)))
      · have hl : S.leaf cid = true := hl
        rw [h2] at hl; cases hl
      · have h : S.oi cid = false := h
        rw [ho] at h
        cases h
  | noId => cases h
  | @dark i cid tc s g ho =>
    cases h with
    | leafKid h1 h2 h3 h4 =>
      refine ⟨.one (.leaf (n := cid) (S := S.dim o) rfl h2 h3), h1, fun h => ?_, fun _ => ⟨_, rfl⟩⟩
      have h : S.oi cid = true := h
      rw [ho] at h
      cases h
    | kid h1 h2 h3 h4 =>
      refine ⟨?_, h1, fun h => ?_, fun _ => ⟨_, rfl⟩⟩
      · cases f with
        | true => exact .one (.long (n := cid) (S := S.dim o) rfl h2)
        | false => exact .one (.small (n := cid) (S := S.dim o) rfl h2 (h3 rfl) (hsm cid (h3 rfl)))
      · have h : S.oi cid = true := h
        rw [ho] at h
        cases h

end PPP
