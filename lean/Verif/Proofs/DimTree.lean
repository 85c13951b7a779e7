import Verif.Spec.Dim
import Verif.Proofs.WorkShape
/-
The notation tree and the shape of a dimmed document.
-/
namespace PPP

variable {P : PrettyDoc} {o : P.Node → Bool}

local notation "Dm" => PrettyDoc.dimmed P o

/-! ### A dimmed document is lawful -/

theorem Call.rename_ok {E E' α β : Type} {f : E → E'} {g : α → β} {x : Call E α} {b : β} (h : x.rename f g = .ok b) :
    ∃ a, x = .ok a ∧ g a = b := by
  match x with
  | .ok a => exact ⟨a, rfl, by cases h; rfl⟩
  | .error (.err e) => cases h
  | .error .panic => cases h

theorem Call.rename_ok_id {E E' α : Type} {f : E → E'} {x : Call E α} {b : α}
    (h : x.rename f (fun a => a) = .ok b) : x = .ok b := by
  obtain ⟨a, h1, rfl⟩ := Call.rename_ok h
  exact h1

theorem Call.rename_panic {E E' α β : Type} {f : E → E'} {g : α → β} {x : Call E α}
    (h : x.rename f g = .error .panic) : x = .error .panic := by
  match x with
  | .ok a => cases h
  | .error (.err e) => cases h
  | .error .panic => rfl

theorem dimmed_childAt (p : P.Node) (i : Nat) :
    PrettyDoc.childAt Dm p i = (P.childAt p i).rename some fun a => a := by
  unfold PrettyDoc.childAt
  have hn : PrettyDoc.numChildren Dm p = (P.numChildren p).rename some fun a => a := rfl
  have hu : PrettyDoc.unwrapChild Dm p i = (P.unwrapChild p i).rename some fun a => a := rfl
  rw [hn, hu]
  rcases P.numChildren p with (e | _) | _ | n
  · rfl
  · rfl
  · rfl
  · simp only [Call.rename]
    split <;> rfl

theorem dimmed_childOf : PrettyDoc.ChildOf Dm = P.ChildOf := by
  funext c p
  unfold PrettyDoc.ChildOf
  simp only [dimmed_childAt]
  refine propext ⟨fun ⟨i, h⟩ => ⟨i, Call.rename_ok_id h⟩, fun ⟨i, h⟩ => ⟨i, by rw [h]; rfl⟩⟩

theorem validateRec_rename {L L' C C' : Type} (l : L → L') (c : C → C') (n : Notation L C) (h : History) (ctx : Context) :
    (n.rename l c).validateRec h ctx = n.validateRec h ctx := by
  induction n generalizing h ctx with
  | _ => simp_all [Notation.rename, Notation.validateRec]

theorem rename_conds {L L' C : Type} (l : L → L') (n : Notation L C) : (n.rename l fun c => c).conds = n.conds := by
  induction n with
  | _ => simp_all [Notation.rename, Notation.conds]

theorem rename_labels {L L' C : Type} (l : L → L') (n : Notation L C) :
    (n.rename l fun c => c).labels = n.labels.map l := by
  induction n with
  | indent s lb a ih => cases lb <;> simp_all [Notation.rename, Notation.labels]
  | _ => simp_all [Notation.rename, Notation.labels]

theorem dimmed_notn {n : P.Node} {a} (h : PrettyDoc.notn Dm n = .ok a) :
    ∃ b, P.notn n = .ok b ∧ (o n = true ∧ a = b.rename .inl (fun c => c) ∨ o n = false ∧ a = .style (.inr n) .empty) := by
  obtain ⟨b, h1, h2⟩ := Call.rename_ok h
  refine ⟨b, h1, ?_⟩
  cases ho : o n
  · rw [ho] at h2
    exact .inr ⟨rfl, h2.symm⟩
  · rw [ho] at h2
    exact .inl ⟨rfl, h2.symm⟩

theorem dimmed_lawful (law : P.Lawful) (o : P.Node → Bool) : (P.dimmed o).Lawful where
  wf := by
    rw [dimmed_childOf]
    exact law.wf
  valid p a h := by
    obtain ⟨b, hb, ⟨_, rfl⟩ | ⟨_, rfl⟩⟩ := dimmed_notn h
    · have := law.valid p b hb
      unfold Notation.Valid Notation.validate at this ⊢
      rw [validateRec_rename]
      exact this
    · rfl
  last p n h := by
    have h' := Call.rename_ok_id h
    show (P.unwrapLastChild p).rename _ _ = (P.unwrapChild p n).rename _ _
    rw [law.last p n h']
  prev p n i c h hi hc := by
    show (P.unwrapPrevSibling c p i).rename _ _ = (P.unwrapChild p i).rename _ _
    rw [law.prev p n i c (Call.rename_ok_id h) hi (Call.rename_ok_id hc)]
  id_no_panic p h := law.id_no_panic p (Call.rename_panic h)
  notn_no_panic p h := law.notn_no_panic p (Call.rename_panic h)
  condition_no_panic := by
    rintro p c ⟨q, a, h1, h2, h3⟩ h
    refine law.condition_no_panic p c ?_ (Call.rename_panic h)
    rw [dimmed_childOf] at h3
    obtain ⟨b, hb, ⟨_, rfl⟩ | ⟨_, rfl⟩⟩ := dimmed_notn h1
    · rw [rename_conds] at h2
      exact ⟨q, b, hb, h2, h3⟩
    · simp [Notation.conds] at h2
  lookupStyle_no_panic := by
    rintro p l ⟨a, h1, h2⟩ h
    rcases l with l | n
    · refine law.lookupStyle_no_panic p l ?_ (Call.rename_panic h)
      obtain ⟨b, hb, ⟨_, rfl⟩ | ⟨_, rfl⟩⟩ := dimmed_notn h1
      · rw [rename_labels] at h2
        exact ⟨b, hb, by simpa using h2⟩
      · simp [Notation.labels] at h2
    · cases h
  nodeStyle_no_panic p h := law.nodeStyle_no_panic p (Call.rename_panic h)
  numChildren_no_panic p h := law.numChildren_no_panic p (Call.rename_panic h)
  unwrapText_no_panic p h1 h := law.unwrapText_no_panic p (Call.rename_ok_id h1) (Call.rename_panic h)
  unwrapChild_no_panic p n i h1 hi h := law.unwrapChild_no_panic p n i (Call.rename_ok_id h1) hi (Call.rename_panic h)

/-! ### Trees and shapes -/

/-- `Dims oi t s t' s'`: the tree and the shape of a part of a document, and of the same part of the dimmed document, in
    which the nodes are dark whose ids are not `oi`. -/
inductive Dims (oi : P.Id → Bool) : NTree P → Shape → NTree Dm → Shape → Prop where
  | fail {f g} : Dims oi (.fail f) .leaf (.fail g) .leaf
  | empty : Dims oi .empty .leaf .empty .leaf
  | eol : Dims oi .eol .leaf .eol .leaf
  | mark : Dims oi .mark .leaf .mark .leaf
  | newline {ind ind' m} : Dims oi (.newline ind) (.newline m) (.newline ind') (.newline m)
  | text {t : Textual P} {t' : Textual Dm} {w} : t'.width = t.width → Dims oi (.text t) (.text w) (.text t') (.text w)
  | concat {a b sa sb a' b' sa' sb'} : Dims oi a sa a' sa' → Dims oi b sb b' sb' →
      Dims oi (.concat a b) (.concat sa sb) (.concat a' b') (.concat sa' sb')
  | choice {a b sa sb a' b' sa' sb'} : Dims oi a sa a' sa' → Dims oi b sb b' sb' →
      Dims oi (.choice a b) (.choice sa sb) (.choice a' b') (.choice sa' sb')
  | step {t s t' s'} : Dims oi t s t' s' → Dims oi t (.step s) t' (.step s')
  | opened {i id t s t' s'} : oi id = true → Dims oi t s t' s' →
      Dims oi (.child i (.ok id) t) (.child s) (.child i (.ok id) t') (.child s')
  | noId {i f g t s t' s'} : Dims oi (.child i (.error f) t) (.child s) (.child i (.error g) t') (.child s')
  | dark {i id t s g} : oi id = false →
      Dims oi (.child i (.ok id) t) (.child s) (.child i (.ok id) (.fail g)) (.child .leaf)

variable {oi : P.Id → Bool}

theorem Dims.orFail {α : Type} (x : Call P.Err α) {f sf f' sf'}
    (h : ∀ a, x = .ok a → Dims (o := o) oi (f a) (sf a) (f' a) (sf' a)) :
    Dims (o := o) oi (.orFail x f) (.orLeaf x sf) (.orFail (x.rename some fun a => a) f')
      (.orLeaf (x.rename some fun a => a) sf') := by
  match x, h with
  | .ok a, h => exact h a rfl
  | .error (.err e), h => exact .fail
  | .error .panic, h => exact .fail

theorem Dims.orFail_of {α : Type} {x : Call P.Err α} {y : Call (Option P.Err) α} (hy : y = x.rename some fun a => a)
    {f sf f' sf'} (h : ∀ a, x = .ok a → Dims (o := o) oi (f a) (sf a) (f' a) (sf' a)) :
    Dims (o := o) oi (.orFail x f) (.orLeaf x sf) (.orFail y f') (.orLeaf y sf') := by
  subst hy
  exact .orFail x h

/-- What `Left` and `Right` stand for. -/
inductive DimsEnv (oi : P.Id → Bool) :
    Option (FoldEnv P) → Option ShapeEnv → Option (FoldEnv Dm) → Option ShapeEnv → Prop where
  | none : DimsEnv oi none none none none
  | some {e s e' s'} : e.next = s.next → e'.next = s.next → s'.next = s.next →
      (∀ (c : Ctx P) (c' : Ctx Dm) m, c'.flat = c.flat →
        Dims (o := o) oi (e.acc c) (s.acc c.flat m) (e'.acc c') (s'.acc c.flat m)) →
      DimsEnv oi (some e) (some s) (some e') (some s')

theorem dims_inspected {node : P.Node} {env senv env' senv'} (he : DimsEnv (o := o) oi env senv env' senv')
    (pos : CheckPos) :
    (∃ p, inspected node env pos = .ok p ∧ inspectedNode node senv pos = some p ∧
      inspected (P := Dm) node env' pos = .ok p ∧ inspectedNode (P := Dm) node senv' pos = some p) ∨
    (∃ f g, inspected node env pos = .error f ∧ inspectedNode node senv pos = none ∧
      inspected (P := Dm) node env' pos = .error g ∧ inspectedNode (P := Dm) node senv' pos = none) := by
  have child : ∀ i, (∃ p, Call.toRes (P.childAt node i) = .ok p ∧ (P.childAt node i).toOption = some p ∧
        Call.toRes (PrettyDoc.childAt Dm node i) = .ok p ∧ (PrettyDoc.childAt Dm node i).toOption = some p) ∨
      ∃ f g, Call.toRes (P.childAt node i) = .error f ∧ (P.childAt node i).toOption = none ∧
        Call.toRes (PrettyDoc.childAt Dm node i) = .error g ∧ (PrettyDoc.childAt Dm node i).toOption = none := by
    intro i
    rw [dimmed_childAt]
    match P.childAt node i with
    | .ok p => exact .inl ⟨p, rfl, rfl, rfl, rfl⟩
    | .error (.err e) => exact .inr ⟨_, _, rfl, rfl, rfl, rfl⟩
    | .error .panic => exact .inr ⟨_, _, rfl, rfl, rfl, rfl⟩
  cases pos with
  | here => exact .inl ⟨node, rfl, rfl, rfl, rfl⟩
  | child i =>
    have hn : PrettyDoc.numChildren Dm node = (P.numChildren node).rename some fun a => a := rfl
    unfold inspected inspectedNode
    rw [hn]
    match P.numChildren node with
    | .ok none => exact .inr ⟨_, _, rfl, rfl, rfl, rfl⟩
    | .ok (some n) =>
      dsimp only [Call.rename, Call.toRes, bind, Except.bind]
      match childIndex i n with
      | none => exact .inr ⟨_, _, rfl, rfl, rfl, rfl⟩
      | some j => exact child j
    | .error (.err e) => exact .inr ⟨_, _, rfl, rfl, rfl, rfl⟩
    | .error .panic => exact .inr ⟨_, _, rfl, rfl, rfl, rfl⟩
  | leftChild =>
    cases he with
    | none => exact .inr ⟨_, _, rfl, rfl, rfl, rfl⟩
    | @some e s e' s' h1 h2 h3 _ =>
      simp only [inspected, inspectedNode, h1, h2, h3]
      exact child _
  | rightChild =>
    cases he with
    | none => exact .inr ⟨_, _, rfl, rfl, rfl, rfl⟩
    | @some e s e' s' h1 h2 h3 _ =>
      simp only [inspected, inspectedNode, h1, h2, h3]
      exact child _

theorem dims_notn (node : P.Node) {kid : Nat → Ctx P → NTree P} {ks : Nat → Bool → Nat → Shape}
    {kid' : Nat → Ctx Dm → NTree Dm} {ks' : Nat → Bool → Nat → Shape}
    (hk : ∀ i (c : Ctx P) (c' : Ctx Dm) m, c'.flat = c.flat →
      Dims (o := o) oi (kid i c) (ks i c.flat m) (kid' i c') (ks' i c.flat m))
    (a : Notation P.Label P.Cond) : ∀ {env senv env' senv'}, DimsEnv (o := o) oi env senv env' senv' →
    ∀ (c : Ctx P) (c' : Ctx Dm) (m : Nat), c'.flat = c.flat →
    Dims (o := o) oi (a.tree node kid env c) (a.shape node ks senv c.flat m)
      ((a.rename .inl fun c => c : Notation (P.dimmed o).Label (P.dimmed o).Cond).tree (P := Dm) node kid' env' c')
      ((a.rename .inl fun c => c : Notation (P.dimmed o).Label (P.dimmed o).Cond).shape (P := Dm) node ks' senv' c.flat m) := by
  have hnum : PrettyDoc.numChildren Dm node = (P.numChildren node).rename some fun a => a := rfl
  induction a with
  | empty => intros; exact .empty
  | endOfLine => intros; exact .eol
  | focusMark => intros; exact .mark
  | newline => intros; exact .newline
  | literal s => intros; exact .text rfl
  | text =>
    intro _ _ _ _ _ c c' m hc
    refine Dims.orFail_of hnum fun n _ => ?_
    cases n with
    | some n => exact .fail
    | none => exact Dims.orFail_of rfl fun s _ => .text rfl
  | flat a ih =>
    intro _ _ _ _ he c c' m hc
    exact .step (ih he { c with flat := true } { c' with flat := true } m rfl)
  | indent pre l a ih =>
    intro _ _ _ _ he c c' m hc
    cases l with
    | none => exact .step (ih he { c with indent := _ } { c' with indent := _ } (m + 1) hc)
    | some l =>
      exact Dims.orFail_of rfl fun s _ => .step (ih he { c with indent := _ } { c' with indent := _ } (m + 1) hc)
  | concat a b iha ihb =>
    intro _ _ _ _ he c c' m hc
    exact .concat (iha he c c' m hc) (ihb he c c' m hc)
  | choice a b iha ihb =>
    intro _ _ _ _ he c c' m hc
    simp only [Notation.rename, Notation.tree, Notation.shape, hc]
    cases h : c.flat with
    | true =>
      have := iha he c c' m hc
      rw [h] at this
      exact .step this
    | false =>
      have h1 := iha he c c' m hc
      have h2 := ihb he c c' m hc
      rw [h] at h1 h2
      exact .choice h1 h2
  | check cond pos a b iha ihb =>
    intro env senv env' senv' he c c' m hc
    simp only [Notation.rename, Notation.tree, Notation.shape]
    rcases dims_inspected (node := node) he pos with ⟨p, h1, h2, h3, h4⟩ | ⟨f, g, h1, h2, h3, h4⟩
    · rw [h1, h2, h3, h4]
      refine Dims.orFail_of (rfl : PrettyDoc.condition Dm p cond = (P.condition p cond).rename some fun a => a)
        fun b _ => ?_
      cases b
      · exact .step (ihb he c c' m hc)
      · exact .step (iha he c c' m hc)
    · rw [h1, h2, h3, h4]
      exact .fail
  | child i =>
    intro _ _ _ _ _ c c' m hc
    refine Dims.orFail_of hnum fun n _ => ?_
    cases n with
    | none => exact .fail
    | some n =>
      dsimp only
      cases childIndex i n with
      | none => exact .fail
      | some j => exact hk j c c' m hc
  | style l a ih =>
    intro _ _ _ _ he c c' m hc
    exact Dims.orFail_of rfl fun s _ => .step (ih he { c with style := _ } { c' with style := _ } m hc)
  | count zero one many ih0 ih1 ih2 =>
    intro _ _ _ _ he c c' m hc
    refine Dims.orFail_of hnum fun n _ => ?_
    match n with
    | none => exact .fail
    | some 0 => exact .step (ih0 he c c' m hc)
    | some 1 => exact .step (ih1 he c c' m hc)
    | some (n + 2) => exact .step (ih2 he c c' m hc)
  | fold first join ihf ihj =>
    intro _ _ _ _ _ c c' m hc
    refine Dims.orFail_of hnum fun n hn => ?_
    clear hn
    match n with
    | none => exact .fail
    | some 0 => exact .empty
    | some (n + 1) =>
      refine .step ?_
      revert c c' m
      dsimp only
      induction n with
      | zero => exact fun c c' m hc => ihf .none c c' m hc
      | succ n ih =>
        intro c c' m hc
        refine Dims.orFail_of (dimmed_childAt node (n + 1)) fun _ _ => ?_
        refine ihj ?_ c c' m hc
        exact .some rfl rfl rfl fun c c' m hc => ih c c' m hc
  | left =>
    intro _ _ _ _ he c c' m hc
    cases he with
    | none => exact .fail
    | some _ _ _ h => exact .step (h c c' m hc)
  | right =>
    intro _ _ _ _ he c c' m hc
    cases he with
    | none => exact .fail
    | @some e s e' s' h1 h2 h3 _ =>
      have := hk s.next c c' m hc
      simp only [Notation.rename, Notation.tree, Notation.shape, h1, h2, h3]
      exact this

/-- The nodes that are open, if it is decided by their ids. -/
def openBy (oi : P.Id → Bool) (n : P.Node) : Bool :=
  match P.id n with
  | .ok i => oi i
  | .error _ => true

theorem dims_doc (law : P.Lawful) (node : P.Node) (ho : openBy oi node = true) :
    ∀ {flat ind outer t} ind' outer' m, docTree law node flat ind outer = .ok t →
    ∃ t', docTree (dimmed_lawful law (openBy oi)) node flat ind' outer' = .ok t' ∧
      Dims (o := openBy oi) oi t (docShape law node flat m) t' (docShape (dimmed_lawful law (openBy oi)) node flat m) := by
  induction node using law.wf.induction with
  | _ node ih =>
    intro flat ind outer t ind' outer' m ht
    rw [docTree_eq] at ht
    cases ha : P.notn node with
    | error e => rw [ha] at ht; cases ht
    | ok a =>
      cases hs : P.nodeStyle node with
      | error e => rw [ha, hs] at ht; cases ht
      | ok s =>
        rw [ha, hs] at ht
        cases ht
        have ha' : PrettyDoc.notn (P.dimmed (openBy oi)) node = .ok (a.rename .inl fun c => c) := by
          show (P.notn node).rename _ _ = _
          rw [ha]
          simp only [Call.rename, ho, if_true]
        have hs' : PrettyDoc.nodeStyle (P.dimmed (openBy oi)) node = .ok s := by
          show (P.nodeStyle node).rename _ _ = _
          rw [hs]
          rfl
        refine ⟨_, docTree_of _ ha' hs' _ _ _, ?_⟩
        rw [docShape_of law ha hs, docShape_of _ ha' hs']
        refine dims_notn node ?_ a .none ⟨flat, ind, _⟩ ⟨flat, ind', _⟩ m rfl
        intro i c c' m hc
        unfold docKid kidShape
        rw [dimmed_childAt]
        cases hch : P.childAt node i with
        | error e => cases e <;> exact .fail
        | ok ch =>
          simp only [Call.rename, NTree.orFail]
          -- the child
          cases hn : P.notn ch with
          | error e =>
            have h1 : ∃ f, docTree law ch c.flat c.indent (some c.style) = .error f := by
              rw [docTree_eq, hn]; exact ⟨_, rfl⟩
            have h2 : ∃ f, docTree (dimmed_lawful law (openBy oi)) ch c'.flat c'.indent (some c'.style) = .error f := by
              have hd : PrettyDoc.notn (P.dimmed (openBy oi)) ch = (P.notn ch).rename some _ := rfl
              rw [docTree_eq, hd, hn]
              cases e <;> exact ⟨_, rfl⟩
            obtain ⟨f, h1⟩ := h1
            obtain ⟨g, h2⟩ := h2
            rw [h1, h2]
            cases e <;> exact .fail
          | ok b =>
            cases hst : P.nodeStyle ch with
            | error e =>
              have h1 : ∃ f, docTree law ch c.flat c.indent (some c.style) = .error f := by
                rw [docTree_eq, hn, hst]; exact ⟨_, rfl⟩
              have h2 : ∃ f, docTree (dimmed_lawful law (openBy oi)) ch c'.flat c'.indent (some c'.style) =
                  .error f := by
                have hd : PrettyDoc.notn (P.dimmed (openBy oi)) ch = (P.notn ch).rename some _ := rfl
                have hd' : PrettyDoc.nodeStyle (P.dimmed (openBy oi)) ch = (P.nodeStyle ch).rename some _ := rfl
                rw [docTree_eq, hd, hd', hn, hst]
                cases e <;> exact ⟨_, rfl⟩
              obtain ⟨f, h1⟩ := h1
              obtain ⟨g, h2⟩ := h2
              rw [h1, h2]
              cases e <;> exact .fail
            | ok st =>
              have h1 := docTree_of law hn hst c.flat c.indent (some c.style)
              rw [hc]
              cases hob : openBy oi ch with
              | true =>
                obtain ⟨t', h2, h3⟩ := ih ch ⟨i, hch⟩ hob c'.indent (some c'.style) m h1
                rw [h1, h2]
                simp only [hob, if_true]
                unfold openBy at hob
                cases hid : P.id ch with
                | error e => cases e <;> exact .noId
                | ok id =>
                  rw [hid] at hob
                  exact .opened hob h3
              | false =>
                have hn' : PrettyDoc.notn (P.dimmed (openBy oi)) ch = .ok (.style (.inr ch) .empty) := by
                  show (P.notn ch).rename _ _ = _
                  rw [hn]
                  simp [Call.rename, hob]
                have hst' : PrettyDoc.nodeStyle (P.dimmed (openBy oi)) ch = .ok st := by
                  show (P.nodeStyle ch).rename _ _ = _
                  rw [hst]
                  rfl
                have h2 := docTree_of (dimmed_lawful law (openBy oi)) hn' hst' c.flat c'.indent (some c'.style)
                have h3 := docShape_of (dimmed_lawful law (openBy oi)) hn' hst' c.flat m
                rw [h1, h2]
                simp only [hob, Bool.false_eq_true, if_false]
                rw [h3]
                unfold openBy at hob
                cases hid : P.id ch with
                | error e => rw [hid] at hob; cases hob
                | ok id =>
                  rw [hid] at hob
                  exact .dark hob

end PPP
