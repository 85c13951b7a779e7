import Verif.Proofs.Rep
import Verif.Spec.Denote
/-
Evaluating delayed notations gives the notation tree of the document.
-/
namespace PPP
variable {P : PrettyDoc}

theorem normalizeChildIndex_eq (i : Int) (n : Nat) : normalizeChildIndex i n = childIndex i n := by
  unfold normalizeChildIndex childIndex
  simp only
  split <;> split <;> split <;> first
    | omega
    | rfl
    | (split <;> first | omega | rfl | (congr 2; omega))
    | (congr 2; omega)

theorem childIndex_lt {i : Int} {n j : Nat} (h : childIndex i n = some j) : j < n := by
  unfold childIndex at h
  split at h
  · simp at h; omega
  · split at h
    · simp at h; omega
    · simp at h

theorem childAt_eq {p : P.Node} {n i : Nat} (h : P.numChildren p = .ok (some n)) (hi : i < n) :
    P.childAt p i = P.unwrapChild p i := by
  simp [PrettyDoc.childAt, h, hi]

theorem childAt_ok {p c : P.Node} {i : Nat} (h : P.childAt p i = .ok c) :
    ∃ n, P.numChildren p = .ok (some n) ∧ i < n ∧ P.unwrapChild p i = .ok c := by
  unfold PrettyDoc.childAt at h
  split at h
  · split at h
    · exact ⟨_, by assumption, by assumption, h⟩
    · simp at h
  · simp at h
  · simp at h

/-- `Rep` depends only on the value of the notation and its node. -/
theorem Rep.congr {d d' : DCN P} {rid t} (h : Rep d rid t) (he : d'.eval = d.eval)
    (hd : d'.doc = d.doc) : Rep d' rid t := by
  have hid : d'.idRes = d.idRes := by simp [DCN.idRes, hd]
  have hr := h.idRes_eq
  rcases h.cases' with ⟨f, h1, rfl⟩ | ⟨c, h1, h2⟩
  · rw [hr, ← hid]; exact .fail (he.trans h1)
  · rw [hr, ← hid]
    refine Rep.of_eval (he.trans h1) ?_
    rw [hid, ← hr]; exact h2

/-- A delayed notation in a context. -/
def mkD (a : Notation P.Label P.Cond) (node : P.Node) (c : Ctx P) (jp : Option (JoinPos P)) : DCN P :=
  ⟨a, node, c.flat, c.indent.reverse, c.style, jp⟩

theorem Rep.congr' {d : DCN P} {a : Notation P.Label P.Cond} {node : P.Node} {c : Ctx P} {jp} {rid t}
    (h : Rep d rid t) (he : (mkD a node c jp).eval = d.eval) (hd : d.doc = node) :
    Rep (mkD a node c jp) rid t := h.congr he hd.symm

/-- What the code does to display a child. -/
def childCN (i : Nat) (ch : P.Node) (c : Ctx P) (jp : Option (JoinPos P)) : Exec P.Err (CN P) := do
  let notn ← call (P.notn ch)
  let nodeStyle ← call (P.nodeStyle ch)
  pure (.child i ⟨notn, ch, c.flat, c.indent.reverse, P.combine c.style nodeStyle, jp⟩)

/-- `kid` describes the children of `node`. -/
def KidOk (node : P.Node) (kid : Nat → Ctx P → NTree P) : Prop :=
  ∀ i c jp (d : DCN P), d.eval = (call (P.childAt node i) >>= fun ch => childCN i ch c jp) →
    d.doc = node → Rep d (Call.toRes (P.id node)) (kid i c)

/-- The spec and the code agree on what `Left` and `Right` are. -/
def EnvOk (node : P.Node) (jp : Option (JoinPos P)) (env : Option (FoldEnv P)) : Prop :=
  ∀ e, env = some e → ∃ jp0, jp = some jp0 ∧ jp0.parent = node ∧ jp0.index = e.next ∧
    1 ≤ e.next ∧ P.childAt node e.next = .ok jp0.child ∧
    ∀ c, Rep (mkD .left node c (some jp0)) (Call.toRes (P.id node)) (e.acc c)

theorem EnvOk.none (node : P.Node) (jp) : EnvOk node jp none := fun _ h => by simp at h

/-- The notation passed validation in a context where `Left`/`Right` are allowed only if `env` says
    what they are. -/
def ScopeOk (a : Notation P.Label P.Cond) (env : Option (FoldEnv P)) : Prop :=
  ∃ h ctx h', a.validateRec h ctx = .ok h' ∧ (ctx.fold = some .inFoldJoin → env.isSome)

theorem rep_orFail {α : Type} {d : DCN P} {node : P.Node} (call' : Call P.Err α) {f : α → NTree P}
    {g : α → Exec P.Err (CN P)} (hd : d.doc = node) (he : d.eval = call call' >>= g)
    (h : ∀ a, call' = .ok a → d.eval = g a → Rep d (Call.toRes (P.id node)) (f a)) :
    Rep d (Call.toRes (P.id node)) (.orFail call' f) := by
  subst hd
  cases call' with
  | error e => exact .fail he
  | ok a => exact h a rfl he

theorem toRes_bind {α β : Type} (c : Call P.Err α) (f : α → Res P.Err β) :
    (Call.toRes c >>= f) = match c with
      | .ok a => f a
      | .error e => .error e.toFail := by cases c <;> rfl

theorem docToInspect_eq {node : P.Node} {a c} {jp : Option (JoinPos P)} {env}
    (law : P.Lawful) (henv : EnvOk node jp env) (pos : CheckPos) {h : History} {ctx : Context}
    (hv : validateCheckPos pos ctx = .ok ()) (hs : ctx.fold = some .inFoldJoin → env.isSome) :
    (mkD a node c jp).docToInspect pos = Exec.ofRes (inspected node env pos) := by
  cases pos with
  | here => rfl
  | child i =>
    simp only [DCN.docToInspect, inspected, mkD, toRes_bind]
    cases hn : P.numChildren node with
    | error e => rfl
    | ok r =>
      cases r with
      | none => rfl
      | some n =>
        simp only [call, Call.toRes, Exec.ofRes_ok_bind, normalizeChildIndex_eq]
        cases hi : childIndex i n with
        | none => rfl
        | some j => simp [childAt_eq hn (childIndex_lt hi)]
  | leftChild =>
    have : ctx.fold = some .inFoldJoin := by
      simp only [validateCheckPos] at hv
      split at hv
      · simp at hv
      · exact Decidable.not_not.1 ‹¬ _›
    obtain ⟨e, rfl⟩ := Option.isSome_iff_exists.1 (hs this)
    obtain ⟨jp0, rfl, h1, h2, h3, h4, _⟩ := henv e rfl
    obtain ⟨n, g1, g2, g3⟩ := childAt_ok h4
    simp only [DCN.docToInspect, mkD, inspected, h2]
    obtain ⟨k, hk⟩ := Nat.exists_eq_add_of_le' h3
    rw [hk] at g2 g3 ⊢
    simp only [h1, Nat.add_sub_cancel]
    rw [law.prev _ _ _ _ g1 g2 g3, childAt_eq g1 (by omega)]
    rfl
  | rightChild =>
    have : ctx.fold = some .inFoldJoin := by
      simp only [validateCheckPos] at hv
      split at hv
      · simp at hv
      · exact Decidable.not_not.1 ‹¬ _›
    obtain ⟨e, rfl⟩ := Option.isSome_iff_exists.1 (hs this)
    obtain ⟨jp0, rfl, h1, h2, h3, h4, _⟩ := henv e rfl
    simp only [DCN.docToInspect, mkD, inspected, h4]
    rfl

theorem tree_rep (law : P.Lawful) (node : P.Node) {kid : Nat → Ctx P → NTree P}
    (hkid : KidOk node kid) (a : Notation P.Label P.Cond) :
    ∀ {env jp}, EnvOk node jp env → ScopeOk a env → ∀ c,
      Rep (mkD a node c jp) (Call.toRes (P.id node)) (a.tree node kid env c) := by
  induction a with
  | empty => intro env jp henv hs c; exact .empty (by rw [DCN.eval.eq_def]; rfl)
  | newline =>
    intro env jp henv hs c
    have := Rep.newline (d := mkD .newline node c jp) (ind := c.indent.reverse)
      (by rw [DCN.eval.eq_def]; rfl)
    rw [List.reverse_reverse] at this
    exact this
  | endOfLine => intro env jp henv hs c; exact .eol (by rw [DCN.eval.eq_def]; rfl)
  | focusMark => intro env jp henv hs c; exact .mark (by rw [DCN.eval.eq_def]; rfl)
  | literal s => intro env jp henv hs c; exact .text (by rw [DCN.eval.eq_def]; rfl)
  | text =>
    intro env jp henv hs c
    simp only [Notation.tree]
    refine rep_orFail _ rfl (by rw [DCN.eval.eq_def]; rfl) ?_
    intro r hr he
    cases r with
    | some n => exact .fail he
    | none => exact rep_orFail _ rfl he fun s hs he => .text he
  | flat a ih =>
    intro env jp henv ⟨h, ctx, h', hv, hc⟩ c
    refine (ih henv ⟨h, ctx, h', hv, hc⟩ { c with flat := true }).congr' ?_ rfl
    rw [DCN.eval.eq_def]; rfl
  | indent pre label a ih =>
    intro env jp henv ⟨h, ctx, h', hv, hc⟩ c
    cases label with
    | none =>
      refine (ih henv ⟨h, ctx, h', hv, hc⟩
        { c with indent := c.indent ++ [⟨pre, P.strWidth pre, c.style⟩] }).congr' ?_ rfl
      rw [DCN.eval.eq_def]
      simp [mkD]
    | some label =>
      simp only [Notation.tree]
      refine rep_orFail _ rfl (g := fun s => DCN.eval (mkD a node
        { c with indent := c.indent ++ [⟨pre, P.strWidth pre, P.combine c.style s⟩] } jp)) ?_ ?_
      · rw [DCN.eval.eq_def]
        simp [mkD]
      · intro s _ he
        exact (ih henv ⟨h, ctx, h', hv, hc⟩ _).congr' he rfl
  | concat a b iha ihb =>
    intro env jp henv ⟨h, ctx, h', hv, hc⟩ c
    simp only [Notation.validateRec] at hv
    cases hva : a.validateRec h ctx with
    | error e => rw [hva] at hv; simp [bind, Except.bind] at hv
    | ok h1 =>
      rw [hva] at hv
      exact .concat (by rw [DCN.eval.eq_def]; rfl) (iha henv ⟨h, ctx, h1, hva, hc⟩ c)
        (ihb henv ⟨h1, ctx, h', hv, hc⟩ c)
  | choice a b iha ihb =>
    intro env jp henv ⟨h, ctx, h', hv, hc⟩ c
    simp only [Notation.validateRec] at hv
    cases hva : a.validateRec h ctx with
    | error e => rw [hva] at hv; simp [bind, Except.bind] at hv
    | ok h1 =>
      cases hvb : b.validateRec h ctx with
      | error e => rw [hva, hvb] at hv; simp [bind, Except.bind] at hv
      | ok h2 =>
        simp only [Notation.tree]
        split
        · refine (iha henv ⟨h, ctx, h1, hva, hc⟩ c).congr' ?_ rfl
          rw [DCN.eval.eq_def]
          simp_all [mkD]
        · refine .choice ?_ (iha henv ⟨h, ctx, h1, hva, hc⟩ c) (ihb henv ⟨h, ctx, h2, hvb, hc⟩ c)
          rw [DCN.eval.eq_def]
          simp_all [mkD]
          rfl
  | check cond pos a b iha ihb =>
    intro env jp henv ⟨h, ctx, h', hv, hc⟩ c
    simp only [Notation.validateRec] at hv
    cases hvp : validateCheckPos pos ctx with
    | error e => rw [hvp] at hv; simp [bind, Except.bind] at hv
    | ok u =>
    cases hva : a.validateRec h ctx with
    | error e => rw [hvp, hva] at hv; simp [bind, Except.bind] at hv
    | ok h1 =>
      cases hvb : b.validateRec h ctx with
      | error e => rw [hvp, hva, hvb] at hv; simp [bind, Except.bind] at hv
      | ok h2 =>
        simp only [Notation.tree]
        have he : (mkD (.check cond pos a b) node c jp).eval = (do
            let doc ← Exec.ofRes (inspected node env pos)
            if ← call (P.condition doc cond) then DCN.eval (mkD a node c jp)
            else DCN.eval (mkD b node c jp)) := by
          rw [← docToInspect_eq (a := .check cond pos a b) (c := c) law henv pos (h := h) hvp hc,
            DCN.eval.eq_def]
          rfl
        cases hi : inspected node env pos with
        | error f => exact .fail (by rw [he, hi]; rfl)
        | ok p =>
          rw [hi] at he
          refine rep_orFail _ rfl he ?_
          intro r hr he
          cases r with
          | true => exact (iha henv ⟨h, ctx, h1, hva, hc⟩ c).congr' he rfl
          | false => exact (ihb henv ⟨h, ctx, h2, hvb, hc⟩ c).congr' he rfl
  | child i =>
    intro env jp henv hs c
    simp only [Notation.tree]
    refine rep_orFail _ rfl (by rw [DCN.eval.eq_def]; rfl) ?_
    intro r hr he
    cases r with
    | none => exact .fail he
    | some n =>
      simp only at he ⊢
      simp only [mkD, normalizeChildIndex_eq] at he
      cases hi : childIndex i n with
      | none => rw [hi] at he; exact .fail he
      | some j =>
        rw [hi] at he
        simp only at he ⊢
        rw [← childAt_eq hr (childIndex_lt hi)] at he
        exact hkid j c jp _ he rfl
  | style label a ih =>
    intro env jp henv ⟨h, ctx, h', hv, hc⟩ c
    simp only [Notation.tree]
    refine rep_orFail _ rfl (by rw [DCN.eval.eq_def]; rfl) ?_
    intro s _ he
    exact (ih henv ⟨h, ctx, h', hv, hc⟩ { c with style := P.combine c.style s }).congr' he rfl
  | count zero one many ih0 ih1 ih2 =>
    intro env jp henv ⟨h, ctx, h', hv, hc⟩ c
    simp only [Notation.validateRec] at hv
    split at hv
    · simp at hv
    · cases hv0 : zero.validateRec h { ctx with count := some .zero } with
      | error e => rw [hv0] at hv; simp [bind, Except.bind] at hv
      | ok h0 =>
      cases hv1 : one.validateRec h { ctx with count := some .one } with
      | error e => rw [hv0, hv1] at hv; simp [bind, Except.bind] at hv
      | ok h1 =>
      cases hv2 : many.validateRec h { ctx with count := some .many } with
      | error e => rw [hv0, hv1, hv2] at hv; simp [bind, Except.bind] at hv
      | ok h2 =>
        simp only [Notation.tree]
        refine rep_orFail _ rfl (by rw [DCN.eval.eq_def]; rfl) ?_
        intro r hr he
        match r with
        | none => exact .fail he
        | some 0 => exact (ih0 henv ⟨_, _, _, hv0, hc⟩ c).congr' he rfl
        | some 1 => exact (ih1 henv ⟨_, _, _, hv1, hc⟩ c).congr' he rfl
        | some (n + 2) => exact (ih2 henv ⟨_, _, _, hv2, hc⟩ c).congr' he rfl
  | fold first join ihf ihj =>
    intro env jp henv ⟨h, ctx, h', hv, hc⟩ c
    simp only [Notation.validateRec] at hv
    split at hv
    · simp at hv
    · cases hv0 : first.validateRec {} { ctx with fold := some .inFoldFirst } with
      | error e => rw [hv0] at hv; simp [bind, Except.bind] at hv
      | ok h0 =>
      cases hv1 : join.validateRec {} { ctx with fold := some .inFoldJoin } with
      | error e => rw [hv0, hv1] at hv; simp [bind, Except.bind] at hv
      | ok h1 =>
        simp only [Notation.tree]
        refine rep_orFail _ rfl (by rw [DCN.eval.eq_def]; rfl) ?_
        intro r hr he
        match r with
        | none => exact .fail he
        | some 0 => exact .empty he
        | some 1 => exact (ihf (EnvOk.none _ _) ⟨_, _, _, hv0, by simp⟩ c).congr' he rfl
        | some (n + 2) =>
          simp only [mkD] at he
          rw [law.last _ _ hr, ← childAt_eq hr (Nat.lt_succ_self _)] at he
          -- the code and the spec agree on the fold of the first `k + 2` children
          have key : ∀ k, k + 1 < n + 2 → ∀ ch, P.childAt node (k + 1) = .ok ch → ∀ c,
              Rep (mkD join node c (some ⟨node, ch, k + 1, first, join⟩)) (Call.toRes (P.id node))
                (join.tree node kid (some ⟨Nat.rec (motive := fun _ => Ctx P → NTree P)
                  (fun c => first.tree node kid none c)
                  (fun k acc c => .orFail (P.childAt node (k + 1)) fun _ =>
                    join.tree node kid (some ⟨acc, k + 1⟩) c) k, k + 1⟩) c) := by
            intro k
            induction k with
            | zero =>
              intro hk ch hch c
              refine ihj ?_ ⟨_, _, _, hv1, by simp⟩ c
              rintro e he
              simp only [Option.some.injEq] at he
              subst he
              refine ⟨_, rfl, rfl, rfl, Nat.le_refl _, hch, fun c => ?_⟩
              refine (ihf (EnvOk.none _ none) ⟨_, _, _, hv0, by simp⟩ c).congr' ?_ rfl
              rw [DCN.eval.eq_def]; rfl
            | succ k ihk =>
              intro hk ch hch c
              refine ihj ?_ ⟨_, _, _, hv1, by simp⟩ c
              rintro e he
              simp only [Option.some.injEq] at he
              subst he
              refine ⟨_, rfl, rfl, rfl, Nat.succ_le_succ (Nat.zero_le _), hch, fun c => ?_⟩
              obtain ⟨n', g1, g2, g3⟩ := childAt_ok hch
              have heq : (mkD .left node c (some ⟨node, ch, k + 1 + 1, first, join⟩)).eval =
                  (call (P.childAt node (k + 1)) >>= fun child =>
                    DCN.eval (mkD join node c (some ⟨node, child, k + 1, first, join⟩))) := by
                rw [childAt_eq g1 (by omega), ← law.prev _ _ _ _ g1 g2 g3, DCN.eval.eq_def]
                rfl
              refine rep_orFail _ rfl heq ?_
              intro ch' hch' he
              exact (ihk (by omega) ch' hch' c).congr' he rfl
          refine rep_orFail _ rfl he ?_
          intro ch hch he
          exact (key n (by omega) ch hch c).congr' he rfl
  | left =>
    intro env jp henv ⟨h, ctx, h', hv, hc⟩ c
    simp only [Notation.validateRec] at hv
    split at hv
    · simp at hv
    · obtain ⟨e, rfl⟩ := Option.isSome_iff_exists.1 (hc (Decidable.not_not.1 ‹¬ _›))
      obtain ⟨jp0, rfl, h1, h2, h3, h4, h5⟩ := henv e rfl
      exact h5 c
  | right =>
    intro env jp henv ⟨h, ctx, h', hv, hc⟩ c
    simp only [Notation.validateRec] at hv
    split at hv
    · simp at hv
    · obtain ⟨e, rfl⟩ := Option.isSome_iff_exists.1 (hc (Decidable.not_not.1 ‹¬ _›))
      obtain ⟨jp0, rfl, h1, h2, h3, h4, h5⟩ := henv e rfl
      refine hkid e.next c none _ ?_ rfl
      rw [DCN.eval.eq_def, h4, ← h2]
      rfl

/-- The children of a document, as `docTree` sees them. -/
def docKid (law : P.Lawful) (node : P.Node) (i : Nat) (c : Ctx P) : NTree P :=
  .orFail (P.childAt node i) fun child =>
    match docTree law child c.flat c.indent (some c.style) with
    | .error f => .fail f
    | .ok t => .child i (Call.toRes (P.id child)) t

theorem docTree_eq (law : P.Lawful) (node : P.Node) (flat indent outer) :
    docTree law node flat indent outer = (do
      let a ← Call.toRes (P.notn node)
      let s ← Call.toRes (P.nodeStyle node)
      .ok (a.tree node (docKid law node) none ⟨flat, indent, enterStyle outer s⟩)) := by
  rw [docTree]
  congr 1; funext a; congr 1; funext s; congr 2
  funext i c
  unfold docKid NTree.orFail
  split <;> rename_i h <;> rw [h] <;> rfl

theorem docTree_of (law : P.Lawful) {node : P.Node} {a s} (ha : P.notn node = .ok a)
    (hs : P.nodeStyle node = .ok s) (flat indent outer) :
    docTree law node flat indent outer =
      .ok (a.tree node (docKid law node) none ⟨flat, indent, enterStyle outer s⟩) := by
  rw [docTree_eq, ha, hs]; rfl

theorem docKid_of (law : P.Lawful) {node child : P.Node} {i : Nat} {c : Ctx P} {t}
    (hc : P.childAt node i = .ok child)
    (ht : docTree law child c.flat c.indent (some c.style) = .ok t) :
    docKid law node i c = .child i (Call.toRes (P.id child)) t := by
  unfold docKid NTree.orFail
  rw [hc]
  simp only [ht]

theorem docTree_rep (law : P.Lawful) (node : P.Node) : ∀ flat indent outer,
    (∃ f, docTree law node flat indent outer = .error f ∧
      (do let a ← Call.toRes (P.notn node)
          let s ← Call.toRes (P.nodeStyle node)
          Except.ok (ε := Fail P.Err) (a, s)) = .error f) ∨
    (∃ a s t, P.notn node = .ok a ∧ P.nodeStyle node = .ok s ∧
      docTree law node flat indent outer = .ok t ∧
      ∀ jp, Rep (mkD a node ⟨flat, indent, enterStyle outer s⟩ jp) (Call.toRes (P.id node)) t) := by
  induction node using law.wf.induction with
  | _ node ih =>
    intro flat indent outer
    rw [docTree_eq]
    cases ha : P.notn node with
    | error e => exact .inl ⟨_, rfl, rfl⟩
    | ok a =>
      cases hs : P.nodeStyle node with
      | error e => exact .inl ⟨_, rfl, rfl⟩
      | ok s =>
        refine .inr ⟨a, s, _, rfl, rfl, rfl, fun jp => ?_⟩
        refine tree_rep law node ?_ a (EnvOk.none _ _) ?_ _
        · intro i c jp d he hd
          unfold docKid
          refine rep_orFail _ hd he ?_
          intro ch hch he
          have hid : Call.toRes (P.id node) = d.idRes := by simp [DCN.idRes, hd]
          rw [hid]
          unfold childCN at he
          rcases ih ch ⟨i, hch⟩ c.flat c.indent (some c.style) with ⟨f, h1, h2⟩ | ⟨b, s', t, h1, h2, h3, h4⟩
          · rw [h1]
            refine .fail ?_
            rw [he]
            cases hn : P.notn ch with
            | error e => rw [hn] at h2; simp only [toRes_bind] at h2; cases h2; rfl
            | ok b =>
              cases hs : P.nodeStyle ch with
              | error e => rw [hn, hs] at h2; simp only [toRes_bind] at h2; cases h2; rfl
              | ok s => rw [hn, hs] at h2; simp only [toRes_bind] at h2; cases h2
          · rw [h3]
            refine .child ?_ (h4 jp)
            rw [he, h1, h2]
            rfl
        · have hv := law.valid _ _ ha
          unfold Notation.Valid Notation.validate at hv
          cases hvr : a.validateRec {} {} with
          | error e => rw [hvr] at hv; simp [bind, Except.bind] at hv
          | ok h' => exact ⟨_, _, h', hvr, by simp⟩

/-- Printing starts from a delayed notation represented by the document's notation tree. -/
theorem rootTree_rep (law : P.Lawful) (doc : P.Node) (rootStyle : Option P.Style) {id t}
    (h : rootTree law doc rootStyle = .ok (id, t)) :
    ∃ d, DCN.withOptionalStyle doc rootStyle = Exec.ofRes (.ok d) ∧ Rep d (.ok id) t := by
  unfold rootTree at h
  rcases docTree_rep law doc false [] rootStyle with ⟨f, h1, _⟩ | ⟨a, s, t', h1, h2, h3, h4⟩
  · rw [h1] at h; cases h
  · rw [h3] at h
    cases hid : P.id doc with
    | error e => rw [hid] at h; cases h
    | ok id' =>
      rw [hid] at h
      cases h
      refine ⟨_, ?_, hid ▸ h4 none⟩
      unfold DCN.withOptionalStyle
      rw [h1, h2]
      rfl

/-- If the document's root cannot be looked at, printing reports that. -/
theorem rootTree_error (law : P.Lawful) (doc : P.Node) (rootStyle : Option P.Style) {f}
    (h : rootTree law doc rootStyle = .error f) :
    (DCN.withOptionalStyle doc rootStyle = Exec.ofRes (.error f)) ∨
    ∃ d, DCN.withOptionalStyle doc rootStyle = Exec.ofRes (.ok d) ∧
      P.id d.doc = P.id doc ∧ Call.toRes (P.id doc) = .error f := by
  unfold rootTree at h
  rcases docTree_rep law doc false [] rootStyle with ⟨f', h1, h2⟩ | ⟨a, s, t', h1, h2, h3, h4⟩
  · rw [h1] at h
    cases h
    refine .inl ?_
    unfold DCN.withOptionalStyle
    cases hn : P.notn doc with
    | error e => rw [hn] at h2; simp only [toRes_bind] at h2; cases h2; rfl
    | ok b =>
      cases hs : P.nodeStyle doc with
      | error e => rw [hn, hs] at h2; simp only [toRes_bind] at h2; cases h2; rfl
      | ok s => rw [hn, hs] at h2; simp only [toRes_bind] at h2; cases h2
  · rw [h3] at h
    refine .inr ⟨⟨a, doc, false, [], enterStyle rootStyle s, none⟩, ?_, rfl, ?_⟩
    · unfold DCN.withOptionalStyle
      rw [h1, h2]
      rfl
    · cases hid : P.id doc with
      | error e => rw [hid] at h; cases h; rfl
      | ok id' => rw [hid] at h; cases h

end PPP
