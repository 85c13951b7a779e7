import Verif.Proofs.Denote
import Verif.Proofs.Blocks
import Verif.Proofs.Step
import Verif.Spec.Output
/-
What is true of every leaf of the notation tree of a lawful document.
-/
namespace PPP
variable {P : PrettyDoc}

/-- Leaves of documents: no panics, widths are `str_width`s, texts come from the document (or are
    the end of one that does). -/
def docPred (P : PrettyDoc) (doc : P.Node) : Pred P where
  fail f := f ≠ .panic
  text t := t.width = P.strWidth t.str ∧
    (t.isFromText = true → ∃ p s, P.Within doc p ∧ P.unwrapText p = .ok s ∧ t.str.toList <:+ s.toList)
  nl ind := ∀ s ∈ ind, s.width = P.strWidth s.str

theorem docPred_ok {doc : P.Node} : QOk (docPred P doc) := ⟨by simp [docPred], by simp [docPred]⟩

theorem toFail_ne_panic {e : DocFail P.Err} (h : e ≠ .panic) : e.toFail ≠ .panic := by
  cases e with
  | err e => simp [DocFail.toFail]
  | panic => exact absurd rfl h

theorem failIn_orFail {Q : Pred P} {α : Type} {c : Call P.Err α} {f : α → NTree P}
    (he : ∀ e, c = .error e → Q e.toFail) (h : ∀ a, c = .ok a → (f a).FailIn Q) :
    (NTree.orFail c f).FailIn Q := by
  cases c with
  | error e => exact he e rfl
  | ok a => exact h a rfl

theorem childAt_no_panic (law : P.Lawful) {p : P.Node} {n i : Nat}
    (hn : P.numChildren p = .ok (some n)) (hi : i < n) {e} (h : P.childAt p i = .error e) :
    e ≠ .panic := by
  rw [childAt_eq hn hi] at h
  rintro rfl
  exact law.unwrapChild_no_panic _ _ _ hn hi h

def widthOk (segs : List (Segment P)) : Prop := ∀ s ∈ segs, s.width = P.strWidth s.str

/-- The environment of a `join`: positions are in range, and what has been folded is fine. -/
def EnvFail (doc node : P.Node) (env : Option (FoldEnv P)) : Prop :=
  ∀ e, env = some e → (∃ n, P.numChildren node = .ok (some n) ∧ e.next < n) ∧ 1 ≤ e.next ∧
    ∀ c : Ctx P, widthOk c.indent → (e.acc c).FailIn (docPred P doc)

theorem inspected_no_panic (law : P.Lawful) {doc node : P.Node} {env} (henv : EnvFail doc node env)
    {pos : CheckPos} {ctx : Context} (hv : validateCheckPos pos ctx = .ok ())
    (hs : ctx.fold = some .inFoldJoin → env.isSome) {f} (h : inspected node env pos = .error f) :
    f ≠ .panic := by
  cases pos with
  | here => simp [inspected] at h
  | child i =>
    simp only [inspected, toRes_bind] at h
    split at h
    · rename_i r hn
      cases r with
      | none => simp at h; subst h; simp
      | some n =>
        simp only at h
        split at h
        · simp at h; subst h; simp
        · rename_i j hj
          cases hc : P.childAt node j with
          | ok c => rw [hc] at h; simp [Call.toRes] at h
          | error e =>
            rw [hc] at h
            simp only [Call.toRes, Except.error.injEq] at h
            subst h
            exact toFail_ne_panic (childAt_no_panic law hn (childIndex_lt hj) hc)
    · rename_i e hn
      simp at h
      subst h
      refine toFail_ne_panic ?_
      rintro rfl
      exact law.numChildren_no_panic _ hn
  | leftChild =>
    have : ctx.fold = some .inFoldJoin := by
      simp only [validateCheckPos] at hv
      split at hv
      · simp at hv
      · exact Decidable.not_not.1 ‹¬ _›
    obtain ⟨e, rfl⟩ := Option.isSome_iff_exists.1 (hs this)
    obtain ⟨⟨n, h1, h2⟩, h3, _⟩ := henv e rfl
    simp only [inspected] at h
    cases hc : P.childAt node (e.next - 1) with
    | ok c => rw [hc] at h; simp [Call.toRes] at h
    | error e' =>
      rw [hc] at h
      simp only [Call.toRes, Except.error.injEq] at h
      subst h
      exact toFail_ne_panic (childAt_no_panic law h1 (by omega) hc)
  | rightChild =>
    have : ctx.fold = some .inFoldJoin := by
      simp only [validateCheckPos] at hv
      split at hv
      · simp at hv
      · exact Decidable.not_not.1 ‹¬ _›
    obtain ⟨e, rfl⟩ := Option.isSome_iff_exists.1 (hs this)
    obtain ⟨⟨n, h1, h2⟩, h3, _⟩ := henv e rfl
    simp only [inspected] at h
    cases hc : P.childAt node e.next with
    | ok c => rw [hc] at h; simp [Call.toRes] at h
    | error e' =>
      rw [hc] at h
      simp only [Call.toRes, Except.error.injEq] at h
      subst h
      exact toFail_ne_panic (childAt_no_panic law h1 h2 hc)

theorem inspected_inv {node : P.Node} {env : Option (FoldEnv P)} {pos : CheckPos} {p : P.Node}
    (h : inspected node env pos = .ok p) : p = node ∨ P.ChildOf p node := by
  cases pos with
  | here => simp only [inspected, Except.ok.injEq] at h; exact .inl h.symm
  | child i =>
    simp only [inspected, toRes_bind] at h
    split at h
    · rename_i r hn
      cases r with
      | none => simp at h
      | some n =>
        simp only at h
        split at h
        · simp at h
        · rename_i j hj
          refine .inr ⟨j, ?_⟩
          cases hc : P.childAt node j with
          | ok c => rw [hc] at h; simp only [Call.toRes, Except.ok.injEq] at h; rw [h]
          | error e => rw [hc] at h; simp [Call.toRes] at h
    · simp at h
  | leftChild =>
    cases env with
    | none => simp [inspected] at h
    | some e =>
      refine .inr ⟨e.next - 1, ?_⟩
      simp only [inspected] at h
      cases hc : P.childAt node (e.next - 1) with
      | ok c => rw [hc] at h; simp only [Call.toRes, Except.ok.injEq] at h; rw [h]
      | error e => rw [hc] at h; simp [Call.toRes] at h
  | rightChild =>
    cases env with
    | none => simp [inspected] at h
    | some e =>
      refine .inr ⟨e.next, ?_⟩
      simp only [inspected] at h
      cases hc : P.childAt node e.next with
      | ok c => rw [hc] at h; simp only [Call.toRes, Except.ok.injEq] at h; rw [h]
      | error e => rw [hc] at h; simp [Call.toRes] at h

/-- The conditions and labels in `a` are among those that the methods of `node` have to expect. -/
def UsesOk (node : P.Node) (a : Notation P.Label P.Cond) : Prop :=
  ∃ b, P.notn node = .ok b ∧ (∀ c ∈ a.conds, c ∈ b.conds) ∧ ∀ l ∈ a.labels, l ∈ b.labels

theorem UsesOk.mono {node : P.Node} {a a' : Notation P.Label P.Cond} (h : UsesOk node a)
    (hc : ∀ c ∈ a'.conds, c ∈ a.conds) (hl : ∀ l ∈ a'.labels, l ∈ a.labels) : UsesOk node a' := by
  obtain ⟨b, h1, h2, h3⟩ := h
  exact ⟨b, h1, fun c hm => h2 c (hc c hm), fun l hm => h3 l (hl l hm)⟩

theorem tree_failIn (law : P.Lawful) {doc node : P.Node} (hwithin : P.Within doc node) {kid : Nat → Ctx P → NTree P}
    (hkid : ∀ n i c, P.numChildren node = .ok (some n) → i < n → widthOk c.indent →
      (kid i c).FailIn (docPred P doc)) (a : Notation P.Label P.Cond) :
    ∀ {env}, UsesOk node a → EnvFail doc node env → ScopeOk a env → ∀ c : Ctx P, widthOk c.indent →
      (a.tree node kid env c).FailIn (docPred P doc) := by
  have hnum : ∀ e, P.numChildren node = .error e → docPred P doc e.toFail := by
    intro e he
    exact toFail_ne_panic (by rintro rfl; exact law.numChildren_no_panic _ he)
  induction a with
  | empty => intro env hu henv hs c hc; trivial
  | newline => intro env hu henv hs c hc; exact hc
  | endOfLine => intro env hu henv hs c hc; trivial
  | focusMark => intro env hu henv hs c hc; trivial
  | literal s => intro env hu henv hs c hc; exact ⟨rfl, by simp⟩
  | text =>
    intro env hu henv hs c hc
    refine failIn_orFail hnum ?_
    intro r hr
    cases r with
    | some n => simp [NTree.FailIn, docPred]
    | none =>
      refine failIn_orFail ?_ ?_
      · intro e he
        exact toFail_ne_panic (by rintro rfl; exact law.unwrapText_no_panic _ hr he)
      · intro s hs
        exact ⟨rfl, fun _ => ⟨node, s, hwithin, hs, List.suffix_refl _⟩⟩
  | flat a ih =>
    intro env hu henv ⟨h, ctx, h', hv, hx⟩ c hc
    exact ih (hu.mono (by simp +contextual [Notation.conds]) (by simp +contextual [Notation.labels])) henv ⟨h, ctx, h', hv, hx⟩ { c with flat := true } hc
  | indent pre label a ih =>
    intro env hu henv ⟨h, ctx, h', hv, hx⟩ c hc
    have hw : ∀ st, widthOk (c.indent ++ [⟨pre, P.strWidth pre, st⟩]) := by
      intro st s hs
      rcases List.mem_append.1 hs with hs | hs
      · exact hc s hs
      · simp at hs; subst hs; rfl
    cases label with
    | none => exact ih (hu.mono (by simp +contextual [Notation.conds]) (by simp +contextual [Notation.labels])) henv ⟨h, ctx, h', hv, hx⟩ _ (hw _)
    | some label =>
      refine failIn_orFail ?_ ?_
      · intro e he
        exact toFail_ne_panic (by rintro rfl; exact law.lookupStyle_no_panic _ _ (let ⟨b, h1, _, h3⟩ := hu; ⟨b, h1, h3 _ (by simp [Notation.labels])⟩) he)
      · intro s _
        exact ih (hu.mono (by simp +contextual [Notation.conds]) (by simp +contextual [Notation.labels])) henv ⟨h, ctx, h', hv, hx⟩ _ (hw _)
  | concat a b iha ihb =>
    intro env hu henv ⟨h, ctx, h', hv, hx⟩ c hc
    simp only [Notation.validateRec] at hv
    cases hva : a.validateRec h ctx with
    | error e => rw [hva] at hv; simp [bind, Except.bind] at hv
    | ok h1 =>
      rw [hva] at hv
      exact ⟨iha (hu.mono (by simp +contextual [Notation.conds]) (by simp +contextual [Notation.labels])) henv ⟨h, ctx, h1, hva, hx⟩ c hc, ihb (hu.mono (by simp +contextual [Notation.conds]) (by simp +contextual [Notation.labels])) henv ⟨h1, ctx, h', hv, hx⟩ c hc⟩
  | choice a b iha ihb =>
    intro env hu henv ⟨h, ctx, h', hv, hx⟩ c hc
    simp only [Notation.validateRec] at hv
    cases hva : a.validateRec h ctx with
    | error e => rw [hva] at hv; simp [bind, Except.bind] at hv
    | ok h1 =>
      cases hvb : b.validateRec h ctx with
      | error e => rw [hva, hvb] at hv; simp [bind, Except.bind] at hv
      | ok h2 =>
        simp only [Notation.tree]
        split
        · exact iha (hu.mono (by simp +contextual [Notation.conds]) (by simp +contextual [Notation.labels])) henv ⟨h, ctx, h1, hva, hx⟩ c hc
        · exact ⟨iha (hu.mono (by simp +contextual [Notation.conds]) (by simp +contextual [Notation.labels])) henv ⟨h, ctx, h1, hva, hx⟩ c hc, ihb (hu.mono (by simp +contextual [Notation.conds]) (by simp +contextual [Notation.labels])) henv ⟨h, ctx, h2, hvb, hx⟩ c hc⟩
  | check cond pos a b iha ihb =>
    intro env hu henv ⟨h, ctx, h', hv, hx⟩ c hc
    simp only [Notation.validateRec] at hv
    cases hvp : validateCheckPos pos ctx with
    | error e => rw [hvp] at hv; simp [bind, Except.bind] at hv
    | ok u =>
    cases hva : a.validateRec h ctx with
    | error e => rw [hvp, hva] at hv; simp [bind, Except.bind] at hv
    | ok h1 =>
      cases hvb : b.validateRec h ctx with
      | error e => rw [hvp, hva, hvb] at hv; simp [bind, Except.bind] at hv
      | ok h2 =>
        simp only [Notation.tree]
        cases hi : inspected node env pos with
        | error f => exact inspected_no_panic law henv hvp hx hi
        | ok p =>
          refine failIn_orFail ?_ ?_
          · intro e he
            exact toFail_ne_panic (by rintro rfl; exact law.condition_no_panic _ _ (let ⟨b, h1, h2, _⟩ := hu; ⟨node, b, h1, h2 _ (by simp [Notation.conds]), inspected_inv hi⟩) he)
          · intro r _
            cases r with
            | true => exact iha (hu.mono (by simp +contextual [Notation.conds]) (by simp +contextual [Notation.labels])) henv ⟨h, ctx, h1, hva, hx⟩ c hc
            | false => exact ihb (hu.mono (by simp +contextual [Notation.conds]) (by simp +contextual [Notation.labels])) henv ⟨h, ctx, h2, hvb, hx⟩ c hc
  | child i =>
    intro env hu henv hs c hc
    refine failIn_orFail hnum ?_
    intro r hr
    cases r with
    | none => simp [NTree.FailIn, docPred]
    | some n =>
      simp only
      cases hi : childIndex i n with
      | none => simp [NTree.FailIn, docPred]
      | some j => exact hkid n j c hr (childIndex_lt hi) hc
  | style label a ih =>
    intro env hu henv ⟨h, ctx, h', hv, hx⟩ c hc
    refine failIn_orFail ?_ ?_
    · intro e he
      exact toFail_ne_panic (by rintro rfl; exact law.lookupStyle_no_panic _ _ (let ⟨b, h1, _, h3⟩ := hu; ⟨b, h1, h3 _ (by simp [Notation.labels])⟩) he)
    · intro s _
      exact ih (hu.mono (by simp +contextual [Notation.conds]) (by simp +contextual [Notation.labels])) henv ⟨h, ctx, h', hv, hx⟩ _ hc
  | count zero one many ih0 ih1 ih2 =>
    intro env hu henv ⟨h, ctx, h', hv, hx⟩ c hc
    simp only [Notation.validateRec] at hv
    split at hv
    · simp at hv
    · cases hv0 : zero.validateRec h { ctx with count := some .zero } with
      | error e => rw [hv0] at hv; simp [bind, Except.bind] at hv
      | ok h0 =>
      cases hv1 : one.validateRec h { ctx with count := some .one } with
      | error e => rw [hv0, hv1] at hv; simp [bind, Except.bind] at hv
      | ok h1 =>
      cases hv2 : many.validateRec h { ctx with count := some .many } with
      | error e => rw [hv0, hv1, hv2] at hv; simp [bind, Except.bind] at hv
      | ok h2 =>
        refine failIn_orFail hnum ?_
        intro r hr
        match r with
        | none => simp [NTree.FailIn, docPred]
        | some 0 => exact ih0 (hu.mono (by simp +contextual [Notation.conds]) (by simp +contextual [Notation.labels])) henv ⟨_, _, _, hv0, hx⟩ c hc
        | some 1 => exact ih1 (hu.mono (by simp +contextual [Notation.conds]) (by simp +contextual [Notation.labels])) henv ⟨_, _, _, hv1, hx⟩ c hc
        | some (n + 2) => exact ih2 (hu.mono (by simp +contextual [Notation.conds]) (by simp +contextual [Notation.labels])) henv ⟨_, _, _, hv2, hx⟩ c hc
  | fold first join ihf ihj =>
    intro env hu henv ⟨h, ctx, h', hv, hx⟩ c hc
    simp only [Notation.validateRec] at hv
    split at hv
    · simp at hv
    · cases hv0 : first.validateRec {} { ctx with fold := some .inFoldFirst } with
      | error e => rw [hv0] at hv; simp [bind, Except.bind] at hv
      | ok h0 =>
      cases hv1 : join.validateRec {} { ctx with fold := some .inFoldJoin } with
      | error e => rw [hv0, hv1] at hv; simp [bind, Except.bind] at hv
      | ok h1 =>
        refine failIn_orFail hnum ?_
        intro r hr
        match r with
        | none => simp [NTree.FailIn, docPred]
        | some 0 => trivial
        | some (n + 1) =>
          have key : ∀ k, k < n + 1 → ∀ c : Ctx P, widthOk c.indent →
              (Nat.rec (motive := fun _ => Ctx P → NTree P)
                  (fun c => first.tree node kid none c)
                  (fun k acc c => .orFail (P.childAt node (k + 1)) fun _ =>
                    join.tree node kid (some ⟨acc, k + 1⟩) c) k c).FailIn (docPred P doc) := by
            intro k
            induction k with
            | zero =>
              intro _ c hc
              exact ihf (hu.mono (by simp +contextual [Notation.conds]) (by simp +contextual [Notation.labels])) (fun e h => by simp at h) ⟨_, _, _, hv0, by simp⟩ c hc
            | succ k ihk =>
              intro hk c hc
              refine failIn_orFail ?_ ?_
              · intro e he
                exact toFail_ne_panic (childAt_no_panic law hr hk he)
              · intro ch hch
                refine ihj (hu.mono (by simp +contextual [Notation.conds]) (by simp +contextual [Notation.labels])) ?_ ⟨_, _, _, hv1, by simp⟩ c hc
                intro e he
                simp only [Option.some.injEq] at he
                subst he
                exact ⟨⟨_, hr, hk⟩, by simp, fun c hc => ihk (by omega) c hc⟩
          exact key n (by omega) c hc
  | left =>
    intro env hu henv ⟨h, ctx, h', hv, hx⟩ c hc
    simp only [Notation.validateRec] at hv
    split at hv
    · simp at hv
    · obtain ⟨e, rfl⟩ := Option.isSome_iff_exists.1 (hx (Decidable.not_not.1 ‹¬ _›))
      exact (henv e rfl).2.2 c hc
  | right =>
    intro env hu henv ⟨h, ctx, h', hv, hx⟩ c hc
    simp only [Notation.validateRec] at hv
    split at hv
    · simp at hv
    · obtain ⟨e, rfl⟩ := Option.isSome_iff_exists.1 (hx (Decidable.not_not.1 ‹¬ _›))
      obtain ⟨⟨n, h1, h2⟩, _⟩ := henv e rfl
      exact hkid n e.next c h1 h2 hc

theorem PrettyDoc.Within.child {doc node ch : P.Node} {i : Nat} (h : P.Within doc node)
    (hch : P.childAt node i = .ok ch) : P.Within doc ch := by
  have hb : P.Below ch node := .single ⟨i, hch⟩
  rcases h with rfl | h
  · exact .inr hb
  · exact .inr (hb.trans h)

theorem docTree_failIn (law : P.Lawful) (doc node : P.Node) : P.Within doc node → ∀ flat indent outer, widthOk indent →
    match docTree law node flat indent outer with
    | .error f => f ≠ .panic
    | .ok t => t.FailIn (docPred P doc) := by
  induction node using law.wf.induction with
  | _ node ih =>
    intro hwithin flat indent outer hind
    rw [docTree_eq]
    cases ha : P.notn node with
    | error e => exact toFail_ne_panic (by rintro rfl; exact law.notn_no_panic _ ha)
    | ok a =>
      cases hs : P.nodeStyle node with
      | error e => exact toFail_ne_panic (by rintro rfl; exact law.nodeStyle_no_panic _ hs)
      | ok s =>
        refine tree_failIn law hwithin ?_ a ⟨a, ha, fun _ h => h, fun _ h => h⟩ (fun e h => by simp at h) ?_ _ hind
        · intro n i c hn hi hc
          refine failIn_orFail ?_ ?_
          · intro e he
            exact toFail_ne_panic (childAt_no_panic law hn hi he)
          · intro ch hch
            have := ih ch ⟨i, hch⟩ (hwithin.child hch) c.flat c.indent (some c.style) hc
            cases hd : docTree law ch c.flat c.indent (some c.style) with
            | error f => rw [hd] at this; exact this
            | ok t =>
              rw [hd] at this
              refine ⟨?_, this⟩
              intro f hf
              cases hid : P.id ch with
              | ok i => rw [hid] at hf; simp [Call.toRes] at hf
              | error e =>
                rw [hid] at hf
                simp only [Call.toRes, Except.error.injEq] at hf
                subst hf
                exact toFail_ne_panic (by rintro rfl; exact law.id_no_panic _ hid)
        · have hv := law.valid _ _ ha
          unfold Notation.Valid Notation.validate at hv
          cases hvr : a.validateRec {} {} with
          | error e => rw [hvr] at hv; simp [bind, Except.bind] at hv
          | ok h' => exact ⟨_, _, h', hvr, by simp⟩

theorem rootTree_failIn (law : P.Lawful) (doc : P.Node) (style : Option P.Style) :
    match rootTree law doc style with
    | .error f => f ≠ .panic
    | .ok r => r.2.FailIn (docPred P doc) := by
  have h := docTree_failIn law doc doc (.inl rfl) false [] style (fun s hs => by simp at hs)
  unfold rootTree
  cases hd : docTree law doc false [] style with
  | error f => rw [hd] at h; exact h
  | ok t =>
    rw [hd] at h
    cases hid : P.id doc with
    | ok i => exact h
    | error e => exact toFail_ne_panic (by rintro rfl; exact law.id_no_panic _ hid)

/-- Combine what is known about leaves with the absence of failures. -/
theorem NTree.FailIn.noFail {Q : Pred P} {t : NTree P} (h : t.FailIn Q) (hn : t.NoFail)
    (Q' : Fail P.Err → Prop) : t.FailIn { Q with fail := Q' } := by
  induction t with
  | fail f => exact absurd hn (by simp [NTree.NoFail])
  | text t => exact h
  | newline ind => exact h
  | concat a b iha ihb => exact ⟨iha h.1 hn.1, ihb h.2 hn.2⟩
  | choice a b iha ihb => exact ⟨iha h.1 hn.1, ihb h.2 hn.2⟩
  | child i id t ih =>
    refine ⟨?_, ih h.2 hn.2⟩
    intro f hf
    obtain ⟨⟨i, hi⟩, _⟩ := hn
    rw [hi] at hf; simp at hf
  | _ => trivial

end PPP
