import Verif.Props.Printing
import Verif.Spec.Flat
/-
C16, C35: documents in which nothing depends on the width.
-/
namespace PPP
variable {P : PrettyDoc}

/-! ### C35 -/

theorem layout_choiceFree (w w' : Nat) {t : NTree P} (h : t.ChoiceFree) : ∀ id k k' st,
    t.layout w id k st = t.layout w' id k' st := by
  induction t with
  | concat a b iha ihb =>
    intro id k k' st
    simp only [NTree.layout]
    rw [iha h.1 id (b :: k) (b :: k') st]
    congr 1
    funext r
    rw [ihb h.2 id k k' r.1]
  | choice a b => exact h.elim
  | child i cid t ih =>
    intro id k k' st
    simp only [NTree.layout]
    congr 1
    funext c
    rw [ih h c k k' st]
  | _ => intro id k k' st; rfl

/-- **C35.**  If no choice can be reached, the document has the same layout at every width. -/
theorem C35_width_independent (law : P.Lawful) {doc : P.Node} {id : P.Id} {t : NTree P}
    (hr : rootTree law doc none = .ok (id, t)) (h : t.ChoiceFree) (w w' : Nat) (s : String) :
    prettyPrintToString doc w = Exec.ofRes (.ok s) ↔ prettyPrintToString doc w' = Exec.ofRes (.ok s) := by
  have hl : docLayout law doc w none = docLayout law doc w' none := by
    unfold docLayout NTree.layoutDoc
    rw [hr]
    simp only [Except.bind_eq]
    rw [layout_choiceFree w w' h id [] [] ⟨0, false⟩]
  rw [C01_to_string_iff law, C01_to_string_iff law, hl]

theorem choiceFree_orFail {α : Type} {c : Call P.Err α} {f : α → NTree P}
    (h : ∀ a, c = .ok a → (f a).ChoiceFree) : (NTree.orFail c f).ChoiceFree := by
  cases c with
  | error e => trivial
  | ok a => exact h a rfl

theorem tree_choiceFree {node : P.Node} {kid : Nat → Ctx P → NTree P} (F : Bool)
    (hkid : ∀ i c, (F = true → c.flat = true) → (kid i c).ChoiceFree) (a : Notation P.Label P.Cond) :
    ∀ {env : Option (FoldEnv P)} {c : Ctx P}, (c.flat = true ∨ (F = false ∧ a.NoChoice)) →
      (∀ e, env = some e → ∀ c' : Ctx P, (c.flat = true → c'.flat = true) → (e.acc c').ChoiceFree) →
      (a.tree node kid env c).ChoiceFree := by
  induction a with
  | flat a ih =>
    intro env c h henv
    refine ih (.inl rfl) ?_
    intro e he c' hc'
    exact henv e he c' (fun _ => hc' rfl)
  | indent pre l a ih =>
    intro env c h henv
    cases l with
    | none => exact ih h henv
    | some l => exact choiceFree_orFail fun s _ => ih h henv
  | style l a ih => intro env c h henv; exact choiceFree_orFail fun s _ => ih h henv
  | concat a b iha ihb =>
    intro env c h henv
    exact ⟨iha (h.imp_right fun h => ⟨h.1, h.2.1⟩) henv, ihb (h.imp_right fun h => ⟨h.1, h.2.2⟩) henv⟩
  | choice a b iha ihb =>
    intro env c h henv
    have hf : c.flat = true := h.elim (fun h => h) (fun h => h.2.elim)
    simp only [Notation.tree, hf, if_true]
    exact iha (.inl hf) henv
  | check cond pos a b iha ihb =>
    intro env c h henv
    simp only [Notation.tree]
    split
    · trivial
    · refine choiceFree_orFail fun r _ => ?_
      cases r with
      | true => exact iha (h.imp_right fun h => ⟨h.1, h.2.1⟩) henv
      | false => exact ihb (h.imp_right fun h => ⟨h.1, h.2.2⟩) henv
  | child i =>
    intro env c h henv
    refine choiceFree_orFail fun r _ => ?_
    cases r with
    | none => trivial
    | some n =>
      simp only
      cases childIndex i n with
      | none => trivial
      | some j => exact hkid j c (fun hF => h.elim (fun h => h) (fun h => by simp [hF] at h))
  | count zero one many ih0 ih1 ih2 =>
    intro env c h henv
    refine choiceFree_orFail fun r _ => ?_
    match r with
    | none => trivial
    | some 0 => exact ih0 (h.imp_right fun h => ⟨h.1, h.2.1⟩) henv
    | some 1 => exact ih1 (h.imp_right fun h => ⟨h.1, h.2.2.1⟩) henv
    | some (n + 2) => exact ih2 (h.imp_right fun h => ⟨h.1, h.2.2.2⟩) henv
  | fold first join ihf ihj =>
    intro env c h henv
    refine choiceFree_orFail fun r _ => ?_
    match r with
    | none => trivial
    | some 0 => trivial
    | some (n + 1) =>
      have key : ∀ k, ∀ c' : Ctx P, (c.flat = true → c'.flat = true) →
          (Nat.rec (motive := fun _ => Ctx P → NTree P)
              (fun c => first.tree node kid none c)
              (fun k acc c => .orFail (P.childAt node (k + 1)) fun _ =>
                join.tree node kid (some ⟨acc, k + 1⟩) c) k c').ChoiceFree := by
        intro k
        induction k with
        | zero =>
          intro c' hc'
          exact ihf (h.imp hc' fun h => ⟨h.1, h.2.1⟩) (fun e he => by simp at he)
        | succ k ihk =>
          intro c' hc'
          refine choiceFree_orFail fun _ _ => ?_
          refine ihj (h.imp hc' fun h => ⟨h.1, h.2.2⟩) ?_
          intro e he c'' hc''
          simp only [Option.some.injEq] at he
          subst he
          exact ihk c'' (fun hf => hc'' (hc' hf))
      exact key n c (fun hf => hf)
  | text =>
    intro env c h henv
    refine choiceFree_orFail fun r _ => ?_
    cases r with
    | some n => trivial
    | none => exact choiceFree_orFail fun s _ => trivial
  | left =>
    intro env c h henv
    cases env with
    | none => trivial
    | some e => exact henv e rfl c (fun h => h)
  | right =>
    intro env c h henv
    cases env with
    | none => trivial
    | some e => exact hkid e.next c (fun hF => h.elim (fun h => h) (fun h => by simp [hF] at h))
  | _ => intro env c h henv; trivial

theorem docTree_choiceFree (law : P.Lawful) (F : Bool) (node : P.Node) : ∀ (_ : F = false →
      ∀ p a, P.Within node p → P.notn p = .ok a → a.NoChoice) {flat indent outer t},
    (F = true → flat = true) → docTree law node flat indent outer = .ok t → t.ChoiceFree := by
  induction node using law.wf.induction with
  | _ node ih =>
    intro hno flat indent outer t hflat ht
    rw [docTree_eq] at ht
    cases ha : P.notn node with
    | error e => rw [ha] at ht; simp [Call.toRes, Except.bind_eq] at ht
    | ok a =>
    cases hs : P.nodeStyle node with
    | error e => rw [ha, hs] at ht; simp [Call.toRes, Except.bind_eq] at ht
    | ok s =>
    rw [ha, hs] at ht
    simp only [Call.toRes, Except.bind_eq, Except.ok.injEq] at ht
    subst ht
    refine tree_choiceFree F ?_ a ?_ (fun e he => by simp at he)
    · intro i c hc
      refine choiceFree_orFail fun ch hch => ?_
      cases hd : docTree law ch c.flat c.indent (some c.style) with
      | error f => trivial
      | ok t =>
        change t.ChoiceFree
        refine ih ch ⟨i, hch⟩ ?_ hc hd
        intro hF p b hp hb
        refine hno hF p b ?_ hb
        have hch' : P.Below ch node := .single ⟨i, hch⟩
        rcases hp with rfl | hp
        · exact .inr hch'
        · exact .inr (hp.trans hch')
    · cases F with
      | true => exact .inl (hflat rfl)
      | false => exact .inr ⟨rfl, hno rfl node a (.inl rfl) ha⟩

theorem rootTree_inv (law : P.Lawful) {doc : P.Node} {style id t} (h : rootTree law doc style = .ok (id, t)) :
    docTree law doc false [] style = .ok t ∧ P.id doc = .ok id := by
  unfold rootTree at h
  simp only [Except.bind_eq] at h
  split at h
  · rename_i t' h1
    split at h
    · rename_i i h2
      simp only [Except.ok.injEq, Prod.mk.injEq] at h
      obtain ⟨rfl, rfl⟩ := h
      refine ⟨h1, ?_⟩
      cases hid : P.id doc with
      | ok j => rw [hid] at h2; simp [Call.toRes] at h2; rw [h2]
      | error e => rw [hid] at h2; simp [Call.toRes] at h2
    · simp at h
  · simp at h

/-- **C35**, in terms of notations: if the notations of the document's nodes have no `Choice` outside
    of `Flat`, then the document prints the same at every width. -/
theorem C35_no_choices (law : P.Lawful) {doc : P.Node}
    (h : ∀ p a, P.Within doc p → P.notn p = .ok a → a.NoChoice) (w w' : Nat) (s : String) :
    prettyPrintToString doc w = Exec.ofRes (.ok s) ↔ prettyPrintToString doc w' = Exec.ofRes (.ok s) := by
  cases hr : rootTree law doc none with
  | error f =>
    have hl : ∀ w, docLayout law doc w none = .error f := fun w => by
      unfold docLayout; rw [hr]; rfl
    rw [C01_to_string_iff law, C01_to_string_iff law, hl, hl]
  | ok r =>
    obtain ⟨id, t⟩ := r
    exact C35_width_independent law hr
      (docTree_choiceFree law false doc (fun _ => h) (by simp) (rootTree_inv law hr).1) w w' s

/-! ### C16 -/

theorem firsts_choiceFree (t : NTree P) : t.firsts.ChoiceFree := by
  induction t with
  | concat a b iha ihb => exact ⟨iha, ihb⟩
  | choice a b iha ihb => exact iha
  | child i id t ih => exact ih
  | _ => trivial

theorem firsts_of_choiceFree {t : NTree P} (h : t.ChoiceFree) : t.firsts = t := by
  induction t with
  | concat a b iha ihb => simp [NTree.firsts, iha h.1, ihb h.2]
  | choice a b iha ihb => exact h.elim
  | child i id t ih => simp only [NTree.firsts]; rw [ih h]
  | _ => rfl

theorem firsts_orFail {α : Type} {c : Call P.Err α} {f g : α → NTree P}
    (h : ∀ a, c = .ok a → f a = (g a).firsts) : NTree.orFail c f = (NTree.orFail c g).firsts := by
  cases c with
  | error e => rfl
  | ok a => exact h a rfl

/-- The same context, inside a `Flat`. -/
abbrev Ctx.inFlat (c : Ctx P) : Ctx P := { c with flat := true }

theorem tree_inFlat {node : P.Node} {kid : Nat → Ctx P → NTree P}
    (hkid : ∀ i c, kid i c.inFlat = (kid i c).firsts) (a : Notation P.Label P.Cond) :
    ∀ {env : Option (FoldEnv P)} {c : Ctx P},
      (∀ e, env = some e → ∀ c, e.acc c.inFlat = (e.acc c).firsts) →
      a.tree node kid env c.inFlat = (a.tree node kid env c).firsts := by
  induction a with
  | flat a ih =>
    intro env c henv
    have h1 := ih (c := c.inFlat) henv
    exact h1
  | indent pre l a ih =>
    intro env c henv
    cases l with
    | none => exact ih (c := { c with indent := _ }) henv
    | some l => exact firsts_orFail fun s _ => ih (c := { c with indent := _ }) henv
  | style l a ih => intro env c henv; exact firsts_orFail fun s _ => ih (c := { c with style := _ }) henv
  | concat a b iha ihb =>
    intro env c henv
    simp only [Notation.tree, NTree.firsts]
    rw [iha henv, ihb henv]
  | choice a b iha ihb =>
    intro env c henv
    simp only [Notation.tree, if_true]
    rw [iha henv]
    split <;> rfl
  | check cond pos a b iha ihb =>
    intro env c henv
    simp only [Notation.tree]
    split
    · rfl
    · refine firsts_orFail fun r _ => ?_
      cases r with
      | true => exact iha henv
      | false => exact ihb henv
  | child i =>
    intro env c henv
    refine firsts_orFail fun r _ => ?_
    cases r with
    | none => rfl
    | some n =>
      simp only
      cases childIndex i n with
      | none => rfl
      | some j => exact hkid j c
  | count zero one many ih0 ih1 ih2 =>
    intro env c henv
    refine firsts_orFail fun r _ => ?_
    match r with
    | none => rfl
    | some 0 => exact ih0 henv
    | some 1 => exact ih1 henv
    | some (n + 2) => exact ih2 henv
  | fold first join ihf ihj =>
    intro env c henv
    refine firsts_orFail fun r _ => ?_
    match r with
    | none => rfl
    | some 0 => rfl
    | some (n + 1) =>
      have key : ∀ k, ∀ c : Ctx P,
          (Nat.rec (motive := fun _ => Ctx P → NTree P)
              (fun c => first.tree node kid none c)
              (fun k acc c => .orFail (P.childAt node (k + 1)) fun _ =>
                join.tree node kid (some ⟨acc, k + 1⟩) c) k c.inFlat) =
          (Nat.rec (motive := fun _ => Ctx P → NTree P)
              (fun c => first.tree node kid none c)
              (fun k acc c => .orFail (P.childAt node (k + 1)) fun _ =>
                join.tree node kid (some ⟨acc, k + 1⟩) c) k c : NTree P).firsts := by
        intro k
        induction k with
        | zero => intro c; exact ihf (fun e he => by simp at he)
        | succ k ihk =>
          intro c
          refine firsts_orFail fun _ _ => ihj ?_
          intro e he c'
          simp only [Option.some.injEq] at he
          subst he
          exact ihk c'
      exact key n c
  | text =>
    intro env c henv
    refine firsts_orFail fun r _ => ?_
    cases r with
    | some n => rfl
    | none => exact firsts_orFail fun s _ => rfl
  | left =>
    intro env c henv
    cases env with
    | none => rfl
    | some e => exact henv e rfl c
  | right =>
    intro env c henv
    cases env with
    | none => rfl
    | some e => exact hkid e.next c
  | _ => intro env c henv; rfl

/-- **C16**, for whole nodes: what a node displays inside of a `Flat` is what it displays elsewhere,
    with every choice (in its notation and in those of all its descendants) replaced by its first
    option. -/
theorem C16_flat_node (law : P.Lawful) (node : P.Node) : ∀ indent outer,
    docTree law node true indent outer = (docTree law node false indent outer).map NTree.firsts := by
  induction node using law.wf.induction with
  | _ node ih =>
    intro indent outer
    have hkid : ∀ i (c : Ctx P), docKid law node i c.inFlat = (docKid law node i c).firsts := by
      intro i c
      refine firsts_orFail fun ch hch => ?_
      have h := ih ch ⟨i, hch⟩ c.indent (some c.style)
      cases hf : c.flat with
      | false =>
        simp only [h]
        cases docTree law ch false c.indent (some c.style) <;> rfl
      | true =>
        simp only
        cases hd : docTree law ch true c.indent (some c.style) with
        | error f => rfl
        | ok t =>
          have := docTree_choiceFree law true ch (by simp) (fun _ => rfl) hd
          simp only [NTree.firsts]
          rw [firsts_of_choiceFree this]
    rw [docTree_eq, docTree_eq]
    cases ha : P.notn node with
    | error e => rfl
    | ok a =>
    cases hs : P.nodeStyle node with
    | error e => rfl
    | ok s =>
    simp only [Call.toRes, Except.bind_eq, Except.map]
    congr 1
    exact tree_inFlat hkid a (c := ⟨false, indent, enterStyle outer s⟩) (fun e he => by simp at he)

theorem docKid_inFlat (law : P.Lawful) (node : P.Node) (i : Nat) (c : Ctx P) :
    docKid law node i c.inFlat = (docKid law node i c).firsts := by
  refine firsts_orFail fun ch hch => ?_
  have h := C16_flat_node law ch c.indent (some c.style)
  cases hf : c.flat with
  | false =>
    simp only [h]
    cases docTree law ch false c.indent (some c.style) <;> rfl
  | true =>
    simp only
    cases hd : docTree law ch true c.indent (some c.style) with
    | error f => rfl
    | ok t =>
      have := docTree_choiceFree law true ch (by simp) (fun _ => rfl) hd
      simp only [NTree.firsts]
      rw [firsts_of_choiceFree this]

/-- **C16.**  `Flat(a)` displays what `a` would, with every choice replaced by its first option. -/
theorem C16_flat (law : P.Lawful) (node : P.Node) (a : Notation P.Label P.Cond) (c : Ctx P) :
    (Notation.flat a).tree node (docKid law node) none c =
      (a.tree node (docKid law node) none c).firsts :=
  tree_inFlat (docKid_inFlat law node) a (fun e he => by simp at he)

/-- **C16**, for a whole document: if the root's notation is a `Flat`, the layout at every width is
    the one that takes the first option of every choice. -/
theorem C16_flat_root (law : P.Lawful) {doc : P.Node} {a : Notation P.Label P.Cond} {s} {i : P.Id}
    (ha : P.notn doc = .ok (.flat a)) (hs : P.nodeStyle doc = .ok s) (hid : P.id doc = .ok i) (w : Nat) :
    docLayout law doc w none = (do
      let L ← (a.tree doc (docKid law doc) none ⟨false, [], s⟩).firsts.layoutDoc 0 i
      .ok (i, L)) := by
  unfold docLayout rootTree
  rw [docTree_of law ha hs, hid]
  simp only [Call.toRes, Except.bind_eq]
  rw [C16_flat]
  unfold NTree.layoutDoc
  simp only [Except.bind_eq]
  rw [layout_choiceFree w 0 (firsts_choiceFree _) i [] [] ⟨0, false⟩]
  rfl

section
open Ex
/-- A list in a `Flat`: `flat(lit("[") + fold(first: child(0), join: left + lit(",") + (lit(" ") | nl) + right))`. -/
def Ex.flatN : TreeNotation :=
  ⟨.flat (.literal "[" + (.fold (.child 0)
      (.left + .literal "," + (.choice (.literal " ") .newline) + .right))), by decide⟩
/-- A document using it. -/
def Ex.flatDoc : Tree Unit :=
  Tree.newBranch 3 flatN [Tree.newText 1 leafN "aa", Tree.newText 2 leafN "bbb"]

/-- C16 and C35 on it: at width 0 and at width 100 it is displayed on one line. -/
example (w : Nat) : prettyPrintToString (P := exP) flatDoc w = Exec.ofRes (.ok "[aa, bbb") := by
  have h0 : ∀ c, docKid exLaw flatDoc 0 c = .child 0 (.ok (nid 1)) (.text (txt "aa" 2)) := fun c =>
    docKid_of exLaw (child := Tree.setNeedsSeparator (Tree.newText 1 leafN "aa")) rfl
      (docTree_of exLaw rfl rfl _ _ _)
  have h1 : ∀ c, docKid exLaw flatDoc 1 c = .child 1 (.ok (nid 2)) (.text (txt "bbb" 3)) := fun c =>
    docKid_of exLaw (child := Tree.newText 2 leafN "bbb") rfl (docTree_of exLaw rfl rfl _ _ _)
  rw [C01_to_string_iff exLaw]
  rw [C16_flat_root (P := exP) exLaw (doc := flatDoc) (s := ()) (i := nid 3) rfl rfl rfl w]
  change ∃ id L, (do
    let L ← (NTree.firsts (.concat (.text (lit "[" 1))
      (.concat (.concat (.concat (docKid exLaw flatDoc 0 ⟨false, [], ()⟩) (.text (lit "," 1)))
        (.choice (.text (lit " " 1)) (.newline []))) (docKid exLaw flatDoc 1 ⟨false, [], ()⟩)))).layoutDoc 0 (nid 3)
    .ok (nid 3, L)) = Except.ok (id, L) ∧ _
  rw [h0, h1]
  exact ⟨_, _, rfl, rfl⟩

theorem Ex.flatDoc_noChoice (p : Tree Unit) (a) (hp : exP.Within flatDoc p) (ha : exP.notn p = .ok a) :
    a.NoChoice := by
  have h : p = flatDoc ∨ p.notn = leafN := by
    suffices h : p = flatDoc ∨ (p.children? = none ∧ p.notn = leafN) from h.imp_right fun h => h.2
    refine PrettyDoc.Within.induct (P := exP) (doc := flatDoc)
      (Φ := fun p : Tree Unit => p = flatDoc ∨ (p.children? = none ∧ p.notn = leafN)) (Or.inl rfl) ?_ hp
    rintro p q hp ⟨i, hi⟩
    obtain ⟨cs, h1, h2⟩ := treeDoc_childAt hi
    rcases hp with rfl | ⟨hp, _⟩
    · cases h1
      match i, h2 with
      | 0, h2 => cases h2; exact .inr ⟨rfl, rfl⟩
      | 1, h2 => cases h2; exact .inr ⟨rfl, rfl⟩
      | i + 2, h2 => cases h2
    · rw [hp] at h1; cases h1
  rcases h with rfl | h
  · cases ha; trivial
  · cases ha; rw [h]; trivial

example (w w' : Nat) (s : String) :
    prettyPrintToString (P := exP) flatDoc w = Exec.ofRes (.ok s) ↔
      prettyPrintToString (P := exP) flatDoc w' = Exec.ofRes (.ok s) :=
  C35_no_choices exLaw flatDoc_noChoice w w' s

end
end PPP
