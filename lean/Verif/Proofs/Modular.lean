import Verif.Spec.Modular
import Verif.Props.Choices
/-
Indentation shifts a layout; rows below each other are laid out on their own.
-/
namespace PPP
variable {P : PrettyDoc}

/-! ### Trees under an indentation -/

/-- Put `I` in front of the indentation of every newline. -/
def NTree.under (I : List (Segment P)) : NTree P → NTree P
  | .newline ind => .newline (I ++ ind)
  | .concat a b => .concat (a.under I) (b.under I)
  | .choice a b => .choice (a.under I) (b.under I)
  | .child i id t => .child i id (t.under I)
  | .fail f => .fail f
  | .empty => .empty
  | .eol => .eol
  | .text t => .text t
  | .mark => .mark

@[inherit_doc NTree.under]
def LTree.under (I : List (Segment P)) : LTree P → LTree P
  | .newline ind => .newline (I ++ ind)
  | .concat a b => .concat (a.under I) (b.under I)
  | .child p i id t => .child p i id (t.under I)
  | .empty => .empty
  | .eol => .eol
  | .text t => .text t
  | .mark id => .mark id

/-- The same context, in an indentation. -/
abbrev Ctx.under (I : List (Segment P)) (c : Ctx P) : Ctx P := { c with indent := I ++ c.indent }

theorem under_orFail {I : List (Segment P)} {α : Type} {c : Call P.Err α} {f g : α → NTree P}
    (h : ∀ a, c = .ok a → f a = (g a).under I) : NTree.orFail c f = (NTree.orFail c g).under I := by
  cases c with
  | error e => rfl
  | ok a => exact h a rfl

theorem tree_under {I : List (Segment P)} {node : P.Node} {kid : Nat → Ctx P → NTree P}
    (hkid : ∀ i c, kid i (c.under I) = (kid i c).under I) (a : Notation P.Label P.Cond) :
    ∀ {env : Option (FoldEnv P)} {c : Ctx P},
      (∀ e, env = some e → ∀ c : Ctx P, e.acc (c.under I) = (e.acc c).under I) →
      a.tree node kid env (c.under I) = (a.tree node kid env c).under I := by
  induction a with
  | flat a ih => intro env c henv; exact ih (c := { c with flat := true }) henv
  | indent pre l a ih =>
    intro env c henv
    cases l with
    | none =>
      have := ih (env := env) (c := { c with indent := c.indent ++ [⟨pre, P.strWidth pre, c.style⟩] }) henv
      simp only [Notation.tree]
      rw [← this]
      simp only [Ctx.under, List.append_assoc]
    | some l =>
      refine under_orFail fun s _ => ?_
      have := ih (env := env)
        (c := { c with indent := c.indent ++ [⟨pre, P.strWidth pre, P.combine c.style s⟩] }) henv
      rw [← this]
      simp only [Ctx.under, List.append_assoc]
  | style l a ih => intro env c henv; exact under_orFail fun s _ => ih (c := { c with style := P.combine c.style s }) henv
  | concat a b iha ihb =>
    intro env c henv
    simp only [Notation.tree, NTree.under]
    rw [iha henv, ihb henv]
  | choice a b iha ihb =>
    intro env c henv
    simp only [Notation.tree]
    split
    · rw [iha henv]
    · rw [iha henv, ihb henv]; rfl
  | check cond pos a b iha ihb =>
    intro env c henv
    simp only [Notation.tree]
    split
    · rfl
    · refine under_orFail fun r _ => ?_
      cases r with
      | true => exact iha henv
      | false => exact ihb henv
  | child i =>
    intro env c henv
    refine under_orFail fun r _ => ?_
    cases r with
    | none => rfl
    | some n =>
      simp only
      cases childIndex i n with
      | none => rfl
      | some j => exact hkid j c
  | count zero one many ih0 ih1 ih2 =>
    intro env c henv
    refine under_orFail fun r _ => ?_
    match r with
    | none => rfl
    | some 0 => exact ih0 henv
    | some 1 => exact ih1 henv
    | some (n + 2) => exact ih2 henv
  | fold first join ihf ihj =>
    intro env c henv
    refine under_orFail fun r _ => ?_
    match r with
    | none => rfl
    | some 0 => rfl
    | some (n + 1) =>
      have key : ∀ k, ∀ c : Ctx P,
          (Nat.rec (motive := fun _ => Ctx P → NTree P)
              (fun c => first.tree node kid none c)
              (fun k acc c => .orFail (P.childAt node (k + 1)) fun _ =>
                join.tree node kid (some ⟨acc, k + 1⟩) c) k (c.under I)) =
          (Nat.rec (motive := fun _ => Ctx P → NTree P)
              (fun c => first.tree node kid none c)
              (fun k acc c => .orFail (P.childAt node (k + 1)) fun _ =>
                join.tree node kid (some ⟨acc, k + 1⟩) c) k c : NTree P).under I := by
        intro k
        induction k with
        | zero => intro c; exact ihf (fun e he => by simp at he)
        | succ k ihk =>
          intro c
          refine under_orFail fun _ _ => ihj ?_
          intro e he c'
          simp only [Option.some.injEq] at he
          subst he
          exact ihk c'
      exact key n c
  | text =>
    intro env c henv
    refine under_orFail fun r _ => ?_
    cases r with
    | some n => rfl
    | none => exact under_orFail fun s _ => rfl
  | left =>
    intro env c henv
    cases env with
    | none => rfl
    | some e => exact henv e rfl c
  | right =>
    intro env c henv
    cases env with
    | none => rfl
    | some e => exact hkid e.next c
  | _ => intro env c henv; rfl

theorem docTree_under (law : P.Lawful) (I : List (Segment P)) (node : P.Node) : ∀ flat indent outer,
    docTree law node flat (I ++ indent) outer = (docTree law node flat indent outer).map (NTree.under I) := by
  induction node using law.wf.induction with
  | _ node ih =>
    intro flat indent outer
    have hkid : ∀ i (c : Ctx P), docKid law node i (c.under I) = (docKid law node i c).under I := by
      intro i c
      refine under_orFail fun ch hch => ?_
      have h := ih ch ⟨i, hch⟩ c.flat c.indent (some c.style)
      simp only [h]
      cases docTree law ch c.flat c.indent (some c.style) <;> rfl
    rw [docTree_eq, docTree_eq]
    cases ha : P.notn node with
    | error e => rfl
    | ok a =>
    cases hs : P.nodeStyle node with
    | error e => rfl
    | ok s =>
    simp only [Call.toRes, Except.bind_eq, Except.map]
    congr 1
    exact tree_under hkid a (c := ⟨flat, indent, enterStyle outer s⟩) (fun e he => by simp at he)

/-! ### Layouts under an indentation -/

theorem check_under (I : List (Segment P)) (t : NTree P) : (t.under I).check = t.check := by
  cases t <;> rfl

theorem fit_under (I : List (Segment P)) (t : NTree P) : ∀ rem e, (t.under I).fit rem e = t.fit rem e := by
  induction t with
  | concat a b iha ihb =>
    intro rem e
    simp only [NTree.under, NTree.fit, check_under, iha]
    congr 1; funext _; congr 1; funext _; congr 1; funext r
    cases r with
    | done r => rfl
    | more r e => exact ihb r e
  | choice a b iha ihb => intro rem e; exact ihb rem e
  | child i id t ih => intro rem e; exact ih rem e
  | _ => intro rem e; rfl

/-- Two continuations that make no difference to what fits. -/
def SameFit (k' k : List (NTree P)) : Prop := ∀ rem e, fitK k' rem e = fitK k rem e

theorem SameFit.cons {k' k : List (NTree P)} (h : SameFit k' k) (I) (t : NTree P) :
    SameFit (t.under I :: k') (t :: k) := by
  intro rem e
  simp only [fitK, fit_under]
  congr 1; funext r
  cases r with
  | done r => rfl
  | more r e => exact h r e

theorem segsWidth_append (a b : List (Segment P)) : segsWidth (a ++ b) = segsWidth a + segsWidth b := by
  simp [segsWidth]

/-- What the layout under an indentation of width `W` is, compared to the one without. -/
def Shifted (W : Nat) (I : List (Segment P)) (cur : List (Segment P))
    (x y : Res P.Err (LineSt × LTree P)) : Prop :=
  match y with
  | .error _ => ∃ f, x = .error f
  | .ok (st, L) => (∃ ls last, ls ++ [last] = linesFrom cur L.toks ∧ segsWidth last = st.col) ∧
      (x = .ok (⟨st.col + W, st.eol⟩, L.under I) ∨
       (x = .error .overflow ∧ ∃ l ∈ linesFrom cur L.toks, maxWidth < W + segsWidth l))

theorem linesFrom_first (cur : List (Segment P)) (T : List (Tok P)) :
    ∃ l ∈ linesFrom cur T, segsWidth cur ≤ segsWidth l := by
  induction T generalizing cur with
  | nil => exact ⟨cur, by simp [linesFrom], Nat.le_refl _⟩
  | cons t ts ih =>
    cases t with
    | text t =>
      obtain ⟨l, h1, h2⟩ := ih (cur ++ [t.segment])
      rw [segsWidth_append] at h2
      exact ⟨l, h1, by omega⟩
    | nl ind => exact ⟨cur, by simp [linesFrom], Nat.le_refl _⟩
    | eol => exact ih cur
    | mark id => exact ih cur

theorem layout_under {I : List (Segment P)} {w : Nat} (hw : segsWidth I ≤ w) (t : NTree P) :
    ∀ {id k' k col e cur}, SameFit k' k → segsWidth cur = col →
      Shifted (segsWidth I) I cur ((t.under I).layout w id k' ⟨col + segsWidth I, e⟩)
        (t.layout (w - segsWidth I) id k ⟨col, e⟩) := by
  induction t with
  | fail f => intro id k' k col e cur hk hc; exact ⟨f, rfl⟩
  | empty =>
    intro id k' k col e cur hk hc
    exact ⟨⟨[], cur, rfl, hc⟩, .inl rfl⟩
  | mark =>
    intro id k' k col e cur hk hc
    exact ⟨⟨[], cur, rfl, hc⟩, .inl rfl⟩
  | eol =>
    intro id k' k col e cur hk hc
    exact ⟨⟨[], cur, rfl, hc⟩, .inl rfl⟩
  | newline ind =>
    intro id k' k col e cur hk hc
    simp only [NTree.under, NTree.layout]
    by_cases h : segsWidth ind ≤ maxWidth
    · rw [if_pos h]
      refine ⟨⟨[cur], ind, rfl, rfl⟩, ?_⟩
      by_cases h' : segsWidth (I ++ ind) ≤ maxWidth
      · rw [if_pos h']
        refine .inl ?_
        rw [segsWidth_append, Nat.add_comm]; rfl
      · rw [if_neg h']
        refine .inr ⟨rfl, ind, by simp [LTree.toks, linesFrom], ?_⟩
        rw [segsWidth_append] at h'
        omega
    · rw [if_neg h, if_neg (by rw [segsWidth_append]; omega)]
      exact ⟨_, rfl⟩
  | text t =>
    intro id k' k col e cur hk hc
    simp only [NTree.under, NTree.layout]
    cases e with
    | true => exact ⟨_, rfl⟩
    | false =>
      simp only [Bool.false_eq_true, if_false]
      have hl : linesFrom cur (LTree.text t).toks = [cur ++ [t.segment]] := rfl
      have hlw : segsWidth (cur ++ [t.segment]) = col + t.width := by
        rw [segsWidth_append, hc]; rfl
      by_cases h : col + t.width ≤ maxWidth
      · rw [if_pos h]
        refine ⟨⟨[], cur ++ [t.segment], rfl, hlw⟩, ?_⟩
        by_cases h' : col + segsWidth I + t.width ≤ maxWidth
        · rw [if_pos h']
          refine .inl ?_
          rw [Nat.add_right_comm]; rfl
        · rw [if_neg h']
          refine .inr ⟨rfl, cur ++ [t.segment], by rw [hl]; simp, by rw [hlw]; omega⟩
      · rw [if_neg h, if_neg (by omega)]
        exact ⟨_, rfl⟩
  | child i cid t ih =>
    intro id k' k col e cur hk hc
    simp only [NTree.under, NTree.layout]
    cases cid with
    | error f => exact ⟨f, rfl⟩
    | ok c =>
      have h := ih (id := c) (e := e) hk hc
      simp only [Except.bind_eq]
      generalize (t.under I).layout w c k' ⟨col + segsWidth I, e⟩ = x at h
      cases hy : t.layout (w - segsWidth I) c k ⟨col, e⟩ with
      | error f =>
        rw [hy] at h
        obtain ⟨f, rfl⟩ := h
        exact ⟨f, rfl⟩
      | ok r =>
        obtain ⟨st, L⟩ := r
        rw [hy] at h
        obtain ⟨h1, rfl | ⟨rfl, h2⟩⟩ := h
        · exact ⟨h1, .inl rfl⟩
        · exact ⟨h1, .inr ⟨rfl, h2⟩⟩
  | choice a b iha ihb =>
    intro id k' k col e cur hk hc
    simp only [NTree.under, NTree.layout, check_under]
    have hf : fitsLine w ⟨col + segsWidth I, e⟩ (a.under I :: k') =
        fitsLine (w - segsWidth I) ⟨col, e⟩ (a :: k) := by
      unfold fitsLine
      simp only
      by_cases h : col + segsWidth I ≤ w
      · rw [if_pos h, if_pos (by omega), hk.cons I a]
        congr 1
        omega
      · rw [if_neg h, if_neg (by omega)]
    rw [hf]
    cases a.check with
    | error f => exact ⟨f, rfl⟩
    | ok u =>
      simp only [Except.bind_eq]
      cases fitsLine (w - segsWidth I) ⟨col, e⟩ (a :: k) with
      | error f => exact ⟨f, rfl⟩
      | ok r =>
        cases r with
        | true => exact iha hk hc
        | false => exact ihb hk hc
  | concat a b iha ihb =>
    intro id k' k col e cur hk hc
    simp only [NTree.under, NTree.layout, Except.bind_eq]
    have ha := iha (id := id) (e := e) (hk.cons I b) hc
    generalize (a.under I).layout w id (b.under I :: k') ⟨col + segsWidth I, e⟩ = x at ha
    cases hy : a.layout (w - segsWidth I) id (b :: k) ⟨col, e⟩ with
    | error f =>
      rw [hy] at ha
      obtain ⟨f, rfl⟩ := ha
      exact ⟨f, rfl⟩
    | ok r =>
      obtain ⟨⟨col1, e1⟩, L1⟩ := r
      rw [hy] at ha
      obtain ⟨⟨ls1, last1, g1, g2⟩, ha⟩ := ha
      simp only at g2 ha ⊢
      have hb := ihb (id := id) (e := e1) hk g2
      cases hz : b.layout (w - segsWidth I) id k ⟨col1, e1⟩ with
      | error f =>
        rw [hz] at hb
        obtain ⟨f', hb⟩ := hb
        rcases ha with rfl | ⟨rfl, _⟩
        · simp only
          rw [hb]
          exact ⟨f', rfl⟩
        · exact ⟨_, rfl⟩
      | ok r =>
        obtain ⟨⟨col2, e2⟩, L2⟩ := r
        rw [hz] at hb
        obtain ⟨⟨ls2, last2, g3, g4⟩, hb⟩ := hb
        have happ : linesFrom cur (LTree.concat L1 L2).toks = ls1 ++ linesFrom last1 L2.toks :=
          linesFrom_append g1 L2.toks
        refine ⟨⟨ls1 ++ ls2, last2, by rw [happ, ← g3, List.append_assoc], g4⟩, ?_⟩
        rcases ha with rfl | ⟨rfl, l, hl, hlw⟩
        · simp only
          rcases hb with hb | ⟨hb, l, hl, hlw⟩
          · rw [hb]; exact .inl rfl
          · rw [hb]
            exact .inr ⟨rfl, l, by rw [happ]; simp [hl], hlw⟩
        · refine .inr ⟨rfl, ?_⟩
          rw [happ]
          rw [← g1] at hl
          rcases List.mem_append.1 hl with hl | hl
          · exact ⟨l, by simp [hl], hlw⟩
          · simp only [List.mem_singleton] at hl
            subst hl
            obtain ⟨l', hl', hm⟩ := linesFrom_first l L2.toks
            refine ⟨l', by simp [hl'], by omega⟩

/-- Put `I` in front of the indentation of every newline. -/
def Tok.under (I : List (Segment P)) : Tok P → Tok P
  | .nl ind => .nl (I ++ ind)
  | t => t

theorem toks_under (I : List (Segment P)) (L : LTree P) : (L.under I).toks = L.toks.map (Tok.under I) := by
  induction L with
  | concat a b iha ihb => simp [LTree.under, LTree.toks, iha, ihb]
  | child p i id t ih => exact ih
  | _ => rfl

theorem linesFrom_under (I : List (Segment P)) (T : List (Tok P)) : ∀ cur,
    linesFrom (I ++ cur) (T.map (Tok.under I)) = (linesFrom cur T).map (I ++ ·) := by
  induction T with
  | nil => intro cur; rfl
  | cons t ts ih =>
    intro cur
    cases t with
    | text t =>
      simp only [List.map_cons, Tok.under, linesFrom]
      rw [List.append_assoc, ih]
    | nl ind =>
      simp only [List.map_cons, Tok.under, linesFrom]
      rw [ih]
    | eol => exact ih cur
    | mark id => exact ih cur

/-! ### Printing a child on its own -/

/-- The lines of a document are those of its layout. -/
theorem printLines_iff (law : P.Lawful) {doc : P.Node} {w : Nat} {style ls} :
    printLines doc w style = Exec.ofRes (.ok ls) ↔
      ∃ id L, docLayout law doc w style = .ok (id, L) ∧ ls = linesOf L.toks := by
  constructor
  · intro h
    obtain ⟨o, h1, h2⟩ := bind_ok_inv h
    have h2 := Exec.ofRes_inj h2
    simp only [Except.ok.injEq] at h2
    obtain ⟨id, L, g1, _, _, g2⟩ := C02_focus_independent law (focusOk_start doc) h1
    exact ⟨id, L, g1, by rw [← g2 (by simp), h2]⟩
  · rintro ⟨id, L, h, rfl⟩
    have ⟨o, g⟩ : ∃ o, printAll doc w [] .start style = Exec.ofRes (.ok o) := by
      obtain ⟨t, h1, h2⟩ := docLayout_ok law h
      rcases print_ok law (I := False) h1 h2 [] (focusOk_start doc) (fun h => h.elim) with
        ⟨r, ups, downs, _, _, _, _, _, _, h1, h2, h3, _⟩ | ⟨j, _, h, _⟩ | ⟨e, _, h, _⟩
      · exact ⟨_, printAll_of h1 h2 h3⟩
      · simp at h
      · rcases h with ⟨h, _⟩ | ⟨⟨_, h⟩, _⟩ <;> simp at h
    obtain ⟨id', L', g1, _, _, g2⟩ := C02_focus_independent law (focusOk_start doc) g
    rw [h] at g1
    simp only [Except.ok.injEq, Prod.mk.injEq] at g1
    obtain ⟨rfl, rfl⟩ := g1
    unfold printLines
    rw [g, Exec.ofRes_ok_bind, g2 (by simp)]
    rfl

theorem layout_lineWidth {w : Nat} (t : NTree P) : ∀ {id k st st' L cur}, t.layout w id k st = .ok (st', L) →
    segsWidth cur = st.col → st.col ≤ maxWidth →
    (∀ l ∈ linesFrom cur L.toks, segsWidth l ≤ maxWidth) ∧
      ∃ ls last, ls ++ [last] = linesFrom cur L.toks ∧ segsWidth last = st'.col := by
  induction t with
  | fail f => intro id k st st' L cur h; simp [NTree.layout] at h
  | empty =>
    intro id k st st' L cur h hc hm
    simp only [NTree.layout, Except.ok.injEq, Prod.mk.injEq] at h
    obtain ⟨rfl, rfl⟩ := h
    exact ⟨by simpa [LTree.toks, linesFrom, hc] using hm, [], cur, rfl, hc⟩
  | mark =>
    intro id k st st' L cur h hc hm
    simp only [NTree.layout, Except.ok.injEq, Prod.mk.injEq] at h
    obtain ⟨rfl, rfl⟩ := h
    exact ⟨by simpa [LTree.toks, linesFrom, hc] using hm, [], cur, rfl, hc⟩
  | eol =>
    intro id k st st' L cur h hc hm
    simp only [NTree.layout, Except.ok.injEq, Prod.mk.injEq] at h
    obtain ⟨rfl, rfl⟩ := h
    exact ⟨by simpa [LTree.toks, linesFrom, hc] using hm, [], cur, rfl, hc⟩
  | newline ind =>
    intro id k st st' L cur h hc hm
    simp only [NTree.layout] at h
    split at h
    · simp only [Except.ok.injEq, Prod.mk.injEq] at h
      obtain ⟨rfl, rfl⟩ := h
      refine ⟨?_, [cur], ind, rfl, rfl⟩
      simp only [LTree.toks, linesFrom]
      intro l hl
      simp only [List.mem_cons, List.not_mem_nil, or_false] at hl
      rcases hl with rfl | rfl
      · omega
      · assumption
    · simp at h
  | text t =>
    intro id k st st' L cur h hc hm
    simp only [NTree.layout] at h
    split at h
    · simp at h
    · split at h
      · simp only [Except.ok.injEq, Prod.mk.injEq] at h
        obtain ⟨rfl, rfl⟩ := h
        have hw : segsWidth (cur ++ [t.segment]) = st.col + t.width := by
          rw [segsWidth_append, hc]; rfl
        refine ⟨?_, [], cur ++ [t.segment], rfl, hw⟩
        simp only [LTree.toks, linesFrom]
        intro l hl
        simp only [List.mem_singleton] at hl
        subst hl
        omega
      · simp at h
  | child i cid t ih =>
    intro id k st st' L cur h hc hm
    simp only [NTree.layout, Except.bind_eq] at h
    split at h
    · split at h
      · rename_i r hl
        obtain ⟨st1, L1⟩ := r
        simp only [Except.ok.injEq, Prod.mk.injEq] at h
        obtain ⟨rfl, rfl⟩ := h
        exact ih (L := L1) hl hc hm
      · simp at h
    · simp at h
  | choice a b iha ihb =>
    intro id k st st' L cur h hc hm
    simp only [NTree.layout, Except.bind_eq] at h
    split at h
    · split at h
      · split at h
        · exact iha h hc hm
        · exact ihb h hc hm
      · simp at h
    · simp at h
  | concat a b iha ihb =>
    intro id k st st' L cur h hc hm
    simp only [NTree.layout, Except.bind_eq] at h
    split at h
    · rename_i r hl
      obtain ⟨st1, L1⟩ := r
      split at h
      · rename_i r hl2
        obtain ⟨st2, L2⟩ := r
        simp only [Except.ok.injEq, Prod.mk.injEq] at h
        obtain ⟨rfl, rfl⟩ := h
        obtain ⟨g1, ls1, last1, g2, g3⟩ := iha hl hc hm
        have hm1 : st1.col ≤ maxWidth := by rw [← g3]; exact g1 _ (by rw [← g2]; simp)
        obtain ⟨g4, ls2, last2, g5, g6⟩ := ihb hl2 g3 hm1
        have happ : linesFrom cur (LTree.concat L1 L2).toks = ls1 ++ linesFrom last1 L2.toks :=
          linesFrom_append g2 L2.toks
        refine ⟨?_, ls1 ++ ls2, last2, by rw [happ, ← g5, List.append_assoc], g6⟩
        rw [happ]
        intro l hl
        rcases List.mem_append.1 hl with hl | hl
        · exact g1 l (by rw [← g2]; simp [hl])
        · exact g4 l hl
      · simp at h
    · simp at h

/-- The layout of a child in an indentation that nothing on its last line follows. -/
theorem child_layout (law : P.Lawful) {w : Nat} {c : P.Node} {s : P.Style} {I : List (Segment P)}
    (hw : segsWidth I ≤ w) (hm : segsWidth I ≤ maxWidth) {node : P.Node} {j : Nat}
    (hc : P.childAt node j = .ok c) {id k} (hk : ∀ rem e, fitK k rem e = Except.ok (ε := Fail P.Err) true)
    {lines} :
    (∃ st L, (docKid law node j ⟨false, I, s⟩).layout w id k ⟨segsWidth I, false⟩ = .ok (st, L) ∧
      linesFrom I L.toks = lines) ↔
    ∃ ls, printLines c (w - segsWidth I) (some s) = Exec.ofRes (.ok ls) ∧ lines = ls.map (I ++ ·) ∧
      ∀ l ∈ lines, segsWidth l ≤ maxWidth := by
  have hkid : docKid law node j ⟨false, I, s⟩ =
      match docTree law c false [] (some s) with
      | .error f => .fail f
      | .ok t => .child j (Call.toRes (P.id c)) (t.under I) := by
    unfold docKid NTree.orFail
    rw [hc]
    have := docTree_under law I c false [] (some s)
    rw [List.append_nil] at this
    simp only [this]
    cases docTree law c false [] (some s) <;> rfl
  have hlay : ∀ id' L, docLayout law c (w - segsWidth I) (some s) = .ok (id', L) ↔
      ∃ t st, docTree law c false [] (some s) = .ok t ∧ Call.toRes (P.id c) = .ok id' ∧
        t.layout (w - segsWidth I) id' [] ⟨0, false⟩ = .ok (st, L) := by
    intro id' L
    unfold docLayout rootTree
    cases docTree law c false [] (some s) with
    | error f => cases Call.toRes (P.id c) <;> simp [Except.bind_eq]
    | ok t =>
      cases Call.toRes (P.id c) with
      | error f => simp [Except.bind_eq]
      | ok i =>
        simp only [Except.bind_eq, NTree.layoutDoc]
        constructor
        · intro h
          cases hl : t.layout (w - segsWidth I) i [] ⟨0, false⟩ with
          | error f => rw [hl] at h; simp at h
          | ok r =>
            obtain ⟨st, L'⟩ := r
            rw [hl] at h
            simp only [Except.ok.injEq, Prod.mk.injEq] at h
            obtain ⟨rfl, rfl⟩ := h
            exact ⟨t, st, rfl, rfl, hl⟩
        · rintro ⟨t', st, h1, h2, h3⟩
          simp only [Except.ok.injEq] at h1 h2
          subst h1 h2
          rw [h3]
  have hsame : SameFit k ([] : List (NTree P)) := fun rem e => hk rem e
  rw [hkid]
  constructor
  · rintro ⟨st, L, h1, rfl⟩
    cases ht : docTree law c false [] (some s) with
    | error f => rw [ht] at h1; simp [NTree.layout] at h1
    | ok t =>
      rw [ht] at h1
      have hwid := layout_lineWidth _ h1 (cur := I) rfl hm
      simp only [NTree.layout, Except.bind_eq] at h1
      cases hid : Call.toRes (P.id c) with
      | error f => rw [hid] at h1; simp at h1
      | ok i =>
        rw [hid] at h1
        simp only at h1
        have hs := layout_under hw t (id := i) (e := false) (col := 0) (cur := []) hsame rfl
        rw [Nat.zero_add] at hs
        cases hy : t.layout (w - segsWidth I) i [] ⟨0, false⟩ with
        | error f =>
          rw [hy] at hs
          obtain ⟨f, hs⟩ := hs
          rw [hs] at h1
          simp at h1
        | ok r =>
          obtain ⟨st', L'⟩ := r
          rw [hy] at hs
          obtain ⟨_, hs | ⟨hs, _⟩⟩ := hs
          · rw [hs] at h1
            simp only [Except.ok.injEq, Prod.mk.injEq] at h1
            obtain ⟨rfl, rfl⟩ := h1
            have hll := linesFrom_under I L'.toks []
            rw [List.append_nil, ← toks_under] at hll
            exact ⟨linesOf L'.toks, (printLines_iff law).2 ⟨i, L', (hlay _ _).2 ⟨t, st', ht, hid, hy⟩, rfl⟩,
              hll, hwid.1⟩
          · rw [hs] at h1; simp at h1
  · rintro ⟨ls, h1, rfl, h2⟩
    obtain ⟨i, L, h1', rfl⟩ := (printLines_iff law).1 h1
    obtain ⟨t, st, ht, hid, hy⟩ := (hlay _ _).1 h1'
    have hs := layout_under hw t (id := i) (e := false) (col := 0) (cur := []) hsame rfl
    rw [Nat.zero_add, hy] at hs
    obtain ⟨_, hs | ⟨hs, l, hl, hlw⟩⟩ := hs
    · have hll := linesFrom_under I L.toks []
      rw [List.append_nil, ← toks_under] at hll
      refine ⟨⟨st.col + segsWidth I, st.eol⟩, .child id j i (L.under I), ?_, hll⟩
      rw [ht]
      simp only [NTree.layout, Except.bind_eq, hid, hs]
    · have := h2 (I ++ l) (List.mem_map.2 ⟨l, hl, rfl⟩)
      rw [segsWidth_append] at this
      omega

/-! ### Rows -/

theorem Rows.Lines.prefixed (law : P.Lawful) {doc : P.Node} {s : P.Style} {w : Nat} {r : Rows P.Label P.Cond} {I ls}
    (h : Rows.Lines doc w r s I ls) : ls ≠ [] ∧ ∀ l ∈ ls, I <+: l := by
  induction h with
  | line => exact ⟨by simp, by simp⟩
  | blank => exact ⟨by simp, by simp⟩
  | mark => exact ⟨by simp, by simp⟩
  | text _ _ => exact ⟨by simp, by simp⟩
  | check _ _ ih => exact ih
  | count _ _ ih => exact ih
  | child _ _ _ h =>
    obtain ⟨id, L, _, rfl⟩ := (printLines_iff law).1 h
    refine ⟨by simp [linesOf, linesFrom_ne_nil], fun l hl => ?_⟩
    obtain ⟨l', _, rfl⟩ := List.mem_map.1 hl
    exact List.prefix_append _ _
  | childless _ => exact ⟨by simp, by simp⟩
  | children _ hne h =>
    refine ⟨?_, fun l hl => ?_⟩
    · cases h with
      | nil => exact absurd rfl hne
      | cons h _ =>
        obtain ⟨id, L, _, rfl⟩ := (printLines_iff law).1 h
        simp [linesOf, linesFrom_ne_nil]
    · obtain ⟨l', _, rfl⟩ := List.mem_map.1 hl
      exact List.prefix_append _ _
  | above _ _ ih1 ih2 =>
    refine ⟨by simp [ih1.1], fun l hl => ?_⟩
    rcases List.mem_append.1 hl with hl | hl
    · exact ih1.2 l hl
    · exact ih2.2 l hl
  | hang _ _ ih1 ih2 =>
    refine ⟨by simp [ih1.1], fun l hl => ?_⟩
    rcases List.mem_append.1 hl with hl | hl
    · exact ih1.2 l hl
    · exact (List.prefix_append _ _).trans (ih2.2 l hl)
  | styled _ _ ih => exact ih

theorem layout_concat_iff {w : Nat} {id : P.Id} {a b : NTree P} {k st st'} {L : LTree P} :
    (NTree.concat a b).layout w id k st = .ok (st', L) ↔
      ∃ st1 L1 L2, a.layout w id (b :: k) st = .ok (st1, L1) ∧ b.layout w id k st1 = .ok (st', L2) ∧
        L = .concat L1 L2 := by
  simp only [NTree.layout, Except.bind_eq]
  cases a.layout w id (b :: k) st with
  | error f => simp
  | ok r =>
    obtain ⟨st1, L1⟩ := r
    simp only
    cases hb : b.layout w id k st1 with
    | error f => 
      simp only [reduceCtorEq, Except.ok.injEq, Prod.mk.injEq, false_iff]
      rintro ⟨st2, L1', L2, ⟨rfl, rfl⟩, h2, _⟩
      rw [hb] at h2
      simp at h2
    | ok r =>
      obtain ⟨st2, L2⟩ := r
      simp only [Except.ok.injEq, Prod.mk.injEq]
      constructor
      · rintro ⟨rfl, rfl⟩
        exact ⟨st1, L1, L2, ⟨rfl, rfl⟩, hb, rfl⟩
      · rintro ⟨st1', L1', L2', ⟨rfl, rfl⟩, h2, rfl⟩
        rw [hb] at h2
        simp only [Except.ok.injEq, Prod.mk.injEq] at h2
        exact ⟨h2.1, by rw [h2.2]⟩

theorem layout_check_error {w : Nat} {id : P.Id} {t : NTree P} {k st f}
    (h : t.check = .error f) : ∀ r, t.layout w id k st ≠ .ok r := by
  cases t with
  | fail f => intro r; simp [NTree.layout]
  | _ => simp [NTree.check] at h

theorem fitK_nl_concat {I : List (Segment P)} {Y : NTree P} {k u} (hc : Y.check = .ok u) (rem e) :
    fitK (.concat (.newline I) Y :: k) rem e = .ok true := by
  simp only [fitK, NTree.fit]
  rw [hc]
  rfl

theorem forall₂_append_left {α β : Type} {R : α → β → Prop} : ∀ {as bs : List α} {cs : List β},
    List.Forall₂ R (as ++ bs) cs → ∃ cs1 cs2, List.Forall₂ R as cs1 ∧ List.Forall₂ R bs cs2 ∧ cs = cs1 ++ cs2
  | [], _, _, h => ⟨[], _, .nil, h, rfl⟩
  | _ :: _, _, _, .cons h t =>
    have ⟨cs1, cs2, h1, h2, e⟩ := forall₂_append_left t
    ⟨_ :: cs1, cs2, .cons h h1, h2, by rw [e]; rfl⟩

/-- What `fold { first: child(0), join: left ^ right }` displays for children `0 .. k`. -/
def stackTree (law : P.Lawful) (doc : P.Node) (k : Nat) (c : Ctx P) : NTree P :=
  Nat.rec (motive := fun _ => Ctx P → NTree P)
    (fun c => docKid law doc 0 c)
    (fun k acc c => .orFail (P.childAt doc (k + 1)) fun _ =>
      .concat (.concat (acc c) (.newline c.indent)) (docKid law doc (k + 1) c)) k c

theorem stack_layout (law : P.Lawful) {w : Nat} {doc : P.Node} {id : P.Id} {s I}
    (hw : segsWidth I ≤ w) (hm : segsWidth I ≤ maxWidth) (n : Nat) :
    ∀ {k lines}, (∀ rem e, fitK k rem e = Except.ok (ε := Fail P.Err) true) →
      ((∃ st L, (stackTree law doc n ⟨false, I, s⟩).layout w id k ⟨segsWidth I, false⟩ = .ok (st, L) ∧
          linesFrom I L.toks = lines) ↔
        ∃ cs lss, cs.length = n + 1 ∧ (∀ i c, cs[i]? = some c → P.childAt doc i = .ok c) ∧
          List.Forall₂ (fun c ls => printLines c (w - segsWidth I) (some s) = Exec.ofRes (.ok ls)) cs lss ∧
          lines = lss.flatten.map (I ++ ·) ∧ ∀ l ∈ lines, segsWidth l ≤ maxWidth) := by
  induction n with
  | zero =>
    intro k lines hk
    show (∃ st L, (docKid law doc 0 ⟨false, I, s⟩).layout w id k ⟨segsWidth I, false⟩ = .ok (st, L) ∧ _) ↔ _
    cases hc : P.childAt doc 0 with
    | error e =>
      constructor
      · rintro ⟨st, L, h, _⟩
        unfold docKid at h; rw [hc] at h; simp [NTree.orFail, NTree.layout] at h
      · rintro ⟨cs, lss, h1, h2, _⟩
        match cs, h1 with
        | [c], _ =>
          have := h2 0 c rfl
          rw [hc] at this
          simp at this
    | ok c =>
      rw [child_layout law hw hm hc hk]
      constructor
      · rintro ⟨ls, h1, h2, h3⟩
        refine ⟨[c], [ls], rfl, ?_, .cons h1 .nil, by simpa using h2, h3⟩
        intro i c' hi
        match i, hi with
        | 0, hi => simp only [List.getElem?_cons_zero, Option.some.injEq] at hi; subst hi; exact hc
        | i + 1, hi => simp at hi
      · rintro ⟨cs, lss, h1, h2, h3, h4, h5⟩
        match cs, h1, h3 with
        | [c'], _, .cons (b := ls) h3 .nil =>
          have := h2 0 c' rfl
          rw [hc] at this
          simp only [Except.ok.injEq] at this
          subst this
          exact ⟨ls, h3, by simpa using h4, h5⟩
  | succ n ih =>
    intro k lines hk
    have htree : stackTree law doc (n + 1) ⟨false, I, s⟩ = .orFail (P.childAt doc (n + 1)) fun _ =>
      .concat (.concat (stackTree law doc n ⟨false, I, s⟩) (.newline I)) (docKid law doc (n + 1) ⟨false, I, s⟩) :=
      rfl
    rw [htree]
    have hkx : ∀ (Y : NTree P) rem e, fitK (.newline I :: Y :: k) rem e = Except.ok (ε := Fail P.Err) true :=
      fun Y rem e => rfl
    constructor
    · rintro ⟨st, L, h, rfl⟩
      cases hc : P.childAt doc (n + 1) with
      | error e => rw [hc] at h; simp [NTree.orFail, NTree.layout] at h
      | ok c =>
        rw [hc] at h
        simp only [NTree.orFail] at h
        obtain ⟨st1, L1, L2, h1, h2, rfl⟩ := layout_concat_iff.1 h
        obtain ⟨st0, L0, Ln, h0, h1', rfl⟩ := layout_concat_iff.1 h1
        simp only [NTree.layout, if_pos hm, Except.ok.injEq, Prod.mk.injEq] at h1'
        obtain ⟨rfl, rfl⟩ := h1'
        obtain ⟨cs, lss, g1, g2, g3, g4, g5⟩ := (ih (hkx _)).1 ⟨_, _, h0, rfl⟩
        obtain ⟨ls, g6, g7, g8⟩ := (child_layout law hw hm hc hk).1 ⟨_, _, h2, rfl⟩
        have hl : linesFrom I (LTree.concat (LTree.concat L0 (LTree.newline I)) L2).toks =
            linesFrom I L0.toks ++ linesFrom I L2.toks := by
          simp only [LTree.toks, List.append_assoc, List.singleton_append]
          exact linesFrom_append_nl _ _ _ _
        rw [hl]
        refine ⟨cs ++ [c], lss ++ [ls], by simp [g1], ?_, List.rel_append g3 (.cons g6 .nil), ?_, ?_⟩
        · intro i c' hi
          rw [List.getElem?_append] at hi
          split at hi
          · exact g2 i c' hi
          · obtain ⟨hi', rfl⟩ := List.getElem?_eq_some_iff.1 hi
            simp only [List.length_singleton] at hi'
            have : i = n + 1 := by omega
            subst this
            simpa using hc
        · rw [g4, g7]; simp
        · intro l hl
          rcases List.mem_append.1 hl with hl | hl
          · exact g5 l hl
          · exact g8 l hl
    · rintro ⟨cs, lss, h1, h2, h3, rfl, h5⟩
      obtain ⟨cs, c, rfl⟩ : ∃ cs' c, cs = cs' ++ [c] := by
        rcases List.eq_nil_or_concat cs with rfl | ⟨cs', c, rfl⟩
        · simp at h1
        · exact ⟨cs', c, by simp⟩
      obtain ⟨lss, lss2, h3', h3'', rfl⟩ := forall₂_append_left h3
      obtain ⟨ls, rfl, hls⟩ : ∃ ls, lss2 = [ls] ∧
          printLines c (w - segsWidth I) (some s) = Exec.ofRes (.ok ls) := by
        match lss2, h3'' with
        | [ls], .cons h .nil => exact ⟨ls, rfl, h⟩
      simp only [List.length_append, List.length_singleton, Nat.add_right_cancel_iff] at h1
      have hc : P.childAt doc (n + 1) = .ok c := h2 (n + 1) c (by simp [← h1])
      rw [hc]
      simp only [NTree.orFail]
      simp only [List.flatten_append, List.flatten_cons, List.flatten_nil, List.append_nil, List.map_append,
        List.mem_append] at h5 ⊢
      obtain ⟨st1, L1, g1, g1'⟩ := (ih (k := .newline I :: docKid law doc (n + 1) ⟨false, I, s⟩ :: k)
        (lines := lss.flatten.map (I ++ ·)) (hkx _)).2
        ⟨cs, lss, h1, fun i c' hi => h2 i c' (by
          rw [List.getElem?_append_left]
          · exact hi
          · exact (List.getElem?_eq_some_iff.1 hi).1), h3', rfl, fun l hl => h5 l (.inl hl)⟩
      obtain ⟨st2, L2, g2, g2'⟩ := (child_layout law hw hm hc hk).2 ⟨ls, hls, rfl, fun l hl => h5 l (.inr hl)⟩
      refine ⟨st2, .concat (.concat L1 (.newline I)) L2, layout_concat_iff.2 ⟨⟨segsWidth I, false⟩, _, L2,
        layout_concat_iff.2 ⟨_, _, _, g1, ?_, rfl⟩, g2, rfl⟩, ?_⟩
      · simp only [NTree.layout, if_pos hm]
      · simp only [LTree.toks, List.append_assoc, List.singleton_append]
        rw [linesFrom_append_nl, g1', g2']

theorem rows_layout (law : P.Lawful) {w : Nat} {doc : P.Node} {id : P.Id} (r : Rows P.Label P.Cond) :
    ∀ {s I k ls}, segsWidth I ≤ w → segsWidth I ≤ maxWidth → r.Narrow P.strWidth (w - segsWidth I) →
      (∀ rem e, fitK k rem e = Except.ok (ε := Fail P.Err) true) →
      ((∃ st L, (r.notn.tree doc (docKid law doc) none ⟨false, I, s⟩).layout w id k ⟨segsWidth I, false⟩ =
          .ok (st, L) ∧ linesFrom I L.toks = ls) ↔
        r.Lines doc w s I ls ∧ ∀ l ∈ ls, segsWidth l ≤ maxWidth) := by
  induction r with
  | line str =>
    intro s I k ls hw hm hn hk
    have hlw : segsWidth (I ++ [(⟨str, P.strWidth str, s⟩ : Segment P)]) = segsWidth I + P.strWidth str := by
      rw [segsWidth_append]; rfl
    simp only [Rows.notn, Notation.tree, NTree.layout, Bool.false_eq_true, if_false]
    constructor
    · rintro ⟨st, L, h, rfl⟩
      split at h
      · simp only [Except.ok.injEq, Prod.mk.injEq] at h
        obtain ⟨rfl, rfl⟩ := h
        refine ⟨.line, ?_⟩
        intro l hl
        simp only [LTree.toks, linesFrom, List.mem_singleton] at hl
        subst hl
        have : segsWidth (I ++ [(⟨str, P.strWidth str, s⟩ : Segment P)]) ≤ maxWidth := by omega
        exact this
      · simp at h
    · rintro ⟨h, hall⟩
      cases h
      have := hall _ (List.mem_singleton.2 rfl)
      rw [if_pos (by omega)]
      exact ⟨_, _, rfl, rfl⟩
  | child i =>
    intro s I k ls hw hm hn hk
    simp only [Rows.notn, Notation.tree]
    constructor
    · rintro ⟨st, L, h, hl⟩
      cases hnum : P.numChildren doc with
      | error e => rw [hnum] at h; simp [NTree.orFail, NTree.layout] at h
      | ok o =>
        cases o with
        | none => rw [hnum] at h; simp [NTree.orFail, NTree.layout] at h
        | some n =>
          cases hi : childIndex i n with
          | none => rw [hnum] at h; simp [NTree.orFail, NTree.layout, hi] at h
          | some j =>
            rw [hnum] at h
            simp only [NTree.orFail, hi] at h
            cases hc : P.childAt doc j with
            | error e => unfold docKid at h; rw [hc] at h; simp [NTree.orFail, NTree.layout] at h
            | ok c =>
              obtain ⟨ls', h1, rfl, h3⟩ := (child_layout law hw hm hc hk).1 ⟨st, L, h, hl⟩
              obtain ⟨n', g1, g2, g3⟩ := childAt_ok hc
              exact ⟨.child hnum hi g3 h1, h3⟩
    · rintro ⟨h, hall⟩
      cases h with
      | child hnum hi hc hp =>
        rename_i n j c ls
        have hj : j < n := by
          unfold childIndex at hi
          split at hi
          · simp only [Option.some.injEq] at hi; omega
          · split at hi
            · simp only [Option.some.injEq] at hi; omega
            · simp at hi
        rw [← childAt_eq hnum hj] at hc
        rw [hnum]
        simp only [NTree.orFail, hi]
        exact (child_layout law hw hm hc hk).2 ⟨ls, hp, rfl, hall⟩
  | children =>
    intro s I k ls hw hm hn hk
    simp only [Rows.notn]
    cases hnum : P.numChildren doc with
    | error e =>
      simp only [Notation.tree, hnum, NTree.orFail, NTree.layout]
      constructor
      · rintro ⟨_, _, h, _⟩; simp at h
      · rintro ⟨h, _⟩
        cases h with
        | childless h => rw [h.1] at hnum; simp at hnum
        | children h => rw [h.1] at hnum; simp at hnum
    | ok o =>
      match o with
      | none =>
        simp only [Notation.tree, hnum, NTree.orFail, NTree.layout]
        constructor
        · rintro ⟨_, _, h, _⟩; simp at h
        · rintro ⟨h, _⟩
          cases h with
          | childless h => rw [h.1] at hnum; simp at hnum
          | children h => rw [h.1] at hnum; simp at hnum
      | some 0 =>
        simp only [Notation.tree, hnum, NTree.orFail, NTree.layout]
        constructor
        · rintro ⟨_, _, h, rfl⟩
          simp only [Except.ok.injEq, Prod.mk.injEq] at h
          obtain ⟨rfl, rfl⟩ := h
          refine ⟨.childless ⟨hnum, by simp⟩, ?_⟩
          intro l hl
          simp only [LTree.toks, linesFrom, List.mem_singleton] at hl
          subst hl
          exact hm
        · rintro ⟨h, _⟩
          cases h with
          | childless h => exact ⟨_, _, rfl, rfl⟩
          | children h hne =>
            have := h.1
            rw [hnum] at this
            simp only [Except.ok.injEq, Option.some.injEq] at this
            exact absurd (List.length_eq_zero_iff.1 this.symm) hne
      | some (n + 1) =>
        have key := stack_layout law (id := id) (doc := doc) (s := s) hw hm n (lines := ls) hk
        have hf : (fun c : Ctx P => (Notation.child 0).tree doc (docKid law doc) none c) =
            fun c => docKid law doc 0 c := by
          funext c
          simp only [Notation.tree, hnum, NTree.orFail]
          rw [show childIndex 0 (n + 1) = some 0 by unfold childIndex; rw [if_pos (by omega)]; rfl]
        have ht : (Notation.fold (.child 0) ((.left : Notation P.Label P.Cond) ^^^
            (.right : Notation P.Label P.Cond))).tree doc (docKid law doc) none ⟨false, I, s⟩ =
            stackTree law doc n ⟨false, I, s⟩ := by
          show NTree.orFail (P.numChildren doc) _ = _
          rw [hnum]
          show Nat.rec (motive := fun _ => Ctx P → NTree P)
            (fun c : Ctx P => (Notation.child 0).tree doc (docKid law doc) none c) _ n _ = _
          rw [hf]
          rfl
        rw [ht]
        refine key.trans ?_
        constructor
        · rintro ⟨cs, lss, h1, h2, h3, rfl, h5⟩
          refine ⟨.children (cs := cs) ⟨by rw [hnum, h1], fun i c hi => ?_⟩ ?_ h3, h5⟩
          · obtain ⟨_, _, _, h⟩ := childAt_ok (h2 i c hi)
            exact h
          · rintro rfl; simp at h1
        · rintro ⟨h, h5⟩
          cases h with
          | childless h => rw [h.1] at hnum; simp at hnum
          | children h hne h3 =>
            rename_i cs lss
            have hlen := h.1
            rw [hnum] at hlen
            simp only [Except.ok.injEq, Option.some.injEq] at hlen
            refine ⟨cs, lss, hlen.symm, fun i c hi => ?_, h3, rfl, h5⟩
            rw [childAt_eq hnum (by have := (List.getElem?_eq_some_iff.1 hi).1; omega)]
            exact h.2 i c hi
  | above x y ihx ihy =>
    intro s I k ls hw hm hn hk
    have htree : ∀ x y : Notation P.Label P.Cond, (x ^^^ y).tree doc (docKid law doc) none ⟨false, I, s⟩ =
      .concat (.concat (x.tree doc (docKid law doc) none ⟨false, I, s⟩) (.newline I))
        (y.tree doc (docKid law doc) none ⟨false, I, s⟩) := fun _ _ => rfl
    simp only [Rows.notn, htree]
    have hkx : ∀ (Y : NTree P) rem e, fitK (.newline I :: Y :: k) rem e = Except.ok (ε := Fail P.Err) true :=
      fun Y rem e => rfl
    constructor
    · rintro ⟨st, L, h, rfl⟩
      obtain ⟨st1, L1, L2, h1, h2, rfl⟩ := layout_concat_iff.1 h
      obtain ⟨st0, L0, Ln, h0, h1', rfl⟩ := layout_concat_iff.1 h1
      simp only [NTree.layout, if_pos hm, Except.ok.injEq, Prod.mk.injEq] at h1'
      obtain ⟨rfl, rfl⟩ := h1'
      obtain ⟨g1, g2⟩ := (ihx hw hm hn.1 (hkx _)).1 ⟨_, _, h0, rfl⟩
      obtain ⟨g3, g4⟩ := (ihy hw hm hn.2 hk).1 ⟨_, _, h2, rfl⟩
      have hl : linesFrom I (LTree.concat (LTree.concat L0 (LTree.newline I)) L2).toks =
          linesFrom I L0.toks ++ linesFrom I L2.toks := by
        simp only [LTree.toks, List.append_assoc, List.singleton_append]
        exact linesFrom_append_nl _ _ _ _
      rw [hl]
      refine ⟨.above g1 g3, fun l hl => ?_⟩
      rcases List.mem_append.1 hl with hl | hl
      · exact g2 l hl
      · exact g4 l hl
    · rintro ⟨h, hall⟩
      cases h with
      | above h1 h2 =>
        rename_i ls1 ls2
        obtain ⟨st1, L1, g1, rfl⟩ := (ihx hw hm hn.1 (hkx _)).2 ⟨h1, fun l hl => hall l (by simp [hl])⟩
        obtain ⟨st2, L2, g2, rfl⟩ := (ihy hw hm hn.2 hk).2 ⟨h2, fun l hl => hall l (by simp [hl])⟩
        refine ⟨st2, .concat (.concat L1 (.newline I)) L2, layout_concat_iff.2 ⟨⟨segsWidth I, false⟩, _, L2,
          layout_concat_iff.2 ⟨_, _, _, g1, ?_, rfl⟩, g2, rfl⟩, ?_⟩
        · simp only [NTree.layout, if_pos hm]
        · simp only [LTree.toks, List.append_assoc, List.singleton_append]
          exact linesFrom_append_nl _ _ _ _
  | hang x pre y ihx ihy =>
    intro s I k ls hw hm hn hk
    have htree : ∀ x y : Notation P.Label P.Cond,
      (x + Notation.indent pre none ((Notation.newline : Notation P.Label P.Cond) + y)).tree doc (docKid law doc) none ⟨false, I, s⟩ =
      .concat (x.tree doc (docKid law doc) none ⟨false, I, s⟩)
        (.concat (.newline (I ++ [⟨pre, P.strWidth pre, s⟩]))
          (y.tree doc (docKid law doc) none ⟨false, I ++ [⟨pre, P.strWidth pre, s⟩], s⟩)) := fun _ _ => rfl
    simp only [Rows.notn, htree]
    have hw' : segsWidth (I ++ [(⟨pre, P.strWidth pre, s⟩ : Segment P)]) = segsWidth I + P.strWidth pre := by
      rw [segsWidth_append]; rfl
    obtain ⟨hn1, hn2, hn3⟩ := hn
    rw [show w - segsWidth I - P.strWidth pre = w - segsWidth (I ++ [(⟨pre, P.strWidth pre, s⟩ : Segment P)]) by
      omega] at hn3
    generalize hI' : I ++ [(⟨pre, P.strWidth pre, s⟩ : Segment P)] = I' at *
    generalize hY : y.notn.tree doc (docKid law doc) none ⟨false, I', s⟩ = Y
    constructor
    · rintro ⟨st, L, h, rfl⟩
      obtain ⟨st1, L1, L2, h1, h2, rfl⟩ := layout_concat_iff.1 h
      obtain ⟨st0, Ln, L3, h0, h2', rfl⟩ := layout_concat_iff.1 h2
      have hm' : segsWidth I' ≤ maxWidth := by
        refine Decidable.byContradiction fun hc => ?_
        simp only [NTree.layout, if_neg hc] at h0
        simp at h0
      simp only [NTree.layout, if_pos hm', Except.ok.injEq, Prod.mk.injEq] at h0
      obtain ⟨rfl, rfl⟩ := h0
      have hkx : ∀ rem e, fitK (.concat (.newline I') Y :: k) rem e = Except.ok (ε := Fail P.Err) true := by
        intro rem e
        cases hc : Y.check with
        | error f => exact absurd h2' (layout_check_error hc _)
        | ok u => exact fitK_nl_concat hc rem e
      obtain ⟨g1, g2⟩ := (ihx hw hm hn1 hkx).1 ⟨_, _, h1, rfl⟩
      rw [← hY] at h2'
      obtain ⟨g3, g4⟩ := (ihy (by omega) hm' hn3 hk).1 ⟨_, _, h2', rfl⟩
      have hl : linesFrom I (LTree.concat L1 (LTree.concat (LTree.newline I') L3)).toks =
          linesFrom I L1.toks ++ linesFrom I' L3.toks := by
        simp only [LTree.toks, List.singleton_append]
        exact linesFrom_append_nl _ _ _ _
      rw [hl]
      refine ⟨.hang g1 (by rw [hI']; exact g3), fun l hl => ?_⟩
      rcases List.mem_append.1 hl with hl | hl
      · exact g2 l hl
      · exact g4 l hl
    · rintro ⟨h, hall⟩
      cases h with
      | hang h1 h2 =>
        rename_i ls1 ls2
        rw [hI'] at h2
        have hm' : segsWidth I' ≤ maxWidth := by
          obtain ⟨p1, p2⟩ := h2.prefixed law
          obtain ⟨l, hl⟩ := List.exists_mem_of_ne_nil _ p1
          obtain ⟨l', rfl⟩ := p2 l hl
          have := hall (I' ++ l') (by simp [hl])
          rw [segsWidth_append] at this
          omega
        obtain ⟨st2, L2, g2, rfl⟩ := (ihy (by omega) hm' hn3 hk).2 ⟨h2, fun l hl => hall l (by simp [hl])⟩
        rw [hY] at g2
        have hkx : ∀ rem e, fitK (.concat (.newline I') Y :: k) rem e = Except.ok (ε := Fail P.Err) true := by
          intro rem e
          cases hc : Y.check with
          | error f => exact absurd g2 (layout_check_error hc _)
          | ok u => exact fitK_nl_concat hc rem e
        obtain ⟨st1, L1, g1, rfl⟩ := (ihx hw hm hn1 hkx).2 ⟨h1, fun l hl => hall l (by simp [hl])⟩
        refine ⟨st2, .concat L1 (.concat (.newline I') L2), layout_concat_iff.2 ⟨_, _, _, g1,
          layout_concat_iff.2 ⟨⟨segsWidth I', false⟩, _, _, ?_, g2, rfl⟩, rfl⟩, ?_⟩
        · simp only [NTree.layout, if_pos hm']
        · simp only [LTree.toks, List.singleton_append]
          exact linesFrom_append_nl _ _ _ _
  | styled label x ih =>
    intro s I k ls hw hm hn hk
    simp only [Rows.notn, Notation.tree]
    cases hl : P.lookupStyle doc label with
    | error e =>
      simp only [NTree.orFail, NTree.layout]
      constructor
      · rintro ⟨_, _, h, _⟩; simp at h
      · rintro ⟨h, _⟩
        cases h with
        | styled h _ => rw [hl] at h; simp at h
    | ok s' =>
      simp only [NTree.orFail]
      rw [ih hw hm hn hk]
      constructor
      · rintro ⟨h1, h2⟩; exact ⟨.styled hl h1, h2⟩
      · rintro ⟨h, h2⟩
        cases h with
        | styled h h' => rw [hl] at h; simp only [Except.ok.injEq] at h; subst h; exact ⟨h', h2⟩
  | blank =>
    intro s I k ls hw hm hn hk
    simp only [Rows.notn, Notation.tree, NTree.layout]
    constructor
    · rintro ⟨st, L, h, rfl⟩
      simp only [Except.ok.injEq, Prod.mk.injEq] at h
      obtain ⟨rfl, rfl⟩ := h
      exact ⟨.blank, fun l hl => by simp only [LTree.toks, linesFrom, List.mem_singleton] at hl; subst hl; exact hm⟩
    · rintro ⟨h, _⟩
      cases h
      exact ⟨_, _, rfl, rfl⟩
  | mark =>
    intro s I k ls hw hm hn hk
    simp only [Rows.notn, Notation.tree, NTree.layout]
    constructor
    · rintro ⟨st, L, h, rfl⟩
      simp only [Except.ok.injEq, Prod.mk.injEq] at h
      obtain ⟨rfl, rfl⟩ := h
      exact ⟨.mark, fun l hl => by simp only [LTree.toks, linesFrom, List.mem_singleton] at hl; subst hl; exact hm⟩
    · rintro ⟨h, _⟩
      cases h
      exact ⟨_, _, rfl, rfl⟩
  | text =>
    intro s I k ls hw hm hn hk
    simp only [Rows.notn, Notation.tree]
    cases hnum : P.numChildren doc with
    | error e =>
      simp only [NTree.orFail, NTree.layout]
      constructor
      · rintro ⟨_, _, h, _⟩; simp at h
      · rintro ⟨h, _⟩
        cases h with
        | text h _ => rw [hnum] at h; simp at h
    | ok o =>
      cases o with
      | some n =>
        simp only [NTree.orFail, NTree.layout]
        constructor
        · rintro ⟨_, _, h, _⟩; simp at h
        · rintro ⟨h, _⟩
          cases h with
          | text h _ => rw [hnum] at h; simp at h
      | none =>
        cases ht : P.unwrapText doc with
        | error e =>
          simp only [NTree.orFail, NTree.layout]
          constructor
          · rintro ⟨_, _, h, _⟩; simp at h
          · rintro ⟨h, _⟩
            cases h with
            | text _ h => rw [ht] at h; simp at h
        | ok str =>
          have hlw : segsWidth (I ++ [(⟨str, P.strWidth str, s⟩ : Segment P)]) = segsWidth I + P.strWidth str := by
            rw [segsWidth_append]; rfl
          simp only [NTree.orFail, NTree.layout, Bool.false_eq_true, if_false]
          constructor
          · rintro ⟨st, L, h, rfl⟩
            split at h
            · simp only [Except.ok.injEq, Prod.mk.injEq] at h
              obtain ⟨rfl, rfl⟩ := h
              refine ⟨.text hnum ht, ?_⟩
              intro l hl
              simp only [LTree.toks, linesFrom, List.mem_singleton] at hl
              subst hl
              have : segsWidth (I ++ [(⟨str, P.strWidth str, s⟩ : Segment P)]) ≤ maxWidth := by omega
              exact this
            · simp at h
          · rintro ⟨h, hall⟩
            cases h with
            | text _ h =>
              rw [ht] at h; simp only [Except.ok.injEq] at h; subst h
              have := hall _ (List.mem_singleton.2 rfl)
              rw [if_pos (by omega)]
              exact ⟨_, _, rfl, rfl⟩
  | check cond x y ihx ihy =>
    intro s I k ls hw hm hn hk
    have htree : (Rows.check cond x y).notn.tree doc (docKid law doc) none ⟨false, I, s⟩ =
      .orFail (P.condition doc cond) fun b =>
        (if b then x else y).notn.tree doc (docKid law doc) none ⟨false, I, s⟩ := by
      simp only [Rows.notn, Notation.tree, inspected]
      congr 1
      funext b
      cases b <;> rfl
    rw [htree]
    cases hc : P.condition doc cond with
    | error e =>
      simp only [NTree.orFail, NTree.layout]
      constructor
      · rintro ⟨_, _, h, _⟩; simp at h
      · rintro ⟨h, _⟩
        cases h with
        | check h _ => rw [hc] at h; simp at h
    | ok b =>
      have key : (Rows.check cond x y).Lines doc w s I ls ↔ (if b then x else y).Lines doc w s I ls := by
        constructor
        · intro h
          cases h with
          | check h h' => rw [hc] at h; simp only [Except.ok.injEq] at h; subst h; exact h'
        · exact fun h => .check hc h
      rw [key]
      cases b with
      | true => exact ihx hw hm hn.1 hk
      | false => exact ihy hw hm hn.2 hk
  | count x y z ihx ihy ihz =>
    intro s I k ls hw hm hn hk
    simp only [Rows.notn, Notation.tree]
    cases hnum : P.numChildren doc with
    | error e =>
      simp only [NTree.orFail, NTree.layout]
      constructor
      · rintro ⟨_, _, h, _⟩; simp at h
      · rintro ⟨h, _⟩
        cases h with
        | count h _ => rw [hnum] at h; simp at h
    | ok o =>
      cases o with
      | none =>
        simp only [NTree.orFail, NTree.layout]
        constructor
        · rintro ⟨_, _, h, _⟩; simp at h
        · rintro ⟨h, _⟩
          cases h with
          | count h _ => rw [hnum] at h; simp at h
      | some n =>
        have key : (Rows.count x y z).Lines doc w s I ls ↔
            (if n = 0 then x else if n = 1 then y else z).Lines doc w s I ls := by
          constructor
          · intro h
            cases h with
            | count h h' =>
              rw [hnum] at h; simp only [Except.ok.injEq, Option.some.injEq] at h; subst h; exact h'
          · exact fun h => .count hnum h
        rw [key]
        match n with
        | 0 => exact ihx hw hm hn.1 hk
        | 1 => exact ihy hw hm hn.2.1 hk
        | n + 2 => exact ihz hw hm hn.2.2 hk

end PPP
