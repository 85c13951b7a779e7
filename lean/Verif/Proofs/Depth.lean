import Verif.Model.Depth
import Verif.Spec.Depth
import Verif.Proofs.Denote
import Verif.Proofs.DocPred
/-
How deeply `eval` calls itself.
-/
namespace PPP
variable {P : PrettyDoc}

/-! ### `eval` is made of `evalStep`s -/

theorem eval_step (d : DCN P) :
    d.eval = d.evalStep >>= fun
      | .inl cn => pure cn
      | .inr d' => d'.eval := by
  have bindAssoc : ∀ {α β γ : Type} (x : Exec P.Err α) (f : α → Exec P.Err β) (g : β → Exec P.Err γ),
      (x >>= f) >>= g = x >>= fun a => f a >>= g := by
    intro α β γ x f g
    refine congrArg ExceptT.mk ?_
    change (x >>= f >>= g).run = (x >>= fun a => f a >>= g).run
    simp only [Exec.run_bind]
    match x.run with
    | none => rfl
    | some (.ok a) => rfl
    | some (.error e) => rfl
  rw [DCN.eval.eq_def]
  rcases d with ⟨notn, doc, flat, indent, style, jp⟩
  cases notn with
  | text =>
    simp only [DCN.evalStep, bindAssoc]
    congr 1; funext n
    cases n with
    | some n => rfl
    | none => simp only [bindAssoc]; rfl
  | indent pre label n =>
    cases label with
    | none => rfl
    | some l => simp only [DCN.evalStep, bindAssoc]; rfl
  | choice a b => cases flat <;> rfl
  | check cond pos a b =>
    simp only [DCN.evalStep, bindAssoc]
    congr 1; funext n
    congr 1; funext b
    cases b <;> rfl
  | child i =>
    simp only [DCN.evalStep, bindAssoc]
    congr 1; funext n
    cases n with
    | none => rfl
    | some n =>
      dsimp only
      cases normalizeChildIndex i n with
      | none => rfl
      | some j => simp only [bindAssoc]; rfl
  | style l n => simp only [DCN.evalStep, bindAssoc]; rfl
  | count zero one many =>
    simp only [DCN.evalStep, bindAssoc]
    congr 1; funext n
    match n with
    | none => rfl
    | some 0 => rfl
    | some 1 => rfl
    | some (n + 2) => rfl
  | fold first join =>
    simp only [DCN.evalStep, bindAssoc]
    congr 1; funext n
    match n with
    | none => rfl
    | some 0 => rfl
    | some 1 => rfl
    | some (n + 2) => simp only [bindAssoc]; rfl
  | left =>
    rcases jp with _ | ⟨p, c, i, f, j⟩
    · rfl
    · match i with
      | 0 => rfl
      | 1 => rfl
      | k + 2 => simp only [DCN.evalStep, bindAssoc]; rfl
  | right =>
    rcases jp with _ | ⟨p, c, i, f, j⟩
    · rfl
    · simp only [DCN.evalStep, bindAssoc]; rfl
  | _ => rfl

/-- The number of nested calls is determined. -/
theorem DCN.Nests.unique {d : DCN P} {k : Nat} (h : d.Nests k) : ∀ {k'}, d.Nests k' → k = k' := by
  induction h with
  | fails h =>
    intro k' h'
    cases h' with
    | fails _ => rfl
    | returns _ => rfl
    | calls g _ => rw [h] at g; cases g
  | returns h =>
    intro k' h'
    cases h' with
    | fails _ => rfl
    | returns _ => rfl
    | calls g _ => rw [h] at g; cases g
  | calls h _ ih =>
    intro k' h'
    cases h' with
    | fails g => rw [h] at g; cases g
    | returns g => rw [h] at g; cases g
    | calls g g' =>
      rw [h] at g
      cases g
      rw [ih g']

/-! ### Places in valid notations -/

/-- `n` occurs in a valid notation, at a place that is not in a fold, in its `first` or in its `join`. -/
def PlacedIn (φ : Option FoldContext) (n : Notation P.Label P.Cond) : Prop :=
  ∃ h ctx h', ctx.fold = φ ∧ n.validateRec h ctx = .ok h'

theorem Except.bind_ok_inv {ε α β : Type} {x : Except ε α} {f : α → Except ε β} {b : β}
    (h : (x >>= f) = .ok b) : ∃ a, x = .ok a ∧ f a = .ok b := by
  cases x with
  | error e => cases h
  | ok a => exact ⟨a, rfl, h⟩

namespace PlacedIn
variable {φ : Option FoldContext} {a b c : Notation P.Label P.Cond}

theorem flat (h : PlacedIn φ (.flat a)) : PlacedIn φ a := h
theorem indent {s l} (h : PlacedIn φ (.indent s l a)) : PlacedIn φ a := h
theorem style {l} (h : PlacedIn φ (.style l a)) : PlacedIn φ a := h

theorem concat (h : PlacedIn φ (.concat a b)) : PlacedIn φ a ∧ PlacedIn φ b := by
  obtain ⟨h, ctx, h', hc, hv⟩ := h
  simp only [Notation.validateRec] at hv
  obtain ⟨h1, g1, g2⟩ := Except.bind_ok_inv hv
  exact ⟨⟨_, ctx, _, hc, g1⟩, ⟨_, ctx, _, hc, g2⟩⟩

theorem choice (h : PlacedIn φ (.choice a b)) : PlacedIn φ a ∧ PlacedIn φ b := by
  obtain ⟨h, ctx, h', hc, hv⟩ := h
  simp only [Notation.validateRec] at hv
  obtain ⟨h1, g1, g2⟩ := Except.bind_ok_inv hv
  obtain ⟨h2, g2, _⟩ := Except.bind_ok_inv g2
  exact ⟨⟨_, ctx, _, hc, g1⟩, ⟨_, ctx, _, hc, g2⟩⟩

theorem check {cond pos} (h : PlacedIn φ (.check cond pos a b)) : PlacedIn φ a ∧ PlacedIn φ b := by
  obtain ⟨h, ctx, h', hc, hv⟩ := h
  simp only [Notation.validateRec] at hv
  obtain ⟨_, _, hv⟩ := Except.bind_ok_inv hv
  obtain ⟨h1, g1, g2⟩ := Except.bind_ok_inv hv
  obtain ⟨h2, g2, _⟩ := Except.bind_ok_inv g2
  exact ⟨⟨_, ctx, _, hc, g1⟩, ⟨_, ctx, _, hc, g2⟩⟩

theorem count (h : PlacedIn φ (.count a b c)) : PlacedIn φ a ∧ PlacedIn φ b ∧ PlacedIn φ c := by
  obtain ⟨h, ctx, h', hc, hv⟩ := h
  simp only [Notation.validateRec] at hv
  split at hv
  · cases hv
  · obtain ⟨h1, g1, g2⟩ := Except.bind_ok_inv hv
    obtain ⟨h2, g2, g3⟩ := Except.bind_ok_inv g2
    obtain ⟨h3, g3, _⟩ := Except.bind_ok_inv g3
    exact ⟨⟨_, { ctx with count := some .zero }, _, hc, g1⟩, ⟨_, { ctx with count := some .one }, _, hc, g2⟩,
      ⟨_, { ctx with count := some .many }, _, hc, g3⟩⟩

theorem fold (h : PlacedIn φ (.fold a b)) :
    φ = none ∧ PlacedIn (some .inFoldFirst) a ∧ PlacedIn (some .inFoldJoin) b := by
  obtain ⟨h, ctx, h', hc, hv⟩ := h
  simp only [Notation.validateRec] at hv
  split at hv
  · cases hv
  · rename_i hn
    obtain ⟨h1, g1, g2⟩ := Except.bind_ok_inv hv
    obtain ⟨h2, g2, _⟩ := Except.bind_ok_inv g2
    refine ⟨?_, ⟨_, _, _, rfl, g1⟩, ⟨_, _, _, rfl, g2⟩⟩
    rw [← hc]
    simpa using hn

theorem left (h : PlacedIn (P := P) φ .left) : φ = some .inFoldJoin := by
  obtain ⟨h, ctx, h', hc, hv⟩ := h
  simp only [Notation.validateRec] at hv
  split at hv
  · cases hv
  · rw [← hc]; exact Decidable.not_not.1 ‹¬ _›

theorem right (h : PlacedIn (P := P) φ .right) : φ = some .inFoldJoin := by
  obtain ⟨h, ctx, h', hc, hv⟩ := h
  simp only [Notation.validateRec] at hv
  split at hv
  · cases hv
  · rw [← hc]; exact Decidable.not_not.1 ‹¬ _›

theorem of_valid (h : a.Valid) : PlacedIn none a := by
  unfold Notation.Valid Notation.validate at h
  obtain ⟨h', g, _⟩ := Except.bind_ok_inv h
  exact ⟨_, _, h', rfl, g⟩

end PlacedIn

/-- There are no folds in folds. -/
theorem joinsGuarded_inFold {x : FoldContext} (a : Notation P.Label P.Cond) :
    PlacedIn (some x) a → a.JoinsGuarded := by
  induction a with
  | flat n ih => exact fun h => ih h.flat
  | indent s l n ih => exact fun h => ih h.indent
  | style l n ih => exact fun h => ih h.style
  | concat a b iha ihb => exact fun h => ⟨iha h.concat.1, ihb h.concat.2⟩
  | choice a b iha ihb => exact fun h => ⟨iha h.choice.1, ihb h.choice.2⟩
  | check c pos a b iha ihb => exact fun h => ⟨iha h.check.1, ihb h.check.2⟩
  | count a b c iha ihb ihc => exact fun h => ⟨iha h.count.1, ihb h.count.2.1, ihc h.count.2.2⟩
  | fold a b => exact fun h => absurd h.fold.1 (by simp)
  | _ => exact fun _ => trivial

theorem height_pos (a : Notation P.Label P.Cond) : 1 ≤ a.height := by
  cases a <;> simp only [Notation.height] <;> omega

/-! ### The invariant -/

/-- A position in a `join`: that of a child of the node `p`. -/
structure JoinOk (doc : P.Node) (H : Nat) (p : P.Node) (jp : JoinPos P) : Prop where
  parent : jp.parent = p
  ex : ∃ n, P.numChildren p = .ok (some n) ∧ 1 ≤ jp.index ∧ jp.index < n
  child : P.unwrapChild p jp.index = .ok jp.child
  join : PlacedIn (some .inFoldJoin) jp.join
  first : PlacedIn (some .inFoldFirst) jp.first
  joinH : jp.join.height ≤ H
  firstH : jp.first.height ≤ H
  guarded : P.Guarded doc → jp.join.exposesLeft = false

/-- The delayed notation `d` is a place in the notation of a node of `doc`. -/
structure Inv (doc : P.Node) (H : Nat) (φ : Option FoldContext) (d : DCN P) : Prop where
  within : P.Within doc d.doc
  placed : PlacedIn φ d.notn
  height : d.notn.height ≤ H
  guarded : P.Guarded doc → d.notn.JoinsGuarded
  join : φ = some .inFoldJoin → ∃ jp, d.joinPos = some jp ∧ JoinOk doc H d.doc jp

/-- A bound on the number of calls, in general. -/
def cost (m H : Nat) (φ : Option FoldContext) (d : DCN P) : Nat :=
  d.notn.height + match φ with
    | none => (m - 1) * H
    | some .inFoldFirst => 0
    | some .inFoldJoin => match d.joinPos with
      | some jp => jp.index * H
      | none => 0

/-- A bound on the number of calls, if `Left`s are guarded. -/
def cost' (H : Nat) (φ : Option FoldContext) (d : DCN P) : Nat :=
  d.notn.height + if φ = some .inFoldJoin ∧ d.notn.exposesLeft = true then H else 0

/-- What is known after a call of `eval`. -/
def AfterEval (doc : P.Node) (m H : Nat) (φ : Option FoldContext) (d : DCN P) : CN P ⊕ DCN P → Prop
  | .inl cn => ∀ d' ∈ cn.parts, ∃ φ', Inv doc H φ' d'
  | .inr d' => ∃ φ', Inv doc H φ' d' ∧ cost m H φ' d' < cost m H φ d ∧
      (P.Guarded doc → cost' H φ' d' < cost' H φ d)

theorem Sat.call {α β : Type} {c : Call P.Err α} {f : α → Exec P.Err β} {ok : β → Prop}
    (h : ∀ a, c = .ok a → Sat (f a) ok (fun _ => True)) : Sat (PPP.call c >>= f) ok (fun _ => True) := by
  cases c with
  | error e => trivial
  | ok a => exact h a rfl

/-- Steps into a part of the same notation. -/
theorem Inv.sub {doc : P.Node} {m H : Nat} {φ : Option FoldContext} {d d' : DCN P} (h : Inv doc H φ d)
    (hdoc : d'.doc = d.doc) (hjp : d'.joinPos = d.joinPos) (hp : PlacedIn φ d'.notn)
    (hh : d'.notn.height < d.notn.height) (hg : d.notn.JoinsGuarded → d'.notn.JoinsGuarded) :
    Inv doc H φ d' ∧ cost m H φ d' < cost m H φ d :=
  ⟨⟨hdoc ▸ h.within, hp, by have := h.height; omega, fun g => hg (h.guarded g),
      fun e => by rw [hjp, hdoc]; exact h.join e⟩, by
    unfold cost
    rw [hjp]
    omega⟩

theorem Inv.into {doc : P.Node} {m H : Nat} {φ : Option FoldContext} {d d' : DCN P} (h : Inv doc H φ d)
    (hdoc : d'.doc = d.doc) (hjp : d'.joinPos = d.joinPos) (hp : PlacedIn φ d'.notn)
    (hh : d'.notn.height < d.notn.height) (hg : d.notn.JoinsGuarded → d'.notn.JoinsGuarded)
    (he : d'.notn.exposesLeft = true → d.notn.exposesLeft = true) : AfterEval doc m H φ d (.inr d') := by
  obtain ⟨h1, h2⟩ := h.sub (m := m) hdoc hjp hp hh hg
  refine ⟨φ, h1, h2, fun _ => ?_⟩
  unfold cost'
  by_cases g : φ = some .inFoldJoin ∧ d'.notn.exposesLeft = true
  · rw [if_pos g, if_pos ⟨g.1, he g.2⟩]; omega
  · rw [if_neg g]; omega

theorem Sat.docToInspect {d : DCN P} {pos : CheckPos} {β : Type} {f : P.Node → Exec P.Err β} {ok : β → Prop}
    (h : ∀ p, Sat (f p) ok (fun _ => True)) : Sat (d.docToInspect pos >>= f) ok (fun _ => True) := by
  refine Sat.bind ?_
  unfold DCN.docToInspect
  cases pos with
  | here => exact h _
  | child i =>
    refine Sat.call fun n _ => ?_
    cases n with
    | none => trivial
    | some n =>
      dsimp only
      cases normalizeChildIndex i n with
      | none => trivial
      | some j =>
        dsimp only
        cases P.unwrapChild d.doc j with
        | error e => trivial
        | ok c => exact h c
  | rightChild =>
    dsimp only
    cases d.joinPos with
    | none => trivial
    | some jp => exact h _
  | leftChild =>
    dsimp only
    cases d.joinPos with
    | none => trivial
    | some jp =>
      dsimp only
      match jp.index with
      | 0 => trivial
      | k + 1 =>
        dsimp only
        cases P.unwrapPrevSibling jp.child jp.parent k with
        | error e => trivial
        | ok c => exact h c

theorem Inv.kid (law : P.Lawful) {doc : P.Node} {H : Nat} (hH : P.HeightsWithin doc H) {d : DCN P}
    (hw : P.Within doc d.doc) (hn : P.notn d.doc = .ok d.notn) : Inv doc H none d :=
  ⟨hw, .of_valid (law.valid _ _ hn), hH _ _ hw hn, fun g => g _ _ hw hn, fun e => by cases e⟩

theorem normalizeChildIndex_lt {i : Int} {n j : Nat} (h : normalizeChildIndex i n = some j) : j < n := by
  unfold normalizeChildIndex at h
  dsimp only at h
  generalize (if i < 0 then i + (n : Int) else i) = x at h
  split at h
  · cases h
  · cases h
    omega

theorem evalStep_after (law : P.Lawful) {doc : P.Node} {m H : Nat} (hH : P.HeightsWithin doc H)
    (hm : P.KidsWithin doc m) {φ : Option FoldContext} {d : DCN P} (hd : Inv doc H φ d) :
    Sat d.evalStep (AfterEval doc m H φ d) (fun _ => True) := by
  have none_parts : ∀ {cn : CN P}, cn.parts = [] → AfterEval doc m H φ d (.inl cn) := by
    intro cn h d' hd'
    rw [h] at hd'
    cases hd'
  rcases d with ⟨notn, node, flat, indent, style, jp⟩
  cases notn with
  | empty => exact none_parts rfl
  | endOfLine => exact none_parts rfl
  | newline => exact none_parts rfl
  | literal s => exact none_parts rfl
  | focusMark => exact none_parts rfl
  | text =>
    refine Sat.call fun n _ => ?_
    cases n with
    | some n => trivial
    | none => exact Sat.call fun t _ => none_parts rfl
  | flat n => exact hd.into rfl rfl hd.placed.flat (Nat.lt_succ_self _) (fun h => h) (fun h => h)
  | indent pre label n =>
    have : ∀ s : P.Style, AfterEval doc m H φ ⟨.indent pre label n, node, flat, indent, style, jp⟩
        (.inr ⟨n, node, flat, { str := pre, width := P.strWidth pre, style := s } :: indent, style, jp⟩) :=
      fun s => hd.into rfl rfl hd.placed.indent (Nat.lt_succ_self _) (fun h => h) (fun h => h)
    cases label with
    | none => exact this style
    | some l =>
      unfold DCN.evalStep
      dsimp only
      cases P.lookupStyle node l with
      | error e => trivial
      | ok s => exact this _
  | concat a b =>
    have ha := hd.sub (m := m) (d' := ⟨a, node, flat, indent, style, jp⟩) rfl rfl hd.placed.concat.1
      (by simp only [Notation.height]; omega) (fun h => h.1)
    have hb := hd.sub (m := m) (d' := ⟨b, node, flat, indent, style, jp⟩) rfl rfl hd.placed.concat.2
      (by simp only [Notation.height]; omega) (fun h => h.2)
    intro d' hd'
    simp only [CN.parts, List.mem_cons, List.not_mem_nil, or_false] at hd'
    rcases hd' with rfl | rfl
    · exact ⟨φ, ha.1⟩
    · exact ⟨φ, hb.1⟩
  | choice a b =>
    cases flat with
    | true =>
      exact hd.into (d' := ⟨a, node, true, indent, style, jp⟩) rfl rfl hd.placed.choice.1
        (by simp only [Notation.height]; omega) (fun h => h.1) (fun h => h)
    | false =>
      have ha := hd.sub (m := m) (d' := ⟨a, node, false, indent, style, jp⟩) rfl rfl hd.placed.choice.1
        (by simp only [Notation.height]; omega) (fun h => h.1)
      have hb := hd.sub (m := m) (d' := ⟨b, node, false, indent, style, jp⟩) rfl rfl hd.placed.choice.2
        (by simp only [Notation.height]; omega) (fun h => h.2)
      intro d' hd'
      simp only [CN.parts, List.mem_cons, List.not_mem_nil, or_false] at hd'
      rcases hd' with rfl | rfl
      · exact ⟨φ, ha.1⟩
      · exact ⟨φ, hb.1⟩
  | check cond pos a b =>
    refine Sat.docToInspect fun p => Sat.call fun r _ => ?_
    cases r with
    | true =>
      exact hd.into (d' := ⟨a, node, flat, indent, style, jp⟩) rfl rfl hd.placed.check.1
        (by simp only [Notation.height]; omega) (fun h => h.1)
        (fun h => by simp only [Notation.exposesLeft] at h ⊢; rw [h]; rfl)
    | false =>
      exact hd.into (d' := ⟨b, node, flat, indent, style, jp⟩) rfl rfl hd.placed.check.2
        (by simp only [Notation.height]; omega) (fun h => h.2)
        (fun h => by simp only [Notation.exposesLeft] at h ⊢; rw [h, Bool.or_true])
  | child i =>
    refine Sat.call fun n hn => ?_
    cases n with
    | none => trivial
    | some n =>
      dsimp only
      cases hj : normalizeChildIndex i n with
      | none => trivial
      | some j =>
        refine Sat.call fun c hc => Sat.call fun a ha => Sat.call fun s _ => ?_
        intro d' hd'
        simp only [CN.parts, List.mem_cons, List.not_mem_nil, or_false] at hd'
        subst hd'
        exact ⟨none, Inv.kid law hH (hd.within.child (i := j)
          ((childAt_eq hn (normalizeChildIndex_lt hj)).trans hc)) ha⟩
  | style l n =>
    exact Sat.call fun s _ => hd.into rfl rfl hd.placed.style (Nat.lt_succ_self _) (fun h => h) (fun h => h)
  | count zero one many =>
    refine Sat.call fun n _ => ?_
    match n with
    | none => trivial
    | some 0 =>
      exact hd.into (d' := ⟨zero, node, flat, indent, style, jp⟩) rfl rfl hd.placed.count.1
        (by simp only [Notation.height]; omega) (fun h => h.1)
        (fun h => by simp only [Notation.exposesLeft] at h ⊢; rw [h]; rfl)
    | some 1 =>
      exact hd.into (d' := ⟨one, node, flat, indent, style, jp⟩) rfl rfl hd.placed.count.2.1
        (by simp only [Notation.height]; omega) (fun h => h.2.1)
        (fun h => by simp only [Notation.exposesLeft] at h ⊢; rw [h, Bool.or_true]; rfl)
    | some (n + 2) =>
      exact hd.into (d' := ⟨many, node, flat, indent, style, jp⟩) rfl rfl hd.placed.count.2.2
        (by simp only [Notation.height]; omega) (fun h => h.2.2)
        (fun h => by simp only [Notation.exposesLeft] at h ⊢; rw [h, Bool.or_true])
  | fold first join =>
    have hh := hd.height
    simp only [Notation.height] at hh
    obtain ⟨rfl, hf, hj⟩ := hd.placed.fold
    refine Sat.call fun n hn => ?_
    match n, hn with
    | none, _ => trivial
    | some 0, _ => exact none_parts rfl
    | some 1, _ =>
      refine ⟨some .inFoldFirst, ⟨hd.within, hf, by show first.height ≤ H; omega, ?_, fun e => by cases e⟩, ?_, ?_⟩
      · intro _
        exact joinsGuarded_inFold _ hf
      · simp only [cost, Notation.height]; omega
      · intro _
        simp [cost', Notation.height]; omega
    | some (n + 2), hn =>
      refine Sat.call fun c hc => ?_
      rw [law.last _ (n + 1) hn] at hc
      have hle := hm _ _ hd.within hn
      refine ⟨some .inFoldJoin, ⟨hd.within, hj, by show join.height ≤ H; omega, ?_, fun _ => ⟨_, rfl, ?_⟩⟩, ?_, ?_⟩
      · intro _
        exact joinsGuarded_inFold _ hj
      · exact ⟨rfl, ⟨n + 2, hn, by show 1 ≤ n + 1; omega, by show n + 1 < n + 2; omega⟩, hc, hj, hf,
          by show join.height ≤ H; omega, by show first.height ≤ H; omega, fun g => hd.guarded g⟩
      · have : (n + 1) * H ≤ (m - 1) * H := Nat.mul_le_mul_right _ (by omega)
        simp only [cost, Notation.height]
        show join.height + (n + 1) * H < _
        omega
      · intro g
        have : join.exposesLeft = false := hd.guarded g
        simp [cost', this, Notation.height]
        omega
  | left =>
    obtain rfl := hd.placed.left
    obtain ⟨jp', e, hj⟩ := hd.join rfl
    cases e
    obtain ⟨n, hn, h1, h2⟩ := hj.ex
    rcases jp' with ⟨p, c, i, f, j⟩
    obtain rfl := hj.parent
    have e1 := hj.joinH
    have e2 := hj.firstH
    dsimp only at h1 h2 hn e1 e2
    match i, h1, h2, hj, hd with
    | 1, _, _, hj, hd =>
      refine ⟨some .inFoldFirst, ⟨hd.within, hj.first, hj.firstH, fun _ => joinsGuarded_inFold _ hj.first,
        fun e => by cases e⟩, ?_, ?_⟩
      · simp only [cost, Notation.height]; omega
      · intro _
        simp [cost', Notation.height, Notation.exposesLeft]; omega
    | k + 2, _, h2, hj, hd =>
      refine Sat.call fun c' hc => ?_
      rw [law.prev _ _ _ _ hn h2 hj.child] at hc
      refine ⟨some .inFoldJoin, ⟨hd.within, hj.join, hj.joinH, fun _ => joinsGuarded_inFold _ hj.join,
        fun _ => ⟨_, rfl, ?_⟩⟩, ?_, ?_⟩
      · exact ⟨rfl, ⟨n, hn, by show 1 ≤ k + 1; omega, by show k + 1 < n; omega⟩, hc, hj.join, hj.first,
          hj.joinH, hj.firstH, hj.guarded⟩
      · simp only [cost, Notation.height]
        have : (k + 2) * H = (k + 1) * H + H := by rw [Nat.succ_mul]
        omega
      · intro g
        have := hj.guarded g
        dsimp only at this
        simp [cost', this, Notation.height, Notation.exposesLeft]; omega
  | right =>
    obtain rfl := hd.placed.right
    obtain ⟨jp', e, hj⟩ := hd.join rfl
    cases e
    obtain ⟨n, hn, h1, h2⟩ := hj.ex
    refine Sat.call fun a ha => Sat.call fun s _ => ?_
    intro d' hd'
    simp only [CN.parts, List.mem_cons, List.not_mem_nil, or_false] at hd'
    subst hd'
    exact ⟨none, Inv.kid law hH (hd.within.child (i := jp'.index) ((childAt_eq hn h2).trans hj.child)) ha⟩

theorem eval_parts (law : P.Lawful) {doc : P.Node} {m H : Nat} (hH : P.HeightsWithin doc H)
    (hm : P.KidsWithin doc m) (n : Nat) : ∀ {φ : Option FoldContext} {d : DCN P}, cost m H φ d ≤ n → Inv doc H φ d →
    ∃ k ≤ cost m H φ d, d.Nests k ∧ (P.Guarded doc → k ≤ cost' H φ d) ∧
      ∀ cn, d.eval.run = some (.ok cn) → ∀ d' ∈ cn.parts, ∃ φ', Inv doc H φ' d' := by
  induction n with
  | zero =>
    intro φ d hn
    have := height_pos d.notn
    unfold cost at hn
    omega
  | succ n ih =>
    intro φ d hn hd
    have h1 : 1 ≤ cost m H φ d := by have := height_pos d.notn; unfold cost; omega
    have h2 : 1 ≤ cost' H φ d := by have := height_pos d.notn; unfold cost'; omega
    have hs := evalStep_after law hH hm hd
    unfold Sat at hs
    match hx : d.evalStep.run with
    | none => rw [hx] at hs; exact hs.elim
    | some (.error f) =>
      refine ⟨1, h1, .fails hx, fun _ => h2, fun cn h => ?_⟩
      rw [eval_step, Exec.run_bind, hx] at h
      cases h
    | some (.ok (.inl cn)) =>
      rw [hx] at hs
      refine ⟨1, h1, .returns hx, fun _ => h2, fun cn' h => ?_⟩
      rw [eval_step, Exec.run_bind, hx] at h
      cases h
      exact hs
    | some (.ok (.inr d')) =>
      rw [hx] at hs
      obtain ⟨φ', g1, g2, g3⟩ := hs
      obtain ⟨k, k1, k2, k3, k4⟩ := ih (by omega) g1
      refine ⟨k + 1, by omega, .calls hx k2, fun g => ?_, fun cn h => ?_⟩
      · have := k3 g
        have := g3 g
        omega
      · rw [eval_step, Exec.run_bind, hx] at h
        exact k4 cn h

theorem reached_inv (law : P.Lawful) {doc : P.Node} {m H : Nat} (hH : P.HeightsWithin doc H)
    (hm : P.KidsWithin doc m) {st : Option P.Style} {d : DCN P} (h : Reached doc st d) :
    ∃ φ, Inv doc H φ d := by
  induction h with
  | root h =>
    rename_i d
    have : Sat (DCN.withOptionalStyle doc st) (fun d => Inv doc H none d) (fun _ => True) := by
      refine Sat.call fun a ha => Sat.call fun s _ => ?_
      exact Inv.kid law hH (.inl rfl) ha
    unfold Sat at this
    rw [h] at this
    exact ⟨none, this⟩
  | part _ he hp ih =>
    obtain ⟨φ, hφ⟩ := ih
    obtain ⟨k, _, _, _, h4⟩ := eval_parts law hH hm _ (Nat.le_refl _) hφ
    exact h4 _ he _ hp

theorem Inv.cost_le {doc : P.Node} {m H : Nat} (hm : P.KidsWithin doc m) {φ : Option FoldContext} {d : DCN P}
    (h : Inv doc H φ d) : cost m H φ d ≤ max 1 m * H := by
  have hh := h.height
  have key : ∀ i, i ≤ m - 1 → d.notn.height + i * H ≤ max 1 m * H := by
    intro i hi
    have : (i + 1) * H ≤ max 1 m * H := Nat.mul_le_mul_right _ (by omega)
    rw [Nat.succ_mul] at this
    omega
  unfold cost
  match φ, h with
  | none, h => exact key _ (Nat.le_refl _)
  | some .inFoldFirst, h => have := key 0 (by omega); simpa using this
  | some .inFoldJoin, h =>
    obtain ⟨jp, e, hj⟩ := h.join rfl
    obtain ⟨n, hn, h1, h2⟩ := hj.ex
    have := hm _ _ h.within hn
    rw [e]
    exact key _ (by omega)

theorem Inv.cost'_le {doc : P.Node} {H : Nat} {φ : Option FoldContext} {d : DCN P}
    (h : Inv doc H φ d) : cost' H φ d ≤ 2 * H := by
  have hh := h.height
  unfold cost'
  split <;> omega

end PPP
