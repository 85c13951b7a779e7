import Verif.Proofs.Programs
import Verif.Props.Printing
/-
The trees of the programs of the tests, by recursion over the programs.
-/
namespace PPP
variable {sw : String → Nat}

/-- The children of a node, given what each of them displays. -/
def slots {P : PrettyDoc} (kids : List (P.Id × (Ctx P → NTree P))) (i : Nat) (c : Ctx P) : NTree P :=
  match kids[i]? with
  | some (id, t) => .child i (.ok id) (t c)
  | none => .fail .panic

/-- The tree of a program. -/
def ChainExpr.ntree (sw : String → Nat) : ChainExpr → Nat → Ctx (chainDoc sw) → NTree (chainDoc sw)
  | .var name, next, c => IterChain.varN.tree (P := chainDoc sw) (.var next name) (slots []) none c
  | .methodCall obj method arg, next, c =>
    let next1 := (obj.build next).2
    let next2 := (arg.build next1).2
    IterChain.methodCallN.tree (P := chainDoc sw) (.methodCall (next2 + 1) (obj.build next).1 (.var next2 method) (arg.build next1).1)
      (slots [((obj.build next).1.id, fun c => obj.ntree sw next c),
        (next2, fun c => IterChain.varN.tree (P := chainDoc sw) (.var next2 method) (slots []) none c),
        ((arg.build next1).1.id, fun c => arg.ntree sw next1 c)]) none c
  | .closure v body, next, c =>
    let next1 := (body.build next).2
    IterChain.closureN.tree (P := chainDoc sw) (.closure (next1 + 1) (.var next1 v) (body.build next).1)
      (slots [(next1, fun c => IterChain.varN.tree (P := chainDoc sw) (.var next1 v) (slots []) none c),
        ((body.build next).1.id, fun c => body.ntree sw next c)]) none c
  | .times a b, next, c =>
    let next1 := (a.build next).2
    let next2 := (b.build next1).2
    IterChain.timesN.tree (P := chainDoc sw) (.times next2 (a.build next).1 (b.build next1).1)
      (slots [((a.build next).1.id, fun c => a.ntree sw next c), ((b.build next1).1.id, fun c => b.ntree sw next1 c)]) none c

theorem docKid_slots {P : PrettyDoc} (law : P.Lawful) {node : P.Node} (kids : List (P.Id × (Ctx P → NTree P)))
    (h : ∀ i id t, kids[i]? = some (id, t) → ∃ child, P.childAt node i = .ok child ∧ P.id child = .ok id ∧
      ∀ c, docTree law child c.flat c.indent (some c.style) = .ok (t c))
    (h' : ∀ i, kids[i]? = none → P.childAt node i = .error .panic) : docKid law node = slots kids := by
  funext i c
  unfold slots
  cases hk : kids[i]? with
  | none =>
    have := h' i hk
    simp only [docKid, this]
    rfl
  | some x =>
    obtain ⟨id, t⟩ := x
    obtain ⟨child, h1, h2, h3⟩ := h i id t hk
    rw [docKid_of law h1 (h3 c), h2]
    rfl

theorem chain_ntree (e : ChainExpr) : ∀ next flat ind outer,
    docTree (chainLaw sw) (e.build next).1 flat ind outer = .ok (e.ntree sw next ⟨flat, ind, ()⟩) := by
  have hv : ∀ id s flat ind outer, docTree (chainLaw sw) (.var id s) flat ind outer =
      .ok (IterChain.varN.tree (P := chainDoc sw) (.var id s) (slots []) none ⟨flat, ind, ()⟩) := by
    intro id s flat ind outer
    exact docTree_of (chainLaw sw) (a := IterChain.varN) (s := ()) rfl rfl _ _ _
  induction e with
  | var name => intro next flat ind outer; exact hv _ _ _ _ _
  | methodCall obj method arg iho iha =>
    intro next flat ind outer
    refine (docTree_of (chainLaw sw) (a := IterChain.methodCallN) (s := ()) rfl rfl _ _ _).trans ?_
    rw [docKid_slots (chainLaw sw) [((obj.build next).1.id, fun c => obj.ntree sw next c),
        ((arg.build (obj.build next).2).2, fun c => IterChain.varN.tree (P := chainDoc sw) (.var (arg.build (obj.build next).2).2 method) (slots []) none c),
        ((arg.build (obj.build next).2).1.id, fun c => arg.ntree sw (obj.build next).2 c)]]
    · rfl
    · intro i id t h
      rcases i with _ | _ | _ | i
      · cases h; exact ⟨_, rfl, rfl, fun c => iho _ _ _ _⟩
      · cases h; exact ⟨_, rfl, rfl, fun c => hv _ _ _ _ _⟩
      · cases h; exact ⟨_, rfl, rfl, fun c => iha _ _ _ _⟩
      · simp at h
    · intro i h
      rcases i with _ | _ | _ | i
      · cases h
      · cases h
      · cases h
      · simp [PrettyDoc.childAt, IterChain.numChildren, IterChain.contents, ChainExpr.build]
  | closure v body ih =>
    intro next flat ind outer
    refine (docTree_of (chainLaw sw) (a := IterChain.closureN) (s := ()) rfl rfl _ _ _).trans ?_
    rw [docKid_slots (chainLaw sw) [((body.build next).2, fun c => IterChain.varN.tree (P := chainDoc sw) (.var (body.build next).2 v) (slots []) none c),
        ((body.build next).1.id, fun c => body.ntree sw next c)]]
    · rfl
    · intro i id t h
      rcases i with _ | _ | i
      · cases h; exact ⟨_, rfl, rfl, fun c => hv _ _ _ _ _⟩
      · cases h; exact ⟨_, rfl, rfl, fun c => ih _ _ _ _⟩
      · simp at h
    · intro i h
      rcases i with _ | _ | i
      · cases h
      · cases h
      · simp [PrettyDoc.childAt, IterChain.numChildren, IterChain.contents, ChainExpr.build]
  | times a b iha ihb =>
    intro next flat ind outer
    refine (docTree_of (chainLaw sw) (a := IterChain.timesN) (s := ()) rfl rfl _ _ _).trans ?_
    rw [docKid_slots (chainLaw sw) [((a.build next).1.id, fun c => a.ntree sw next c),
        ((b.build (a.build next).2).1.id, fun c => b.ntree sw (a.build next).2 c)]]
    · rfl
    · intro i id t h
      rcases i with _ | _ | i
      · cases h; exact ⟨_, rfl, rfl, fun c => iha _ _ _ _⟩
      · cases h; exact ⟨_, rfl, rfl, fun c => ihb _ _ _ _⟩
      · simp at h
    · intro i h
      rcases i with _ | _ | i
      · cases h
      · cases h
      · simp [PrettyDoc.childAt, IterChain.numChildren, IterChain.contents, ChainExpr.build]

/-- The text that is printed, by recursion over the program. -/
def ChainExpr.prints (sw : String → Nat) (e : ChainExpr) (w : Nat) : Option String :=
  match (e.ntree sw 0 ⟨false, [], ()⟩).layoutDoc w (e.build 0).1.id with
  | .ok L => some (linesString (linesOf L.toks))
  | .error _ => none

theorem chain_prints {e : ChainExpr} {w : Nat} {s : String} (h : e.prints sw w = some s) :
    prettyPrintToString (P := chainDoc sw) (e.build 0).1 w = Exec.ofRes (.ok s) := by
  unfold ChainExpr.prints at h
  split at h
  · rename_i L hL
    refine (C01_to_string_iff (chainLaw sw) _ _ _).2 ⟨(e.build 0).1.id, L, ?_, (Option.some.inj h).symm⟩
    unfold docLayout rootTree
    rw [chain_ntree]
    change (do let L ← (e.ntree sw 0 ⟨false, [], ()⟩).layoutDoc w (e.build 0).1.id; Except.ok ((e.build 0).1.id, L)) = _
    rw [hL]
    rfl
  · cases h

/-- The tree of a program. -/
def RubyExpr.ntree (sw : String → Nat) : RubyExpr → Nat → Ctx (rubyDoc sw) → NTree (rubyDoc sw)
  | .var name, next, c => Ruby.varN.tree (P := rubyDoc sw) (.var next name) (slots []) none c
  | .methodCall obj method arg, next, c =>
    let next1 := (obj.build next).2
    let next2 := (arg.build next1).2
    Ruby.methodCallN.tree (P := rubyDoc sw) (.methodCall (next2 + 1) (obj.build next).1 (.var next2 method) (arg.build next1).1)
      (slots [((obj.build next).1.id, fun c => obj.ntree sw next c),
        (next2, fun c => Ruby.varN.tree (P := rubyDoc sw) (.var next2 method) (slots []) none c),
        ((arg.build next1).1.id, fun c => arg.ntree sw next1 c)]) none c
  | .doLoop v body, next, c =>
    let next1 := (body.build next).2
    Ruby.doLoopN.tree (P := rubyDoc sw) (.doLoop (next1 + 1) (.var next1 v) (body.build next).1)
      (slots [(next1, fun c => Ruby.varN.tree (P := rubyDoc sw) (.var next1 v) (slots []) none c),
        ((body.build next).1.id, fun c => body.ntree sw next c)]) none c

theorem ruby_ntree (e : RubyExpr) : ∀ next flat ind outer,
    docTree (rubyLaw sw) (e.build next).1 flat ind outer = .ok (e.ntree sw next ⟨flat, ind, ()⟩) := by
  have hv : ∀ id s flat ind outer, docTree (rubyLaw sw) (.var id s) flat ind outer =
      .ok (Ruby.varN.tree (P := rubyDoc sw) (.var id s) (slots []) none ⟨flat, ind, ()⟩) := by
    intro id s flat ind outer
    exact docTree_of (rubyLaw sw) (a := Ruby.varN) (s := ()) rfl rfl _ _ _
  induction e with
  | var name => intro next flat ind outer; exact hv _ _ _ _ _
  | methodCall obj method arg iho iha =>
    intro next flat ind outer
    refine (docTree_of (rubyLaw sw) (a := Ruby.methodCallN) (s := ()) rfl rfl _ _ _).trans ?_
    rw [docKid_slots (rubyLaw sw) [((obj.build next).1.id, fun c => obj.ntree sw next c),
        ((arg.build (obj.build next).2).2, fun c => Ruby.varN.tree (P := rubyDoc sw) (.var (arg.build (obj.build next).2).2 method) (slots []) none c),
        ((arg.build (obj.build next).2).1.id, fun c => arg.ntree sw (obj.build next).2 c)]]
    · rfl
    · intro i id t h
      rcases i with _ | _ | _ | i
      · cases h; exact ⟨_, rfl, rfl, fun c => iho _ _ _ _⟩
      · cases h; exact ⟨_, rfl, rfl, fun c => hv _ _ _ _ _⟩
      · cases h; exact ⟨_, rfl, rfl, fun c => iha _ _ _ _⟩
      · simp at h
    · intro i h
      rcases i with _ | _ | _ | i
      · cases h
      · cases h
      · cases h
      · simp [PrettyDoc.childAt, Ruby.numChildren, Ruby.contents, RubyExpr.build]
  | doLoop v body ih =>
    intro next flat ind outer
    refine (docTree_of (rubyLaw sw) (a := Ruby.doLoopN) (s := ()) rfl rfl _ _ _).trans ?_
    rw [docKid_slots (rubyLaw sw) [((body.build next).2, fun c => Ruby.varN.tree (P := rubyDoc sw) (.var (body.build next).2 v) (slots []) none c),
        ((body.build next).1.id, fun c => body.ntree sw next c)]]
    · rfl
    · intro i id t h
      rcases i with _ | _ | i
      · cases h; exact ⟨_, rfl, rfl, fun c => hv _ _ _ _ _⟩
      · cases h; exact ⟨_, rfl, rfl, fun c => ih _ _ _ _⟩
      · simp at h
    · intro i h
      rcases i with _ | _ | i
      · cases h
      · cases h
      · simp [PrettyDoc.childAt, Ruby.numChildren, Ruby.contents, RubyExpr.build]

/-- The text that is printed, by recursion over the program. -/
def RubyExpr.prints (sw : String → Nat) (e : RubyExpr) (w : Nat) : Option String :=
  match (e.ntree sw 0 ⟨false, [], ()⟩).layoutDoc w (e.build 0).1.id with
  | .ok L => some (linesString (linesOf L.toks))
  | .error _ => none

theorem ruby_prints {e : RubyExpr} {w : Nat} {s : String} (h : e.prints sw w = some s) :
    prettyPrintToString (P := rubyDoc sw) (e.build 0).1 w = Exec.ofRes (.ok s) := by
  unfold RubyExpr.prints at h
  split at h
  · rename_i L hL
    refine (C01_to_string_iff (rubyLaw sw) _ _ _).2 ⟨(e.build 0).1.id, L, ?_, (Option.some.inj h).symm⟩
    unfold docLayout rootTree
    rw [ruby_ntree]
    change (do let L ← (e.ntree sw 0 ⟨false, [], ()⟩).layoutDoc w (e.build 0).1.id; Except.ok ((e.build 0).1.id, L)) = _
    rw [hL]
    rfl
  · cases h

end PPP
