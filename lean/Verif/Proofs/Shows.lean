import Verif.Spec.Shows
import Verif.Proofs.GreedyLines
import Verif.Proofs.Denote
/-
The notation tree of a document resolves only to what its places show.
-/
namespace PPP
variable {P : PrettyDoc}

theorem combineAll_snoc {S : List P.Style} {st : P.Style} (h : combineAll S = some st) (s : P.Style) :
    combineAll (S ++ [s]) = some (P.combine st s) := by
  cases S with
  | nil => simp [combineAll] at h
  | cons s0 ss =>
    simp only [combineAll, Option.some.injEq] at h
    simp [combineAll, List.foldl_append, h]

theorem Call.toRes_ok {E α : Type} {c : Call E α} {a : α} (h : Call.toRes c = .ok a) : c = .ok a := by
  cases c with
  | ok b => simpa [Call.toRes] using h
  | error e => simp [Call.toRes] at h

theorem not_resolves_fail {id : P.Id} {f T} (h : Resolves id (.fail f) T) : False := by cases h

theorem resolves_orFail {id : P.Id} {α : Type} {c : Call P.Err α} {f : α → NTree P} {T}
    (h : Resolves id (.orFail c f) T) : ∃ a, c = .ok a ∧ Resolves id (f a) T := by
  unfold NTree.orFail at h
  split at h
  · exact (not_resolves_fail h).elim
  · rename_i a; exact ⟨a, rfl, h⟩

theorem inspected_inspects {node : P.Node} {env : Option (FoldEnv P)} {fp : Option (FoldPos P)}
    (he : env.map (·.next) = fp.map (·.next)) (hk : ∀ f, fp = some f → 0 < f.next)
    {pos p} (h : inspected node env pos = .ok p) : Inspects node fp pos p := by
  cases pos with
  | here =>
    simp only [inspected, Except.ok.injEq] at h
    subst h
    exact .here
  | child i =>
    simp only [inspected, Except.bind_eq] at h
    split at h
    · rename_i hn
      have hn := Call.toRes_ok hn
      split at h
      · simp at h
      · split at h
        · simp at h
        · rename_i hj
          exact .child hn hj (Call.toRes_ok h)
    · simp at h
  | leftChild =>
    cases env with
    | none => simp [inspected] at h
    | some e =>
      cases fp with
      | none => simp at he
      | some f =>
        obtain ⟨f1, f2, k⟩ := f
        have hk := hk _ rfl
        simp only [Option.map_some, Option.some.injEq] at he
        cases k with
        | zero => simp at hk
        | succ k =>
          simp only [inspected, he, Nat.add_sub_cancel] at h
          exact .left (Call.toRes_ok h)
  | rightChild =>
    cases env with
    | none => simp [inspected] at h
    | some e =>
      cases fp with
      | none => simp at he
      | some f =>
        obtain ⟨f1, f2, k⟩ := f
        simp only [Option.map_some, Option.some.injEq] at he
        simp only [inspected, he] at h
        exact .right (Call.toRes_ok h)

section
variable {node : P.Node} {id : P.Id} {kid : Nat → Ctx P → NTree P}

/-- What children show. -/
def KidShows (node : P.Node) (id : P.Id) (kid : Nat → Ctx P → NTree P) : Prop :=
  ∀ j c S T, combineAll S = some c.style → Resolves id (kid j c) T →
    ∃ child a s, P.childAt node j = .ok child ∧ P.notn child = .ok a ∧ P.nodeStyle child = .ok s ∧
      Shows ⟨child, none, c.flat, c.indent, S ++ [s], a⟩ (erase T)

/-- What `Left` shows. -/
def EnvShows (node : P.Node) (id : P.Id) : Option (FoldEnv P) → Option (FoldPos P) → Prop
  | none, none => True
  | some e, some f => e.next = f.next ∧ 0 < f.next ∧ ∀ c S T, combineAll S = some c.style →
      Resolves id (e.acc c) T → Shows ⟨node, some f, c.flat, c.indent, S, .left⟩ (erase T)
  | _, _ => False

theorem tree_shows (hid : P.id node = .ok id) (hk : KidShows node id kid) (a : Notation P.Label P.Cond) :
    ∀ {env fp}, EnvShows node id env fp → ∀ {c : Ctx P} {S T}, combineAll S = some c.style →
    Resolves id (a.tree node kid env c) T → Shows ⟨node, fp, c.flat, c.indent, S, a⟩ (erase T) := by
  induction a with
  | empty => intro env fp he c S T hS h; cases h; exact .empty
  | newline => intro env fp he c S T hS h; cases h; exact .leaf .newline
  | endOfLine => intro env fp he c S T hS h; cases h; exact .leaf .endOfLine
  | literal s => intro env fp he c S T hS h; cases h; exact .leaf (.literal hS)
  | focusMark => intro env fp he c S T hS h; cases h; exact .leaf (.focusMark hid)
  | text =>
    intro env fp he c S T hS h
    obtain ⟨n, hn, h⟩ := resolves_orFail h
    cases n with
    | some _ => exact (not_resolves_fail h).elim
    | none =>
      obtain ⟨s, hs, h⟩ := resolves_orFail h
      cases h
      exact .leaf (.text hn hs hS)
  | flat a ih =>
    intro env fp he c S T hS h
    exact .opens .flat (ih he (c := { c with flat := true }) hS h)
  | indent pre l a ih =>
    intro env fp he c S T hS h
    cases l with
    | none =>
      have h' := ih he (c := { c with indent := c.indent ++ [⟨pre, P.strWidth pre, c.style⟩] }) hS h
      exact .opens (.indent hS) h'
    | some l =>
      obtain ⟨s, hs, h⟩ := resolves_orFail h
      exact .opens (.indent_label hs (combineAll_snoc hS s)) (ih he
        (c := ⟨c.flat, c.indent ++ [⟨pre, P.strWidth pre, P.combine c.style s⟩], c.style⟩) hS h)
  | concat a b iha ihb =>
    intro env fp he c S T hS h
    cases h with
    | concat h1 h2 =>
      rw [erase_append]
      exact .concat (iha he hS h1) (ihb he hS h2)
  | choice a b iha ihb =>
    intro env fp he c S T hS h
    simp only [Notation.tree] at h
    split at h
    · exact .opens .choice_first (iha he hS h)
    · rename_i hf
      cases h with
      | choice_first h =>
        have := iha he hS h
        exact .opens .choice_first this
      | choice_second h =>
        have hf : c.flat = false := by simpa using hf
        have := ihb he hS h
        rw [hf] at this ⊢
        exact .opens .choice_second this
  | check cond pos a b iha ihb =>
    intro env fp he c S T hS h
    simp only [Notation.tree] at h
    split at h
    · exact (not_resolves_fail h).elim
    · rename_i p hp
      have hi : Inspects node fp pos p := by
        refine inspected_inspects ?_ ?_ hp
        · cases env <;> cases fp <;> simp [EnvShows] at he ⊢
          exact he.1
        · rintro f rfl
          cases env with
          | none => exact he.elim
          | some e => exact he.2.1
      obtain ⟨v, hv, h⟩ := resolves_orFail h
      cases v with
      | true => exact .opens (.check_true hi hv) (iha he hS h)
      | false => exact .opens (.check_false hi hv) (ihb he hS h)
  | child i =>
    intro env fp he c S T hS h
    obtain ⟨n, hn, h⟩ := resolves_orFail h
    cases n with
    | none => exact (not_resolves_fail h).elim
    | some n =>
      simp only at h
      split at h
      · exact (not_resolves_fail h).elim
      · rename_i j hj
        obtain ⟨child, a, s, h1, h2, h3, h4⟩ := hk j c S T hS h
        exact .opens (.child hn hj h1 h2 h3) h4
  | style l a ih =>
    intro env fp he c S T hS h
    obtain ⟨s, hs, h⟩ := resolves_orFail h
    exact .opens (.style hs) (ih he (c := ⟨c.flat, c.indent, P.combine c.style s⟩) (combineAll_snoc hS s) h)
  | count z o m ihz iho ihm =>
    intro env fp he c S T hS h
    obtain ⟨n, hn, h⟩ := resolves_orFail h
    match n, hn, h with
    | none, hn, h => exact (not_resolves_fail h).elim
    | some 0, hn, h => exact .opens (.count_zero hn) (ihz he hS h)
    | some 1, hn, h => exact .opens (.count_one hn) (iho he hS h)
    | some (k + 2), hn, h => exact .opens (.count_many hn) (ihm he hS h)
  | fold first join ihf ihj =>
    intro env fp he c S T hS h
    obtain ⟨n, hn, h⟩ := resolves_orFail h
    match n, hn, h with
    | none, hn, h => exact (not_resolves_fail h).elim
    | some 0, hn, h => cases h; exact .fold_zero hn
    | some (n + 1), hn, h =>
      have key : ∀ k c S T, combineAll S = some (c : Ctx P).style →
          Resolves id (Nat.rec (motive := fun _ => Ctx P → NTree P)
            (fun c => first.tree node kid none c)
            (fun k acc c => .orFail (P.childAt node (k + 1)) fun _ =>
              join.tree node kid (some ⟨acc, k + 1⟩) c) k c) T →
          match k with
          | 0 => Shows ⟨node, none, c.flat, c.indent, S, first⟩ (erase T)
          | k + 1 => Shows ⟨node, some ⟨first, join, k + 1⟩, c.flat, c.indent, S, join⟩ (erase T) := by
        intro k
        induction k with
        | zero => intro c S T hS h; exact ihf (env := none) (fp := none) trivial hS h
        | succ k ih =>
          intro c S T hS h
          obtain ⟨_, _, h⟩ := resolves_orFail h
          refine ihj (env := some _) (fp := some ⟨first, join, k + 1⟩) ⟨rfl, Nat.succ_pos _, ?_⟩ hS h
          intro c S T hS h
          cases k with
          | zero => exact .opens .left_first (ih c S T hS h)
          | succ k => exact .opens .left_join (ih c S T hS h)
      have := key n c S T hS h
      cases n with
      | zero => exact .opens (.fold_one hn) this
      | succ n => exact .opens (.fold_more hn) this
  | left =>
    intro env fp he c S T hS h
    cases env with
    | none => exact (not_resolves_fail h).elim
    | some e =>
      cases fp with
      | none => exact he.elim
      | some f => exact he.2.2 c S T hS h
  | right =>
    intro env fp he c S T hS h
    cases env with
    | none => exact (not_resolves_fail h).elim
    | some e =>
      cases fp with
      | none => exact he.elim
      | some f =>
        obtain ⟨child, a, s, h1, h2, h3, h4⟩ := hk e.next c S T hS h
        rw [he.1] at h1
        exact .opens (.right h1 h2 h3) h4

end

theorem enterStyle_combineAll (o : Option P.Style) (s : P.Style) :
    combineAll (o.toList ++ [s]) = some (enterStyle o s) := by
  cases o <;> rfl

theorem docTree_shows (law : P.Lawful) (node : P.Node) : ∀ {flat ind t id T} {outer : Option P.Style} {S},
    docTree law node flat ind outer = .ok t → P.id node = .ok id → Resolves id t T →
    (∀ s, combineAll (S ++ [s]) = some (enterStyle outer s)) →
    ∃ a s, P.notn node = .ok a ∧ P.nodeStyle node = .ok s ∧
      Shows ⟨node, none, flat, ind, S ++ [s], a⟩ (erase T) := by
  induction node using law.wf.induction with
  | h node ih =>
    intro flat ind t id T outer S ht hid hr hS
    rw [docTree_eq] at ht
    simp only [Except.bind_eq] at ht
    split at ht
    · rename_i a ha
      split at ht
      · rename_i s hs
        simp only [Except.ok.injEq] at ht
        subst ht
        refine ⟨a, s, Call.toRes_ok ha, Call.toRes_ok hs, ?_⟩
        refine tree_shows (c := ⟨flat, ind, enterStyle outer s⟩) (env := none) (fp := none) hid ?_ a trivial
          (hS s) hr
        intro j c S T hS h
        unfold docKid at h
        obtain ⟨child, hc, h⟩ := resolves_orFail h
        split at h
        · exact (not_resolves_fail h).elim
        · rename_i t ht
          cases hi : Call.toRes (P.id child) with
          | error f => rw [hi] at h; cases h
          | ok ci =>
            rw [hi] at h
            cases h with
            | child h =>
              obtain ⟨a, s, h1, h2, h3⟩ := ih child ⟨j, hc⟩ ht (Call.toRes_ok hi) h
                (fun s => combineAll_snoc hS s)
              exact ⟨child, a, s, hc, h1, h2, h3⟩
      · simp at ht
    · simp at ht

theorem shows_around {x : Place P} {T} (h : Shows x T) : ∀ tok ∈ T, ∃ y, x.Around y ∧ Leaf y tok := by
  induction h with
  | opens ho _ ih =>
    intro tok ht
    obtain ⟨y, h1, h2⟩ := ih tok ht
    exact ⟨y, .opens ho h1, h2⟩
  | leaf hl =>
    intro tok ht
    simp at ht
    subst ht
    exact ⟨_, .refl, hl⟩
  | empty => intro tok ht; simp at ht
  | concat _ _ ih1 ih2 =>
    intro tok ht
    rcases List.mem_append.1 ht with ht | ht
    · obtain ⟨y, h1, h2⟩ := ih1 tok ht
      exact ⟨y, .concat_left h1, h2⟩
    · obtain ⟨y, h1, h2⟩ := ih2 tok ht
      exact ⟨y, .concat_right h1, h2⟩
  | fold_zero => intro tok ht; simp at ht

end PPP
