import Verif.Proofs.Equiv
import Verif.Props.Choices
import Verif.Props.Meaning
/-
C18 and C38: notations that mean the same, and what the operators on notations mean.
-/
namespace PPP
variable {P : PrettyDoc}

/-! ### Documents that are alike print the same -/

theorem rootTree_alike (law : P.Lawful) {R : P.Node → P.Node → Prop} (hR : Alike R) {p q : P.Node}
    (hpq : R p q) {style id t} (hr : rootTree law p style = .ok (id, t)) :
    ∃ u, rootTree law q style = .ok (id, u) ∧ TEquiv t u := by
  obtain ⟨h1, h2⟩ := rootTree_inv law hr
  rcases docTree_alike law hR p hpq false [] style with ⟨f, g1, _⟩ | ⟨t', u, g1, g2, g3⟩
  · rw [h1] at g1; cases g1
  · rw [h1] at g1
    cases g1
    refine ⟨u, ?_, g3⟩
    unfold rootTree
    rw [g2, ← hR.id p q hpq, h2]
    rfl

/-- **C18** and **C38.**  Two documents that are alike, except that at some nodes the notations are
    written differently (concatenations are grouped differently, `Empty` is added or left out, a `Fold`
    is written out, or one of the other laws of `NEquiv` is used), print the same at every width, if one of them matches its notations. -/
theorem C38_alike_print_same (law : P.Lawful) {R : P.Node → P.Node → Prop} (hR : Alike R) {p q : P.Node}
    (hpq : R p q) {id t} (hr : rootTree law p none = .ok (id, t)) (hn : t.NoFail) (w : Nat) (s : String) :
    prettyPrintToString p w = Exec.ofRes (.ok s) ↔ prettyPrintToString q w = Exec.ofRes (.ok s) := by
  obtain ⟨u, hu, htu⟩ := rootTree_alike law hR hpq hr
  rw [C10_iff law s hr hn, C10_iff law s hu (htu.noFail.1 hn)]
  have hg : ∀ T, ¬ EolDefect T →
      ((∃ G, GreedyDoc w id t G ∧ erase G = T) ↔ ∃ G, GreedyDoc w id u G ∧ erase G = T) := by
    intro T hT
    have ho : eolRun (LineSt.mk 0 false).eol T ≠ none := eolRun_of_no_defect T hT
    constructor
    · rintro ⟨G, ⟨st, hG⟩, hT⟩
      obtain ⟨G', hG', hT'⟩ := (htu.greedy' hn ho).1 ⟨G, hG, hT⟩
      exact ⟨G', ⟨st, hG'⟩, hT'⟩
    · rintro ⟨G, ⟨st, hG⟩, hT⟩
      obtain ⟨G', hG', hT'⟩ := (htu.greedy' hn ho).2 ⟨G, hG, hT⟩
      exact ⟨G', ⟨st, hG'⟩, hT'⟩
  constructor
  · rintro ⟨G, hG, hp, hs⟩
    obtain ⟨G', hG', he⟩ := (hg _ hp.2).1 ⟨G, hG, rfl⟩
    exact ⟨G', hG', he ▸ hp, he ▸ hs⟩
  · rintro ⟨G, hG, hp, hs⟩
    obtain ⟨G', hG', he⟩ := (hg _ hp.2).2 ⟨G, hG, rfl⟩
    exact ⟨G', hG', he ▸ hp, he ▸ hs⟩

/-! ### C18: folds -/

/-- **C18.**  At a place in a node with `n` children, a `Fold` shows exactly what its unfolding shows:
    nothing for no child, `first` for one, and for more `join(... join(join(first, child 1), child 2)
    ..., child n - 1)`, in the indentation, styles and flatness of that place. -/
theorem C18_fold_is_unfold (law : P.Lawful) {node : P.Node} {n : Nat}
    (hn : P.numChildren node = .ok (some n)) (hacc : ∀ i < n, ∃ c, P.childAt node i = .ok c)
    (first join : Notation P.Label P.Cond) (c : Ctx P) :
    (Notation.fold first join).tree node (docKid law node) none c =
      (Notation.unfold first join n).tree node (docKid law node) none c :=
  unfold_tree hn hacc first join none c

/-- The unfolding for up to three children, and in general. -/
theorem C18_unfold_spec (first join : Notation P.Label P.Cond) :
    Notation.unfold first join 0 = .empty ∧
    Notation.unfold first join 1 = first ∧
    Notation.unfold first join 2 = join.inJoin first 1 ∧
    Notation.unfold first join 3 = join.inJoin (join.inJoin first 1) 2 ∧
    ∀ n, Notation.unfold first join (n + 2) = join.inJoin (Notation.unfold first join (n + 1)) (n + 1) :=
  ⟨rfl, rfl, rfl, rfl, fun _ => rfl⟩

/-- The unfolding of a comma separated list of `n + 1` children:
    `((child(0) + "," + child(1)) + "," + child(2)) + ...`. -/
theorem C18_unfold_list (n : Nat) :
    Notation.unfold (L := P.Label) (C := P.Cond) (.child 0) (.left + .literal "," + .right) (n + 1) =
      (List.range n).foldl (fun a i => a + .literal "," + .child (i + 1 : Nat)) (.child 0) := by
  induction n with
  | zero => rfl
  | succ n ih =>
    rw [List.range_succ, List.foldl_append, ← ih]
    rfl

/-! ### What validation guarantees about `Left` and `Right` -/

theorem validateRec_closed {L C : Type} (a : Notation L C) : ∀ {h ctx h'}, ctx.fold ≠ some .inFoldJoin →
    a.validateRec h ctx = .ok h' → a.Closed := by
  induction a with
  | left => intro h ctx h' hc hv; simp [Notation.validateRec, hc] at hv
  | right => intro h ctx h' hc hv; simp [Notation.validateRec, hc] at hv
  | flat a ih => intro h ctx h' hc hv; exact ih hc hv
  | indent s l a ih => intro h ctx h' hc hv; exact ih hc hv
  | style l a ih => intro h ctx h' hc hv; exact ih hc hv
  | concat a b iha ihb =>
    intro h ctx h' hc hv
    simp only [Notation.validateRec, Except.bind_eq] at hv
    split at hv
    · exact ⟨iha hc (by assumption), ihb hc hv⟩
    · cases hv
  | choice a b iha ihb =>
    intro h ctx h' hc hv
    simp only [Notation.validateRec, Except.bind_eq] at hv
    split at hv
    · split at hv
      · exact ⟨iha hc (by assumption), ihb hc (by assumption)⟩
      · cases hv
    · cases hv
  | check c pos a b iha ihb =>
    intro h ctx h' hc hv
    simp only [Notation.validateRec, Except.bind_eq] at hv
    split at hv
    · rename_i hp
      split at hv
      · split at hv
        · refine ⟨?_, ?_, iha hc (by assumption), ihb hc (by assumption)⟩
          · rintro rfl; simp [validateCheckPos, hc] at hp
          · rintro rfl; simp [validateCheckPos, hc] at hp
        · cases hv
      · cases hv
    · cases hv
  | count z o m ihz iho ihm =>
    intro h ctx h' hc hv
    simp only [Notation.validateRec, Except.bind_eq] at hv
    split at hv
    · cases hv
    · split at hv
      · split at hv
        · split at hv
          · refine ⟨ihz (ctx := { ctx with count := some .zero }) hc (by assumption),
              iho (ctx := { ctx with count := some .one }) hc (by assumption),
              ihm (ctx := { ctx with count := some .many }) hc (by assumption)⟩
          · cases hv
        · cases hv
      · cases hv
  | _ => intros; trivial

/-- A valid notation has no `Left` and `Right` outside of the `join` of a `Fold`, so that the `first` of
    a valid `Fold` can be put in place of the `Left` of its `join`. -/
theorem C18_valid_closed {L C : Type} {a : Notation L C} (h : a.Valid) : a.Closed := by
  unfold Notation.Valid Notation.validate at h
  simp only [Except.bind_eq] at h
  split at h
  · exact validateRec_closed a (ctx := {}) (by simp) (by assumption)
  · cases h

theorem C18_valid_first_closed {L C : Type} {first join : Notation L C} (h : (Notation.fold first join).Valid) :
    first.Closed := by
  unfold Notation.Valid Notation.validate at h
  simp only [Notation.validateRec, Except.bind_eq] at h
  simp only [Option.isSome_none, Bool.false_eq_true, if_false] at h
  split at h
  · rename_i h1
    split at h1
    · exact validateRec_closed first (ctx := { fold := some .inFoldFirst }) (by simp) (by assumption)
    · cases h1
  · cases h

/-! ### C38: the operators -/

/-- **C38.**  `x + y` shows what `x` shows followed by what `y` shows. -/
theorem C38_add {n f fl I S} {x y : Notation P.Label P.Cond} {T : List (Tok P)} :
    Shows ⟨n, f, fl, I, S, x + y⟩ T ↔
      ∃ T1 T2, T = T1 ++ T2 ∧ Shows ⟨n, f, fl, I, S, x⟩ T1 ∧ Shows ⟨n, f, fl, I, S, y⟩ T2 := by
  constructor
  · intro h
    cases h with
    | opens h _ => cases h
    | leaf h => cases h
    | concat h1 h2 => exact ⟨_, _, rfl, h1, h2⟩
  · rintro ⟨T1, T2, rfl, h1, h2⟩
    exact .concat h1 h2

theorem shows_newline {n f fl I S} {T : List (Tok P)} :
    Shows (P := P) ⟨n, f, fl, I, S, .newline⟩ T ↔ T = [.nl I] := by
  constructor
  · intro h
    cases h with
    | opens h _ => cases h
    | leaf h => cases h; rfl
  · rintro rfl; exact .leaf .newline

theorem shows_empty {n f fl I S} {T : List (Tok P)} :
    Shows (P := P) ⟨n, f, fl, I, S, .empty⟩ T ↔ T = [] := by
  constructor
  · intro h
    cases h with
    | opens h _ => cases h
    | leaf h => cases h
    | empty => rfl
  · rintro rfl; exact .empty

/-- **C38.**  `x ^ y` shows what `x` shows, a line break with the indentation of that place, and what `y`
    shows. -/
theorem C38_caret {n f fl I S} {x y : Notation P.Label P.Cond} {T : List (Tok P)} :
    Shows ⟨n, f, fl, I, S, x ^^^ y⟩ T ↔
      ∃ T1 T2, T = T1 ++ .nl I :: T2 ∧ Shows ⟨n, f, fl, I, S, x⟩ T1 ∧ Shows ⟨n, f, fl, I, S, y⟩ T2 := by
  change Shows ⟨n, f, fl, I, S, x + .newline + y⟩ T ↔ _
  constructor
  · intro h
    obtain ⟨A, T2, rfl, hA, h2⟩ := C38_add.1 h
    obtain ⟨T1, B, rfl, h1, hB⟩ := C38_add.1 hA
    rw [shows_newline] at hB
    subst hB
    exact ⟨T1, T2, by simp, h1, h2⟩
  · rintro ⟨T1, T2, rfl, h1, h2⟩
    exact C38_add.2 ⟨T1 ++ [.nl I], T2, by simp, C38_add.2 ⟨_, _, rfl, h1, shows_newline.2 rfl⟩, h2⟩

/-- **C38.**  `i >> x` shows a line break with `i` more spaces of indentation, in the style of that place,
    and what `x` shows with that indentation. -/
theorem C38_shift {n f fl I S st} (hS : combineAll S = some st) {i : Nat} {x : Notation P.Label P.Cond}
    {T : List (Tok P)} :
    let spaces := String.ofList (List.replicate i ' ')
    let I' := I ++ [⟨spaces, P.strWidth spaces, st⟩]
    Shows ⟨n, f, fl, I, S, .nest i x⟩ T ↔ ∃ T1, T = .nl I' :: T1 ∧ Shows ⟨n, f, fl, I', S, x⟩ T1 := by
  intro spaces I'
  constructor
  · intro h
    cases h with
    | opens h h' =>
      cases h with
      | indent h1 =>
        rw [hS] at h1
        cases h1
        obtain ⟨A, T1, rfl, hA, h1⟩ := C38_add.1 h'
        rw [shows_newline] at hA
        subst hA
        exact ⟨T1, rfl, h1⟩
    | leaf h => cases h
  · rintro ⟨T1, rfl, h⟩
    refine .opens (.indent hS) ?_
    exact C38_add.2 ⟨[.nl I'], T1, rfl, shows_newline.2 rfl, h⟩

/-- **C38.**  Outside of `Flat`, `x | y` shows what `x` shows or what `y` shows; inside, what `x` shows.
    (Which one of the two is decided by the width, see C10.) -/
theorem C38_or {n f fl I S} {x y : Notation P.Label P.Cond} {T : List (Tok P)} :
    Shows ⟨n, f, fl, I, S, x ||| y⟩ T ↔
      Shows ⟨n, f, fl, I, S, x⟩ T ∨ (fl = false ∧ Shows ⟨n, f, fl, I, S, y⟩ T) := by
  change Shows ⟨n, f, fl, I, S, .choice x y⟩ T ↔ _
  constructor
  · intro h
    cases h with
    | opens h h' =>
      cases h with
      | choice_first => exact .inl h'
      | choice_second => exact .inr ⟨rfl, h'⟩
    | leaf h => cases h
  · rintro (h | ⟨rfl, h⟩)
    · exact .opens .choice_first h
    · exact .opens .choice_second h

/-- The trees of the operators, from which the layout at every width is made: `+` is a concatenation,
    `|` a choice (outside of `Flat`), `^` puts a newline in between, and `i >> x` is a newline and `x`
    with more indentation. -/
theorem C38_operator_trees (node : P.Node) (kid : Nat → Ctx P → NTree P) (env : Option (FoldEnv P))
    (c : Ctx P) (x y : Notation P.Label P.Cond) (i : Nat) :
    let tree (a : Notation P.Label P.Cond) c := a.tree node kid env c
    let spaces := String.ofList (List.replicate i ' ')
    let c' : Ctx P := { c with indent := c.indent ++ [⟨spaces, P.strWidth spaces, c.style⟩] }
    tree (x + y) c = .concat (tree x c) (tree y c) ∧
    (c.flat = false → tree (x ||| y) c = .choice (tree x c) (tree y c)) ∧
    (c.flat = true → tree (x ||| y) c = tree x c) ∧
    tree (x ^^^ y) c = .concat (.concat (tree x c) (.newline c.indent)) (tree y c) ∧
    tree (.nest i x) c = .concat (.newline c'.indent) (tree x c') := by
  refine ⟨rfl, ?_, ?_, rfl, rfl⟩
  · intro h; change (if c.flat = true then _ else _) = _; simp [h]
  · intro h; change (if c.flat = true then _ else _) = _; simp [h]

/-- **C38.**  Associativity and units, where the notation is used: replacing one of these forms by the
    other at any place inside a notation is a case of `NEquiv`, and so does not change what is printed
    (`C38_alike_print_same`). -/
theorem C38_laws {nc : Option Nat} (x y z : Notation P.Label P.Cond) :
    NEquiv nc ((x + y) + z) (x + (y + z)) ∧ NEquiv nc (.empty + x) x ∧ NEquiv nc (x + .empty) x :=
  ⟨.assoc x y z, .empty_left x, .empty_right x⟩

/-- ... and so for a fold and its unfolding. -/
theorem C18_law {n : Nat} {first join : Notation P.Label P.Cond} (h : (Notation.fold first join).Valid) :
    NEquiv (some n) (.fold first join) (.unfold first join n) :=
  .fold_unfold first join rfl (C18_valid_first_closed h)

/-! ### Examples -/

namespace Ex

/-- The list notation of `exDoc`, with the concatenations grouped to the right and the fold over two
    children written out. -/
def listN' : TreeNotation :=
  ⟨.literal "[" + ((.child 0 + (.literal "," + ((.choice (.literal " ") .newline) + .child 1))) +
      (.focusMark + (.literal "]" + .empty))), by decide⟩

/-- The document of `exDoc`, with that notation. -/
def exDoc' : Tree Unit :=
  Tree.newBranch 3 listN' [Tree.newText 1 leafN "aa", Tree.newText 2 leafN "bbb"]

theorem listN_equiv : NEquiv (some 2) listN.1 listN'.1 := by
  have hfold : NEquiv (L := String) (C := TreeCondition) (some 2)
      (.fold (.child 0) (.left + .literal "," + (.choice (.literal " ") .newline) + .right))
      (.child 0 + (.literal "," + ((.choice (.literal " ") .newline) + .child 1))) :=
    .trans (.fold_unfold _ _ rfl trivial) (.trans (.assoc _ _ _) (.assoc _ _ _))
  have h := NEquiv.concat (NEquiv.concat (NEquiv.concat (.refl (.literal "[")) hfold) (.refl .focusMark))
    (.refl (.literal "]"))
  refine .trans h (.trans (.assoc _ _ _) (.trans (.assoc _ _ _) (.concat (.refl _) (.concat (.refl _) ?_))))
  exact .concat (.refl _) (.symm (.empty_right _))

/-- Nodes of `exDoc` and `exDoc'` that correspond to each other. -/
def exRel (p q : Tree Unit) : Prop :=
  (p = exDoc ∧ q = exDoc') ∨ p = q ∧ p.children? = none

theorem exRel_alike : Alike (P := exP) exRel := by
  constructor
  · rintro p q (⟨rfl, rfl⟩ | ⟨rfl, _⟩) <;> rfl
  · rintro p q (⟨rfl, rfl⟩ | ⟨rfl, _⟩) <;> rfl
  · rintro p q c (⟨rfl, rfl⟩ | ⟨rfl, _⟩)
    · cases c <;> rfl
    · rfl
  · rintro p q l (⟨rfl, rfl⟩ | ⟨rfl, _⟩) <;> rfl
  · rintro p q (⟨rfl, rfl⟩ | ⟨rfl, _⟩) <;> rfl
  · rintro p q (⟨rfl, rfl⟩ | ⟨rfl, _⟩) <;> rfl
  · rintro p q i c (⟨rfl, rfl⟩ | ⟨rfl, h⟩) hc
    · refine ⟨c, ?_, .inr ⟨rfl, ?_⟩⟩
      · exact hc
      · obtain ⟨cs, h1, h2⟩ := treeDoc_childAt hc
        cases h1
        match i, h2 with
        | 0, h2 => cases h2; rfl
        | 1, h2 => cases h2; rfl
        | k + 2, h2 => cases h2
    · obtain ⟨cs, h1, _⟩ := treeDoc_childAt hc
      rw [h] at h1; cases h1
  · rintro p q i e (⟨rfl, rfl⟩ | ⟨rfl, h⟩) hc <;> exact hc
  · rintro p q a nc (⟨rfl, rfl⟩ | ⟨rfl, h⟩) hn ha
    · cases ha; cases hn; exact ⟨_, rfl, listN_equiv⟩
    · exact ⟨a, ha, .refl a⟩
  · rintro p q e (⟨rfl, rfl⟩ | ⟨rfl, h⟩) hc <;> cases hc
  · rintro p q n i (⟨rfl, rfl⟩ | ⟨rfl, h⟩) hn hi
    · cases hn
      match i, hi with
      | 0, _ => exact ⟨_, rfl⟩
      | 1, _ => exact ⟨_, rfl⟩
    · have : exP.numChildren p = .ok none := by simp [exP, treeDoc, h]
      rw [this] at hn; cases hn
  · intro p q _; exact ⟨_, rfl⟩

/-- C18 and C38 on it: the two documents print the same at every width. -/
example (w : Nat) (s : String) : prettyPrintToString (P := exP) exDoc w = Exec.ofRes (.ok s) ↔
    prettyPrintToString (P := exP) exDoc' w = Exec.ofRes (.ok s) :=
  C38_alike_print_same exLaw exRel_alike (.inl ⟨rfl, rfl⟩) exTree_eq exTree_noFail w s

/-- C18 on `exDoc`. -/
example (c : Ctx exP) :
    (Notation.fold (.child 0) (.left + .literal "," + .right)).tree exDoc (docKid exLaw exDoc) none c =
      (Notation.child 0 + .literal "," + .child 1).tree exDoc (docKid exLaw exDoc) none c :=
  C18_fold_is_unfold exLaw (n := 2) rfl
    (fun i hi => by match i, hi with | 0, _ => exact ⟨_, rfl⟩ | 1, _ => exact ⟨_, rfl⟩) _ _ c

end Ex

end PPP
