import Verif.Proofs.ViewRowsOf
import Verif.Props.Peephole
/-
C43: in a document with rows, only the rows of the window matter.
-/
namespace PPP
variable {P : PrettyDoc} {M : Methods P.Node P.Id P.Style P.Label P.Cond P.Err}

/-- Rows with index from `i - k` to `i + j` can be read: they have an id, and nothing in them fails. -/
def RowsAvailable (n i k j : Nat) (rid : Nat → Res P.Err P.Id) (tc : Nat → NTree P) : Prop :=
  ∀ m, m < n → i ≤ m + k → m ≤ i + j → (∃ c, rid m = .ok c) ∧ (tc m).NoFail

/-- Ids tell the row `i` apart from the others: no row has or contains the id of the root, and no other row has or
    contains an id of row `i`. (Distinct ids for distinct nodes are enough for that.) -/
def RowIdsDistinct (id : P.Id) (n i : Nat) (rid : Nat → Res P.Err P.Id) (tc : Nat → NTree P) : Prop :=
  (∀ m, m < n → rid m ≠ .ok id ∧ (tc m).IdAbsent id) ∧
  ∀ m, m < n → m ≠ i → ∀ pid, rid i = .ok pid ∨ ¬ (tc i).IdAbsent pid → rid m ≠ .ok pid ∧ (tc m).IdAbsent pid

/-- C43.  Suppose that a document displays its children on separate lines, and that we print the start or the end of
    its child `i` or of some node inside of this child, with `k` lines above the focused line and `j` lines below
    it. If the children from `i - k` to `i + j` are available, then printing succeeds or fails
    with an error of the printer itself (an invalid path, text after an end of line or an overflow): the other
    children may all be missing or broken. -/
theorem C43_window (law : P.Lawful) {doc : P.Node} {w : Nat} {i : Nat} {path : List Nat} {target : FocusTarget}
    {style : Option P.Style} {id : P.Id} {t : NTree P} {n k j : Nat} {rid : Nat → Res P.Err P.Id} {tc : Nat → NTree P}
    (hr : rootTree law doc style = .ok (id, t)) (hrows : IsRows t n rid tc) (hi : i < n)
    (hids : RowIdsDistinct id n i rid tc) (hwin : RowsAvailable n i k j rid tc)
    (ht : target = .start ∨ target = .end) {f : Fail P.Err}
    (hf : printAround doc w (i :: path) target style k j = Exec.ofRes (.error f)) : PrinterFail f := by
  obtain ⟨cid, D, E, E', D', h⟩ := near_of_rows (k := k) (j := j) hrows hi hids.1 hids.2 hwin
  rcases C42_only_nearby law hr hf with h' | h'
  · exact h'
  · exact (h.noNearFails ht h').elim

/-- C43.  In the same situation, the result of printing these lines does not depend on the other children: it
    is the same when the missing ones are there, whatever they are. -/
theorem C43_other_rows_irrelevant (law : P.Lawful) {doc : P.Node} {w : Nat} {i : Nat} {path : List Nat}
    {target : FocusTarget} {style : Option P.Style} {id : P.Id} {t : NTree P} {n k j : Nat}
    {rid : Nat → Res P.Err P.Id} {tc : Nat → NTree P}
    (hr : rootTree law doc style = .ok (id, t)) (hrows : IsRows t n rid tc) (hi : i < n)
    (hids : RowIdsDistinct id n i rid tc) (hwin : RowsAvailable n i k j rid tc)
    (ht : target = .start ∨ target = .end) (hM : M.Extends) :
    aroundView <$> printAround (P := P.withMethods M) doc w (i :: path) target style k j =
      aroundView <$> printAround doc w (i :: path) target style k j := by
  obtain ⟨cid, D, E, E', D', h⟩ := near_of_rows (k := k) (j := j) hrows hi hids.1 hids.2 hwin
  exact C42_rest_is_irrelevant law hr (fun f hf => (h.noNearFails ht hf).elim) hM

namespace Ex

/-- A file with the given lines (at least one), some of which may be unavailable. -/
@[reducible] def fileP (n : Nat) (line : Nat → Option String) : PrettyDoc where
  Node := Option Nat
  Id := Nat
  Style := Unit
  Label := Unit
  Cond := Unit
  Err := Unit
  decId := inferInstance
  combine _ _ := ()
  strWidth := String.length
  id
    | none => .ok 0
    | some m => .ok (m + 1)
  notn
    | none => .ok (.fold (.child 0) (.concat (.concat .left .newline) .right))
    | some _ => .ok .text
  condition _ _ := .ok true
  lookupStyle _ _ := .ok ()
  nodeStyle _ := .ok ()
  numChildren
    | none => .ok (some (n + 1))
    | some _ => .ok none
  unwrapText
    | none => .error .panic
    | some m => match line m with
      | some s => .ok s
      | none => .error (.err ())
  unwrapChild _ i := .ok (some i)
  unwrapLastChild _ := .ok (some n)
  unwrapPrevSibling _ _ i := .ok (some i)

variable {n : Nat} {line : Nat → Option String}

theorem file_childAt (a : Option Nat) (i : Nat) (b : Option Nat) :
    (fileP n line).childAt a i = .ok b ↔ a = none ∧ i < n + 1 ∧ b = some i := by
  cases a with
  | some a => simp [PrettyDoc.childAt, bind, Except.bind]
  | none =>
    by_cases h : i < n + 1
    · simp [PrettyDoc.childAt, bind, Except.bind, h]; exact eq_comm
    · simp [PrettyDoc.childAt, bind, Except.bind, h]

theorem file_law (n : Nat) (line : Nat → Option String) : (fileP n line).Lawful where
  wf := by
    have hs : ∀ m, Acc (fileP n line).ChildOf (some m) := fun m => ⟨_, fun b hb => by
      obtain ⟨i, h⟩ := hb
      exact nomatch ((file_childAt _ _ _).1 h).1⟩
    refine ⟨fun a => ?_⟩
    cases a with
    | some m => exact hs m
    | none =>
      refine ⟨_, fun b hb => ?_⟩
      obtain ⟨i, h⟩ := hb
      rw [((file_childAt _ _ _).1 h).2.2]
      exact hs i
  valid p a h := by
    cases p <;> (injection h with h; subst h; rfl)
  last p m h := by
    cases p with
    | none => injection h with h; injection h with h; injection h with h; subst h; rfl
    | some => injection h with h; cases h
  prev p n' i c h1 h2 h3 := rfl
  id_no_panic p := by cases p <;> simp
  notn_no_panic p := by cases p <;> simp
  condition_no_panic p _ _ := by simp
  lookupStyle_no_panic p _ _ := by simp
  nodeStyle_no_panic p := by simp
  numChildren_no_panic p := by cases p <;> simp
  unwrapText_no_panic p h := by
    cases p with
    | none => injection h with h; cases h
    | some m => simp only []; split <;> simp
  unwrapChild_no_panic p := by simp

/-- The tree of line `m`. -/
def lineTree (line : Nat → Option String) (m : Nat) : NTree (fileP n line) :=
  match line m with
  | some s => .text ⟨s, s.length, (), true⟩
  | none => .fail (.err (.prettyDoc ()))

theorem file_kid (i : Nat) (hi : i < n + 1) (c : Ctx (fileP n line)) :
    docKid (file_law n line) none i c = .child i (.ok (i + 1)) (lineTree line i) := by
  refine docKid_of (file_law n line) (child := some i) ((file_childAt _ _ _).2 ⟨rfl, hi, rfl⟩) ?_
  rw [docTree_of (file_law n line) (a := .text) (s := ()) rfl rfl]
  refine congrArg Except.ok ?_
  unfold lineTree
  simp only [Notation.tree, NTree.orFail]
  cases line i <;> rfl

/-- A newline between any two lines. -/
def fileSep (n m : Nat) : List (NTree (fileP n line)) := if 0 < m ∧ m < n + 1 then [.newline []] else []

theorem rowsOf_congr {α : Type} {sep sep' : Nat → List α} {row : Nat → α} : ∀ n, (∀ m, m ≤ n → sep m = sep' m) →
    rowsOf sep row n = rowsOf sep' row n
  | 0, h => h 0 (Nat.le_refl _)
  | n + 1, h => by
    rw [rowsOf, rowsOf, rowsOf_congr n fun m hm => h m (by omega), h (n + 1) (Nat.le_refl _)]

theorem file_tree : ∃ t, rootTree (file_law n line) none none = .ok (0, t) ∧
    IsRows t (n + 1) (fun m => .ok (m + 1)) (lineTree line) := by
  have hk : ∀ k, k ≤ n → (Nat.rec (motive := fun _ => Ctx (fileP n line) → NTree (fileP n line))
      (fun c => (Notation.child 0).tree none (docKid (file_law n line) none) none c)
      (fun k acc c => .orFail ((fileP n line).childAt none (k + 1)) fun _ =>
        (Notation.concat (.concat .left .newline) .right).tree none (docKid (file_law n line) none)
          (some ⟨acc, k + 1⟩) c) k ⟨false, [], ()⟩).parts =
      rowsOf (fun m => if 0 < m then [.newline []] else []) (fun m => .child m (.ok (m + 1)) (lineTree line m)) k ++
        [.child k (.ok (k + 1)) (lineTree line k)] := by
    intro k hkn
    induction k with
    | zero =>
      show (NTree.orFail _ _).parts = _
      simp only [NTree.orFail]
      rw [show childIndex 0 (n + 1) = some 0 by simp [childIndex]]
      simp only []
      rw [file_kid 0 (by omega)]
      rfl
    | succ k ih =>
      have hc : (fileP n line).childAt none (k + 1) = .ok (some (k + 1)) :=
        (file_childAt _ _ _).2 ⟨rfl, by omega, rfl⟩
      show (NTree.orFail _ _).parts = _
      rw [hc]
      refine (congrArg (fun l => (l ++ [NTree.newline []]) ++
        (docKid (file_law n line) none (k + 1) ⟨false, [], ()⟩).parts) (ih (by omega))).trans ?_
      dsimp only
      rw [file_kid (k + 1) (by omega)]
      simp [rowsOf, NTree.parts]
  have hd := docTree_of (file_law n line) (node := none)
    (a := .fold (.child 0) (.concat (.concat .left .newline) .right)) (s := ()) rfl rfl false [] none
  have hr : rootTree (file_law n line) none none = .ok (0, (Notation.fold (.child 0) (.concat (.concat .left .newline) .right)).tree
      none (docKid (file_law n line) none) none ⟨false, [], ()⟩) := by
    unfold rootTree
    rw [hd]; rfl
  refine ⟨_, hr, fileSep n, ?_, ?_, ?_⟩
  · show (NTree.orFail _ _).parts = _
    simp only [NTree.orFail]
    refine (hk n (Nat.le_refl _)).trans ?_
    rw [rowsOf, rowsOf_congr (sep' := fileSep n) n fun m hm => ?_]
    · rw [show fileSep (line := line) n (n + 1) = [] by simp [fileSep]]
    · unfold fileSep
      by_cases h : 0 < m
      · rw [if_pos h, if_pos ⟨h, by omega⟩]
      · rw [if_neg h, if_neg fun h' => h h'.1]
  · intro m id p hp
    unfold fileSep at hp
    split at hp
    · cases List.mem_singleton.1 hp; trivial
    · cases hp
  · intro m h1 h2
    refine ⟨[], ?_⟩
    unfold fileSep
    rw [if_pos ⟨h1, h2⟩]
    simp

theorem lineTree_absent (m : Nat) (id : Nat) : (lineTree (n := n) line m).IdAbsent id := by
  unfold lineTree
  split <;> trivial

theorem file_ids (i : Nat) : RowIdsDistinct (P := fileP n line) 0 (n + 1) i (fun m => .ok (m + 1)) (lineTree line) := by
  refine ⟨fun m _ => ⟨by simp, lineTree_absent _ _⟩, fun m _ hm pid hp => ?_⟩
  rcases hp with hp | hp
  · refine ⟨fun h => hm ?_, lineTree_absent _ _⟩
    have h := hp.trans h.symm
    injection h with h
    omega
  · exact absurd (lineTree_absent _ _) hp

theorem file_available {i k j : Nat} (h : ∀ m, i ≤ m + k → m ≤ i + j → (line m).isSome) :
    RowsAvailable (P := fileP n line) (n + 1) i k j (fun m => .ok (m + 1)) (lineTree line) := by
  intro m _ h1 h2
  refine ⟨⟨_, rfl⟩, ?_⟩
  unfold lineTree
  have := h m h1 h2
  cases hl : line m with
  | none => rw [hl] at this; cases this
  | some s => trivial

/-- C43 applies to every file: printing line `i` with `k` lines above and `j` lines below it is possible as soon as
    these lines are available. -/
example {w i k j : Nat} (hi : i < n + 1) (h : ∀ m, i ≤ m + k → m ≤ i + j → (line m).isSome) {f}
    (hf : printAround (P := fileP n line) none w [i] .start none k j = Exec.ofRes (.error f)) : PrinterFail f := by
  obtain ⟨t, h1, h2⟩ := file_tree (n := n) (line := line)
  exact C43_window (file_law n line) h1 h2 hi (file_ids i) (file_available h) (.inl rfl) hf

example {w i k j : Nat} (hi : i < n + 1) (h : ∀ m, i ≤ m + k → m ≤ i + j → (line m).isSome)
    {M : Methods _ _ _ _ _ _} (hM : M.Extends (P := fileP n line)) :
    aroundView <$> printAround (P := (fileP n line).withMethods M) none w [i] .start none k j =
      aroundView <$> printAround (P := fileP n line) none w [i] .start none k j := by
  obtain ⟨t, h1, h2⟩ := file_tree (n := n) (line := line)
  exact C43_other_rows_irrelevant (file_law n line) h1 h2 hi (file_ids i) (file_available h) (.inl rfl) hM

/-- A million lines, of which all but the first two are missing. -/
example : PrinterFail (P := fileP 999999 fun m => if m < 2 then some "aa" else none) (.err (.prettyDoc ())) → False := by
  rintro (h | h | h | h | ⟨i, h⟩) <;> cases h

example {f} (hf : printAround (P := fileP 999999 fun m => if m < 2 then some "aa" else none) none 80 [0] .start none 5 1 =
    Exec.ofRes (.error f)) : PrinterFail f := by
  obtain ⟨t, h1, h2⟩ := file_tree (n := 999999) (line := fun m => if m < 2 then some "aa" else none)
  exact C43_window (file_law _ _) h1 h2 (by omega) (file_ids 0)
    (file_available fun m _ h => by simp; omega) (.inl rfl) hf

end Ex
end PPP
