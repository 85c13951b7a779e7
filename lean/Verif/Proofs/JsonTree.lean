import Verif.Proofs.Json
/-
The notation trees of JSON documents.
-/
namespace PPP
variable {sw : String → Nat}

/-- Repeat `g`. -/
def iter {α : Type} (x : α) (g : Nat → α → α) : Nat → α
  | 0 => x
  | k + 1 => g k (iter x g k)

theorem fold_tree {P : PrettyDoc} {node : P.Node} {kid : Nat → Ctx P → NTree P} {first join n} {env : Option (FoldEnv P)}
    (hn : P.numChildren node = .ok (some (n + 1))) (hch : ∀ i, i ≤ n → ∃ ch, P.childAt node i = .ok ch)
    (c : Ctx P) (g : Nat → NTree P → NTree P)
    (hg : ∀ acc k, k < n → join.tree node kid (some ⟨acc, k + 1⟩) c = g k (acc c)) :
    (Notation.fold first join).tree node kid env c = iter (first.tree node kid none c) g n := by
  simp only [Notation.tree, hn]
  have key : ∀ k, k ≤ n → (Nat.rec (motive := fun _ => Ctx P → NTree P)
          (fun c => first.tree node kid none c)
          (fun k acc c => .orFail (P.childAt node (k + 1)) fun _ =>
            join.tree node kid (some ⟨acc, k + 1⟩) c)
          k : Ctx P → NTree P) c = iter (first.tree node kid none c) g k := by
    intro k
    induction k with
    | zero => intro _; rfl
    | succ k ih =>
      intro hk
      obtain ⟨ch, hc⟩ := hch (k + 1) hk
      change NTree.orFail (P.childAt node (k + 1)) _ = g k _
      rw [hc]
      change join.tree node kid _ c = _
      rw [hg _ k (by omega), ih (by omega)]
  exact key n (Nat.le_refl _)

theorem child_zero_tree {P : PrettyDoc} {node : P.Node} {kid : Nat → Ctx P → NTree P} {n} {env : Option (FoldEnv P)}
    (hn : P.numChildren node = .ok (some (n + 1))) (c : Ctx P) :
    (Notation.child 0).tree node kid env c = kid 0 c := by
  simp only [Notation.tree, hn, NTree.orFail]
  have : childIndex 0 (n + 1) = some 0 := by simp [childIndex]
  rw [this]

theorem child_one_tree {P : PrettyDoc} {node : P.Node} {kid : Nat → Ctx P → NTree P} {env : Option (FoldEnv P)}
    (hn : P.numChildren node = .ok (some 2)) (c : Ctx P) :
    (Notation.child 1).tree node kid env c = kid 1 c := by
  simp only [Notation.tree, hn, NTree.orFail]
  have : childIndex 1 2 = some 1 := by decide
  rw [this]

theorem count_zero_tree {P : PrettyDoc} {node : P.Node} {kid : Nat → Ctx P → NTree P} {env : Option (FoldEnv P)}
    {z o m : Notation P.Label P.Cond} (hn : P.numChildren node = .ok (some 0)) (c : Ctx P) :
    (Notation.count z o m).tree node kid env c = z.tree node kid env c := by
  simp only [Notation.tree, hn, NTree.orFail]

theorem count_one_tree {P : PrettyDoc} {node : P.Node} {kid : Nat → Ctx P → NTree P} {env : Option (FoldEnv P)}
    {z o m : Notation P.Label P.Cond} (hn : P.numChildren node = .ok (some 1)) (c : Ctx P) :
    (Notation.count z o m).tree node kid env c = o.tree node kid env c := by
  simp only [Notation.tree, hn, NTree.orFail]

theorem count_many_tree {P : PrettyDoc} {node : P.Node} {kid : Nat → Ctx P → NTree P} {env : Option (FoldEnv P)} {n}
    {z o m : Notation P.Label P.Cond} (hn : P.numChildren node = .ok (some (n + 2))) (c : Ctx P) :
    (Notation.count z o m).tree node kid env c = m.tree node kid env c := by
  simp only [Notation.tree, hn, NTree.orFail]

/-! ### Items of arrays and objects -/

/-- An item is a comment (`none`) or has a text.  The position in the text after it. -/
def lexOf : Option (List Char) → Lex
  | none => .comment
  | some _ => .normal

/-- What the tree of an item displays inside of a `Flat`. -/
structure FlatItem {P : PrettyDoc} (C : Prop) (item : Option (List Char)) (t : NTree P) : Prop where
  noFail : t.NoFail
  choiceFree : t.ChoiceFree
  noNl : t.NoNl
  run : DeadEnd t ∨ FStep C false .normal t item.isNone (lexOf item) (item.getD [])

/-- What the tree of an item displays outside of `Flat`. -/
structure OpenItem {P : PrettyDoc} (C : Prop) (item : Option (List Char)) (t : NTree P) : Prop where
  noFail : t.NoFail
  run : Step C false .normal t item.isNone (lexOf item) (item.getD [])

/-- All indentation is blank. -/
def Blank {P : PrettyDoc} (ind : List (Segment P)) : Prop := ∀ c ∈ (segsString ind).toList, c = ' '

/-- The texts of items `0 .. k`, with commas between them. -/
def sText (items : Nat → Option (List Char)) : Nat → List Char
  | 0 => (items 0).getD []
  | k + 1 => sText items k ++ [','] ++ (items (k + 1)).getD []

/-- The texts of items `0 .. k`, with commas after those that need one. -/
def mText (flags : Nat → Bool) (items : Nat → Option (List Char)) : Nat → List Char
  | 0 => (items 0).getD []
  | k + 1 => mText flags items k ++ (if flags k then [','] else []) ++ (items (k + 1)).getD []

variable {P : PrettyDoc} {C : Prop}

/-- Items on one line. -/
theorem single_seq {items : Nat → Option (List Char)} {kids : Nat → NTree P} {x : Textual P}
    (hx : x.str = ", ") (n : Nat) (h : ∀ i, i ≤ n → FlatItem C (items i) (kids i)) :
    let t := iter (kids 0) (fun k acc => .concat (.concat acc (.text x)) (kids (k + 1))) n
    t.NoFail ∧ t.ChoiceFree ∧ t.NoNl ∧ (DeadEnd t ∨ ((∀ j, j < n → (items j).isSome = true) ∧
      FStep C false .normal t (items n).isNone (lexOf (items n)) (sText items n))) := by
  induction n with
  | zero =>
    obtain ⟨h1, h2, h3, h4⟩ := h 0 (Nat.le_refl _)
    refine ⟨h1, h2, h3, ?_⟩
    rcases h4 with h4 | h4
    · exact .inl h4
    · exact .inr ⟨fun j hj => absurd hj (by omega), h4⟩
  | succ n ih =>
    obtain ⟨a1, a2, a3, a4⟩ := ih fun i hi => h i (by omega)
    obtain ⟨h1, h2, h3, h4⟩ := h (n + 1) (Nat.le_refl _)
    refine ⟨⟨⟨a1, trivial⟩, h1⟩, ⟨⟨a2, trivial⟩, h2⟩, ⟨⟨a3, trivial⟩, h3⟩, ?_⟩
    rcases a4 with a4 | ⟨a4, a5⟩
    · exact .inl a4.concat_left.concat_left
    · cases hi : items n with
      | none =>
        rw [hi] at a5
        exact .inl (DeadEnd.concat_left (DeadEnd.concat_text a5))
      | some v =>
        rw [hi] at a5
        have hsep : FStep C false .normal
            (.concat (iter (kids 0) (fun k acc => .concat (.concat acc (.text x)) (kids (k + 1))) n) (.text x))
            false .normal (sText items n ++ [',']) :=
          FStep.concat a5 (FStep.text fun _ => by rw [hx]; rfl)
        rcases h4 with h4 | h4
        · exact .inl (DeadEnd.concat_right hsep rfl rfl h4)
        · refine .inr ⟨?_, hsep.concat h4⟩
          intro j hj
          rcases Nat.lt_succ_iff_lt_or_eq.1 hj with hj | rfl
          · exact a4 j hj
          · simp [hi]

/-- Reading a line break and blank indentation. -/
theorem lex_newline {s : Lex} (hs : s = .normal ∨ s = .comment) {ind : List (Segment P)} (h : Blank ind) :
    lexRun s ('\n' :: (segsString ind).toList) = ([], .normal) := by
  have key : ∀ l : List Char, (∀ c ∈ l, c = ' ') → lexRun .normal l = ([], .normal) := by
    intro l
    induction l with
    | nil => intro _; rfl
    | cons c l ih =>
      intro h
      have hc := h c (by simp)
      subst hc
      simp only [lexRun]
      rw [show lexStep .normal ' ' = ([], .normal) from rfl, ih fun c hc => h c (by simp [hc])]
      rfl
  simp only [lexRun]
  have : lexStep s '\n' = ([], .normal) := by rcases hs with rfl | rfl <;> rfl
  rw [this, key _ h]
  rfl

theorem lexOf_cases (i : Option (List Char)) : lexOf i = .normal ∨ lexOf i = .comment := by
  cases i
  · exact .inr rfl
  · exact .inl rfl

/-- Items on several lines. -/
theorem multi_seq {flags : Nat → Bool} {items : Nat → Option (List Char)} {kids : Nat → NTree P} {x : Textual P}
    (hx : x.str = ",") {ind : List (Segment P)} (hb : Blank ind) (n : Nat)
    (h : ∀ i, i ≤ n → OpenItem C (items i) (kids i))
    (hflags : ∀ i, i < n → flags i = true → (items i).isSome = true) :
    let t := iter (kids 0) (fun k acc => .concat (.concat (.concat acc
      (if flags k then .text x else .empty)) (.newline ind)) (kids (k + 1))) n
    t.NoFail ∧ Step C false .normal t (items n).isNone (lexOf (items n)) (mText flags items n) := by
  induction n with
  | zero =>
    obtain ⟨h1, h2⟩ := h 0 (Nat.le_refl _)
    exact ⟨h1, h2⟩
  | succ n ih =>
    obtain ⟨a1, a2⟩ := ih (fun i hi => h i (by omega)) (fun i hi => hflags i (by omega))
    obtain ⟨h1, h2⟩ := h (n + 1) (Nat.le_refl _)
    constructor
    · refine ⟨⟨⟨a1, ?_⟩, trivial⟩, h1⟩
      split <;> trivial
    · refine Step.concat ?_ h2
      rw [show mText flags items n ++ (if flags n then [','] else []) =
        (mText flags items n ++ (if flags n then [','] else [])) ++ [] by simp]
      refine Step.concat (e1 := (items n).isNone) (s1 := lexOf (items n)) (Step.concat a2 ?_)
        (FStep.newline fun _ => lex_newline (lexOf_cases _) hb).step
      cases hf : flags n with
      | false => exact FStep.empty.step
      | true =>
        have := hflags n (by omega) hf
        obtain ⟨v, hv⟩ := Option.isSome_iff_exists.1 this
        rw [hv]
        exact (FStep.text fun _ => by rw [hx]; rfl).step

/-- Commas after those items that need one, or between all of them. -/
theorem mText_eq_sText {flags : Nat → Bool} {items : Nat → Option (List Char)} (n : Nat)
    (h : ∀ j, j < n → flags j = true) : mText flags items n = sText items n := by
  induction n with
  | zero => rfl
  | succ n ih =>
    simp only [mText, sText]
    rw [ih fun j hj => h j (by omega), h n (by omega)]
    simp

/-- A bracketed list of items. -/
theorem bracketed {flags : Nat → Bool} {items : Nat → Option (List Char)} {x c1 o1 o2 c2 y : Textual P}
    {l r : Char} (hl : lexStep .normal l = ([l], .normal)) (hr : lexStep .normal r = ([r], .normal))
    (hx : x.str = ", ") (hy : y.str = ",")
    (ho1 : o1.str = String.ofList [l]) (ho2 : o2.str = String.ofList [l])
    (hc1 : c1.str = String.ofList [r]) (hc2 : c2.str = String.ofList [r])
    {ind ind' : List (Segment P)} (hb : Blank ind) (hb' : Blank ind') (n : Nat) {flatKids kids : Nat → NTree P}
    (hf : ∀ i, i ≤ n → FlatItem C (items i) (flatKids i)) (ho : ∀ i, i ≤ n → OpenItem C (items i) (kids i))
    (hflags : ∀ i, i ≤ n → (flags i = true ↔ (items i).isSome = true ∧ ∃ j, i < j ∧ j ≤ n ∧ (items j).isSome = true)) :
    FlatItem C (some (l :: mText flags items n ++ [r]))
      (.concat (.concat (.text o1) (iter (flatKids 0)
        (fun k acc => .concat (.concat acc (.text x)) (flatKids (k + 1))) n)) (.text c1)) ∧
    OpenItem C (some (l :: mText flags items n ++ [r])) (.choice
      (.concat (.concat (.text o1) (iter (flatKids 0)
        (fun k acc => .concat (.concat acc (.text x)) (flatKids (k + 1))) n)) (.text c1))
      (.concat (.concat (.concat (.text o2) (.concat (.newline ind') (iter (kids 0)
        (fun k acc => .concat (.concat (.concat acc
          (if flags k then .text y else .empty)) (.newline ind')) (kids (k + 1))) n))) (.newline ind)) (.text c2))) := by
  obtain ⟨a1, a2, a3, a4⟩ := single_seq (C := C) (x := x) hx n hf
  obtain ⟨b1, b2⟩ := multi_seq (C := C) (x := y) hy hb' n ho fun i hi h => ((hflags i (by omega)).1 h).1
  have open1 : ∀ {o : Textual P}, o.str = String.ofList [l] → FStep C false .normal (.text o) false .normal [l] := by
    intro o h
    refine FStep.text fun _ => ?_
    rw [h]
    simp [lexRun, hl]
  have close1 : ∀ {o : Textual P}, o.str = String.ofList [r] → FStep C false .normal (.text o) false .normal [r] := by
    intro o h
    refine FStep.text fun _ => ?_
    rw [h]
    simp [lexRun, hr]
  have hflat : FlatItem C (some (l :: mText flags items n ++ [r]))
      (.concat (.concat (.text o1) (iter (flatKids 0)
        (fun k acc => .concat (.concat acc (.text x)) (flatKids (k + 1))) n)) (.text c1)) := by
    refine ⟨⟨⟨trivial, a1⟩, trivial⟩, ⟨⟨trivial, a2⟩, trivial⟩, ⟨⟨trivial, a3⟩, trivial⟩, ?_⟩
    rcases a4 with a4 | ⟨a4, a5⟩
    · exact .inl (DeadEnd.concat_left (DeadEnd.concat_right (open1 ho1) rfl rfl a4))
    · cases hi : items n with
      | none =>
        rw [hi] at a5
        exact .inl (DeadEnd.concat_text ((open1 ho1).concat a5))
      | some v =>
        right
        rw [hi] at a5
        have hm : mText flags items n = sText items n := by
          apply mText_eq_sText
          intro j hj
          exact (hflags j (by omega)).2 ⟨a4 j hj, n, hj, Nat.le_refl _, by simp [hi]⟩
        rw [hm]
        exact ((open1 ho1).concat a5).concat (close1 hc1)
  refine ⟨hflat, ⟨⟨hflat.noFail, ⟨⟨trivial, trivial, b1⟩, trivial⟩, trivial⟩, ?_⟩⟩
  refine Step.choice_flat hflat.choiceFree hflat.noNl hflat.run ?_
  have h1 := (FStep.newline (C := C) (e0 := false) fun _ => lex_newline (P := P) (.inl rfl) hb').step.concat b2
  have h2 := ((open1 ho2).step.concat h1).concat
    (FStep.newline (C := C) (ind := ind) fun _ => lex_newline (lexOf_cases (items n)) hb).step
  have h3 := h2.concat (close1 hc2).step
  simpa [lexOf] using h3

/-- What the commas add up to. -/
theorem mText_list (its : List (Option (List Char))) : ∀ (flags : Nat → Bool) (n : Nat), its.length = n + 1 →
    (∀ i, i ≤ n → (flags i = true ↔ (its[i]?.join).isSome = true ∧
      ∃ j, i < j ∧ j ≤ n ∧ (its[j]?.join).isSome = true)) →
    mText flags (fun i => its[i]?.join) n = List.intercalate [','] (its.filterMap fun x => x) := by
  -- all items, each followed by a comma if it needs one
  have flat : ∀ (its : List (Option (List Char))) (flags : Nat → Bool),
      (∀ i, i < its.length → (flags i = true ↔ (its[i]?.join).isSome = true ∧
        ∃ j, i < j ∧ j < its.length ∧ (its[j]?.join).isSome = true)) →
      ((List.range its.length).flatMap fun i => (its[i]?.join).getD [] ++ (if flags i then [','] else [])) =
        List.intercalate [','] (its.filterMap fun x => x) := by
    intro its
    induction its with
    | nil => intro flags _; rfl
    | cons x its ih =>
      intro flags h
      have ih' := ih (fun i => flags (i + 1)) (by
        intro i hi
        rw [h (i + 1) (by simpa using hi)]
        simp only [List.getElem?_cons_succ]
        refine and_congr_right fun _ => ?_
        constructor
        · rintro ⟨j, h1, h2, h3⟩
          obtain ⟨j, rfl⟩ : ∃ k, j = k + 1 := ⟨j - 1, by omega⟩
          exact ⟨j, by omega, by simpa using h2, by simpa using h3⟩
        · rintro ⟨j, h1, h2, h3⟩
          exact ⟨j + 1, by omega, by simpa using h2, by simpa using h3⟩)
      have h0 := h 0 (by simp)
      rw [List.length_cons, List.range_succ_eq_map, List.flatMap_cons, List.flatMap_map]
      simp only [List.getElem?_cons_succ]
      rw [ih']
      cases x with
      | none =>
        have : flags 0 = false := by
          cases hf : flags 0 with
          | false => rfl
          | true => simp [hf] at h0
        simp [this]
      | some v =>
        have hlater : (∃ j, 0 < j ∧ j < (some v :: its).length ∧ ((some v :: its)[j]?.join).isSome = true) ↔
            its.filterMap (fun x => x) ≠ [] := by
          constructor
          · rintro ⟨j, h1, h2, h3⟩
            obtain ⟨j, rfl⟩ : ∃ k, j = k + 1 := ⟨j - 1, by omega⟩
            simp only [List.getElem?_cons_succ] at h3
            intro he
            have := List.filterMap_eq_nil_iff.1 he
            cases hj : its[j]? with
            | none => rw [hj] at h3; simp at h3
            | some y =>
              have := this y (List.mem_of_getElem? hj)
              rw [hj, this] at h3
              simp at h3
          · intro he
            obtain ⟨y, hy⟩ := List.exists_mem_of_ne_nil _ he
            obtain ⟨z, hz, hzy⟩ := List.mem_filterMap.1 hy
            obtain ⟨j, hj⟩ := List.mem_iff_getElem?.1 hz
            have hlt : j < its.length := (List.getElem?_eq_some_iff.1 hj).1
            refine ⟨j + 1, by omega, by simpa using hlt, ?_⟩
            simp [hj, hzy]
        rw [hlater] at h0
        cases hv : its.filterMap (fun x => x) with
        | nil =>
          have : flags 0 = false := by
            cases hf : flags 0 with
            | false => rfl
            | true => rw [hv] at h0; simp [hf] at h0
          simp [this, hv]
        | cons y ys =>
          have : flags 0 = true := by rw [hv] at h0; simp at h0; exact h0
          simp [this, hv, List.intercalate]
  intro flags n hn h
  rw [← flat its flags (by
    intro i hi
    rw [h i (by omega)]
    refine and_congr_right fun _ => ?_
    constructor
    · rintro ⟨j, h1, h2, h3⟩; exact ⟨j, h1, by omega, h3⟩
    · rintro ⟨j, h1, h2, h3⟩; exact ⟨j, h1, by omega, h3⟩)]
  have key : ∀ k, mText flags (fun i => its[i]?.join) k ++ (if flags k then [','] else []) =
      (List.range (k + 1)).flatMap fun i => (its[i]?.join).getD [] ++ (if flags i then [','] else []) := by
    intro k
    induction k with
    | zero => simp [mText]
    | succ k ih =>
      rw [List.range_succ, List.flatMap_append, ← ih]
      simp [mText, List.append_assoc]
  have hlast : flags n = false := by
    cases hf : flags n with
    | false => rfl
    | true =>
      obtain ⟨_, j, h1, h2, _⟩ := (h n (Nat.le_refl _)).1 hf
      omega
  rw [hn, ← key n, hlast]
  simp

end PPP
