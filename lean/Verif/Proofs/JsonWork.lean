import Verif.Proofs.JsonMain
import Verif.Proofs.WorkShape
import Verif.Spec.JsonWork
/-
How much work it is to print a JSON document.
-/
namespace PPP

/-! ### Shapes without choices -/

/-- No choices, and at most `m` levels of indentation. -/
def Shape.Straight (m : Nat) : Shape → Prop
  | .leaf => True
  | .newline l => l ≤ m
  | .text _ => True
  | .concat a b => a.Straight m ∧ b.Straight m
  | .choice _ _ => False
  | .child t => t.Straight m
  | .step t => t.Straight m

/-- How many constructs there are. -/
def Shape.nodes : Shape → Nat
  | .leaf => 1
  | .newline _ => 1
  | .text _ => 1
  | .concat a b => 1 + a.nodes + b.nodes
  | .choice a b => 1 + a.nodes + b.nodes
  | .child t => 1 + t.nodes
  | .step t => 1 + t.nodes

theorem Shape.nodes_ahead (s : Shape) (h : Nat → Nat) (H : Nat) (hH : ∀ r, h r ≤ H) (r : Nat) :
    s.ahead h r + s.steps ≤ 2 * s.nodes + H := by
  induction s generalizing h H r with
  | leaf => have := hH r; simp only [Shape.ahead, Shape.steps, Shape.nodes]; omega
  | newline => simp only [Shape.ahead, Shape.steps, Shape.nodes]; omega
  | text w =>
    have := hH (r - w)
    simp only [Shape.ahead, Shape.steps, Shape.nodes]; split <;> omega
  | concat a b iha ihb =>
    have := iha (b.ahead h) (2 * b.nodes + H - b.steps) (fun r => by have := ihb h H hH r; omega) r
    have := a.steps_pos
    have := ihb h H hH 0
    simp only [Shape.ahead, Shape.steps, Shape.nodes]; omega
  | choice a b iha ihb =>
    have := ihb h H hH r
    have := b.steps_pos
    simp only [Shape.ahead, Shape.steps, Shape.nodes]; omega
  | child t ih =>
    have := ih h H hH r
    have := t.steps_pos
    simp only [Shape.ahead, Shape.steps, Shape.nodes]; omega
  | step t ih =>
    have := ih h H hH r
    simp only [Shape.ahead, Shape.steps, Shape.nodes]; omega

theorem Shape.Straight.work {s : Shape} {m : Nat} (hs : s.Straight m) (w : Nat) (h : Nat → Nat) :
    s.work w h ≤ s.nodes * (1 + m) := by
  induction s generalizing h with
  | leaf => simp only [Shape.work, Shape.nodes]; omega
  | newline l => have : l ≤ m := hs; simp only [Shape.work, Shape.nodes]; omega
  | text => simp only [Shape.work, Shape.nodes]; omega
  | concat a b iha ihb =>
    have h1 := iha hs.1 (b.ahead h)
    have h2 := ihb hs.2 h
    simp only [Shape.work, Shape.nodes, Nat.add_mul]
    omega
  | choice => exact hs.elim
  | child t ih =>
    have h1 := ih hs h
    simp only [Shape.work, Shape.nodes, Nat.add_mul (1 : Nat) t.nodes]
    omega
  | step t ih =>
    have h1 := ih hs h
    simp only [Shape.work, Shape.nodes, Nat.add_mul (1 : Nat) t.nodes]
    omega

theorem Shape.Straight.mono {t : Shape} {m : Nat} (h : t.Straight 0) : t.Straight m := by
  induction t with
  | newline l => exact Nat.le_trans (show l ≤ 0 from h) (Nat.zero_le _)
  | concat a b iha ihb => exact ⟨iha h.1, ihb h.2⟩
  | choice => exact h.elim
  | child t ih => exact ih h
  | step t ih => exact ih h
  | _ => trivial

/-! ### Cheap shapes -/

/-- A document of `s` nodes and depth `d`, as a function of whether it is inside a `Flat` and of the
    levels of indentation. -/
structure Cheap (k : Nat) (σ : Bool → Nat → Shape) (s d : Nat) : Prop where
  flat (m : Nat) : (σ true m).Straight m ∧ (σ true m).nodes + k ≤ 20 * s
  work (m w : Nat) (h : Nat → Nat) (hh : ∀ r, h r ≤ 10) :
    (σ false m).work w h + m + k ≤ 64 * (s * (1 + 2 * d + m))

theorem Cheap.child {σ : Bool → Nat → Shape} {s d} (h : Cheap 10 σ s d) :
    Cheap 9 (fun fl m => .child (σ fl m)) s d := by
  constructor
  · intro m
    have := h.flat m
    exact ⟨this.1, by simp only [Shape.nodes]; omega⟩
  · intro m w g hg
    have := h.work m w g hg
    simp only [Shape.work]; omega

theorem Cheap.mono {k : Nat} {σ : Bool → Nat → Shape} {s d d'} (h : Cheap k σ s d) (hd : d ≤ d') : Cheap k σ s d' := by
  refine ⟨h.flat, fun m w g hg => Nat.le_trans (h.work m w g hg) ?_⟩
  exact Nat.mul_le_mul_left _ (Nat.mul_le_mul_left _ (by omega))

/-- The same notation, inside and outside of a `Flat`, without choices and line breaks. -/
theorem Cheap.straight {σ : Bool → Nat → Shape} {s d} (h : ∀ fl m, (σ fl m).Straight 0 ∧ (σ fl m).nodes + 10 ≤ 20 * s) :
    Cheap 10 σ s d := by
  refine ⟨fun m => ⟨(h true m).1.mono, (h true m).2⟩, fun m w g _ => ?_⟩
  have h1 := (h false m).1.work w g
  have h2 := (h false m).2
  have : s * (1 + m) ≤ s * (1 + 2 * d + m) := Nat.mul_le_mul_left _ (by omega)
  have : s * (1 + m) = s + s * m := by rw [Nat.mul_add, Nat.mul_one]
  have : 1 * m ≤ s * m := Nat.mul_le_mul_right _ (by omega)
  omega

/-! ### Folds -/

/-- `s 0 + ... + s k`. -/
def upto (s : Nat → Nat) : Nat → Nat := iter (s 0) fun k a => a + s (k + 1)

theorem fold_shape {P : PrettyDoc} {node : P.Node} {kid : Nat → Bool → Nat → Shape} {first join n}
    {env : Option ShapeEnv}
    (hn : P.numChildren node = .ok (some (n + 1))) (hch : ∀ i, i ≤ n → ∃ ch, P.childAt node i = .ok ch)
    (fl : Bool) (m : Nat) (g : Nat → Shape → Shape)
    (hg : ∀ acc k, k < n → join.shape node kid (some ⟨acc, k + 1⟩) fl m = g k (acc fl m)) :
    (Notation.fold first join).shape node kid env fl m = .step (iter (first.shape node kid none fl m) g n) := by
  simp only [Notation.shape, hn]
  have key : ∀ k, k ≤ n → (Nat.rec (motive := fun _ => Bool → Nat → Shape)
          (fun fl m => first.shape node kid none fl m)
          (fun k acc fl m => .orLeaf (P.childAt node (k + 1)) fun _ =>
            join.shape node kid (some ⟨acc, k + 1⟩) fl m)
          k : Bool → Nat → Shape) fl m = iter (first.shape node kid none fl m) g k := by
    intro k
    induction k with
    | zero => intro _; rfl
    | succ k ih =>
      intro hk
      obtain ⟨ch, hc⟩ := hch (k + 1) hk
      change Shape.orLeaf (P.childAt node (k + 1)) _ = g k _
      rw [hc]
      change join.shape node kid _ fl m = _
      rw [hg _ k (by omega), ih (by omega)]
  exact congrArg Shape.step (key n (Nat.le_refl _))

theorem child_zero_shape {P : PrettyDoc} {node : P.Node} {kid : Nat → Bool → Nat → Shape} {n} {env : Option ShapeEnv}
    (hn : P.numChildren node = .ok (some (n + 1))) (fl : Bool) (m : Nat) :
    (Notation.child 0).shape node kid env fl m = kid 0 fl m := by
  simp only [Notation.shape, hn, Shape.orLeaf]
  have : childIndex 0 (n + 1) = some 0 := by simp [childIndex]
  rw [this]

theorem child_one_shape {P : PrettyDoc} {node : P.Node} {kid : Nat → Bool → Nat → Shape} {env : Option ShapeEnv}
    (hn : P.numChildren node = .ok (some 2)) (fl : Bool) (m : Nat) :
    (Notation.child 1).shape node kid env fl m = kid 1 fl m := by
  simp only [Notation.shape, hn, Shape.orLeaf]
  have : childIndex 1 2 = some 1 := by decide
  rw [this]

/-- Items on one line, or one per line, inside of a `Flat`. -/
theorem flat_seq {kids : Nat → Shape} {g : Nat → Shape → Shape} {s : Nat → Nat} {first : Shape} {m : Nat} (n : Nat)
    (hf : first.Straight m ∧ first.nodes ≤ (kids 0).nodes + 9)
    (hg : ∀ k a, k < n → a.Straight m → (kids (k + 1)).Straight m →
      (g k a).Straight m ∧ (g k a).nodes ≤ a.nodes + (kids (k + 1)).nodes + 9)
    (h : ∀ i, i ≤ n → (kids i).Straight m ∧ (kids i).nodes + 9 ≤ 20 * s i) :
    (iter first g n).Straight m ∧ (iter first g n).nodes ≤ 20 * upto s n := by
  induction n with
  | zero =>
    have := h 0 (Nat.le_refl _)
    exact ⟨hf.1, by simp only [iter, upto]; omega⟩
  | succ n ih =>
    obtain ⟨h1, h2⟩ := ih (fun k a hk => hg k a (by omega)) (fun i hi => h i (by omega))
    obtain ⟨h3, h4⟩ := h (n + 1) (Nat.le_refl _)
    obtain ⟨h5, h6⟩ := hg n _ (by omega) h1 h3
    refine ⟨h5, ?_⟩
    have : upto s (n + 1) = upto s n + s (n + 1) := rfl
    simp only [iter]
    omega

/-- Items one per line. -/
theorem open_seq {kids : Nat → Shape} {g : Nat → Shape → Shape} {s : Nat → Nat} {K B : Nat} (H w n : Nat)
    (hg : ∀ k a h, k < n → (∀ r, h r ≤ H) → ∃ h', (∀ r, h' r ≤ H) ∧
      (g k a).work w h ≤ a.work w h' + (kids (k + 1)).work w h + K)
    (hk : ∀ i, i ≤ n → ∀ h : Nat → Nat, (∀ r, h r ≤ H) → (kids i).work w h + K ≤ 64 * (s i * B)) :
    ∀ h : Nat → Nat, (∀ r, h r ≤ H) → (iter (kids 0) g n).work w h + K ≤ 64 * (upto s n * B) := by
  induction n with
  | zero => exact hk 0 (Nat.le_refl _)
  | succ n ih =>
    intro h hh
    obtain ⟨h', hh', h1⟩ := hg n (iter (kids 0) g n) h (by omega) hh
    have h2 := ih (fun k a h hk => hg k a h (by omega)) (fun i hi => hk i (by omega)) h' hh'
    have h3 := hk (n + 1) (Nat.le_refl _) h hh
    have : upto s (n + 1) * B = upto s n * B + s (n + 1) * B := Nat.add_mul _ _ _
    simp only [iter]
    omega


/-! ### Arrays and objects -/

/-- A bracketed list of items. -/
theorem bracket_cheap {kid : Nat → Bool → Nat → Shape} {flags : Nat → Bool} {s : Nat → Nat} {d n : Nat}
    {x o1 c1 o2 c2 y : Nat} {σ : Bool → Nat → Shape}
    (hk : ∀ i, i ≤ n → Cheap 9 (kid i) (s i) d)
    (single : Nat → Shape) (hsingle : ∀ m, single m = .step (iter (.step (kid 0 true m))
      (fun k acc => .concat (.concat (.step acc) (.text x)) (.step (kid (k + 1) true m))) n))
    (multi : Nat → Shape) (hmulti : ∀ m, multi m = .step (iter (kid 0 false m)
      (fun k acc => .concat (.concat (.concat (.step acc)
          (.step (if flags k then .text y else .leaf))) (.newline m)) (kid (k + 1) false m)) n))
    (hflat : ∀ m, σ true m = .step (.step (.concat (.concat (.step (.text o1)) (single m)) (.step (.text c1)))))
    (hopen : ∀ m, σ false m = .step (.choice (.concat (.concat (.step (.text o1)) (single m)) (.step (.text c1)))
      (.concat (.concat (.concat (.step (.text o2)) (.step (.concat (.newline (m + 1)) (multi (m + 1))))) (.newline m))
        (.step (.text c2))))) :
    Cheap 10 σ (1 + upto s n) (1 + d) := by
  have hs : ∀ m, (single m).Straight m ∧ (single m).nodes ≤ 1 + 20 * upto s n := by
    intro m
    rw [hsingle]
    have := flat_seq (kids := fun i => kid i true m) (s := s) (m := m) (first := .step (kid 0 true m))
      (g := fun k acc => .concat (.concat (.step acc) (.text x)) (.step (kid (k + 1) true m))) n
      ⟨((hk 0 (Nat.zero_le _)).flat m).1, by simp only [Shape.nodes]; omega⟩
      (fun k a _ h1 h2 => ⟨⟨⟨h1, trivial⟩, h2⟩, by simp only [Shape.nodes]; omega⟩)
      (fun i hi => (hk i hi).flat m)
    exact ⟨this.1, by simp only [Shape.nodes]; omega⟩
  have hm : ∀ m w (h : Nat → Nat), (∀ r, h r ≤ 10) →
      (multi m).work w h + m + 8 ≤ 64 * (upto s n * (1 + 2 * d + m)) := by
    intro m w h hh
    rw [hmulti]
    have := open_seq (kids := fun i => kid i false m) (s := s) (K := m + 9) (B := 1 + 2 * d + m)
      (g := fun k acc => .concat (.concat (.concat (.step acc)
          (.step (if flags k then .text y else .leaf))) (.newline m)) (kid (k + 1) false m)) 10 w n
      (by
        intro k a h _ hh
        simp only [Shape.work]
        refine ⟨Shape.ahead (.step (if flags k then .text y else .leaf)) (Shape.ahead (.newline m)
          (Shape.ahead (kid (k + 1) false m) h)), ?_, ?_⟩
        rotate_left
        · have : (if flags k then Shape.text y else Shape.leaf).work w (Shape.ahead (.newline m)
            (Shape.ahead (kid (k + 1) false m) h)) = 1 := by split <;> rfl
          rw [this]
          omega
        · intro r
          split
          · simp only [Shape.ahead]; split <;> omega
          · simp only [Shape.ahead]; omega)
      (fun i hi h hh => by have := (hk i hi).work m w h hh; omega) h hh
    simp only [Shape.work]
    omega
  constructor
  · intro m
    rw [hflat]
    exact ⟨⟨⟨trivial, (hs m).1⟩, trivial⟩, by have := (hs m).2; simp only [Shape.nodes]; omega⟩
  · intro m w h hh
    rw [hopen]
    let F : Shape := .concat (.concat (.step (.text o1)) (single m)) (.step (.text c1))
    have hF : F.Straight m ∧ F.nodes ≤ 7 + 20 * upto s n :=
      ⟨⟨⟨trivial, (hs m).1⟩, trivial⟩, by have := (hs m).2; simp only [F, Shape.nodes]; omega⟩
    have ha := F.nodes_ahead h 10 hh w
    have hw := hF.1.work w h
    have hsucc := hm (m + 1) w (Shape.ahead (.newline m) (Shape.ahead (.step (.text c2)) h)) (fun r => by
      simp only [Shape.ahead]; omega)
    change (Shape.step (.choice F _)).work w h + m + 10 ≤ _
    simp only [Shape.work]
    have e1 : upto s n * (1 + 2 * d + (m + 1)) = upto s n * (2 + 2 * d) + upto s n * m := by
      rw [← Nat.mul_add]; congr 1; omega
    have e2 : (1 + upto s n) * (1 + 2 * (1 + d) + m) =
        3 + 2 * d + m + (upto s n * (2 + 2 * d) + upto s n + upto s n * m) := by
      rw [Nat.add_mul, Nat.one_mul]
      have : upto s n * (1 + 2 * (1 + d) + m) = upto s n * (2 + 2 * d) + upto s n * 1 + upto s n * m := by
        rw [← Nat.mul_add, ← Nat.mul_add]; congr 1; omega
      rw [this, Nat.mul_one]
      omega
    have e3 : F.nodes * (1 + m) ≤ (7 + 20 * upto s n) * (1 + m) := Nat.mul_le_mul_right _ hF.2
    have e4 : (7 + 20 * upto s n) * (1 + m) = 7 + 20 * upto s n + 7 * m + 20 * (upto s n * m) := by
      rw [Nat.mul_add, Nat.mul_one, Nat.add_mul, Nat.mul_assoc]; omega
    have := F.steps_pos
    rw [e2]
    rw [e1] at hsucc
    omega

/-! ### JSON documents -/

variable {sw : String → Nat}

theorem kid_cheap {node ch : Tree BasicStyle} {i s d : Nat} (hc : (basicDoc sw).childAt node i = .ok ch)
    (h : Cheap 10 (docShape (basicLaw sw) ch) s d) : Cheap 9 (kidShape (basicLaw sw) node i) s d := by
  have : kidShape (basicLaw sw) node i = fun fl m => .child (docShape (basicLaw sw) ch fl m) := by
    funext fl m
    unfold kidShape
    rw [hc]
  rw [this]
  exact h.child

theorem tree_shape (t : Tree BasicStyle) : docShape (basicLaw sw) t =
    fun fl m => t.notn.1.shape (P := basicDoc sw) t (kidShape (basicLaw sw) t) none fl m := by
  funext fl m
  exact docShape_of (basicLaw sw) (a := t.notn.1) (s := t.nodeStyle) rfl rfl fl m

theorem count_shape {P : PrettyDoc} {node : P.Node} {kid : Nat → Bool → Nat → Shape} {env : Option ShapeEnv} {n}
    {z o : Notation P.Label P.Cond} (hn : P.numChildren node = .ok (some (n + 1))) {fl : Bool} {m : Nat} :
    (Notation.count z o o).shape node kid env fl m = .step (o.shape node kid env fl m) := by
  simp only [Notation.shape, hn, Shape.orLeaf]
  cases n <;> rfl

theorem count_zero_shape {P : PrettyDoc} {node : P.Node} {kid : Nat → Bool → Nat → Shape} {env : Option ShapeEnv}
    {z o y : Notation P.Label P.Cond} (hn : P.numChildren node = .ok (some 0)) {fl : Bool} {m : Nat} :
    (Notation.count z o y).shape node kid env fl m = .step (z.shape node kid env fl m) := by
  simp only [Notation.shape, hn, Shape.orLeaf]

theorem count_one_shape {P : PrettyDoc} {node : P.Node} {kid : Nat → Bool → Nat → Shape} {env : Option ShapeEnv}
    {z o y : Notation P.Label P.Cond} (hn : P.numChildren node = .ok (some 1)) {fl : Bool} {m : Nat} :
    (Notation.count z o y).shape node kid env fl m = .step (o.shape node kid env fl m) := by
  simp only [Notation.shape, hn, Shape.orLeaf]

theorem upto_cons (s : Nat → Nat) (n : Nat) : upto s (n + 1) = s 0 + upto (fun i => s (i + 1)) n := by
  induction n with
  | zero => rfl
  | succ n ih =>
    have h1 : upto s (n + 1 + 1) = upto s (n + 1) + s (n + 1 + 1) := rfl
    have h2 : upto (fun i => s (i + 1)) (n + 1) = upto (fun i => s (i + 1)) n + s (n + 1 + 1) := rfl
    omega

theorem upto_sizes (es : List Json) : ∀ n, es.length = n + 1 →
    upto (fun i => (es[i]?.map Json.size).getD 0) n = Json.sizes es := by
  induction es with
  | nil => intro n h; simp at h
  | cons e es ih =>
    intro n h
    cases n with
    | zero =>
      have : es = [] := by
        cases es with
        | nil => rfl
        | cons => simp at h
      subst this
      simp [upto, iter, Json.sizes]
    | succ n =>
      rw [upto_cons]
      have := ih n (by simpa using h)
      simp only [List.getElem?_cons_succ, List.getElem?_cons_zero, Option.map_some, Option.getD_some]
      rw [this]
      rfl

theorem depth_le {es : List Json} {e : Json} (h : e ∈ es) : e.depth ≤ Json.depths es := by
  induction es with
  | nil => simp at h
  | cons x es ih =>
    simp only [Json.depths]
    rcases List.mem_cons.1 h with rfl | h
    · exact Nat.le_max_left _ _
    · exact Nat.le_trans (ih h) (Nat.le_max_right _ _)

/-- The items of an array, an object or a file. -/
theorem items_cheap {es : List Json} {id : Nat} {notn : TreeNotation} {st o c y} {n : Nat} (hn : es.length = n + 1)
    (h : ∀ e ∈ es, ∀ t : Tree BasicStyle, t.setNeedsSeparator = e.build.setNeedsSeparator →
      Cheap 10 (docShape (basicLaw sw) t) e.size e.depth) :
    let node : Tree BasicStyle := .branch (markSeparators (Json.builds es)).1 id notn st o c y
    (basicDoc sw).numChildren node = .ok (some (n + 1)) ∧
    (∀ i, i ≤ n → ∃ ch, (basicDoc sw).childAt node i = .ok ch) ∧
    (∀ i, i ≤ n → Cheap 9 (kidShape (basicLaw sw) node i) ((es[i]?.map Json.size).getD 0) (Json.depths es)) := by
  intro node
  have hget : ∀ i, i ≤ n → ∃ (hi : i < es.length) (ch : Tree BasicStyle),
      ch.setNeedsSeparator = es[i].build.setNeedsSeparator ∧ (basicDoc sw).childAt node i = .ok ch := by
    intro i hi
    have hlt : i < es.length := by omega
    have hget : (Json.builds es)[i]? = some (es[i].build) := by
      rw [builds_eq, List.getElem?_map, List.getElem?_eq_getElem hlt]; rfl
    have hm := markSeparators_get _ i _ hget
    refine ⟨hlt, _, ?_, basic_childAt hm⟩
    split
    · cases es[i].build <;> rfl
    · rfl
  refine ⟨?_, fun i hi => ?_, fun i hi => ?_⟩
  · simp [node, Tree.children?, markSeparators_length, builds_eq, hn]
  · obtain ⟨_, ch, _, h2⟩ := hget i hi
    exact ⟨ch, h2⟩
  · obtain ⟨hlt, ch, h1, h2⟩ := hget i hi
    rw [List.getElem?_eq_getElem hlt]
    exact kid_cheap h2 ((h es[i] (List.getElem_mem hlt) ch h1).mono (depth_le (List.getElem_mem hlt)))

theorem bracketBody_shape {l r : Char} {node : Tree BasicStyle} {n : Nat} {kid : Nat → Bool → Nat → Shape}
    (hnum : (basicDoc sw).numChildren node = .ok (some (n + 1)))
    (hch : ∀ i, i ≤ n → ∃ ch, (basicDoc sw).childAt node i = .ok ch) {s : Nat → Nat} {d : Nat}
    (hk : ∀ i, i ≤ n → Cheap 9 (kid i) (s i) d) :
    Cheap 10 (fun fl m => .step ((bracketBody l r).shape (P := basicDoc sw) node kid none fl m)) (1 + upto s n) (1 + d) := by
  let flags : Nat → Bool := fun i => match (basicDoc sw).childAt node i with
    | .ok ch => ch.needsSeparator
    | .error _ => false
  have hsingle : ∀ fl m, jsonSingleSeq.shape (P := basicDoc sw) node kid none fl m =
      .step (iter (.step (kid 0 true m))
        (fun k acc => .concat (.concat (.step acc) (.text (sw ", "))) (.step (kid (k + 1) true m))) n) := by
    intro fl m
    have := fold_shape (P := basicDoc sw) (kid := kid) (first := .flat (.child 0))
      (join := .left + .literal ", " + .flat .right) (env := none) hnum hch fl m
      (fun k acc => .concat (.concat (.step acc) (.text (sw ", "))) (.step (kid (k + 1) true m)))
      (fun acc k _ => rfl)
    refine this.trans ?_
    congr 2
    exact congrArg Shape.step (child_zero_shape (P := basicDoc sw) (env := none) hnum _ _)
  have hmulti : ∀ m, jsonMultiFold.shape (P := basicDoc sw) node kid none false m =
      .step (iter (kid 0 false m)
        (fun k acc => .concat (.concat (.concat (.step acc)
          (.step (if flags k then .text (sw ",") else .leaf))) (.newline m)) (kid (k + 1) false m)) n) := by
    intro m
    have := fold_shape (P := basicDoc sw) (kid := kid) (first := .child 0)
      (join := (.left + jsonSeparator) ^^^ .right) (env := none) hnum hch false m
      (fun k acc => .concat (.concat (.concat (.step acc)
          (.step (if flags k then .text (sw ",") else .leaf))) (.newline m)) (kid (k + 1) false m)) (by
        intro acc k hk
        obtain ⟨ch, h2⟩ := hch k (by omega)
        have hsep : jsonSeparator.shape (P := basicDoc sw) node kid (some ⟨acc, k + 1⟩) false m =
            .step (if flags k then .text (sw ",") else .leaf) := by
          have e1 : inspectedNode (P := basicDoc sw) node (some ⟨acc, k + 1⟩) .leftChild = some ch := by
            simp only [inspectedNode, Nat.add_sub_cancel, h2]
            rfl
          have e2 : flags k = ch.needsSeparator := by simp only [flags, h2]
          simp only [jsonSeparator, Notation.shape]
          rw [e1, e2]
          simp only [Tree.condition, Shape.orLeaf]
          cases ch.needsSeparator <;> rfl
        rw [← hsep]
        rfl)
    refine this.trans ?_
    congr 2
    exact child_zero_shape (P := basicDoc sw) (env := none) hnum _ _
  refine bracket_cheap (kid := kid) (flags := flags) (x := sw ", ") (y := sw ",")
    (o1 := sw (String.ofList [l])) (o2 := sw (String.ofList [l])) (c1 := sw (String.ofList [r]))
    (c2 := sw (String.ofList [r])) hk
    (fun m => jsonSingleSeq.shape (P := basicDoc sw) node kid none false m) (fun m => hsingle false m)
    (fun m => jsonMultiFold.shape (P := basicDoc sw) node kid none false m) hmulti ?_ (fun m => rfl)
  intro m
  have : jsonSingleSeq.shape (P := basicDoc sw) node kid none false m = jsonSingleSeq.shape (P := basicDoc sw) node kid none true m :=
    (hsingle false m).trans (hsingle true m).symm
  rw [this]
  rfl

theorem bracketN_cheap {l r : Char} {notn : TreeNotation} (hnotn : notn.1 = bracketN l r) {es : List Json} {id y}
    (h : ∀ e ∈ es, ∀ t : Tree BasicStyle, t.setNeedsSeparator = e.build.setNeedsSeparator →
      Cheap 10 (docShape (basicLaw sw) t) e.size e.depth) :
    Cheap 10 (docShape (basicLaw sw) (.branch (markSeparators (Json.builds es)).1 id notn default [] false y))
      (1 + Json.sizes es) (1 + Json.depths es) := by
  rw [tree_shape]
  simp only [Tree.notn, hnotn]
  cases hes : es with
  | nil =>
    refine Cheap.straight fun fl m => ?_
    exact ⟨⟨⟨trivial, trivial⟩, trivial⟩, Nat.le_of_ble_eq_true rfl⟩
  | cons e0 es0 =>
    have hlen : es.length = es0.length + 1 := by rw [hes]; rfl
    obtain ⟨h1, h2, h3⟩ := items_cheap (sw := sw) (id := id) (notn := notn) (st := default) (o := []) (c := false) (y := y)
      (n := es0.length) hlen h
    rw [← hes, ← upto_sizes es _ hlen]
    have hb := bracketBody_shape (l := l) (r := r) h1 h2 h3
    convert hb using 3 with fl m
    exact count_shape (P := basicDoc sw) h1

theorem string_cheap {id : Nat} {s : String} {z} {d : Nat} :
    Cheap 10 (docShape (basicLaw sw) (.text s id jsonStringN default [] false z)) 1 d := by
  rw [tree_shape]
  exact Cheap.straight fun fl m => ⟨⟨⟨trivial, trivial⟩, trivial⟩, Nat.le_of_ble_eq_true rfl⟩

theorem comment_cheap {id : Nat} {wordIds : Nat → Nat} {s : String} {t : Tree BasicStyle}
    (ht : t.setNeedsSeparator = (Json.comment id wordIds s).build.setNeedsSeparator) :
    Cheap 10 (docShape (basicLaw sw) t) (1 + (splitWhitespace [] s.toList).length) 0 := by
  let words := splitWhitespace [] s.toList
  let cs : List (Tree BasicStyle) := words.mapIdx fun i word => Tree.newText (wordIds i) jsonWordN (String.ofList word)
  obtain ⟨z, rfl⟩ : ∃ z, t = .branch (markSeparators cs).1 id jsonCommentN default [] true z := by
    apply branch_of_set (y := false)
    rw [ht]
    rfl
  let node : Tree BasicStyle := .branch (markSeparators cs).1 id jsonCommentN default [] true z
  change Cheap 10 (docShape (basicLaw sw) node) (1 + words.length) 0
  have hlen : (markSeparators cs).1.length = words.length := by
    rw [markSeparators_length]; simp [cs]
  have hnum : (basicDoc sw).numChildren node = .ok (some words.length) := by
    simp [node, Tree.children?, hlen]
  have hch : ∀ i, i < words.length → ∃ s z', (basicDoc sw).childAt node i =
        .ok (.text s (wordIds i) jsonWordN default [] false z') := by
    intro i hi
    have hget : cs[i]? = some (Tree.newText (wordIds i) jsonWordN (String.ofList words[i])) := by
      simp [cs, hi]
    have hm := markSeparators_get cs i _ hget
    split at hm
    · exact ⟨_, true, basic_childAt hm⟩
    · exact ⟨_, false, basic_childAt hm⟩
  have hkid : ∀ i, i < words.length → ∀ fl m, ∃ x, kidShape (basicLaw sw) node i fl m = .child (.text x) := by
    intro i hi fl m
    obtain ⟨s, z', h⟩ := hch i hi
    refine ⟨sw s, ?_⟩
    unfold kidShape
    rw [h]
    change Shape.child (docShape (basicLaw sw) (Tree.text s (wordIds i) jsonWordN default [] false z') fl m) = _
    rw [tree_shape]
    rfl
  rw [tree_shape]
  let kid := kidShape (basicLaw sw) node
  have hN : ∀ fl m, node.notn.1.shape (P := basicDoc sw) node kid none fl m =
      .step (.concat (.concat (.text (sw "// ")) (.step (jsonCommentBody.shape (P := basicDoc sw) node kid none fl (m + 1)))) .leaf) :=
    fun _ _ => rfl
  suffices H : ∀ m, (jsonCommentBody.shape (P := basicDoc sw) node kid none true (m + 1)).Straight 0 ∧
      (jsonCommentBody.shape (P := basicDoc sw) node kid none true (m + 1)).nodes ≤ 2 + 20 * words.length ∧
      ∀ w (h : Nat → Nat), (∀ r, h r ≤ 11) → (jsonCommentBody.shape (P := basicDoc sw) node kid none false (m + 1)).work w h ≤
        2 + 64 * (words.length * (1 + m)) by
    constructor
    · intro m
      obtain ⟨h1, h2, _⟩ := H m
      change (node.notn.1.shape (P := basicDoc sw) node kid none true m).Straight m ∧
        (node.notn.1.shape (P := basicDoc sw) node kid none true m).nodes + 10 ≤ _
      rw [hN]
      refine ⟨⟨⟨trivial, h1.mono⟩, trivial⟩, ?_⟩
      simp only [Shape.nodes]
      omega
    · intro m w h hh
      obtain ⟨_, _, h3⟩ := H m
      have := h3 w (Shape.ahead .leaf h) (fun r => by have := hh r; simp only [Shape.ahead]; omega)
      change (node.notn.1.shape (P := basicDoc sw) node kid none false m).work w h + m + 10 ≤ _
      rw [hN]
      simp only [Shape.work]
      have e : (1 + words.length) * (1 + 2 * 0 + m) = 1 + m + words.length * (1 + m) := by
        rw [Nat.add_mul]; simp
      rw [e]
      omega
  intro m
  match hl : words.length with
  | 0 =>
    rw [hl] at hnum
    have : ∀ fl, jsonCommentBody.shape (P := basicDoc sw) node kid none fl (m + 1) = .step .leaf := by
      intro fl
      exact count_zero_shape (P := basicDoc sw) hnum
    rw [this, this]
    exact ⟨trivial, by simp only [Shape.nodes]; omega, fun w h _ => by simp only [Shape.work]; omega⟩
  | 1 =>
    rw [hl] at hnum
    have : ∀ fl, ∃ x, jsonCommentBody.shape (P := basicDoc sw) node kid none fl (m + 1) = .step (.child (.text x)) := by
      intro fl
      obtain ⟨x, hx⟩ := hkid 0 (by omega) fl (m + 1)
      refine ⟨x, ?_⟩
      simp only [jsonCommentBody]
      unfold Notation.shape
      rw [hnum]
      change Shape.step ((Notation.child 0).shape (P := basicDoc sw) node kid none fl (m + 1)) = _
      rw [child_zero_shape (P := basicDoc sw) hnum]
      exact congrArg Shape.step hx
    obtain ⟨x, hx⟩ := this true
    obtain ⟨y, hy⟩ := this false
    rw [hx, hy]
    exact ⟨trivial, by simp only [Shape.nodes]; omega, fun w h _ => by simp only [Shape.work]; omega⟩
  | n + 2 =>
    rw [hl] at hnum
    let sep : Bool → Shape := fun fl => if fl then .step (.text (sw " ")) else .choice (.text (sw " ")) (.newline (m + 1))
    have hfold : ∀ fl, jsonCommentBody.shape (P := basicDoc sw) node kid none fl (m + 1) =
        .step (.step (iter (kid 0 fl (m + 1))
          (fun k acc => .concat (.concat (.step acc) (sep fl)) (kid (k + 1) fl (m + 1))) (n + 1))) := by
      intro fl
      simp only [jsonCommentBody]
      unfold Notation.shape
      rw [hnum]
      change Shape.step ((Notation.fold (.child 0) (.left + (.literal " " ||| .newline) + .right)).shape
        (P := basicDoc sw) node kid none fl (m + 1)) = _
      have := fold_shape (P := basicDoc sw) (kid := kid) (first := .child 0)
        (join := .left + (.literal " " ||| .newline) + .right) (env := none) hnum
        (fun i hi => by obtain ⟨s, z, h⟩ := hch i (by omega); exact ⟨_, h⟩) fl (m + 1)
        (fun k acc => .concat (.concat (.step acc) (sep fl)) (kid (k + 1) fl (m + 1))) (fun acc k _ => rfl)
      rw [child_zero_shape (P := basicDoc sw) (env := none) hnum] at this
      rw [this]
    have hone : ∀ n, upto (fun _ => 1) n = n + 1 := by
      intro n
      induction n with
      | zero => rfl
      | succ n ih => have : upto (fun _ => 1) (n + 1) = upto (fun _ => 1) n + 1 := rfl; omega
    rw [hfold, hfold]
    have hf := flat_seq (kids := fun i => kid i true (m + 1)) (s := fun _ => 1) (m := 0) (first := kid 0 true (m + 1))
      (g := fun k acc => .concat (.concat (.step acc) (sep true)) (kid (k + 1) true (m + 1))) (n + 1)
      (by obtain ⟨x, hx⟩ := hkid 0 (by omega) true (m + 1)
          exact ⟨by change (kidShape _ _ _ _ _).Straight 0; rw [hx]; trivial, Nat.le_add_right _ _⟩)
      (fun k a _ h1 h2 => ⟨⟨⟨h1, trivial⟩, h2⟩, by simp only [sep, if_true, Shape.nodes]; omega⟩)
      (fun i hi => by
        obtain ⟨x, hx⟩ := hkid i (by omega) true (m + 1)
        change (kidShape _ _ _ _ _).Straight 0 ∧ (kidShape _ _ _ _ _).nodes + 9 ≤ 20 * 1
        rw [hx]
        exact ⟨trivial, Nat.le_of_ble_eq_true rfl⟩)
    refine ⟨hf.1, by have := hf.2; rw [hone] at this; simp only [Shape.nodes]; omega, ?_⟩
    intro w h hh
    have ho := open_seq (kids := fun i => kid i false (m + 1)) (s := fun _ => 1) (K := m + 20) (B := 1 + m)
      (g := fun k acc => .concat (.concat (.step acc) (sep false)) (kid (k + 1) false (m + 1))) 11 w (n + 1)
      (by
        intro k a h hk hh
        obtain ⟨x, hx⟩ := hkid (k + 1) (by omega) false (m + 1)
        have hx' : kid (k + 1) false (m + 1) = .child (.text x) := hx
        simp only [Shape.work, hx', sep, Bool.false_eq_true, if_false]
        refine ⟨Shape.ahead (.choice (.text (sw " ")) (.newline (m + 1))) (Shape.ahead (.child (.text x)) h),
          fun r => ?_, ?_⟩
        · simp only [Shape.ahead]; omega
        · have : Shape.ahead (.text (sw " ")) (Shape.ahead (.child (.text x)) h) w ≤ 14 := by
            simp only [Shape.ahead]
            have := hh (w - sw " " - x)
            split
            · split <;> omega
            · omega
          omega)
      (fun i hi h hh => by
        obtain ⟨x, hx⟩ := hkid i (by omega) false (m + 1)
        have hx' : kid i false (m + 1) = .child (.text x) := hx
        simp only [hx', Shape.work]
        omega) h hh
    rw [hone] at ho
    simp only [Shape.work]
    change _ ≤ 2 + 64 * ((n + 1 + 1) * (1 + m))
    omega

theorem pair_cheap {id keyId : Nat} {key : String} {v : Json}
    (hv : ∀ t : Tree BasicStyle, t.setNeedsSeparator = v.build.setNeedsSeparator →
      Cheap 10 (docShape (basicLaw sw) t) v.size v.depth)
    {t : Tree BasicStyle} (ht : t.setNeedsSeparator = (Json.pair id keyId key v).build.setNeedsSeparator) :
    Cheap 10 (docShape (basicLaw sw) t) (2 + v.size) v.depth := by
  let cs : List (Tree BasicStyle) := [jsonString keyId key, v.build]
  obtain ⟨z, rfl⟩ : ∃ z, t = .branch (markSeparators cs).1 id jsonPairN default [] false z := by
    apply branch_of_set (y := false)
    rw [ht]
    simp only [Json.build]
    rfl
  let node : Tree BasicStyle := .branch (markSeparators cs).1 id jsonPairN default [] false z
  obtain ⟨z0, h0⟩ : ∃ z', (basicDoc sw).childAt node 0 = .ok (.text key keyId jsonStringN default [] false z') := by
    have hm := markSeparators_get cs 0 (jsonString keyId key) rfl
    split at hm
    · exact ⟨true, basic_childAt hm⟩
    · exact ⟨false, basic_childAt hm⟩
  obtain ⟨v', hv', h1⟩ : ∃ v', v'.setNeedsSeparator = v.build.setNeedsSeparator ∧
      (basicDoc sw).childAt node 1 = .ok v' := by
    have hm := markSeparators_get cs 1 v.build rfl
    refine ⟨_, ?_, basic_childAt hm⟩
    split
    · cases v.build <;> rfl
    · rfl
  have hnum : (basicDoc sw).numChildren node = .ok (some 2) := by
    simp [node, Tree.children?, markSeparators_length, cs]
  have hk : ∀ fl m, (kidShape (basicLaw sw) node 0 fl m).Straight 0 ∧ (kidShape (basicLaw sw) node 0 fl m).nodes = 7 := by
    intro fl m
    have : kidShape (basicLaw sw) node 0 fl m = .child (docShape (basicLaw sw) (.text key keyId jsonStringN default [] false z0) fl m) := by
      unfold kidShape
      rw [h0]
    rw [this, tree_shape]
    exact ⟨⟨⟨trivial, trivial⟩, trivial⟩, rfl⟩
  have hc := kid_cheap h1 (hv v' hv')
  change Cheap 10 (docShape (basicLaw sw) node) _ _
  have hN : docShape (basicLaw sw) node = fun fl m =>
      .concat (.concat (kidShape (basicLaw sw) node 0 fl m) (.text (sw ": "))) (kidShape (basicLaw sw) node 1 fl m) := by
    rw [tree_shape]
    funext fl m
    rw [← child_zero_shape (P := basicDoc sw) (env := none) (kid := kidShape (basicLaw sw) node) hnum fl m,
      ← child_one_shape (P := basicDoc sw) (env := none) (kid := kidShape (basicLaw sw) node) hnum fl m]
    rfl
  rw [hN]
  constructor
  · intro m
    obtain ⟨a1, a2⟩ := hk true m
    obtain ⟨b1, b2⟩ := hc.flat m
    exact ⟨⟨⟨a1.mono, trivial⟩, b1⟩, by simp only [Shape.nodes, a2]; omega⟩
  · intro m w h hh
    have b := hc.work m w h hh
    obtain ⟨a1, a2⟩ := hk false m
    have a3 := a1.work w (Shape.ahead (.text (sw ": ")) (Shape.ahead (kidShape (basicLaw sw) node 1 false m) h))
    rw [a2] at a3
    simp only [Shape.work]
    have : (2 + v.size) * (1 + 2 * v.depth + m) = 2 * (1 + 2 * v.depth + m) + v.size * (1 + 2 * v.depth + m) :=
      Nat.add_mul _ _ _
    omega

theorem roots_cheap {es : List Json} {id y}
    (h : ∀ e ∈ es, ∀ t : Tree BasicStyle, t.setNeedsSeparator = e.build.setNeedsSeparator →
      Cheap 10 (docShape (basicLaw sw) t) e.size e.depth) :
    Cheap 10 (docShape (basicLaw sw) (.branch (markSeparators (Json.builds es)).1 id jsonRootsN default [] false y))
      (1 + Json.sizes es) (Json.depths es) := by
  rw [tree_shape]
  match hl : es.length with
  | 0 =>
    have : es = [] := List.eq_nil_of_length_eq_zero hl
    subst this
    exact Cheap.straight fun fl m => ⟨trivial, Nat.le_of_ble_eq_true rfl⟩
  | 1 =>
    obtain ⟨h1, h2, h3⟩ := items_cheap (sw := sw) (id := id) (notn := jsonRootsN) (st := default) (o := []) (c := false) (y := y)
      (n := 0) hl h
    rw [← upto_sizes es _ hl]
    have hN : (fun fl m => jsonRootsN.1.shape (P := basicDoc sw)
        (.branch (markSeparators (Json.builds es)).1 id jsonRootsN default [] false y)
        (kidShape (basicLaw sw) (.branch (markSeparators (Json.builds es)).1 id jsonRootsN default [] false y)) none fl m) =
        fun fl m => .step (kidShape (basicLaw sw) (.branch (markSeparators (Json.builds es)).1 id jsonRootsN default [] false y) 0 fl m) := by
      funext fl m
      rw [← child_zero_shape (P := basicDoc sw) (env := none) (kid := kidShape (basicLaw sw) _) h1 fl m]
      exact count_one_shape (P := basicDoc sw) h1
    refine hN ▸ ?_
    have hk := h3 0 (Nat.le_refl _)
    constructor
    · intro m
      obtain ⟨a1, a2⟩ := hk.flat m
      exact ⟨a1, by simp only [Shape.nodes, upto, iter]; omega⟩
    · intro m w g hg
      have := hk.work m w g hg
      simp only [Shape.work, upto, iter, Nat.add_mul (1 : Nat)]
      omega
  | n + 2 =>
    obtain ⟨h1, h2, h3⟩ := items_cheap (sw := sw) (id := id) (notn := jsonRootsN) (st := default) (o := []) (c := false) (y := y)
      (n := n + 1) hl h
    rw [← upto_sizes es _ hl]
    let node : Tree BasicStyle := .branch (markSeparators (Json.builds es)).1 id jsonRootsN default [] false y
    let kid := kidShape (basicLaw sw) node
    have hN : (fun fl m => jsonRootsN.1.shape (P := basicDoc sw) node kid none fl m) =
        fun fl m => .step (.step (iter (kid 0 fl m)
          (fun k acc => .concat (.concat (.step acc) (.newline m)) (kid (k + 1) fl m)) (n + 1))) := by
      funext fl m
      simp only [jsonRootsN]
      rw [Notation.shape, h1]
      change Shape.step ((Notation.fold (.child 0) (.left ^^^ .right : Notation String TreeCondition)).shape
        (P := basicDoc sw) node kid none fl m) = _
      have := fold_shape (P := basicDoc sw) (kid := kid) (first := .child 0)
        (join := .left ^^^ .right) (env := none) h1 h2 fl m
        (fun k acc => .concat (.concat (.step acc) (.newline m)) (kid (k + 1) fl m)) (fun acc k _ => rfl)
      rw [child_zero_shape (P := basicDoc sw) (env := none) h1] at this
      rw [this]
    refine hN ▸ ?_
    constructor
    · intro m
      have hf := flat_seq (kids := fun i => kid i true m) (m := m) (first := kid 0 true m)
        (g := fun k acc => .concat (.concat (.step acc) (.newline m)) (kid (k + 1) true m)) (n + 1)
        ⟨((h3 0 (Nat.zero_le _)).flat m).1, Nat.le_add_right _ _⟩
        (fun k a _ h1 h2 => ⟨⟨⟨h1, Nat.le_refl _⟩, h2⟩, by simp only [Shape.nodes]; omega⟩)
        (fun i hi => (h3 i hi).flat m)
      exact ⟨hf.1, by have := hf.2; simp only [Shape.nodes]; omega⟩
    · intro m w g hg
      have ho := open_seq (kids := fun i => kid i false m) (K := m + 9) (B := 1 + 2 * Json.depths es + m)
        (g := fun k acc => .concat (.concat (.step acc) (.newline m)) (kid (k + 1) false m)) 10 w (n + 1)
        (by
          intro k a h hk hh
          refine ⟨Shape.ahead (.newline m) (Shape.ahead (kid (k + 1) false m) h), fun r => ?_, ?_⟩
          · simp only [Shape.ahead]; omega
          · simp only [Shape.work]; omega)
        (fun i hi h hh => by have := (h3 i hi).work m w h hh; omega) g hg
      simp only [Shape.work, Nat.add_mul (1 : Nat) (upto _ _)]
      omega

mutual
/-- Every JSON document is cheap. -/
theorem json_cheap : ∀ (e : Json) (t : Tree BasicStyle), t.setNeedsSeparator = e.build.setNeedsSeparator →
    Cheap 10 (docShape (basicLaw sw) t) e.size e.depth
  | .null id, t, ht => by
    obtain ⟨z, rfl⟩ := branch_of_set (y := false) (cs := []) (id := id) (n := jsonNullN) (st := default) (o := []) (c := false) ht
    rw [tree_shape]
    exact Cheap.straight fun fl m => ⟨trivial, Nat.le_of_ble_eq_true rfl⟩
  | .bool id b, t, ht => by
    cases b with
    | true =>
      obtain ⟨z, rfl⟩ := branch_of_set (y := false) (cs := []) (id := id) (n := jsonTrueN) (st := default) (o := []) (c := false) ht
      rw [tree_shape]
      exact Cheap.straight fun fl m => ⟨trivial, Nat.le_of_ble_eq_true rfl⟩
    | false =>
      obtain ⟨z, rfl⟩ := branch_of_set (y := false) (cs := []) (id := id) (n := jsonFalseN) (st := default) (o := []) (c := false) ht
      rw [tree_shape]
      exact Cheap.straight fun fl m => ⟨trivial, Nat.le_of_ble_eq_true rfl⟩
  | .string id s, t, ht => by
    obtain ⟨z, rfl⟩ := text_of_set (y := false) (s := s) (id := id) (n := jsonStringN) (st := default) (o := []) (c := false) ht
    exact string_cheap
  | .number id s, t, ht => by
    obtain ⟨z, rfl⟩ := text_of_set (y := false) (s := s) (id := id) (n := jsonNumberN) (st := default) (o := []) (c := false) ht
    rw [tree_shape]
    exact Cheap.straight fun fl m => ⟨trivial, Nat.le_of_ble_eq_true rfl⟩
  | .array id es, t, ht => by
    obtain ⟨z, rfl⟩ : ∃ z, t = .branch (markSeparators (Json.builds es)).1 id jsonArrayN default [] false z := by
      apply branch_of_set (y := false)
      rw [ht]
      simp only [Json.build]
      rfl
    exact bracketN_cheap (l := '[') (r := ']') rfl (json_cheaps es)
  | .object id es, t, ht => by
    obtain ⟨z, rfl⟩ : ∃ z, t = .branch (markSeparators (Json.builds es)).1 id jsonObjectN default [] false z := by
      apply branch_of_set (y := false)
      rw [ht]
      simp only [Json.build]
      rfl
    exact bracketN_cheap (l := '{') (r := '}') rfl (json_cheaps es)
  | .pair id keyId key v, t, ht => pair_cheap (json_cheap v) ht
  | .comment id wordIds s, t, ht => comment_cheap ht
  | .roots id es, t, ht => by
    obtain ⟨z, rfl⟩ : ∃ z, t = .branch (markSeparators (Json.builds es)).1 id jsonRootsN default [] false z := by
      apply branch_of_set (y := false)
      rw [ht]
      simp only [Json.build]
      rfl
    exact roots_cheap (json_cheaps es)
@[inherit_doc json_cheap]
theorem json_cheaps : ∀ (es : List Json) (e : Json), e ∈ es → ∀ t : Tree BasicStyle,
    t.setNeedsSeparator = e.build.setNeedsSeparator → Cheap 10 (docShape (basicLaw sw) t) e.size e.depth
  | [], _, h => by simp at h
  | x :: xs, e, h => by
    rcases List.mem_cons.1 h with h' | h'
    · rw [h']; exact json_cheap x
    · exact json_cheaps xs e h'
end

end PPP
