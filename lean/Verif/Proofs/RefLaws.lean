import Verif.Spec.RefLaws
import Verif.Proofs.Reference
/-
Laws of the reference implementation.
-/
namespace PPP
namespace Ref

/-! ### Layouts -/

/-- A layout has at least one line. -/
def Layout.Good : Layout → Prop
  | .err => True
  | .lines ls => ls ≠ []

/-- All layouts of a tree have lines. -/
def Layouts.Good : Layouts → Prop
  | .leaf l => l.Good
  | .branch _ x y => x.Good ∧ y.Good

theorem good_flatten {l : Layout} (h : l.Good) : l.flatten.Good := by
  cases l with
  | err => trivial
  | lines ls =>
    simp only [Layout.flatten]
    split
    · exact h
    · trivial

theorem good_indent {l : Layout} (i : Nat) : (l.indent i).Good := by
  match l with
  | .err => trivial
  | .lines [] => trivial
  | .lines (l :: ls) => simp [Layout.indent, Layout.Good]

theorem good_append (a b : Layout) : (a.append b).Good := by
  match a, b with
  | .err, _ => trivial
  | .lines _, .err => trivial
  | .lines [], .lines _ => trivial
  | .lines (_ :: _), .lines [] =>
    simp only [Layout.append]
    split
    · next h => cases h
    · trivial
  | .lines (a :: as), .lines (b :: bs) =>
    rw [append_lines (by simp) (by simp)]
    exact glue_ne_nil (by simp) (by simp)

theorem ppTree_good (d : Doc) : (ppTree d).Good := by
  have hf : ∀ x : Layouts, x.Good → x.flatten.Good := by
    intro x
    induction x with
    | leaf l => exact good_flatten
    | branch n x y ih1 ih2 => exact fun h => ⟨ih1 h.1, ih2 h.2⟩
  have hi : ∀ (i : Nat) (x : Layouts), (x.indent i).Good := by
    intro i x
    induction x with
    | leaf l => exact good_indent i
    | branch n x y ih1 ih2 => exact ⟨ih1, ih2⟩
  have hl : ∀ (l : Layout) (x : Layouts), (x.appendLeaf l).Good := by
    intro l x
    induction x with
    | leaf l2 => exact good_append _ _
    | branch n x y ih1 ih2 => exact ⟨ih1, ih2⟩
  have ha : ∀ x y : Layouts, (x.append y).Good := by
    intro x y
    induction x with
    | leaf l => exact hl _ _
    | branch n x y ih1 ih2 => exact ⟨ih1, ih2⟩
  induction d with
  | err => trivial
  | empty | text _ | newline => simp [ppTree, Layouts.Good, Layout.Good]
  | indent i x _ => exact hi _ _
  | flat x ih => exact hf _ ih
  | concat x y _ _ => exact ha _ _
  | choice x y ih1 ih2 => exact ⟨ih1, ih2⟩

theorem resolveIn_congr {w n : Nat} {k k' : Layout → Layout} {x : Layouts} (hx : x.Good)
    (h : ∀ l, l.Good → k l = k' l) : x.resolveIn w n k = x.resolveIn w n k' := by
  induction x with
  | leaf l => exact h l hx
  | branch m x y ih1 ih2 => simp only [Layouts.resolveIn, ih1 hx.1, ih2 hx.2]

theorem resolveIn_err {w n : Nat} {k : Layout → Layout} (h : ∀ l, k l = .err) (x : Layouts) :
    x.resolveIn w n k = .err := by
  induction x with
  | leaf l => exact h l
  | branch m x y ih1 ih2 => simp only [Layouts.resolveIn, ih1, ih2, pick]

/-! ### Continuations -/

/-- The result is an error, or it has line number `n`. -/
def HasLine (n : Nat) (l : Layout) : Prop := l = .err ∨ ∃ ls, l = .lines ls ∧ n < ls.length

/-- A continuation of a layout that starts on line `n`: errors stay errors, and no lines are lost. -/
structure Cont (n : Nat) (k : Layout → Layout) : Prop where
  err : k .err = .err
  lines : ∀ ls, ls ≠ [] → ∀ m, m < ls.length → HasLine (n + m) (k (.lines ls))

theorem pick_hasLine {w n m : Nat} {a b : Layout} (ha : HasLine m a) (hb : HasLine m b) : HasLine m (pick w n a b) := by
  rcases ha with rfl | ⟨as, rfl, ha⟩ <;> rcases hb with rfl | ⟨bs, rfl, hb⟩
  · exact .inl rfl
  · exact .inr ⟨_, rfl, hb⟩
  · exact .inr ⟨_, rfl, ha⟩
  · simp only [pick]
    split
    · split
      · exact .inr ⟨_, rfl, ha⟩
      · exact .inr ⟨_, rfl, hb⟩
    · exact .inl rfl

theorem resolveIn_hasLine {w n m : Nat} {k : Layout → Layout} {x : Layouts} (hx : x.Good)
    (h : ∀ l, l.Good → HasLine m (k l)) : HasLine m (x.resolveIn w n k) := by
  induction x with
  | leaf l => exact h l hx
  | branch j x y ih1 ih2 => exact pick_hasLine (ih1 hx.1) (ih2 hx.2)

theorem Cont.hasLine {n : Nat} {k} (h : Cont n k) {l : Layout} (hl : l.Good) : HasLine n (k l) := by
  cases l with
  | err => exact .inl h.err
  | lines ls => exact h.lines ls hl 0 (List.length_pos_iff.2 hl)

theorem Cont.id : Cont 0 id := ⟨rfl, fun ls _ m hm => .inr ⟨ls, rfl, by omega⟩⟩

theorem Cont.indent {n : Nat} {k} (h : Cont n k) (i : Nat) : Cont n fun l => k (l.indent i) := by
  refine ⟨h.err, fun ls hls m hm => ?_⟩
  rw [indent_lines hls]
  refine h.lines _ ?_ m (by rw [indented_length]; exact hm)
  intro e
  have := congrArg List.length e
  rw [indented_length] at this
  exact hls (List.length_eq_zero_iff.1 this)

theorem Cont.flat {n : Nat} {k} (h : Cont n k) : Cont n fun l => k l.flatten := by
  refine ⟨h.err, fun ls hls m hm => ?_⟩
  dsimp only [Layout.flatten]
  split
  · exact h.lines _ hls m hm
  · exact .inl h.err

theorem append_err (l : Layout) : l.append .err = .err := by cases l <;> rfl

theorem err_append (l : Layout) : Layout.err.append l = .err := rfl

theorem Cont.concatRight {n : Nat} {k} (h : Cont n k) {l : Layout} (hl : l.Good) :
    Cont (n + l.numNewlines) fun l2 => k (l.append l2) := by
  refine ⟨by simp only [append_err, h.err], fun ls hls m hm => ?_⟩
  cases l with
  | err => exact .inl h.err
  | lines as =>
    rw [append_lines hl hls]
    have hp : 0 < as.length := List.length_pos_iff.2 hl
    have := h.lines (glue as ls) (glue_ne_nil hl hls) (as.length - 1 + m) (by rw [glue_length hl hls]; omega)
    simpa [Layout.numNewlines, Nat.add_assoc] using this

theorem Cont.concatLeft {w n : Nat} {k} (h : Cont n k) (y : Doc) :
    Cont n fun l => (ppTree y).resolveIn w (n + l.numNewlines) fun l2 => k (l.append l2) := by
  refine ⟨resolveIn_err (fun l => h.err) _, fun ls hls m hm => ?_⟩
  refine resolveIn_hasLine (ppTree_good y) fun l2 hl2 => ?_
  cases l2 with
  | err => rw [append_err]; exact .inl h.err
  | lines bs =>
    rw [append_lines hls hl2]
    refine h.lines _ (glue_ne_nil hls hl2) m ?_
    rw [glue_length hls hl2]
    omega

/-! ### Sameness -/

/-- The two documents have the same results under every continuation. -/
def Alike (x y : Doc) : Prop := ∀ w n k, Cont n k → (ppTree x).resolveIn w n k = (ppTree y).resolveIn w n k

theorem Alike.refl (x : Doc) : Alike x x := fun _ _ _ _ => rfl

theorem Alike.symm {x y : Doc} (h : Alike x y) : Alike y x := fun w n k hk => (h w n k hk).symm

theorem Alike.trans {x y z : Doc} (h1 : Alike x y) (h2 : Alike y z) : Alike x z :=
  fun w n k hk => (h1 w n k hk).trans (h2 w n k hk)

theorem Alike.indent {x y : Doc} (h : Alike x y) (i : Nat) : Alike (.indent i x) (.indent i y) := by
  intro w n k hk
  simp only [ppTree, resolveIn_indent]
  exact h w n _ (hk.indent i)

theorem Alike.flat {x y : Doc} (h : Alike x y) : Alike (.flat x) (.flat y) := by
  intro w n k hk
  simp only [ppTree, resolveIn_flatten]
  exact h w n _ hk.flat

theorem Alike.concat {x x' y y' : Doc} (hx : Alike x x') (hy : Alike y y') : Alike (.concat x y) (.concat x' y') := by
  intro w n k hk
  simp only [ppTree, resolveIn_append]
  rw [hx w n _ (hk.concatLeft y)]
  exact resolveIn_congr (ppTree_good x') fun l hl => hy w _ _ (hk.concatRight hl)

theorem Alike.choice {x x' y y' : Doc} (hx : Alike x x') (hy : Alike y y') : Alike (.choice x y) (.choice x' y') := by
  intro w n k hk
  simp only [ppTree, Layouts.resolveIn]
  rw [hx w n k hk, hy w n k hk]

theorem Alike.fill {x y : Doc} (h : Alike x y) (c : Ctx) : Alike (c.fill x) (c.fill y) := by
  induction c with
  | hole => exact h
  | indent i c ih => exact ih.indent i
  | flat c ih => exact ih.flat
  | concatLeft c y ih => exact ih.concat (.refl y)
  | concatRight x c ih => exact (Alike.refl x).concat ih
  | choiceLeft c y ih => exact ih.choice (.refl y)
  | choiceRight x c ih => exact (Alike.refl x).choice ih

theorem Alike.same {x y : Doc} (h : Alike x y) : Same x y := by
  intro c w
  rw [← resolveIn_id, ← resolveIn_id]
  exact h.fill c w 0 _ Cont.id

/-! ### Laws -/

theorem alike_of_tree {x y : Doc} (h : ppTree x = ppTree y) : Alike x y := fun w n k _ => by rw [h]

/-- Documents whose trees agree after the continuation is applied. -/
theorem alike_of {x y : Doc}
    (h : ∀ w n k, Cont n k → (ppTree x).resolveIn w n k = (ppTree y).resolveIn w n k) : Alike x y := h

theorem empty_append {l : Layout} (h : l.Good) : (Layout.lines [""]).append l = l := by
  cases l with
  | err => rfl
  | lines ls =>
    obtain ⟨y, b, rfl⟩ := List.exists_cons_of_ne_nil h
    simp [Layout.append]

theorem append_empty {l : Layout} (h : l.Good) : l.append (.lines [""]) = l := by
  cases l with
  | err => rfl
  | lines ls =>
    obtain ⟨a, x, rfl⟩ := exists_snoc (show ls ≠ [] from h)
    simp [Layout.append]

theorem append_assoc {a b c : Layout} (ha : a.Good) (hb : b.Good) (hc : c.Good) :
    (a.append b).append c = a.append (b.append c) := by
  cases a with
  | err => rfl
  | lines as =>
    cases b with
    | err => rfl
    | lines bs =>
      cases c with
      | err => simp only [append_err]
      | lines cs =>
        rw [append_lines ha hb, append_lines (glue_ne_nil ha hb) hc, append_lines hb hc, append_lines ha (glue_ne_nil hb hc)]
        obtain ⟨as, x, rfl⟩ := exists_snoc (show as ≠ [] from ha)
        obtain ⟨z, cs, rfl⟩ := List.exists_cons_of_ne_nil hc
        obtain ⟨y, bs, rfl⟩ := List.exists_cons_of_ne_nil hb
        rcases List.eq_nil_or_concat bs with rfl | ⟨bs, u, rfl⟩
        · rw [glue_snoc, glue_snoc]
          have h2 : [y] = [] ++ [y] := rfl
          rw [h2, glue_snoc, List.nil_append, glue_snoc, String.append_assoc]
        · have h2 : y :: bs.concat u = (y :: bs) ++ [u] := by simp
          rw [glue_snoc, h2, glue_snoc]
          have h3 : as ++ (x ++ y) :: bs.concat u = (as ++ (x ++ y) :: bs) ++ [u] := by simp
          rw [h3, glue_snoc, List.cons_append, glue_snoc]
          simp

theorem law_unit_left (x : Doc) : Alike (.concat .empty x) x := by
  intro w n k hk
  simp only [ppTree, Layouts.append, resolveIn_appendLeaf]
  exact resolveIn_congr (ppTree_good x) fun l hl => by rw [empty_append hl]

theorem law_unit_right (x : Doc) : Alike (.concat x .empty) x := by
  intro w n k hk
  simp only [ppTree, resolveIn_append, Layouts.resolveIn]
  exact resolveIn_congr (ppTree_good x) fun l hl => by rw [append_empty hl]

theorem law_assoc (x y z : Doc) : Alike (.concat (.concat x y) z) (.concat x (.concat y z)) := by
  intro w n k hk
  simp only [ppTree, resolveIn_append]
  refine resolveIn_congr (ppTree_good x) fun lx hx => resolveIn_congr (ppTree_good y) fun ly hy => ?_
  have hz : ∀ m, (ppTree z).resolveIn w m (fun l2 => k ((lx.append ly).append l2)) =
      (ppTree z).resolveIn w m (fun l2 => k (lx.append (ly.append l2))) :=
    fun m => resolveIn_congr (ppTree_good z) fun lz hz => by rw [append_assoc hx hy hz]
  rw [hz]
  cases lx with
  | err => exact (resolveIn_err (fun l => hk.err) _).trans (resolveIn_err (fun l => hk.err) _).symm
  | lines as =>
    cases ly with
    | err => exact (resolveIn_err (fun l => hk.err) _).trans (resolveIn_err (fun l => hk.err) _).symm
    | lines bs =>
      have e : n + ((Layout.lines as).append (.lines bs)).numNewlines =
          n + (Layout.lines as).numNewlines + (Layout.lines bs).numNewlines := by
        rw [append_lines hx hy]
        simp only [Layout.numNewlines, glue_length hx hy]
        have : 0 < as.length := List.length_pos_iff.2 hx
        have : 0 < bs.length := List.length_pos_iff.2 hy
        omega
      rw [e]

theorem law_text_empty : Alike (.text "") .empty := alike_of_tree rfl

theorem law_text_concat (s t : String) : Alike (.concat (.text s) (.text t)) (.text (s ++ t)) :=
  alike_of_tree (by simp [ppTree, Layouts.append, Layouts.appendLeaf, Layout.append])

theorem law_indent_empty (i : Nat) : Alike (.indent i .empty) .empty := alike_of_tree rfl

theorem law_indent_text (i : Nat) (t : String) : Alike (.indent i (.text t)) (.text t) := alike_of_tree rfl

theorem law_indent_newline (i : Nat) : Alike (.indent i .newline) (.concat .newline (blanks i)) :=
  alike_of_tree (by
    simp [ppTree, blanks, Layouts.append, Layouts.appendLeaf, Layouts.indent, Layout.append, Layout.indent, spaces])

theorem indent_append {a b : Layout} (i : Nat) (ha : a.Good) (hb : b.Good) :
    (a.append b).indent i = (a.indent i).append (b.indent i) := by
  cases a with
  | err => rfl
  | lines as =>
    cases b with
    | err => simp [append_err, Layout.indent]
    | lines bs =>
      have h0 : ∀ {ls : List String}, ls ≠ [] → indented (spaces i) ls ≠ [] := by
        intro ls h e
        have := congrArg List.length e
        rw [indented_length] at this
        exact h (List.length_eq_zero_iff.1 this)
      rw [append_lines ha hb, indent_lines (glue_ne_nil ha hb), indent_lines ha, indent_lines hb,
        append_lines (h0 ha) (h0 hb), glue_indented ha hb]

theorem numNewlines_indent (i : Nat) {l : Layout} (h : l.Good) : (l.indent i).numNewlines = l.numNewlines := by
  cases l with
  | err => rfl
  | lines ls => rw [indent_lines h]; simp [Layout.numNewlines, indented_length]

theorem law_indent_concat (i : Nat) (x y : Doc) :
    Alike (.indent i (.concat x y)) (.concat (.indent i x) (.indent i y)) := by
  intro w n k hk
  simp only [ppTree, resolveIn_append, resolveIn_indent]
  refine resolveIn_congr (ppTree_good x) fun lx hx => ?_
  rw [numNewlines_indent i hx]
  exact resolveIn_congr (ppTree_good y) fun ly hy => by rw [indent_append i hx hy]

theorem law_indent_choice (i : Nat) (x y : Doc) :
    Alike (.indent i (.choice x y)) (.choice (.indent i x) (.indent i y)) := alike_of_tree rfl

theorem law_flat_empty : Alike (.flat .empty) .empty := alike_of_tree rfl

theorem law_flat_text (t : String) : Alike (.flat (.text t)) (.text t) := alike_of_tree rfl

theorem law_flat_newline : Alike (.flat .newline) .err := alike_of_tree rfl

theorem flatten_append {a b : Layout} (ha : a.Good) (hb : b.Good) :
    (a.append b).flatten = a.flatten.append b.flatten := by
  cases a with
  | err => rfl
  | lines as =>
    cases b with
    | err => simp [append_err, Layout.flatten]
    | lines bs =>
      rw [append_lines ha hb]
      have h1 : 0 < as.length := List.length_pos_iff.2 ha
      have h2 : 0 < bs.length := List.length_pos_iff.2 hb
      simp only [Layout.flatten, glue_length ha hb]
      by_cases e1 : as.length = 1
      · by_cases e2 : bs.length = 1
        · rw [if_pos (by omega), if_pos e1, if_pos e2, append_lines ha hb]
        · rw [if_neg (by omega), if_neg e2, append_err]
      · rw [if_neg (by omega), if_neg e1, err_append]

theorem law_flat_concat (x y : Doc) : Alike (.flat (.concat x y)) (.concat (.flat x) (.flat y)) := by
  intro w n k hk
  simp only [ppTree, resolveIn_append, resolveIn_flatten]
  refine resolveIn_congr (ppTree_good x) fun lx hx => ?_
  have hy : ∀ m, (ppTree y).resolveIn w m (fun ly => k (lx.append ly).flatten) =
      (ppTree y).resolveIn w m (fun ly => k (lx.flatten.append ly.flatten)) :=
    fun m => resolveIn_congr (ppTree_good y) fun ly hy => by rw [flatten_append hx hy]
  rw [hy]
  have h : lx.flatten = .err ∨ lx.flatten = lx := by
    cases lx with
    | err => exact .inl rfl
    | lines ls =>
      simp only [Layout.flatten]
      split
      · exact .inr rfl
      · exact .inl rfl
  rcases h with h | h
  · rw [h]
    exact (resolveIn_err (fun l => hk.err) _).trans (resolveIn_err (fun l => hk.err) _).symm
  · rw [h]

theorem law_flat_choice (x y : Doc) : Alike (.flat (.choice x y)) (.choice (.flat x) (.flat y)) := alike_of_tree rfl

theorem map_same {α : Type} {f : α → α} (h : ∀ a, f a = a) (l : List α) : l.map f = l := by
  induction l with
  | nil => rfl
  | cons a l ih => simp [h, ih]

theorem indent_zero {l : Layout} (h : l.Good) : l.indent 0 = l := by
  match l with
  | .err => rfl
  | .lines [] => exact absurd rfl h
  | .lines (a :: as) =>
    simp only [Layout.indent]
    rw [map_same]
    intro s
    simp [spaces]

theorem law_indent_zero (x : Doc) : Alike (.indent 0 x) x := by
  intro w n k hk
  simp only [ppTree, resolveIn_indent]
  exact resolveIn_congr (ppTree_good x) fun l hl => by rw [indent_zero hl]

theorem spaces_append (i j : Nat) : spaces i ++ spaces j = spaces (i + j) := by
  simp [spaces, ← String.ofList_append, List.replicate_append_replicate]

theorem law_indent_indent (i j : Nat) (x : Doc) : Alike (.indent j (.indent i x)) (.indent (i + j) x) := by
  intro w n k hk
  simp only [ppTree, resolveIn_indent]
  refine resolveIn_congr (ppTree_good x) fun l hl => ?_
  cases l with
  | err => rfl
  | lines ls =>
    have h0 : indented (spaces i) ls ≠ [] := by
      intro e
      have := congrArg List.length e
      rw [indented_length] at this
      exact hl (List.length_eq_zero_iff.1 this)
    rw [indent_lines hl, indent_lines hl, indent_lines h0, indented_indented, spaces_append, Nat.add_comm]

theorem law_flat_flat (x : Doc) : Alike (.flat (.flat x)) (.flat x) := by
  intro w n k hk
  simp only [ppTree, resolveIn_flatten]
  refine resolveIn_congr (ppTree_good x) fun l hl => ?_
  cases l with
  | err => rfl
  | lines ls =>
    by_cases h : ls.length = 1
    · simp only [Layout.flatten, if_pos h]
    · simp only [Layout.flatten, if_neg h]

theorem law_err_left (x : Doc) : Alike (.concat .err x) .err := by
  intro w n k hk
  simp only [ppTree, Layouts.append, resolveIn_appendLeaf, Layouts.resolveIn]
  exact (resolveIn_err (fun l => hk.err) _).trans hk.err.symm

theorem law_err_right (x : Doc) : Alike (.concat x .err) .err := by
  intro w n k hk
  simp only [ppTree, resolveIn_append, Layouts.resolveIn, append_err]
  rw [hk.err, resolveIn_err (fun l => rfl)]

theorem law_err_indent (i : Nat) : Alike (.indent i .err) .err := alike_of_tree rfl

theorem law_err_flat : Alike (.flat .err) .err := alike_of_tree rfl

theorem pick_err_left (w n : Nat) (l : Layout) : pick w n .err l = l := by cases l <;> rfl

theorem pick_err_right (w n : Nat) (l : Layout) : pick w n l .err = l := by cases l <;> rfl

theorem law_err_choice_left (x : Doc) : Alike (.choice .err x) x := by
  intro w n k hk
  simp only [ppTree, Layouts.resolveIn, hk.err, pick_err_left]

theorem law_err_choice_right (x : Doc) : Alike (.choice x .err) x := by
  intro w n k hk
  simp only [ppTree, Layouts.resolveIn, hk.err, pick_err_right]

theorem pick_assoc {w n : Nat} {a b c : Layout} (ha : HasLine n a) (hb : HasLine n b) :
    pick w n a (pick w n b c) = pick w n (pick w n a b) c := by
  rcases ha with rfl | ⟨as, rfl, ha⟩
  · simp only [pick_err_left]
  · rcases hb with rfl | ⟨bs, rfl, hb⟩
    · simp only [pick_err_left, pick_err_right]
    · cases c with
      | err => simp only [pick_err_right]
      | lines cs =>
        have e1 : as[n]? = some as[n] := List.getElem?_eq_getElem ha
        have e2 : bs[n]? = some bs[n] := List.getElem?_eq_getElem hb
        simp only [pick, e1, e2]
        by_cases f1 : as[n].length ≤ w
        · by_cases f2 : bs[n].length ≤ w
          · simp only [if_pos f1, if_pos f2, e1]
          · simp only [if_pos f1, if_neg f2, e1]
        · by_cases f2 : bs[n].length ≤ w
          · simp only [if_neg f1, if_pos f2, pick, e1, e2]
          · simp only [if_neg f1, if_neg f2, pick, e1, e2]

theorem Cont.result {w n : Nat} {k} (hk : Cont n k) (x : Doc) : HasLine n ((ppTree x).resolveIn w n k) :=
  resolveIn_hasLine (ppTree_good x) fun _ hl => hk.hasLine hl

theorem law_choice_assoc (x y z : Doc) : Alike (.choice x (.choice y z)) (.choice (.choice x y) z) := by
  intro w n k hk
  simp only [ppTree, Layouts.resolveIn, Nat.add_zero]
  exact pick_assoc (hk.result x) (hk.result y)

theorem law_choice_text (t : String) (x y : Doc) :
    Alike (.concat (.text t) (.choice x y)) (.choice (.concat (.text t) x) (.concat (.text t) y)) := alike_of_tree rfl

theorem law_choice_right (x y z : Doc) :
    Alike (.concat (.choice x y) z) (.choice (.concat x z) (.concat y z)) := alike_of_tree rfl

/-! ### Normal form -/

theorem basic_tree {d : Doc} (h : d.Basic) : ∀ w n k,
    (∀ ls, ls ≠ [] → ∃ ls', k (.lines ls) = .lines ls' ∧ n + ls.length ≤ ls'.length) →
      ∃ ls', (ppTree d).resolveIn w n k = .lines ls' ∧ n < ls'.length := by
  induction d with
  | err | empty | indent _ _ _ | flat _ _ => exact h.elim
  | text t =>
    intro w n k hk
    obtain ⟨ls', h1, h2⟩ := hk [t] (by simp)
    exact ⟨ls', h1, by simp at h2; omega⟩
  | newline =>
    intro w n k hk
    obtain ⟨ls', h1, h2⟩ := hk ["", ""] (by simp)
    exact ⟨ls', h1, by simp at h2; omega⟩
  | choice x y ih1 ih2 =>
    intro w n k hk
    obtain ⟨as, h1, h2⟩ := ih1 h.1 w n k hk
    obtain ⟨bs, h3, h4⟩ := ih2 h.2 w n k hk
    simp only [ppTree, Layouts.resolveIn, Nat.add_zero, h1, h3, pick, List.getElem?_eq_getElem h2]
    split
    · exact ⟨_, rfl, h2⟩
    · exact ⟨_, rfl, h4⟩
  | concat x y ih1 ih2 =>
    have key : ∀ w n k, (∀ ls, ls ≠ [] → ∃ ls', k (.lines ls) = .lines ls' ∧ n + ls.length ≤ ls'.length) →
        ∃ ls', (ppTree (.concat x y)).resolveIn w n k = .lines ls' ∧ n < ls'.length := by
      intro w n k hk
      simp only [ppTree, resolveIn_append]
      refine ih1 h.1 w n _ fun ls hls => ?_
      have hp : 0 < ls.length := List.length_pos_iff.2 hls
      obtain ⟨ls', h1, h2⟩ := ih2 h.2 w (n + (ls.length - 1)) (fun l2 => k ((Layout.lines ls).append l2)) (by
        intro ms hms
        rw [append_lines hls hms]
        obtain ⟨ls', h1, h2⟩ := hk _ (glue_ne_nil hls hms)
        refine ⟨ls', h1, ?_⟩
        rw [glue_length hls hms] at h2
        have : 0 < ms.length := List.length_pos_iff.2 hms
        omega)
      refine ⟨ls', h1, ?_⟩
      omega
    exact key

theorem normal_form (d : Doc) : Alike d .err ∨ ∃ d', d'.Basic ∧ Alike d d' := by
  induction d with
  | err => exact .inl (.refl _)
  | empty => exact .inr ⟨.text "", trivial, law_text_empty.symm⟩
  | text t => exact .inr ⟨.text t, trivial, .refl _⟩
  | newline => exact .inr ⟨.newline, trivial, .refl _⟩
  | concat x y ih1 ih2 =>
    rcases ih1 with h1 | ⟨x', b1, h1⟩
    · exact .inl ((h1.concat (.refl y)).trans (law_err_left y))
    · rcases ih2 with h2 | ⟨y', b2, h2⟩
      · exact .inl (((Alike.refl x).concat h2).trans (law_err_right x))
      · exact .inr ⟨.concat x' y', ⟨b1, b2⟩, h1.concat h2⟩
  | choice x y ih1 ih2 =>
    rcases ih1 with h1 | ⟨x', b1, h1⟩
    · have h := (h1.choice (.refl y)).trans (law_err_choice_left y)
      rcases ih2 with h2 | ⟨y', b2, h2⟩
      · exact .inl (h.trans h2)
      · exact .inr ⟨y', b2, h.trans h2⟩
    · rcases ih2 with h2 | ⟨y', b2, h2⟩
      · exact .inr ⟨x', b1, (((Alike.refl x).choice h2).trans (law_err_choice_right x)).trans h1⟩
      · exact .inr ⟨.choice x' y', ⟨b1, b2⟩, h1.choice h2⟩
  | indent i x ih =>
    have key : ∀ d : Doc, d.Basic → ∃ d', d'.Basic ∧ Alike (.indent i d) d' := by
      intro d hd
      induction d with
      | err | empty | indent _ _ _ | flat _ _ => exact hd.elim
      | text t => exact ⟨.text t, trivial, law_indent_text i t⟩
      | newline => exact ⟨.concat .newline (blanks i), ⟨trivial, trivial⟩, law_indent_newline i⟩
      | concat x y ih1 ih2 =>
        obtain ⟨x', b1, h1⟩ := ih1 hd.1
        obtain ⟨y', b2, h2⟩ := ih2 hd.2
        exact ⟨.concat x' y', ⟨b1, b2⟩, (law_indent_concat i x y).trans (h1.concat h2)⟩
      | choice x y ih1 ih2 =>
        obtain ⟨x', b1, h1⟩ := ih1 hd.1
        obtain ⟨y', b2, h2⟩ := ih2 hd.2
        exact ⟨.choice x' y', ⟨b1, b2⟩, (law_indent_choice i x y).trans (h1.choice h2)⟩
    rcases ih with h | ⟨x', b, h⟩
    · exact .inl ((h.indent i).trans (law_err_indent i))
    · obtain ⟨d', b', h'⟩ := key x' b
      exact .inr ⟨d', b', (h.indent i).trans h'⟩
  | flat x ih =>
    have key : ∀ d : Doc, d.Basic → Alike (.flat d) .err ∨ ∃ d', d'.Basic ∧ Alike (.flat d) d' := by
      intro d hd
      induction d with
      | err | empty | indent _ _ _ | flat _ _ => exact hd.elim
      | text t => exact .inr ⟨.text t, trivial, law_flat_text t⟩
      | newline => exact .inl law_flat_newline
      | concat x y ih1 ih2 =>
        have h0 := law_flat_concat x y
        rcases ih1 hd.1 with h1 | ⟨x', b1, h1⟩
        · exact .inl (h0.trans ((h1.concat (.refl _)).trans (law_err_left _)))
        · rcases ih2 hd.2 with h2 | ⟨y', b2, h2⟩
          · exact .inl (h0.trans (((Alike.refl _).concat h2).trans (law_err_right _)))
          · exact .inr ⟨.concat x' y', ⟨b1, b2⟩, h0.trans (h1.concat h2)⟩
      | choice x y ih1 ih2 =>
        have h0 := law_flat_choice x y
        rcases ih1 hd.1 with h1 | ⟨x', b1, h1⟩
        · have h := (h1.choice (.refl (.flat y))).trans (law_err_choice_left _)
          rcases ih2 hd.2 with h2 | ⟨y', b2, h2⟩
          · exact .inl (h0.trans (h.trans h2))
          · exact .inr ⟨y', b2, h0.trans (h.trans h2)⟩
        · rcases ih2 hd.2 with h2 | ⟨y', b2, h2⟩
          · exact .inr ⟨x', b1, h0.trans ((((Alike.refl _).choice h2).trans (law_err_choice_right _)).trans h1)⟩
          · exact .inr ⟨.choice x' y', ⟨b1, b2⟩, h0.trans (h1.choice h2)⟩
    rcases ih with h | ⟨x', b, h⟩
    · exact .inl (h.flat.trans law_err_flat)
    · rcases key x' b with h' | ⟨d', b', h'⟩
      · exact .inl (h.flat.trans h')
      · exact .inr ⟨d', b', h.flat.trans h'⟩

end Ref
end PPP
