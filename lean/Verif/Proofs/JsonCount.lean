import Verif.Proofs.JsonTall
import Verif.Proofs.JsonDim
import Verif.Proofs.PlanTree
/-
How many nodes of a JSON document are open.
-/
namespace PPP
variable {sw : String → Nat} {w : Nat}

section
variable (oi : Nat → Bool)
mutual
/-- The number of open nodes (that have children). -/
def Json.cnt : Json → Nat
  | .array id es => if es.isEmpty then 0 else if oi id then 1 + Json.cnts es else 0
  | .pair id _ _ v => if oi id then 1 + v.cnt else 0
  | .object id es => if es.isEmpty then 0 else if oi id then 1 + Json.cnts es else 0
  | _ => 0
@[inherit_doc Json.cnt]
def Json.cnts : List Json → Nat
  | [] => 0
  | e :: es => e.cnt + Json.cnts es
end
end

variable {oi : Nat → Bool}

theorem Json.IsGroup.cnt {l r es e id} (hg : Json.IsGroup l r es e id) :
    e.cnt oi = if es.isEmpty then 0 else if oi id then 1 + Json.cnts oi es else 0 := by
  cases hg <;> simp only [Json.cnt]

theorem Json.IsGroup.levels {l r es e id} (hg : Json.IsGroup l r es e id) : e.levels = 1 + Json.levelsIn es := by
  cases hg <;> simp only [Json.levels]

theorem Json.Simple.cnt {e : Json} (h : e.Simple) : e.cnt oi = 0 := by
  cases e <;> first | exact h.elim | simp [Json.cnt]

theorem Json.cnt_leaf {e : Json} (h : e.isLeaf = true) : e.cnt oi = 0 := by
  cases e <;> simp_all [Json.cnt, Json.isLeaf]

theorem Json.cnt_dark {e : Json} (h : oi e.rootId = false) : e.cnt oi = 0 := by
  cases e <;> simp_all [Json.cnt, Json.rootId]

theorem Json.levels_kid {es : List Json} {k : Nat} {x : Json} (h : es[k]? = some x) : x.levels ≤ Json.levelsIn es := by
  induction es generalizing k with
  | nil => simp at h
  | cons e es ih =>
    simp only [Json.levelsIn]
    cases k with
    | zero => simp at h; subst h; omega
    | succ k => have := ih (by simpa using h); omega

/-! ### What can be seen -/

mutual
theorem Json.lit_le {n : Nat} : ∀ e : Json, e.EntriesAtMost n → e.lit oi ≤ 1 + (n + 2) * e.cnt oi
  | .array id es, h => by
    simp only [Json.EntriesAtMost] at h
    have := Json.lits_le es h.2
    simp only [Json.lit, Json.cnt]
    cases es with
    | nil => simp [Json.lits]
    | cons x es =>
      simp only [List.isEmpty_cons, Bool.false_eq_true, if_false]
      split
      · rw [Nat.mul_add]; omega
      · omega
  | .object id es, h => by
    simp only [Json.EntriesAtMost] at h
    have := Json.lits_le es h.2
    simp only [Json.lit, Json.cnt]
    cases es with
    | nil => simp [Json.lits]
    | cons x es =>
      simp only [List.isEmpty_cons, Bool.false_eq_true, if_false]
      split
      · rw [Nat.mul_add]; omega
      · omega
  | .pair id keyId key v, h => by
    simp only [Json.EntriesAtMost] at h
    have := Json.lit_le v h
    simp only [Json.lit, Json.cnt]
    split
    · rw [Nat.mul_add]; omega
    · omega
  | .null _, _ | .bool _ _, _ | .string _ _, _ | .number _ _, _ | .comment _ _ _, _ | .roots _ _, _ => by
    simp [Json.lit, Json.cnt]
theorem Json.lits_le {n : Nat} : ∀ es : List Json, Json.AllEntriesAtMost n es →
    Json.lits oi es ≤ es.length + (n + 2) * Json.cnts oi es
  | [], _ => by simp [Json.lits]
  | e :: es, h => by
    simp only [Json.AllEntriesAtMost] at h
    have h1 := Json.lit_le e h.1
    have h2 := Json.lits_le es h.2
    simp only [Json.lits, Json.cnts, List.length_cons, Nat.mul_add]
    omega
end

/-! ### Open nodes on one line -/

theorem Json.cnts_widths {h : Nat} {es : List Json} (hk : ∀ (k : Nat) x, es[k]? = some x → x.cnt oi ≤ h * x.flatWidth sw) :
    Json.cnts oi es ≤ h * (Json.cells sw es - sw ", ") := by
  cases es with
  | nil => simp [Json.cnts]
  | cons e es =>
    have key : ∀ es : List Json, (∀ (k : Nat) x, es[k]? = some x → x.cnt oi ≤ h * x.flatWidth sw) →
        Json.cnts oi es ≤ h * Json.cells sw es := by
      intro es
      induction es with
      | nil => intro _; simp [Json.cnts]
      | cons e es ih =>
        intro hk
        have h1 := hk 0 e rfl
        have h2 := ih fun k x hx => hk (k + 1) x (by simpa using hx)
        simp only [Json.cnts, Json.cells, Nat.mul_add]
        omega
    have h1 := hk 0 e rfl
    have h2 := key es fun k x hx => hk (k + 1) x (by simpa using hx)
    simp only [Json.cnts, Json.cells]
    rw [show e.flatWidth sw + sw ", " + Json.cells sw es - sw ", " = e.flatWidth sw + Json.cells sw es by omega,
      Nat.mul_add]
    omega

/-- Every open node takes up a column at least. -/
theorem Json.cnt_width (h1 : 0 < sw "[") (h2 : 0 < sw "{") (h3 : 0 < sw ": ") (e : Json) :
    ∀ h, e.levels ≤ h → e.cnt oi ≤ h * e.flatWidth sw := by
  induction e using Json.induct with
  | simple e he => intro h _; rw [he.cnt]; omega
  | pair id keyId key v ih =>
    intro h hl
    simp only [Json.levels] at hl
    have := ih (h - 1) (by omega)
    have e1 : h = h - 1 + 1 := by omega
    simp only [Json.cnt, Json.flatWidth]
    split
    · rw [e1, Nat.add_mul]
      have e2 : (h - 1) * v.flatWidth sw ≤ (h - 1) * (sw "\"" + sw key + sw "\"" + sw ": " + v.flatWidth sw) :=
        Nat.mul_le_mul_left _ (by omega)
      omega
    · omega
  | group l r es e id hg ih =>
    intro h hl
    rw [hg.levels] at hl
    have hk : Json.cnts oi es ≤ (h - 1) * (Json.cells sw es - sw ", ") :=
      Json.cnts_widths fun k x hx => ih k x hx (h - 1) (by have := Json.levels_kid hx; omega)
    have hl0 : 0 < sw l := by
      cases hg with
      | array h _ => subst h; exact h1
      | object h _ => subst h; exact h2
    have e1 : h = h - 1 + 1 := by omega
    rw [hg.cnt, hg.flatWidth]
    split
    · omega
    split
    · rw [e1, Nat.add_mul]
      have e2 : (h - 1) * (Json.cells sw es - sw ", ") ≤ (h - 1) * (sw l + (Json.cells sw es - sw ", ") + sw r) :=
        Nat.mul_le_mul_left _ (by omega)
      omega
    · omega

/-! ### Some entries -/

/-- Entries of which only those that are on the lines `lo`–`hi`, or begin in the first `w` columns, are open. -/
theorem Json.cnts_le {h b M step lo hi : Nat} (es : List Json) : ∀ line off,
    (∀ (k : Nat) x, es[k]? = some x → x.cnt oi ≤ h * x.flatWidth sw ∧
      (¬ (line + Json.rows sw w step (es.take k) ≤ hi ∧ lo ≤ line + Json.rows sw w step (es.take k) + x.span sw w) →
        x.cnt oi ≤ b ∧ (w < off + Json.cells sw (es.take k) → x.cnt oi = 0)) ∧
      (line + Json.rows sw w step (es.take k) ≤ hi ∧ lo ≤ line + Json.rows sw w step (es.take k) + x.span sw w →
        step = 1 ∧ x.cnt oi ≤ M * countIn lo hi (line + Json.rows sw w step (es.take k))
          (line + Json.rows sw w step (es.take k) + x.span sw w + 1))) →
    Json.cnts oi es ≤ (if off ≤ w then (w - off) * h + b else 0) +
      M * countIn lo hi line (line + Json.rows sw w step es) := by
  induction es with
  | nil => intro line off _; simp [Json.cnts]
  | cons x es ih =>
    intro line off hk
    have h0 := hk 0 x rfl
    simp only [List.take_zero, Json.rows, Json.cells, Nat.add_zero] at h0
    obtain ⟨hA, hB, hC⟩ := h0
    have hr := ih (line + x.span sw w + step) (off + x.flatWidth sw + sw ", ") (by
      intro k y hy
      have := hk (k + 1) y (by simpa using hy)
      simp only [List.take_succ_cons, Json.rows, Json.cells] at this
      rw [show line + (Json.span sw w x + step + Json.rows sw w step (es.take k)) =
            line + Json.span sw w x + step + Json.rows sw w step (es.take k) by omega,
          show off + (Json.flatWidth sw x + sw ", " + Json.cells sw (es.take k)) =
            off + Json.flatWidth sw x + sw ", " + Json.cells sw (es.take k) by omega] at this
      exact this)
    have hrows : line + Json.rows sw w step (x :: es) = line + x.span sw w + step + Json.rows sw w step es := by
      simp only [Json.rows]; omega
    rw [hrows]
    simp only [Json.cnts]
    have hadd := countIn_add lo hi (x := line) (y := line + x.span sw w + step)
      (z := line + x.span sw w + step + Json.rows sw w step es) (by omega) (by omega)
    have hmul := Nat.mul_le_mul_left M hadd
    rw [Nat.mul_add] at hmul
    -- the columns
    have hcols : (off ≤ w → off + x.flatWidth sw + sw ", " ≤ w →
        (w - (off + x.flatWidth sw + sw ", ")) * h + h * x.flatWidth sw ≤ (w - off) * h) := by
      intro _ h2
      rw [Nat.mul_comm h, ← Nat.add_mul]
      exact Nat.mul_le_mul_right _ (by omega)
    by_cases hin : line ≤ hi ∧ lo ≤ line + x.span sw w
    · obtain ⟨rfl, hC⟩ := hC hin
      split
      · rename_i h1
        split at hr
        · have := hcols h1 (by assumption); omega
        · omega
      · rw [if_neg (by omega)] at hr; omega
    · obtain ⟨hb, hB⟩ := hB hin
      split
      · rename_i h1
        split at hr
        · have := hcols h1 (by assumption); omega
        · omega
      · rw [if_neg (by omega)] at hr
        have := hB (by omega)
        omega

/-! ### All of a document -/

/-- The number of open nodes outside of the window. -/
def outside (w h : Nat) : Nat := h * (w * h + 1)

theorem outside_succ (w h : Nat) : 1 + (w * h + outside w h) ≤ outside w (h + 1) := by
  unfold outside
  have e1 : w * (h + 1) + 1 = w * h + 1 + w := by rw [Nat.mul_add]; omega
  rw [e1, Nat.mul_add (h + 1), Nat.add_mul h 1 (w * h + 1)]
  have : w ≤ (h + 1) * w := Nat.le_mul_of_pos_left _ (by omega)
  omega

theorem outside_mono {w g h : Nat} (hl : g ≤ h) : outside w g ≤ outside w h :=
  Nat.mul_le_mul hl (Nat.add_le_add_right (Nat.mul_le_mul_left _ hl) _)

theorem le_outside {w h : Nat} (hl : 1 ≤ h) : w ≤ outside w h ∧ 1 ≤ outside w h := by
  unfold outside
  have e1 : w * 1 ≤ w * h := Nat.mul_le_mul_left _ hl
  have e2 : 1 * (w * h + 1) ≤ h * (w * h + 1) := Nat.mul_le_mul_right _ hl
  omega

variable {info : Nat → JInfo} {lo hi : Nat}

section
variable (h1 : 0 < sw "[") (h2 : 0 < sw "{") (h3 : 0 < sw ": ")
include h1 h2 h3

/-- The nodes of which only the first columns are on the window. -/
theorem Json.cnt_outside (e : Json) : ∀ {loc st off} h, Agrees sw w info e loc st off →
    ¬ (st ≤ hi ∧ lo ≤ st + e.span sw w) → e.levels ≤ h → e.cnt (jsonPlan sw w info lo hi).oi ≤ outside w h := by
  induction e using Json.induct with
  | simple e he => intro loc st off h _ _ _; rw [he.cnt]; omega
  | pair id keyId key v ih =>
    intro loc st off h ha hw hl
    simp only [Json.levels] at hl
    have hva : Agrees sw w info v (loc ++ [1]) st (sw "\"" + sw key + sw "\"" + sw ": ") := by
      intro x hx
      exact ha x (by simp [Json.infos, hx])
    have := ih (h - 1) hva (by simpa only [Json.span] using hw) (by omega)
    have e1 := outside_succ w (h - 1)
    rw [show h - 1 + 1 = h by omega] at e1
    simp only [Json.cnt]
    split <;> omega
  | group l r es e id hg ih =>
    intro loc st off h ha hw hl
    rw [hg.levels] at hl
    rw [hg.cnt]
    split
    · omega
    rename_i hne
    have hes : es ≠ [] := by rintro rfl; exact hne rfl
    split
    · have e1 := outside_succ w (h - 1)
      rw [show h - 1 + 1 = h by omega] at e1
      have := Json.cnts_le (oi := (jsonPlan sw w info lo hi).oi) (sw := sw) (w := w) (h := h - 1) (b := outside w (h - 1))
        (M := 0) (step := e.lineStep sw w) (lo := lo) (hi := hi) es (st + e.lineStep sw w) (sw l) (by
          intro k x hx
          have hak := ha.kid hg hx
          have hs := hg.kid_span (sw := sw) (w := w) hx
          have hlk := Json.levels_kid hx
          have hin : ¬ (st + e.lineStep sw w + Json.rows sw w (e.lineStep sw w) (es.take k) ≤ hi ∧
              lo ≤ st + e.lineStep sw w + Json.rows sw w (e.lineStep sw w) (es.take k) + x.span sw w) := by omega
          refine ⟨Json.cnt_width h1 h2 h3 x _ (by omega), fun _ => ⟨ih k x hx _ hak hin (by omega), fun ho => ?_⟩,
            fun hc => absurd hc hin⟩
          cases hlf : x.isLeaf with
          | true => exact Json.cnt_leaf hlf
          | false =>
            apply Json.cnt_dark
            simp only [jsonPlan, hak.root, hlf, Bool.or_false, Bool.or_eq_false_iff, decide_eq_false_iff_not]
            exact ⟨hin, by omega⟩)
      have e2 : (w - sw l) * (h - 1) ≤ w * (h - 1) := Nat.mul_le_mul_right _ (by omega)
      split at this <;> omega
    · omega

/-- The nodes on the lines of the window. -/
theorem Json.cnt_inside (e : Json) : ∀ {loc st off} h M, Agrees sw w info e loc st off →
    (st ≤ hi ∧ lo ≤ st + e.span sw w) → lo ≤ hi → e.levels ≤ h → outside w h ≤ M →
    e.cnt (jsonPlan sw w info lo hi).oi ≤ h * M * countIn lo hi st (st + e.span sw w + 1) := by
  induction e using Json.induct with
  | simple e he => intro loc st off h M _ _ _ _; rw [he.cnt]; omega
  | pair id keyId key v ih =>
    intro loc st off h M ha hw hlo hl hM
    simp only [Json.levels] at hl
    have hva : Agrees sw w info v (loc ++ [1]) st (sw "\"" + sw key + sw "\"" + sw ": ") := by
      intro x hx
      exact ha x (by simp [Json.infos, hx])
    have hm := outside_mono (w := w) (Nat.sub_le h 1)
    have := ih (h - 1) M hva (by simpa only [Json.span] using hw) hlo (by omega) (by omega)
    have hp := le_outside (w := w) (h := h) (by omega)
    simp only [Json.span] at hw ⊢
    have hc : 1 ≤ countIn lo hi st (st + v.span sw w + 1) := by unfold countIn; omega
    have e1 : 1 * 1 ≤ M * countIn lo hi st (st + v.span sw w + 1) := Nat.mul_le_mul (by omega) hc
    simp only [Json.cnt]
    split
    · conv => rhs; rw [show h = h - 1 + 1 by omega, Nat.add_mul, Nat.add_mul, Nat.one_mul]
      omega
    · omega
  | group l r es e id hg ih =>
    intro loc st off h M ha hw hlo hl hM
    rw [hg.levels] at hl
    have hp := le_outside (w := w) (h := h) (by omega)
    have hc : 1 ≤ countIn lo hi st (st + e.span sw w + 1) := by unfold countIn; omega
    by_cases hsm : e.flatWidth sw ≤ w
    · have e1 := Json.cnt_width (oi := (jsonPlan sw w info lo hi).oi) h1 h2 h3 e h (by rw [hg.levels]; omega)
      have e2 : h * e.flatWidth sw ≤ h * M := Nat.mul_le_mul_left _ (by omega)
      have e3 : h * M * 1 ≤ h * M * countIn lo hi st (st + e.span sw w + 1) := Nat.mul_le_mul_left _ hc
      omega
    have hstep := Json.lineStep_long (sw := sw) (w := w) hsm
    rw [hg.cnt]
    split
    · omega
    rename_i hne
    have hes : es ≠ [] := by rintro rfl; exact hne rfl
    split
    · have hspan := hg.span_eq (sw := sw) (w := w) hes
      rw [hstep] at hspan
      have e1 := outside_succ w (h - 1)
      rw [show h - 1 + 1 = h by omega] at e1
      have hm := outside_mono (w := w) (Nat.sub_le h 1)
      have := Json.cnts_le (oi := (jsonPlan sw w info lo hi).oi) (sw := sw) (w := w) (h := h - 1) (b := outside w (h - 1))
        (M := (h - 1) * M) (step := 1) (lo := lo) (hi := hi) es (st + 1) (sw l) (by
          intro k x hx
          have hak := ha.kid hg hx
          have hlk := Json.levels_kid hx
          rw [hstep] at hak
          refine ⟨Json.cnt_width h1 h2 h3 x _ (by omega), fun hin => ⟨Json.cnt_outside h1 h2 h3 x _ hak hin (by omega),
            fun ho => ?_⟩, fun hin => ⟨rfl, ih k x hx _ M hak hin hlo (by omega) (by omega)⟩⟩
          cases hlf : x.isLeaf with
          | true => exact Json.cnt_leaf hlf
          | false =>
            apply Json.cnt_dark
            simp only [jsonPlan, hak.root, hlf, Bool.or_false, Bool.or_eq_false_iff, decide_eq_false_iff_not]
            exact ⟨hin, by omega⟩)
      have e2 : (w - sw l) * (h - 1) ≤ w * (h - 1) := Nat.mul_le_mul_right _ (by omega)
      have e3 : countIn lo hi (st + 1) (st + 1 + Json.rows sw w 1 es) ≤ countIn lo hi st (st + e.span sw w + 1) := by
        unfold countIn; omega
      have e4 := Nat.mul_le_mul_left ((h - 1) * M) e3
      have e5 : M * 1 ≤ M * countIn lo hi st (st + e.span sw w + 1) := Nat.mul_le_mul_left _ hc
      conv => rhs; rw [show h = h - 1 + 1 by omega, Nat.add_mul, Nat.add_mul, Nat.one_mul]
      split at this <;> omega
    · omega

/-- All of them. -/
theorem Json.cnt_le {e : Json} {loc off h} (ha : Agrees sw w info e loc 0 off) (hl : e.levels ≤ h) (hlo : lo ≤ hi) :
    e.cnt (jsonPlan sw w info lo hi).oi ≤ h * outside w h * (hi + 1 - lo) := by
  by_cases hin : 0 ≤ hi ∧ lo ≤ 0 + e.span sw w
  · refine Nat.le_trans (Json.cnt_inside h1 h2 h3 e h _ ha hin hlo hl (Nat.le_refl _)) ?_
    refine Nat.mul_le_mul_left _ ?_
    unfold countIn; omega
  · have := Json.cnt_outside h1 h2 h3 e h ha hin hl
    by_cases hh : h = 0
    · subst hh; simpa [outside] using this
    · have e1 : 1 * outside w h * 1 ≤ h * outside w h * (hi + 1 - lo) :=
        Nat.mul_le_mul (Nat.mul_le_mul_right _ (by omega)) (by omega)
      omega
end

theorem Json.depth_le_levels : (e : Json) → e.NoComments → e.depth ≤ e.levels := by
  intro e
  induction e using Json.induct with
  | simple e he => intro hn; cases e <;> first | exact he.elim | simp_all [Json.depth, Json.NoComments]
  | pair id keyId key v ih =>
    intro hn
    have := ih (by simpa only [Json.NoComments] using hn)
    simp only [Json.depth, Json.levels]
    omega
  | group l r es e id hg ih =>
    intro hn
    have key : Json.depths es ≤ Json.levelsIn es := by
      have : Json.NoCommentsIn es := by cases hg <;> simpa only [Json.NoComments] using hn
      clear hg hn
      induction es with
      | nil => simp [Json.depths]
      | cons x es ih' =>
        simp only [Json.NoCommentsIn] at this
        have h1 := ih 0 x rfl this.1
        have h2 := ih' (fun k y hy => ih (k + 1) y (by simpa using hy)) this.2
        simp only [Json.depths, Json.levelsIn]
        omega
    rw [hg.levels]
    cases hg <;> simp only [Json.depth] <;> omega

end PPP
