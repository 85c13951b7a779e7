import Verif.Spec.JsonWindow
import Verif.Proofs.GroupTree
import Verif.Proofs.JsonMain
/-
Where the nodes of a JSON document are.
-/
namespace PPP
variable (sw : String → Nat)

mutual
/-- The width of a JSON expression on one line. -/
def Json.flatWidth : Json → Nat
  | .null _ => sw "null"
  | .bool _ b => if b then sw "true" else sw "false"
  | .string _ s => sw "\"" + sw s + sw "\""
  | .number _ s => sw s
  | .array _ es => sw "[" + (Json.cells es - sw ", ") + sw "]"
  | .pair _ _ key v => sw "\"" + sw key + sw "\"" + sw ": " + v.flatWidth
  | .object _ es => sw "{" + (Json.cells es - sw ", ") + sw "}"
  | .comment _ _ _ => 0
  | .roots _ _ => 0
/-- The width of some entries on one line, with a comma after every one of them. -/
def Json.cells : List Json → Nat
  | [] => 0
  | e :: es => e.flatWidth + sw ", " + Json.cells es
end

/-- Displayed as a text (or two brackets). -/
def Json.isLeaf : Json → Bool
  | .null _ | .bool _ _ | .string _ _ | .number _ _ => true
  | .array _ es => es.isEmpty
  | .pair _ _ _ _ => false
  | .object _ es => es.isEmpty
  | .comment _ _ _ => true
  | .roots _ _ => true

variable (w : Nat)

mutual
/-- How many line breaks there are in a JSON expression, if everything that is at most `w` wide is put on one line. -/
def Json.span : Json → Nat
  | .array id es => if es.isEmpty || decide ((Json.array id es).flatWidth sw ≤ w) then 0 else 1 + Json.rows 1 es
  | .pair _ _ _ v => v.span
  | .object id es => if es.isEmpty || decide ((Json.object id es).flatWidth sw ≤ w) then 0 else 1 + Json.rows 1 es
  | _ => 0
/-- How many line breaks there are in some entries, and `step` after every one of them. -/
def Json.rows (step : Nat) : List Json → Nat
  | [] => 0
  | e :: es => e.span + step + Json.rows step es
end

/-- Which node there is where. -/
structure JInfo where
  e : Json
  loc : List Nat
  st : Nat
  off : Nat

/-- The children of a node that is longer than a line are on separate lines. -/
def Json.lineStep (e : Json) : Nat := if e.flatWidth sw ≤ w then 0 else 1

mutual
/-- The nodes of a JSON expression that begins on line `st` and in column `off` of its parent. -/
def Json.infos : Json → List Nat → Nat → Nat → List (Nat × JInfo)
  | .array id es, loc, st, off => (id, ⟨.array id es, loc, st, off⟩) ::
      Json.infosIn ((Json.array id es).lineStep sw w) es loc 0 (st + (Json.array id es).lineStep sw w) (sw "[")
  | .pair id keyId key v, loc, st, off => (id, ⟨.pair id keyId key v, loc, st, off⟩) ::
      (keyId, ⟨.string keyId key, loc ++ [0], st, 0⟩) :: v.infos (loc ++ [1]) st (sw "\"" + sw key + sw "\"" + sw ": ")
  | .object id es, loc, st, off => (id, ⟨.object id es, loc, st, off⟩) ::
      Json.infosIn ((Json.object id es).lineStep sw w) es loc 0 (st + (Json.object id es).lineStep sw w) (sw "{")
  | .null id, loc, st, off => [(id, ⟨.null id, loc, st, off⟩)]
  | .bool id b, loc, st, off => [(id, ⟨.bool id b, loc, st, off⟩)]
  | .string id s, loc, st, off => [(id, ⟨.string id s, loc, st, off⟩)]
  | .number id s, loc, st, off => [(id, ⟨.number id s, loc, st, off⟩)]
  | .comment id f s, loc, st, off => [(id, ⟨.comment id f s, loc, st, off⟩)]
  | .roots id es, loc, st, off => [(id, ⟨.roots id es, loc, st, off⟩)]
/-- The nodes of some entries. -/
def Json.infosIn (step : Nat) : List Json → List Nat → Nat → Nat → Nat → List (Nat × JInfo)
  | [], _, _, _, _ => []
  | e :: es, loc, i, line, off => e.infos (loc ++ [i]) line off ++
      Json.infosIn step es loc (i + 1) (line + e.span sw w + step) (off + e.flatWidth sw + sw ", ")
end

variable {sw w}

theorem mem_infosIn {step : Nat} {x : Nat × JInfo} (es : List Json) : ∀ {loc : List Nat} {i line off : Nat},
    x ∈ Json.infosIn sw w step es loc i line off ↔ ∃ (k : Nat) (e : Json), es[k]? = some e ∧
      x ∈ e.infos sw w (loc ++ [i + k]) (line + Json.rows sw w step (es.take k)) (off + Json.cells sw (es.take k)) := by
  induction es with
  | nil => intro loc i line off; simp [Json.infosIn]
  | cons e es ih =>
    intro loc i line off
    simp only [Json.infosIn, List.mem_append, ih]
    constructor
    · rintro (h | ⟨k, e', h1, h2⟩)
      · exact ⟨0, e, rfl, by simpa [Json.rows, Json.cells] using h⟩
      · refine ⟨k + 1, e', by simpa using h1, ?_⟩
        simp only [List.take_succ_cons, Json.rows, Json.cells]
        rw [show i + (k + 1) = i + 1 + k by omega,
          show line + (Json.span sw w e + step + Json.rows sw w step (es.take k)) =
            line + Json.span sw w e + step + Json.rows sw w step (es.take k) by omega,
          show off + (Json.flatWidth sw e + sw ", " + Json.cells sw (es.take k)) =
            off + Json.flatWidth sw e + sw ", " + Json.cells sw (es.take k) by omega]
        exact h2
    · rintro ⟨k, e', h1, h2⟩
      cases k with
      | zero =>
        left
        simp at h1
        subst h1
        simpa [Json.rows, Json.cells] using h2
      | succ k =>
        right
        refine ⟨k, e', by simpa using h1, ?_⟩
        simp only [List.take_succ_cons, Json.rows, Json.cells] at h2
        rw [show i + (k + 1) = i + 1 + k by omega,
          show line + (Json.span sw w e + step + Json.rows sw w step (es.take k)) =
            line + Json.span sw w e + step + Json.rows sw w step (es.take k) by omega,
          show off + (Json.flatWidth sw e + sw ", " + Json.cells sw (es.take k)) =
            off + Json.flatWidth sw e + sw ", " + Json.cells sw (es.take k) by omega] at h2
        exact h2

theorem Json.rows_append (step : Nat) (es fs : List Json) :
    Json.rows sw w step (es ++ fs) = Json.rows sw w step es + Json.rows sw w step fs := by
  induction es with
  | nil => simp [Json.rows]
  | cons e es ih => simp only [List.cons_append, Json.rows, ih]; omega

theorem Json.cells_append (es fs : List Json) : Json.cells sw (es ++ fs) = Json.cells sw es + Json.cells sw fs := by
  induction es with
  | nil => simp [Json.cells]
  | cons e es ih => simp only [List.cons_append, Json.cells, ih]; omega

theorem Json.rows_take {step : Nat} {es : List Json} {k : Nat} {e : Json} (h : es[k]? = some e) :
    Json.rows sw w step (es.take (k + 1)) = Json.rows sw w step (es.take k) + e.span sw w + step := by
  rw [List.take_add_one, Json.rows_append, h]
  simp [Json.rows]; omega

theorem Json.cells_take {es : List Json} {k : Nat} {e : Json} (h : es[k]? = some e) :
    Json.cells sw (es.take (k + 1)) = Json.cells sw (es.take k) + e.flatWidth sw + sw ", " := by
  rw [List.take_add_one, Json.cells_append, h]
  simp [Json.cells]; omega

theorem Json.rows_take_le (step : Nat) (es : List Json) (k : Nat) :
    Json.rows sw w step (es.take k) ≤ Json.rows sw w step es := by
  conv => rhs; rw [← List.take_append_drop k es]
  rw [Json.rows_append]; omega

theorem Json.cells_take_le (es : List Json) (k : Nat) : Json.cells sw (es.take k) ≤ Json.cells sw es := by
  conv => rhs; rw [← List.take_append_drop k es]
  rw [Json.cells_append]; omega

/-- The brackets of an array or an object. -/
inductive Json.IsGroup (l r : String) (es : List Json) : Json → Nat → Prop where
  | array {id} : l = "[" → r = "]" → IsGroup l r es (.array id es) id
  | object {id} : l = "{" → r = "}" → IsGroup l r es (.object id es) id

section
variable {l r : String} {es : List Json} {e : Json} {id : Nat}

theorem Json.IsGroup.flatWidth (h : e.IsGroup l r es id) :
    e.flatWidth sw = sw l + (Json.cells sw es - sw ", ") + sw r := by
  cases h with
  | array h1 h2 => subst h1 h2; simp [Json.flatWidth]
  | object h1 h2 => subst h1 h2; simp [Json.flatWidth]

theorem Json.IsGroup.isLeaf (h : e.IsGroup l r es id) : e.isLeaf = es.isEmpty := by cases h <;> rfl

theorem Json.IsGroup.rootId (h : e.IsGroup l r es id) : e.rootId = id := by cases h <;> rfl

theorem Json.IsGroup.span (h : e.IsGroup l r es id) :
    e.span sw w = if es.isEmpty || decide (e.flatWidth sw ≤ w) then 0 else 1 + Json.rows sw w 1 es := by
  cases h <;> simp only [Json.span]

theorem Json.IsGroup.infos (h : e.IsGroup l r es id) (loc st off) : e.infos sw w loc st off =
    (id, ⟨e, loc, st, off⟩) :: Json.infosIn sw w (e.lineStep sw w) es loc 0 (st + e.lineStep sw w) (sw l) := by
  cases h with
  | array h1 => subst h1; simp only [Json.infos]
  | object h1 => subst h1; simp only [Json.infos]

theorem Json.cells_get {k : Nat} {x : Json} (h : es[k]? = some x) :
    Json.cells sw (es.take k) + x.flatWidth sw + sw ", " ≤ Json.cells sw es := by
  rw [← Json.cells_take h]; exact Json.cells_take_le _ _

theorem Json.IsGroup.kid_width (h : e.IsGroup l r es id) {k : Nat} {x : Json} (hx : es[k]? = some x) :
    x.flatWidth sw ≤ e.flatWidth sw := by
  have := Json.cells_get (sw := sw) hx
  rw [h.flatWidth]; omega

mutual
theorem Json.span_small : ∀ e : Json, e.flatWidth sw ≤ w → e.span sw w = 0
  | .array id es, h => by simp [Json.span, h]
  | .object id es, h => by simp [Json.span, h]
  | .pair id keyId key v, h => by
    simp only [Json.span]
    apply Json.span_small v
    simp only [Json.flatWidth] at h; omega
  | .null _, _ | .bool _ _, _ | .string _ _, _ | .number _ _, _ | .comment _ _ _, _ | .roots _ _, _ => by simp [Json.span]
end

theorem Json.span_leaf : ∀ e : Json, e.isLeaf = true → e.span sw w = 0
  | .array id es, h => by simp only [Json.isLeaf] at h; simp [Json.span, h]
  | .object id es, h => by simp only [Json.isLeaf] at h; simp [Json.span, h]
  | .pair id keyId key v, h => by cases h
  | .null _, _ | .bool _ _, _ | .string _ _, _ | .number _ _, _ | .comment _ _ _, _ | .roots _ _, _ => by simp [Json.span]

theorem Json.rows_small {es : List Json} (h : ∀ x ∈ es, x.flatWidth sw ≤ w) : Json.rows sw w 0 es = 0 := by
  induction es with
  | nil => rfl
  | cons e es ih =>
    simp only [Json.rows]
    rw [Json.span_small e (h e (by simp)), ih fun x hx => h x (by simp [hx])]

/-- Where the entries are. -/
theorem Json.IsGroup.mem_infos (h : e.IsGroup l r es id) {x : Nat × JInfo} {loc st off} :
    x ∈ e.infos sw w loc st off ↔ x = (id, ⟨e, loc, st, off⟩) ∨ ∃ (k : Nat) (e' : Json), es[k]? = some e' ∧
      x ∈ e'.infos sw w (loc ++ [k]) (st + e.lineStep sw w + Json.rows sw w (e.lineStep sw w) (es.take k))
        (sw l + Json.cells sw (es.take k)) := by
  rw [h.infos, List.mem_cons, mem_infosIn]
  simp

end

/-! ### Induction -/

/-- Not an array, an object or a pair. -/
def Json.Simple (e : Json) : Prop :=
  match e with
  | .array _ _ | .object _ _ | .pair _ _ _ _ => False
  | _ => True

section
variable {p : Json → Prop} (simple : ∀ e : Json, e.Simple → p e)
  (pair : ∀ id keyId key v, p v → p (.pair id keyId key v))
  (group : ∀ l r es e id, Json.IsGroup l r es e id → (∀ (k : Nat) x, es[k]? = some x → p x) → p e)
include simple pair group

mutual
theorem Json.induct : ∀ e : Json, p e
  | .array id es => group "[" "]" es _ id (.array rfl rfl) fun k x h => Json.inducts es x (List.mem_of_getElem? h)
  | .object id es => group "{" "}" es _ id (.object rfl rfl) fun k x h => Json.inducts es x (List.mem_of_getElem? h)
  | .pair id keyId key v => pair id keyId key v (Json.induct v)
  | .null _ => simple _ trivial
  | .bool _ _ => simple _ trivial
  | .string _ _ => simple _ trivial
  | .number _ _ => simple _ trivial
  | .comment _ _ _ => simple _ trivial
  | .roots _ _ => simple _ trivial
theorem Json.inducts : ∀ es : List Json, ∀ x ∈ es, p x
  | [], x, h => by simp at h
  | e :: es, x, h => by
    rcases List.mem_cons.1 h with h | h
    · rw [h]; exact Json.induct e
    · exact Json.inducts es x h
end
end

theorem Json.Simple.infos {e : Json} (h : e.Simple) (loc st off) :
    e.infos sw w loc st off = [(e.rootId, ⟨e, loc, st, off⟩)] := by
  cases e <;> first | exact h.elim | simp [Json.infos, Json.rootId]

theorem Json.Simple.span {e : Json} (h : e.Simple) : e.span sw w = 0 := by
  cases e <;> first | exact h.elim | simp [Json.span]

theorem Json.lineStep_le (e : Json) : e.lineStep sw w ≤ 1 := by unfold Json.lineStep; split <;> omega

theorem Json.lineStep_small {e : Json} (h : e.flatWidth sw ≤ w) : e.lineStep sw w = 0 := by simp [Json.lineStep, h]

theorem Json.lineStep_long {e : Json} (h : ¬ e.flatWidth sw ≤ w) : e.lineStep sw w = 1 := by simp [Json.lineStep, h]

section
variable {l r : String} {es : List Json} {e : Json} {id : Nat}

theorem Json.IsGroup.span_eq (h : e.IsGroup l r es id) (hn : es ≠ []) :
    e.span sw w = e.lineStep sw w + Json.rows sw w (e.lineStep sw w) es := by
  have he : es.isEmpty = false := by cases es with | nil => exact absurd rfl hn | cons => rfl
  by_cases hs : e.flatWidth sw ≤ w
  · rw [Json.lineStep_small hs, Json.span_small e hs, Json.rows_small]
    intro x hx
    obtain ⟨k, hk⟩ := List.mem_iff_getElem?.1 hx
    exact Nat.le_trans (h.kid_width hk) hs
  · rw [Json.lineStep_long hs, h.span, he]
    simp [hs]

theorem Json.IsGroup.kid_span (h : e.IsGroup l r es id) {k : Nat} {x : Json} (hk : es[k]? = some x) :
    e.lineStep sw w + Json.rows sw w (e.lineStep sw w) (es.take k) + x.span sw w + e.lineStep sw w ≤ e.span sw w := by
  have hn : es ≠ [] := by rintro rfl; simp at hk
  rw [h.span_eq hn]
  have := Json.rows_take (sw := sw) (w := w) (step := e.lineStep sw w) hk
  have := Json.rows_take_le (sw := sw) (w := w) (e.lineStep sw w) es (k + 1)
  omega
end

/-- The nodes of an expression are inside of it. -/
theorem infos_inside (e : Json) : ∀ {x : Nat × JInfo} {loc st off}, x ∈ e.infos sw w loc st off →
    st ≤ x.2.st ∧ x.2.st + x.2.e.span sw w ≤ st + e.span sw w ∧ loc <+: x.2.loc ∧ x.2.e.rootId = x.1 := by
  induction e using Json.induct with
  | simple e he =>
    intro x loc st off hx
    rw [he.infos] at hx
    simp only [List.mem_singleton] at hx
    subst hx
    exact ⟨Nat.le_refl _, Nat.le_refl _, List.prefix_refl _, rfl⟩
  | pair id keyId key v ih =>
    intro x loc st off hx
    simp only [Json.infos, List.mem_cons] at hx
    rcases hx with rfl | rfl | hx
    · exact ⟨Nat.le_refl _, Nat.le_refl _, List.prefix_refl _, rfl⟩
    · exact ⟨Nat.le_refl _, by simp [Json.span], List.prefix_append _ _, rfl⟩
    · obtain ⟨h1, h2, h3, h4⟩ := ih hx
      exact ⟨h1, by simpa [Json.span] using h2, (List.prefix_append _ _).trans h3, h4⟩
  | group l r es e id hg ih =>
    intro x loc st off hx
    rcases hg.mem_infos.1 hx with rfl | ⟨k, y, hk, hx⟩
    · exact ⟨Nat.le_refl _, Nat.le_refl _, List.prefix_refl _, hg.rootId⟩
    · obtain ⟨h1, h2, h3, h4⟩ := ih k y hk hx
      have := hg.kid_span (sw := sw) (w := w) hk
      exact ⟨by omega, by omega, (List.prefix_append _ _).trans h3, h4⟩

/-- What is below a node is inside of it. -/
theorem infos_nested (e : Json) : ∀ {x y : Nat × JInfo} {loc st off}, x ∈ e.infos sw w loc st off →
    y ∈ e.infos sw w loc st off → x.2.loc <+: y.2.loc →
    x.2.st ≤ y.2.st ∧ y.2.st + y.2.e.span sw w ≤ x.2.st + x.2.e.span sw w := by
  -- different children
  have diff : ∀ {loc a b : List Nat} {i j : Nat}, loc ++ [i] <+: a → loc ++ [j] <+: b → a <+: b → i = j := by
    intro loc a b i j ha hb hab
    obtain ⟨t, rfl⟩ := ha
    obtain ⟨u, rfl⟩ := hb
    obtain ⟨v, hv⟩ := hab
    simp only [List.append_assoc, List.append_cancel_left_eq, List.cons_append,
      List.cons.injEq] at hv
    exact hv.1
  have self : ∀ {loc a : List Nat} {i : Nat}, loc ++ [i] <+: a → ¬ a <+: loc := by
    intro loc a i ha hb
    have h1 := ha.length_le
    have h2 := hb.length_le
    simp at h1
    omega
  induction e using Json.induct with
  | simple e he =>
    intro x y loc st off hx hy _
    rw [he.infos] at hx hy
    simp only [List.mem_singleton] at hx hy
    subst hx hy
    exact ⟨Nat.le_refl _, Nat.le_refl _⟩
  | pair id keyId key v ih =>
    intro x y loc st off hx hy hp
    simp only [Json.infos, List.mem_cons] at hx
    rcases hx with rfl | hx
    · have := infos_inside _ hy
      exact ⟨this.1, this.2.1⟩
    have hxl : x.2.loc = loc ++ [0] ∧ x.2.st = st ∨ x ∈ v.infos sw w (loc ++ [1]) st (sw "\"" + sw key + sw "\"" + sw ": ") := by
      rcases hx with rfl | hx
      · exact .inl ⟨rfl, rfl⟩
      · exact .inr hx
    simp only [Json.infos, List.mem_cons] at hy
    rcases hy with rfl | hy
    · rcases hx with rfl | hx
      · exact absurd hp (self (List.prefix_refl _))
      · exact absurd hp (self (infos_inside _ hx).2.2.1)
    rcases hx with rfl | hx
    · rcases hy with rfl | hy
      · exact ⟨Nat.le_refl _, Nat.le_refl _⟩
      · have := diff (List.prefix_refl _) (infos_inside _ hy).2.2.1 hp
        omega
    · rcases hy with rfl | hy
      · have := diff (infos_inside _ hx).2.2.1 (List.prefix_refl _) hp
        omega
      · exact ih hx hy hp
  | group l r es e id hg ih =>
    intro x y loc st off hx hy hp
    rcases hg.mem_infos.1 hx with rfl | ⟨k, a, hk, hx⟩
    · have := infos_inside _ hy
      exact ⟨this.1, this.2.1⟩
    rcases hg.mem_infos.1 hy with rfl | ⟨k', b, hk', hy⟩
    · exact absurd hp (self (infos_inside _ hx).2.2.1)
    · have := diff (infos_inside _ hx).2.2.1 (infos_inside _ hy).2.2.1 hp
      subst this
      rw [hk] at hk'
      cases hk'
      exact ih k a hk hx hy hp

/-! ### Ids -/

mutual
theorem infos_ids : ∀ (e : Json), e.NoComments → ∀ loc st off, (e.infos sw w loc st off).map Prod.fst = e.ids
  | .array id es, h, loc, st, off => by
    simp only [Json.infos, List.map_cons, Json.ids]
    rw [infosIn_ids es (by simpa only [Json.NoComments] using h)]
  | .object id es, h, loc, st, off => by
    simp only [Json.infos, List.map_cons, Json.ids]
    rw [infosIn_ids es (by simpa only [Json.NoComments] using h)]
  | .pair id keyId key v, h, loc, st, off => by
    simp only [Json.infos, List.map_cons, Json.ids]
    rw [infos_ids v (by simpa only [Json.NoComments] using h)]
  | .null _, _, _, _, _ | .bool _ _, _, _, _, _ | .string _ _, _, _, _, _ | .number _ _, _, _, _, _ => by
    simp [Json.infos, Json.ids]
  | .comment _ _ _, h, _, _, _ => by simp only [Json.NoComments] at h
  | .roots _ _, h, _, _, _ => by simp only [Json.NoComments] at h
theorem infosIn_ids {step : Nat} : ∀ (es : List Json), Json.NoCommentsIn es → ∀ loc i line off,
    (Json.infosIn sw w step es loc i line off).map Prod.fst = Json.idsIn es
  | [], _, _, _, _, _ => by simp [Json.infosIn, Json.idsIn]
  | e :: es, h, loc, i, line, off => by
    simp only [Json.NoCommentsIn] at h
    simp only [Json.infosIn, List.map_append, Json.idsIn]
    rw [infos_ids e h.1, infosIn_ids es h.2]
end

/-- The node with the given id. -/
def infoOf (l : List (Nat × JInfo)) (d : JInfo) (id : Nat) : JInfo := ((l.find? fun x => x.1 == id).map Prod.snd).getD d

theorem infoOf_mem {l : List (Nat × JInfo)} {d : JInfo} (hl : (l.map Prod.fst).Nodup) {x : Nat × JInfo} (hx : x ∈ l) :
    infoOf l d x.1 = x.2 := by
  induction l with
  | nil => simp at hx
  | cons y l ih =>
    simp only [List.map_cons, List.nodup_cons] at hl
    unfold infoOf
    rw [List.find?_cons]
    rcases List.mem_cons.1 hx with rfl | hx
    · simp
    · have : (y.1 == x.1) = false := by
        simp only [beq_eq_false_iff_ne, ne_eq]
        intro e
        exact hl.1 (List.mem_map.2 ⟨x, hx, e.symm⟩)
      rw [this]
      exact ih hl.2 hx

theorem infoOf_cases (l : List (Nat × JInfo)) (d : JInfo) (id : Nat) :
    infoOf l d id = d ∨ (id, infoOf l d id) ∈ l := by
  unfold infoOf
  cases h : l.find? fun x => x.1 == id with
  | none => exact .inl rfl
  | some x =>
    right
    have h1 := List.mem_of_find?_eq_some h
    have h2 := List.find?_some h
    simp only [beq_iff_eq] at h2
    subst h2
    exact h1

end PPP
