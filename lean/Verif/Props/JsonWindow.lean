import Verif.Props.Nested
import Verif.Props.JsonWork
import Verif.Proofs.JsonCount
/-
C61: printing a few lines of a large JSON document.
-/
namespace PPP
variable {sw : String → Nat}

/-- The node on the path that is furthest from the root. -/
theorem longest_prefix (path : List Nat) (l : List (Nat × JInfo)) (h : ∃ x ∈ l, x.2.loc <+: path) :
    ∃ y ∈ l, y.2.loc <+: path ∧ ∀ x ∈ l, x.2.loc <+: path → x.2.loc <+: y.2.loc := by
  induction l with
  | nil => obtain ⟨x, hx, _⟩ := h; simp at hx
  | cons a l ih =>
    by_cases hl : ∃ x ∈ l, x.2.loc <+: path
    · obtain ⟨y, hy, h1, h2⟩ := ih hl
      by_cases ha : a.2.loc <+: path
      · rcases Nat.le_total a.2.loc.length y.2.loc.length with hle | hle
        · refine ⟨y, by simp [hy], h1, fun x hx hp => ?_⟩
          rcases List.mem_cons.1 hx with rfl | hx
          · exact List.prefix_of_prefix_length_le ha h1 hle
          · exact h2 x hx hp
        · refine ⟨a, by simp, ha, fun x hx hp => ?_⟩
          rcases List.mem_cons.1 hx with rfl | hx
          · exact List.prefix_refl _
          · exact (h2 x hx hp).trans (List.prefix_of_prefix_length_le h1 ha hle)
      · refine ⟨y, by simp [hy], h1, fun x hx hp => ?_⟩
        rcases List.mem_cons.1 hx with rfl | hx
        · exact absurd hp ha
        · exact h2 x hx hp
    · obtain ⟨x, hx, hp⟩ := h
      rcases List.mem_cons.1 hx with rfl | hx
      · refine ⟨x, by simp, hp, fun x' hx' hp' => ?_⟩
        rcases List.mem_cons.1 hx' with rfl | hx'
        · exact List.prefix_refl _
        · exact absurd ⟨x', hx', hp'⟩ hl
      · exact absurd ⟨x, hx, hp⟩ hl

theorem Json.leaf_size : ∀ e : Json, e.NoComments → e.isLeaf = true → e.size = 1
  | .null _, _, _ | .bool _ _, _, _ | .string _ _, _, _ | .number _ _, _, _ => by simp [Json.size]
  | .array _ es, _, h | .object _ es, _, h => by
    cases es with
    | nil => simp [Json.size, Json.sizes]
    | cons => cases h
  | .pair _ _ _ _, _, h => by cases h
  | .comment _ _ _, h, _ => by simp only [Json.NoComments] at h
  | .roots _ _, h, _ => by simp only [Json.NoComments] at h

/-- C61, for any way of counting. -/
theorem json_window_ends (hb : 0 < sw "[" ∧ 0 < sw "{" ∧ 0 < sw ": ") {e : Json} (hc : e.NoComments) (hids : e.ids.Nodup)
    {n h : Nat} (hn : e.EntriesAtMost n) (hh : e.levels ≤ h) (scan w : Nat) (path : List Nat) {target : FocusTarget}
    (htar : target = .start ∨ target = .end) (style : Option BasicStyle) (k j : Nat) {bound : Nat → Nat}
    (hbound : ∀ {P : PrettyDoc} (law : P.Lawful) (doc : P.Node) (style : Option P.Style),
      (sessionC (P := P) scan doc w path target style (aroundAsks k j)).EndsWithin (bound (docWork law doc w)))
    (hmono : ∀ m n, m ≤ n → bound m ≤ bound n) :
    (sessionC (P := basicDoc sw) scan e.build w path target style (aroundAsks k j)).EndsWithin
      (bound (64 * ((1 + (n + 2) * (h * (h * (w * h + 1)) * (k + j + 1))) * (1 + 2 * h)))) := by
  have hd : e.depth ≤ h := Nat.le_trans (Json.depth_le_levels e hc) hh
  cases hleaf : e.isLeaf with
  | true =>
    obtain ⟨m, r, h1, h2⟩ := hbound (basicLaw sw) e.build style
    refine ⟨m, r, h1, Nat.le_trans h2 (hmono _ _ (Nat.le_trans (C57_work e w) ?_))⟩
    rw [Json.leaf_size e hc hleaf]
    refine Nat.mul_le_mul_left _ (Nat.mul_le_mul ?_ ?_) <;> omega
  | false =>
  -- the nodes
  let l := e.infos sw w [] 0 0
  let info := infoOf l ⟨.null 0, path ++ [0], 0, 0⟩
  have hnd : (l.map Prod.fst).Nodup := by
    show ((e.infos sw w [] 0 0).map Prod.fst).Nodup
    rw [infos_ids e hc]
    exact hids
  have ha : Agrees sw w info e [] 0 0 := fun x hx => infoOf_mem hnd hx
  have hcases : ∀ id, info id = ⟨.null 0, path ++ [0], 0, 0⟩ ∨ (id, info id) ∈ l := fun id => infoOf_cases _ _ _
  have hroot : info e.rootId = ⟨e, [], 0, 0⟩ := ha.root
  -- the line with the focus
  obtain ⟨y, hy, hy1, hy2⟩ := longest_prefix path l ⟨_, infos_root e [] 0 0, List.nil_prefix⟩
  obtain ⟨F, hF⟩ : ∃ F, target = .start ∧ F = y.2.st ∨ target = .end ∧ F = y.2.st + y.2.e.span sw w := by
    rcases htar with h | h
    · exact ⟨_, .inl ⟨h, rfl⟩⟩
    · exact ⟨_, .inr ⟨h, rfl⟩⟩
  have hFin : y.2.st ≤ F ∧ F ≤ y.2.st + y.2.e.span sw w := by
    rcases hF with ⟨_, rfl⟩ | ⟨_, rfl⟩ <;> omega
  have hnp : ¬ (path ++ [0] <+: path) := fun h => by have := h.length_le; simp at this
  let S := jsonPlan sw w info (F - k) (F + j)
  have hcov : S.Covers path F (F - k) (F + j) := by
    refine ⟨fun cid h1 h2 => ?_, fun cid hp => ?_, fun cid hl => ?_, fun cid => Nat.le_add_right _ _, fun cid hs => ?_,
      by omega, by omega⟩
    · have h1 : (info cid).st ≤ F + j := h1
      have h2 : F - k ≤ (info cid).st + (info cid).e.span sw w := h2
      show (jsonPlan sw w info (F - k) (F + j)).oi cid = true
      simp only [jsonPlan, h1, h2, and_self, decide_true, Bool.true_or]
    · have hp : (info cid).loc <+: path := hp
      show (info cid).st ≤ F ∧ F ≤ (info cid).st + (info cid).e.span sw w
      rcases hcases cid with h | h
      · rw [h] at hp; exact absurd hp hnp
      · have := infos_nested e h hy (hy2 _ h hp)
        dsimp only at this
        omega
    · have hl : (info cid).e.isLeaf = true := hl
      show (jsonPlan sw w info (F - k) (F + j)).oi cid = true
      simp only [jsonPlan, hl, Bool.or_true, Bool.true_or]
    · have hs : decide ((info cid).e.flatWidth sw ≤ w) = true := hs
      show (info cid).st = (info cid).st + (info cid).e.span sw w
      rw [Json.span_small _ (of_decide_eq_true hs)]
      rfl
  have hoff : ∀ cid, S.oi cid = false → w < (info cid).off := by
    intro cid h
    have h : (jsonPlan sw w info (F - k) (F + j)).oi cid = false := h
    simp only [jsonPlan, Bool.or_eq_false_iff, decide_eq_false_iff_not] at h
    omega
  have ho : S.oi e.rootId = true := by
    show (jsonPlan sw w info (F - k) (F + j)).oi e.rootId = true
    simp [jsonPlan, hroot]
  -- the tree
  obtain ⟨hid, hgood⟩ := json_planned (sw := sw) (w := w) (info := info) (lo := F - k) (hi := F + j) e hc ha e.build rfl
  obtain ⟨nt, hnt, -, -, htall⟩ := hgood false [] style
  obtain ⟨g, htall⟩ := htall rfl hleaf
  rw [hroot] at htall
  dsimp only at htall
  rw [Nat.zero_add] at htall
  have ht : rootTree (basicLaw sw) e.build style = .ok (e.rootId, nt) := by
    unfold rootTree
    rw [hnt]
    show Except.ok (e.build.id, nt) = _
    rw [hid]
  obtain ⟨t', ht', hdims⟩ := rootTree_dims (law := basicLaw sw) ht (oi := S.oi) ho
  obtain ⟨hrun, hok⟩ := htall.dims hoff hcov.small hdims
  -- the work
  have hwork : docWork (dimmed_lawful (basicLaw sw) (openBy (P := basicDoc sw) S.oi)) e.build w ≤
      64 * ((1 + (n + 2) * (h * (h * (w * h + 1)) * (k + j + 1))) * (1 + 2 * h)) := by
    have e1 := (json_dim (sw := sw) (oi := S.oi) e hc e.build rfl).work 0 w (fun _ => 0) (fun _ => Nat.zero_le _)
    rw [Nat.add_zero, Nat.add_zero (1 + 2 * e.depth)] at e1
    have e2 : e.lit S.oi ≤ 1 + (n + 2) * e.cnt S.oi := Json.lit_le e hn
    have e3 : e.cnt S.oi ≤ h * outside w h * (F + j + 1 - (F - k)) :=
      Json.cnt_le hb.1 hb.2.1 hb.2.2 ha hh (by omega)
    have e4 : h * outside w h * (F + j + 1 - (F - k)) ≤ h * (h * (w * h + 1)) * (k + j + 1) :=
      Nat.mul_le_mul_left _ (by omega)
    have e5 : (n + 2) * e.cnt S.oi ≤ (n + 2) * (h * (h * (w * h + 1)) * (k + j + 1)) :=
      Nat.mul_le_mul_left _ (Nat.le_trans e3 e4)
    have e6 : e.lit S.oi * (1 + 2 * e.depth) ≤ (1 + (n + 2) * (h * (h * (w * h + 1)) * (k + j + 1))) * (1 + 2 * h) :=
      Nat.mul_le_mul (by omega) (by omega)
    unfold docWork
    omega
  have hcov' : (S.dim (openBy S.oi)).Covers path F (F - k) (F + j) :=
    ⟨hcov.window, hcov.onPath, hcov.leaves, hcov.le, hcov.small, hcov.lo_le, hcov.le_hi⟩
  refine near_ends (law := basicLaw sw) ht' scan w path target k j (fun f hf => absurd hf ?_)
    (let ⟨m, r, h1, h2⟩ := hbound (dimmed_lawful (basicLaw sw) (openBy (P := basicDoc sw) S.oi)) e.build style
     ⟨m, r, h1, Nat.le_trans h2 (hmono _ _ hwork)⟩)
  · refine GPlan.noNearFails hcov' (T := e.span sw w) ?_ ?_ ?_ hok ⟨hrun.weaken, hok.items⟩ ?_ rfl (Nat.le_refl _)
    · show (info e.rootId).st = 0
      rw [hroot]
    · show (info e.rootId).st + (info e.rootId).e.span sw w = _
      rw [hroot]; exact Nat.zero_add _
    · show (info e.rootId).loc = []
      rw [hroot]
    · intro cid hcid
      have hcid : (info cid).loc = path := hcid
      show target = .start ∧ F = (info cid).st ∨ target = .end ∧ F = (info cid).st + (info cid).e.span sw w
      rcases hcases cid with hd | hd
      · rw [hd] at hcid
        simp at hcid
      · have hp1 : (info cid).loc <+: y.2.loc := hy2 _ hd (by rw [hcid]; exact List.prefix_refl _)
        have hp2 : y.2.loc <+: (info cid).loc := by rw [hcid]; exact hy1
        have q1 := infos_nested e hd hy hp1
        have q2 := infos_nested e hy hd hp2
        dsimp only at q1 q2
        rcases hF with ⟨h, e⟩ | ⟨h, e⟩
        · exact .inl ⟨h, by omega⟩
        · exact .inr ⟨h, by omega⟩

/-- **C61**.  Printing `k` lines above and `j` lines below the start or the end of a node of a JSON document without
    comments takes a number of steps that is bounded by the number of lines, the width, how deep the document is nested (`h`),
    and how many entries a single array or object has (`n`); no matter how many nodes there are in the document. -/
theorem C61_json_window (hb : 0 < sw "[" ∧ 0 < sw "{" ∧ 0 < sw ": ") {e : Json} (hc : e.NoComments) (hids : e.ids.Nodup)
    {n h : Nat} (hn : e.EntriesAtMost n) (hh : e.levels ≤ h) (w : Nat) (path : List Nat) {target : FocusTarget}
    (htar : target = .start ∨ target = .end) (style : Option BasicStyle) (k j : Nat) :
    (sessionC (P := basicDoc sw) 0 e.build w path target style (aroundAsks k j)).EndsWithin
      (768 * ((1 + (n + 2) * (h * (h * (w * h + 1)) * (k + j + 1))) * (1 + 2 * h)) + 10 + (k + j)) := by
  have := json_window_ends hb hc hids hn hh 0 w path htar style k j (bound := fun n => 12 * n + 10 + (k + j)) (by
    intro P law doc style
    have h := C55_session law doc w path target style (aroundAsks k j)
    have e : (aroundAsks k j).length = k + j := by simp [aroundAsks]
    rwa [e] at h) (fun m n h => by omega)
  rwa [← Nat.mul_assoc] at this

/-- **C61**.  If the chunks that are scanned while following the path are counted as well, the number of steps still does
    not depend on the size of the document. -/
theorem C61_json_window_scan (hb : 0 < sw "[" ∧ 0 < sw "{" ∧ 0 < sw ": ") {e : Json} (hc : e.NoComments)
    (hids : e.ids.Nodup) {n h : Nat} (hn : e.EntriesAtMost n) (hh : e.levels ≤ h) (scan w : Nat) (path : List Nat)
    {target : FocusTarget} (htar : target = .start ∨ target = .end) (style : Option BasicStyle) (k j : Nat) {m : Nat}
    (hm : 768 * ((1 + (n + 2) * (h * (h * (w * h + 1)) * (k + j + 1))) * (1 + 2 * h)) ≤ m) :
    (sessionC (P := basicDoc sw) scan e.build w path target style (aroundAsks k j)).EndsWithin
      ((1 + scan * (m + 5)) * (m + 10) + (k + j)) := by
  obtain ⟨c, r, h1, h2⟩ := json_window_ends hb hc hids hn hh scan w path htar style k j
    (bound := fun n => (1 + scan * (12 * n + 5)) * (12 * n + 10) + (k + j)) (by
    intro P law doc style
    have h := C55_session_scan law scan doc w path target style (aroundAsks k j)
    have e : (aroundAsks k j).length = k + j := by simp [aroundAsks]
    rwa [e] at h) (fun m n h => by
      refine Nat.add_le_add_right (Nat.mul_le_mul ?_ (by omega)) _
      exact Nat.add_le_add_left (Nat.mul_le_mul_left _ (by omega)) _)
  refine ⟨c, r, h1, Nat.le_trans h2 ?_⟩
  rw [← Nat.mul_assoc]
  refine Nat.add_le_add_right (Nat.mul_le_mul ?_ (by omega)) _
  exact Nat.add_le_add_left (Nat.mul_le_mul_left _ (by omega)) _

/-! ### The hypothesis about ids -/

mutual
theorem Json.assign_range (e : Json) (next : Nat) :
    next ≤ (e.assign next).2 ∧ (∀ i ∈ (e.assign next).1.ids, next ≤ i ∧ i < (e.assign next).2) ∧
      (e.assign next).1.ids.Nodup := by
  cases e with
  | null | bool | string | number => simp [Json.assign, Json.ids]
  | array id es | object id es | roots id es =>
    obtain ⟨h1, h2, h3⟩ := Json.assigns_range es next
    simp only [Json.assign, Json.ids, List.mem_cons, List.nodup_cons]
    refine ⟨by omega, ?_, ?_, h3⟩
    · rintro i (rfl | hi)
      · omega
      · have := h2 i hi; omega
    · intro hi; have := h2 _ hi; omega
  | pair id keyId key v =>
    obtain ⟨h1, h2, h3⟩ := Json.assign_range v next
    simp only [Json.assign, Json.ids, List.mem_cons, List.nodup_cons]
    refine ⟨by omega, ?_, ?_, ?_, h3⟩
    · rintro i (rfl | rfl | hi)
      · omega
      · omega
      · have := h2 i hi; omega
    · rintro (hi | hi)
      · omega
      · have := h2 _ hi; omega
    · intro hi; have := h2 _ hi; omega
  | comment id f s =>
    simp only [Json.assign, Json.ids, List.mem_singleton]
    exact ⟨by omega, fun i hi => by omega, by simp⟩
theorem Json.assigns_range (es : List Json) (next : Nat) :
    next ≤ (Json.assigns es next).2 ∧ (∀ i ∈ Json.idsIn (Json.assigns es next).1, next ≤ i ∧ i < (Json.assigns es next).2) ∧
      (Json.idsIn (Json.assigns es next).1).Nodup := by
  cases es with
  | nil => simp [Json.assigns, Json.idsIn]
  | cons e es =>
    obtain ⟨h1, h2, h3⟩ := Json.assign_range e next
    obtain ⟨h4, h5, h6⟩ := Json.assigns_range es (e.assign next).2
    simp only [Json.assigns, Json.idsIn, List.mem_append]
    refine ⟨by omega, ?_, ?_⟩
    · rintro i (hi | hi)
      · have := h2 i hi; omega
      · have := h5 i hi; omega
    · refine List.nodup_append.2 ⟨h3, h6, fun a ha b hb => ?_⟩
      have := h2 a ha
      have := h5 b hb
      omega
end

/-- C61.  The ids of a document that is made by one counter (as `json_tree.rs` does) are different. -/
theorem C61_ids (e : Json) (next : Nat) : (e.assign next).1.ids.Nodup := (e.assign_range next).2.2

mutual
theorem Json.assign_same (n : Nat) (e : Json) (next : Nat) : (e.NoComments → (e.assign next).1.NoComments) ∧
    (e.EntriesAtMost n → (e.assign next).1.EntriesAtMost n) ∧ (e.assign next).1.levels = e.levels := by
  cases e with
  | null | bool | string | number | comment => simp [Json.assign, Json.NoComments, Json.EntriesAtMost, Json.levels]
  | array id es | object id es | roots id es =>
    obtain ⟨h1, h2, h3, h4⟩ := Json.assigns_same n es next
    simp only [Json.assign, Json.NoComments, Json.EntriesAtMost, Json.levels, h3, h4]
    exact ⟨by first | exact h1 | exact fun h => h, fun h => ⟨h.1, h2 h.2⟩, trivial⟩
  | pair id keyId key v =>
    obtain ⟨h1, h2, h3⟩ := Json.assign_same n v next
    simp only [Json.assign, Json.NoComments, Json.EntriesAtMost, Json.levels, h3]
    exact ⟨h1, h2, trivial⟩
theorem Json.assigns_same (n : Nat) (es : List Json) (next : Nat) :
    (Json.NoCommentsIn es → Json.NoCommentsIn (Json.assigns es next).1) ∧
    (Json.AllEntriesAtMost n es → Json.AllEntriesAtMost n (Json.assigns es next).1) ∧
    Json.levelsIn (Json.assigns es next).1 = Json.levelsIn es ∧ (Json.assigns es next).1.length = es.length := by
  cases es with
  | nil => simp [Json.assigns]
  | cons e es =>
    obtain ⟨h1, h2, h3⟩ := Json.assign_same n e next
    obtain ⟨h4, h5, h6, h7⟩ := Json.assigns_same n es (e.assign next).2
    simp only [Json.assigns, Json.NoCommentsIn, Json.AllEntriesAtMost, Json.levelsIn, List.length_cons, h3, h6, h7]
    exact ⟨fun h => ⟨h1 h.1, h4 h.2⟩, fun h => ⟨h2 h.1, h5 h.2⟩, trivial, trivial⟩
end

/-- **C61**, for the documents that are made by calling the functions of `json.rs` without comments. -/
theorem C61_counter (hb : 0 < sw "[" ∧ 0 < sw "{" ∧ 0 < sw ": ") {e : Json} (hc : e.NoComments)
    {n h : Nat} (hn : e.EntriesAtMost n) (hh : e.levels ≤ h) (next w : Nat) (path : List Nat) {target : FocusTarget}
    (htar : target = .start ∨ target = .end) (style : Option BasicStyle) (k j : Nat) :
    (sessionC (P := basicDoc sw) 0 (e.assign next).1.build w path target style (aroundAsks k j)).EndsWithin
      (768 * ((1 + (n + 2) * (h * (h * (w * h + 1)) * (k + j + 1))) * (1 + 2 * h)) + 10 + (k + j)) := by
  obtain ⟨h1, h2, h3⟩ := e.assign_same n next
  exact C61_json_window hb (h1 hc) (C61_ids e next) (h2 hn) (by omega) w path htar style k j

/-! ### An example -/

namespace Ex

/-- Nested arrays with two entries each; the entries of the innermost ones are numbers. -/
def bigJson : Nat → Json
  | 0 => .number 0 "12"
  | d + 1 => .array 0 [bigJson d, bigJson d]

theorem bigJson_ok (d : Nat) : (bigJson d).NoComments ∧ (bigJson d).EntriesAtMost 2 ∧ (bigJson d).levels = d ∧
    (bigJson d).size = 2 ^ (d + 1) - 1 := by
  induction d with
  | zero => simp [bigJson, Json.NoComments, Json.EntriesAtMost, Json.levels, Json.size]
  | succ d ih =>
    obtain ⟨a1, a2, a3, a4⟩ := ih
    simp only [bigJson, Json.NoComments, Json.NoCommentsIn, Json.EntriesAtMost, Json.AllEntriesAtMost, Json.levels,
      Json.levelsIn, Json.size, Json.sizes, a1, a2, a3, a4, List.length_cons, List.length_nil]
    have : 1 ≤ 2 ^ (d + 1) := Nat.one_le_two_pow
    have e : 2 ^ (d + 1 + 1) = 2 ^ (d + 1) * 2 := Nat.pow_succ ..
    refine ⟨⟨trivial, trivial, trivial⟩, ⟨by omega, trivial, trivial, trivial⟩, by omega, by omega⟩

/-- There are `2 ^ (d + 1) - 1` nodes in this document, but only a number of steps that is polynomial in `d` is needed to print 20
    lines around any of them, on 80 columns. -/
example (d : Nat) (path : List Nat) :
    (sessionC (P := basicDoc String.length) 0 ((bigJson d).assign 0).1.build 80 path .start none (aroundAsks 9 10)).EndsWithin
      (768 * ((1 + 4 * (d * (d * (80 * d + 1)) * 20)) * (1 + 2 * d)) + 10 + 19) :=
  C61_counter (by decide) (bigJson_ok d).1 (bigJson_ok d).2.1 (Nat.le_of_eq (bigJson_ok d).2.2.1) 0 80 path (.inl rfl)
    none 9 10

end Ex
end PPP
