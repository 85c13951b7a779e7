import Verif.Proofs.Dim
import Verif.Proofs.PlanTree
import Verif.Props.Window
/-
C59: how much work it is to print a few lines of a document with nodes nested on separate lines.
-/
namespace PPP
variable {P : PrettyDoc}

theorem sessionView_lit {o : P.Node → Bool}
    (r : FocusedLine (P.dimmed o) × List (Option (Line (P.dimmed o)))) :
    sessionView (litSession r) = sessionView r := by
  obtain ⟨⟨l, g⟩, ls⟩ := r
  unfold sessionView litSession FocusedLine.lit FocusedLine.view
  simp only [List.map_map]
  refine Prod.ext rfl ?_
  refine List.map_congr_left fun x _ => ?_
  cases x with
  | none => rfl
  | some l =>
    simp only [Function.comp_apply, Option.map_some, Line.view, Line.lit, List.map_map]
    rfl

theorem Fail.rename_of_notDark {E : Type} {f : Fail (Option E)} (h : ¬ f.IsDark) : ∃ g : Fail E, f = g.rename some := by
  cases f with
  | panic => exact ⟨.panic, rfl⟩
  | overflow => exact ⟨.overflow, rfl⟩
  | err e =>
    cases e with
    | prettyDoc e =>
      cases e with
      | none => exact absurd rfl h
      | some e => exact ⟨.err (.prettyDoc e), rfl⟩
    | invalidPath i => exact ⟨.err (.invalidPath i), rfl⟩
    | textNotationOnTextlessDoc => exact ⟨.err (.textNotationOnTextlessDoc), rfl⟩
    | childIndexOutOfBounds i n => exact ⟨.err (.childIndexOutOfBounds i n), rfl⟩
    | childNotationOnChildlessDoc => exact ⟨.err (.childNotationOnChildlessDoc), rfl⟩
    | checkPosChildIndexOutOfBounds i n => exact ⟨.err (.checkPosChildIndexOutOfBounds i n), rfl⟩
    | checkPosChildOnChildlessDoc => exact ⟨.err (.checkPosChildOnChildlessDoc), rfl⟩
    | countNotationOnChildlessDoc => exact ⟨.err (.countNotationOnChildlessDoc), rfl⟩
    | numChildrenChanged => exact ⟨.err (.numChildrenChanged), rfl⟩
    | textAfterEndOfLine => exact ⟨.err (.textAfterEndOfLine), rfl⟩
    | missingFocusMark => exact ⟨.err (.missingFocusMark), rfl⟩
    | missingText => exact ⟨.err (.missingText), rfl⟩

/-- C59.  Suppose that a session never looks into the dark nodes of a dimmed document.  Then the same session on the
    document itself, where nothing is dark, takes exactly the same number of steps; and shows the same lines, or
    ends with the same error. -/
theorem C59_dark_nodes_are_free {o : P.Node → Bool} {scan : Nat} {doc : P.Node} {width : Nat} {path : List Nat}
    {target : FocusTarget} {style : Option P.Style} {asks : List Ask} {n : Nat}
    {r : Res (Option P.Err) (FocusedLine (P.dimmed o) × List (Option (Line (P.dimmed o))))}
    (h : sessionC (P := P.dimmed o) scan doc width path target style asks = some (n, r))
    (hr : ∀ f, r = .error f → ¬ f.IsDark ∧ f ≠ .panic) :
    ∃ r', sessionC scan doc width path target style asks = some (n, r') ∧
      match r with
      | .ok a => r'.map sessionView = .ok (sessionView (P := P.dimmed o) a)
      | .error f => ∃ g, r' = .error g ∧ f = g.rename some := by
  have hle := sessionC_led (o := o) scan doc width path target style asks
  match r with
  | .ok a => exact ⟨_, hle.1 n a h, congrArg Except.ok (sessionView_lit a)⟩
  | .error f =>
    obtain ⟨h1, h2⟩ := hr f rfl
    obtain ⟨g, rfl⟩ := Fail.rename_of_notDark h1
    refine ⟨.error g, hle.2 n g ?_ h, g, rfl, rfl⟩
    rintro rfl
    exact h2 rfl

section
variable {law : P.Lawful} {doc : P.Node} {style : Option P.Style} {id : P.Id} {t : NTree P}

theorem rootTree_dims (ht : rootTree law doc style = .ok (id, t)) {oi : P.Id → Bool} (ho : oi id = true) :
    ∃ t', rootTree (dimmed_lawful law (openBy oi)) doc style = .ok (id, t') ∧
      Dims (o := openBy oi) oi t (docShape law doc false 0) t' (docShape (dimmed_lawful law (openBy oi)) doc false 0) := by
  unfold rootTree at ht ⊢
  cases h1 : docTree law doc false [] style with
  | error e => rw [h1] at ht; cases ht
  | ok t1 =>
    cases h2 : P.id doc with
    | error e => rw [h1, h2] at ht; cases e <;> cases ht
    | ok id1 =>
      rw [h1, h2] at ht
      cases ht
      obtain ⟨t', h3, h4⟩ := dims_doc law (oi := oi) doc (by unfold openBy; rw [h2]; exact ho) [] style 0 h1
      refine ⟨t', ?_, h4⟩
      rw [h3]
      have : PrettyDoc.id (P.dimmed (openBy oi)) doc = .ok id := by
        show (P.id doc).rename _ _ = _
        rw [h2]
        rfl
      rw [this]
      rfl

/-- C59, for any document and any way of counting: what is dark, and is not near the focus, is free. -/
theorem near_ends {o : P.Node → Bool} {id : P.Id} {t' : NTree (P.dimmed o)}
    (ht' : rootTree (dimmed_lawful law o) doc style = .ok (id, t')) (scan w : Nat) (path : List Nat)
    (target : FocusTarget) (k j : Nat)
    (hn : ∀ f : Fail (Option P.Err), NearFails (P := P.dimmed o) w id t' path target k j f → ¬ f.IsDark) {bound : Nat}
    (hb : (sessionC (P := P.dimmed o) scan doc w path target style (aroundAsks k j)).EndsWithin bound) :
    (sessionC scan doc w path target style (aroundAsks k j)).EndsWithin bound := by
  obtain ⟨r, h1, h2⟩ := printAround_returns (dimmed_lawful law o) doc w path target style k j
  have hs : session (P := P.dimmed o) doc w path target style (aroundAsks k j) =
      Exec.ofRes (r.map fun r => (r.2.1, r.1 ++ r.2.2)) := by
    rw [session_around, h1]
    cases r <;> rfl
  obtain ⟨n, hns⟩ := Counted.result_eq_ofRes
    ((C55_same_session scan (P := P.dimmed o) doc w path target style _).trans hs)
  obtain ⟨r', h3, -⟩ := C59_dark_nodes_are_free hns (by
    intro f hf
    match r with
    | .ok r => cases hf
    | .error f' =>
      cases hf
      refine ⟨?_, fun e => h2 (by rw [e])⟩
      rcases C42_only_nearby (dimmed_lawful law o) ht' h1 with h | h
      · rcases h with rfl | rfl | rfl | rfl | ⟨i, rfl⟩ <;> (intro h; cases h)
      · exact hn _ h)
  obtain ⟨n', r2, h4, h5⟩ := hb
  rw [hns] at h4
  cases h4
  exact ⟨n, r', h3, h5⟩

/-- C59.  Make some nodes of any document unavailable (`o` says which ones are left), in such a way that nothing near the
    focus (`NearFails`, see C42) fails because of that.  Then printing `k` lines above and `j` lines below the focus in
    the document itself takes at most 12 times the work of printing only what is left, in which an unavailable
    node counts as one construct. -/
theorem C59_near {o : P.Node → Bool} {id : P.Id} {t' : NTree (P.dimmed o)}
    (ht' : rootTree (dimmed_lawful law o) doc style = .ok (id, t')) (w : Nat) (path : List Nat)
    (target : FocusTarget) (k j : Nat)
    (hn : ∀ f : Fail (Option P.Err), NearFails (P := P.dimmed o) w id t' path target k j f → ¬ f.IsDark) :
    (sessionC 0 doc w path target style (aroundAsks k j)).EndsWithin
      (12 * docWork (dimmed_lawful law o) doc w + 10 + (k + j)) := by
  have h := C55_session (dimmed_lawful law o) doc w path target style (aroundAsks k j)
  have e : (aroundAsks k j).length = k + j := by simp [aroundAsks]
  rw [e] at h
  exact near_ends (law := law) ht' 0 w path target k j hn h

/-- C59, for any way of counting. -/
theorem window_ends (ht : rootTree law doc style = .ok (id, t)) {d c : Nat} (hr : NestedRows d t)
    (hu : UniqueIds (id, t)) (hc : OwnAtMost law doc c) {target : FocusTarget}
    (htar : target = .start ∨ target = .end) (scan w : Nat) (path : List Nat) (k j : Nat) {bound : Nat → Nat}
    (hb : ∀ (o : P.Node → Bool), (sessionC (P := P.dimmed o) scan doc w path target style (aroundAsks k j)).EndsWithin
      (bound (docWork (dimmed_lawful law o) doc w)))
    (hmono : ∀ m n, m ≤ n → bound m ≤ bound n) :
    (sessionC scan doc w path target style (aroundAsks k j)).EndsWithin (bound (c * (d + 1) * (k + j + 1))) := by
  -- the line with the focus
  obtain ⟨F, hF⟩ : ∃ F, target = .start ∧ F = (ivl t 0 path).1 ∨ target = .end ∧ F = (ivl t 0 path).2 := by
    rcases htar with h | h
    · exact ⟨_, .inl ⟨h, rfl⟩⟩
    · exact ⟨_, .inr ⟨h, rfl⟩⟩
  have hFin : (ivl t 0 path).1 ≤ F ∧ F ≤ (ivl t 0 path).2 := by
    have := ivl_inside path t 0
    rcases hF with ⟨_, rfl⟩ | ⟨_, rfl⟩ <;> omega
  -- the plan
  let S := planOf (id, t) (F - k) (F + j)
  have hn : NodeAt (id, t) [] id t := .here
  have hl : S.loc id = [] := planOf_loc hu hn
  have hst : S.st id = 0 := by
    show (ivl t 0 (S.loc id)).1 = 0
    rw [hl]; rfl
  have hen : S.en id = t.span := by
    show (ivl t 0 (S.loc id)).2 = _
    rw [hl]; simp [ivl]
  have hcov : S.Covers path F (F - k) (F + j) := by
    refine ⟨fun cid h1 h2 => (planOf_oi cid).2 ⟨h1, h2⟩, ?_, fun cid => (ivl_inside _ _ _).2.1, by omega, by omega⟩
    rintro cid ⟨q', rfl⟩
    refine (planOf_oi cid).2 ?_
    have := ivl_append (S.loc cid) q' t 0
    have h1 : S.st cid = (ivl t 0 (S.loc cid)).1 := rfl
    have h2 : S.en cid = (ivl t 0 (S.loc cid)).2 := rfl
    show S.st cid ≤ F + j ∧ F - k ≤ S.en cid
    omega
  have ho : S.oi id = true := hcov.onPath id (by rw [hl]; exact List.nil_prefix)
  obtain ⟨g, hlaid⟩ := planOf_laid (lo := F - k) (hi := F + j) hu hn hr (by
    intro q'
    rw [show (planOf (id, t) (F - k) (F + j)).st id = 0 from hst]
    rfl)
  have hlaid : Laid S d id t 0 true t.span g := by
    rw [show (planOf (id, t) (F - k) (F + j)).st id = 0 from hst, Nat.zero_add] at hlaid
    exact hlaid
  obtain ⟨t', ht', hdims⟩ := rootTree_dims ht ho
  obtain ⟨hp, hsp, hok⟩ := hlaid.dims hdims
  -- the work
  have hwork : docWork (dimmed_lawful law (openBy S.oi)) doc w ≤ c * (d + 1) * (k + j + 1) := by
    have e := hlaid.work (c := c) (lo := F - k) (hi := F + j) (w := w) (fun cid => hcov.le cid)
      (fun cid h => (planOf_oi cid).1 h) (by omega) hdims hc.2 (fun _ => 0)
    have e1 : countIn (F - k) (F + j) (cursor 0 true) (cursor t.span g) ≤ k + j + 1 := by
      unfold countIn cursor
      simp only [if_true]
      omega
    have e2 := Nat.mul_le_mul_left (c * d) e1
    have e3 : c * (d + 1) * (k + j + 1) = c * d * (k + j + 1) + c * (k + j + 1) := by
      rw [Nat.mul_add c d 1, Nat.mul_one, Nat.add_mul]
    have e4 : c * 1 ≤ c * (k + j + 1) := Nat.mul_le_mul_left c (by omega)
    have := hc.1
    unfold docWork
    omega
  refine near_ends (law := law) ht' scan w path target k j (fun f h => absurd h ?_)
    (let ⟨n, r, h1, h2⟩ := hb (openBy S.oi); ⟨n, r, h1, Nat.le_trans h2 (hmono _ _ hwork)⟩)
  have hcov' : (S.dim (openBy S.oi)).Covers path F (F - k) (F + j) :=
    ⟨hcov.window, hcov.onPath, hcov.le, hcov.lo_le, hcov.le_hi⟩
  refine Plan.noNearFails hcov' (T := t.span) hst hen hl hok ⟨hp, hok.items, ⟨_, hsp⟩⟩ ?_ rfl (Nat.le_refl _)
  intro cid hcid
  have hcid : S.loc cid = path := hcid
  rcases hF with ⟨h, e⟩ | ⟨h, e⟩
  · refine .inl ⟨h, ?_⟩
    show F = (ivl t 0 (S.loc cid)).1
    rw [hcid, e]
  · refine .inr ⟨h, ?_⟩
    show F = (ivl t 0 (S.loc cid)).2
    rw [hcid, e]

/-- C59.  In a document in which every node displays its children on separate lines, printing `k` lines above and `j`
    lines below the start or the end of a node takes a number of steps that is proportional to the number
    of lines printed, times how deeply the nodes of the document are nested, times the size of the notation of a
    single node.  The size of the document does not matter. -/
theorem C59_window (ht : rootTree law doc style = .ok (id, t)) {d c : Nat} (hr : NestedRows d t)
    (hu : UniqueIds (id, t)) (hc : OwnAtMost law doc c) {target : FocusTarget}
    (htar : target = .start ∨ target = .end) (w : Nat) (path : List Nat) (k j : Nat) :
    (sessionC 0 doc w path target style (aroundAsks k j)).EndsWithin
      (12 * (c * (d + 1) * (k + j + 1)) + 10 + (k + j)) := by
  refine window_ends ht hr hu hc htar 0 w path k j (bound := fun n => 12 * n + 10 + (k + j)) (fun o => ?_)
    (fun m n h => by omega)
  have h := C55_session (dimmed_lawful law o) doc w path target style (aroundAsks k j)
  have e : (aroundAsks k j).length = k + j := by simp [aroundAsks]
  rwa [e] at h

/-- C59.  If the chunks that are scanned while following the path are counted as well, the number of steps is at most
    quadratic, but still does not depend on the size of the document. -/
theorem C59_window_scan (ht : rootTree law doc style = .ok (id, t)) {d c : Nat} (hr : NestedRows d t)
    (hu : UniqueIds (id, t)) (hc : OwnAtMost law doc c) {target : FocusTarget}
    (htar : target = .start ∨ target = .end) (scan w : Nat) (path : List Nat) (k j : Nat) :
    (sessionC scan doc w path target style (aroundAsks k j)).EndsWithin
      ((1 + scan * (12 * (c * (d + 1) * (k + j + 1)) + 5)) * (12 * (c * (d + 1) * (k + j + 1)) + 10) + (k + j)) := by
  refine window_ends ht hr hu hc htar scan w path k j
    (bound := fun n => (1 + scan * (12 * n + 5)) * (12 * n + 10) + (k + j)) (fun o => ?_) (fun m n h => ?_)
  · have h := C55_session_scan (dimmed_lawful law o) scan doc w path target style (aroundAsks k j)
    have e : (aroundAsks k j).length = k + j := by simp [aroundAsks]
    rwa [e] at h
  · refine Nat.add_le_add_right (Nat.mul_le_mul ?_ (by omega)) _
    exact Nat.add_le_add_left (Nat.mul_le_mul_left _ (by omega)) _

end

namespace Ex

/-! ### An example: a document of `2 ^ d` lines -/

/-- A tree in which every node has two children, and displays them on separate lines; its leaves are texts.  A node is
    given by its height and its path. -/
@[reducible] def binP (line : List Nat → String) : PrettyDoc where
  Node := Nat × List Nat
  Id := List Nat
  Style := Unit
  Label := Unit
  Cond := Unit
  Err := Unit
  decId := inferInstance
  combine _ _ := ()
  strWidth := String.length
  id n := .ok n.2
  notn
    | (0, _) => .ok .text
    | (_ + 1, _) => .ok (.concat (.concat (.child 0) .newline) (.child 1))
  condition _ _ := .ok true
  lookupStyle _ _ := .ok ()
  nodeStyle _ := .ok ()
  numChildren
    | (0, _) => .ok none
    | (_ + 1, _) => .ok (some 2)
  unwrapText n := .ok (line n.2)
  unwrapChild n i := .ok (n.1 - 1, n.2 ++ [i])
  unwrapLastChild n := .ok (n.1 - 1, n.2 ++ [1])
  unwrapPrevSibling _ p i := .ok (p.1 - 1, p.2 ++ [i])

variable {line : List Nat → String}

theorem bin_childAt (n : Nat × List Nat) (i : Nat) (m : Nat × List Nat) :
    (binP line).childAt n i = .ok m ↔ ∃ h, n.1 = h + 1 ∧ i < 2 ∧ m = (h, n.2 ++ [i]) := by
  obtain ⟨_ | h, q⟩ := n
  · simp [PrettyDoc.childAt, bind, Except.bind]
  · by_cases hi : i < 2
    · simp [PrettyDoc.childAt, bind, Except.bind, hi]; exact eq_comm
    · simp [PrettyDoc.childAt, bind, Except.bind, hi]

theorem bin_law (line : List Nat → String) : (binP line).Lawful where
  wf := by
    have : ∀ h q, Acc (binP line).ChildOf (h, q) := by
      intro h
      induction h with
      | zero =>
        refine fun q => ⟨_, ?_⟩
        rintro b ⟨i, hb⟩
        obtain ⟨h, e, _⟩ := (bin_childAt _ _ _).1 hb
        cases e
      | succ h ih =>
        refine fun q => ⟨_, ?_⟩
        rintro b ⟨i, hb⟩
        obtain ⟨h', e, _, rfl⟩ := (bin_childAt _ _ _).1 hb
        cases e
        exact ih _
    exact ⟨fun n => this n.1 n.2⟩
  valid p a h := by
    obtain ⟨_ | h', q⟩ := p <;> (injection h with h; subst h; rfl)
  last p m h := by
    obtain ⟨_ | h', q⟩ := p
    · cases h
    · injection h with h; injection h with h; injection h with h; subst h; rfl
  prev p n' i c h1 h2 h3 := rfl
  id_no_panic p := by simp
  notn_no_panic p := by obtain ⟨_ | h', q⟩ := p <;> simp
  condition_no_panic p _ _ := by simp
  lookupStyle_no_panic p _ _ := by simp
  nodeStyle_no_panic p := by simp
  numChildren_no_panic p := by obtain ⟨_ | h', q⟩ := p <;> simp
  unwrapText_no_panic p h := by simp
  unwrapChild_no_panic p := by simp

/-- The tree of a node. -/
def binTree (line : List Nat → String) : Nat → List Nat → NTree (binP line)
  | 0, q => .text ⟨line q, (line q).length, (), true⟩
  | h + 1, q => .concat (.concat (.child 0 (.ok (q ++ [0])) (binTree line h (q ++ [0]))) (.newline []))
      (.child 1 (.ok (q ++ [1])) (binTree line h (q ++ [1])))

theorem bin_docTree (h : Nat) (q : List Nat) (flat : Bool) (outer : Option Unit) :
    docTree (bin_law line) (h, q) flat [] outer = .ok (binTree line h q) := by
  induction h generalizing q flat outer with
  | zero => rw [docTree_of (bin_law line) (a := .text) (s := ()) rfl rfl]; rfl
  | succ h ih =>
    rw [docTree_of (bin_law line) (a := .concat (.concat (.child 0) .newline) (.child 1)) (s := ()) rfl rfl]
    have hk : ∀ i, i < 2 → ∀ fl st,
        docKid (bin_law line) (h + 1, q) i ⟨fl, [], st⟩ = .child i (.ok (q ++ [i])) (binTree line h (q ++ [i])) := by
      intro i hi fl st
      refine docKid_of (bin_law line) (child := (h, q ++ [i])) ((bin_childAt _ _ _).2 ⟨h, rfl, hi, rfl⟩) ?_
      exact ih _ _ _
    refine congrArg Except.ok ?_
    have c0 : childIndex 0 2 = some 0 := rfl
    have c1 : childIndex 1 2 = some 1 := rfl
    simp only [Notation.tree, NTree.orFail, c0, c1, hk 0 (by omega), hk 1 (by omega)]
    rfl

theorem bin_root (h : Nat) : rootTree (bin_law line) (h, []) none = .ok ([], binTree line h []) := by
  unfold rootTree
  rw [bin_docTree]
  rfl

theorem bin_nested (h : Nat) (q : List Nat) : NestedRows h (binTree line h q) := by
  induction h generalizing q with
  | zero =>
    intro p hp
    simp only [binTree, NTree.parts, List.mem_singleton] at hp
    subst hp
    exact trivial
  | succ h ih =>
    refine ⟨?_, ?_⟩
    · intro A i r t B j r' t' C e
      simp only [binTree, NTree.parts, List.cons_append, List.nil_append] at e
      match A, e with
      | [], e =>
        simp only [List.nil_append, List.cons.injEq] at e
        obtain ⟨e1, e2⟩ := e
        cases e1
        match B, e2 with
        | [], e2 => cases e2
        | [b], e2 =>
          simp only [List.cons_append, List.nil_append, List.cons.injEq] at e2
          obtain ⟨rfl, e3, rfl⟩ := e2
          cases e3
          exact ⟨by simp, [], by simp⟩
        | b :: b' :: B, e2 =>
          simp only [List.cons_append, List.cons.injEq] at e2
          have := congrArg List.length e2.2.2
          simp at this
      | [a], e =>
        simp only [List.cons_append, List.nil_append, List.cons.injEq] at e
        cases e.2.1
      | a :: a' :: A, e =>
        have := congrArg List.length e
        simp at this
        omega
    · intro p hp
      simp only [binTree, NTree.parts, List.cons_append, List.nil_append, List.mem_cons, List.not_mem_nil,
        or_false] at hp
      rcases hp with rfl | rfl | rfl
      · exact .inr ⟨_, _, _, rfl, ih _⟩
      · exact .inl trivial
      · exact .inr ⟨_, _, _, rfl, ih _⟩

theorem bin_ids (h : Nat) : UniqueIds ([], binTree line h []) := by
  have key : ∀ q id t, NodeAt (P := binP line) ([], binTree line h []) q id t →
      id = q ∧ ∃ h', t = binTree line h' q := by
    intro q id t hn
    induction hn with
    | here => exact ⟨rfl, h, rfl⟩
    | child _ hm ih =>
      obtain ⟨rfl, h', rfl⟩ := ih
      cases h' with
      | zero =>
        simp only [binTree, NTree.parts, List.mem_singleton] at hm
        cases hm
      | succ h' =>
        simp only [binTree, NTree.parts, List.cons_append, List.nil_append, List.mem_cons, List.not_mem_nil,
          or_false] at hm
        rcases hm with hm | hm | hm
        · cases hm; exact ⟨rfl, h', rfl⟩
        · cases hm
        · cases hm; exact ⟨rfl, h', rfl⟩
  intro q q' id t t' h1 h2
  rw [← (key _ _ _ h1).1, ← (key _ _ _ h2).1]

theorem bin_own (h : Nat) (q : List Nat) : OwnAtMost (bin_law line) (h, q) 7 := by
  suffices H : ∀ fl, (docShape (bin_law line) (h, q) fl 0).own ≤ 7 ∧ (docShape (bin_law line) (h, q) fl 0).KidsAtMost 7
    from H false
  induction h generalizing q with
  | zero =>
    intro fl
    rw [docShape_of (bin_law line) (a := .text) (s := ()) rfl rfl]
    exact ⟨by show 1 ≤ 7; omega, trivial⟩
  | succ h ih =>
    intro fl
    rw [docShape_of (bin_law line) (a := .concat (.concat (.child 0) .newline) (.child 1)) (s := ()) rfl rfl]
    have hk : ∀ i, i < 2 → kidShape (bin_law line) (h + 1, q) i fl 0 =
        .child (docShape (bin_law line) (h, q ++ [i]) fl 0) := by
      intro i hi
      unfold kidShape
      rw [(bin_childAt _ _ _).2 ⟨h, rfl, hi, rfl⟩]
      cases h <;> rfl
    have c0 : childIndex 0 2 = some 0 := rfl
    have c1 : childIndex 1 2 = some 1 := rfl
    simp only [Notation.shape, Shape.orLeaf, c0, c1, hk 0 (by omega), hk 1 (by omega)]
    exact ⟨by simp [Shape.own], ⟨ih _ _, trivial⟩, ih _ _⟩

/-- The document has `2 ^ h` lines; but to print `k` lines above and `j` lines below any place, a number of steps
    suffices that is proportional to `h`. -/
example (h w k j : Nat) (path : List Nat) :
    (sessionC (P := binP line) 0 (h, []) w path .start none (aroundAsks k j)).EndsWithin
      (84 * ((h + 1) * (k + j + 1)) + 10 + (k + j)) := by
  have := C59_window (bin_root (line := line) h) (bin_nested h []) (bin_ids h) (bin_own h []) (.inl rfl) w path k j
  rw [show 12 * (7 * (h + 1) * (k + j + 1)) = 84 * ((h + 1) * (k + j + 1)) by rw [Nat.mul_assoc 7]; omega] at this
  exact this

/-- In a tree of height 100, which has 2 ^ 100 lines: the 10 lines from any leaf on. -/
example (w : Nat) (path : List Nat) :
    (sessionC (P := binP line) 0 (100, []) w path .start none (aroundAsks 0 9)).EndsWithin 84859 :=
  C59_window (bin_root 100) (bin_nested 100 []) (bin_ids 100) (bin_own 100 []) (.inl rfl) w path 0 9

end Ex
end PPP
