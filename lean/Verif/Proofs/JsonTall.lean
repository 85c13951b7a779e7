import Verif.Proofs.JsonPlan
/-
The notation trees of JSON documents, and the lines and columns that they take up.
-/
namespace PPP
variable {sw : String → Nat} {w : Nat}

/-! ### The trees of arrays and objects -/

section
variable {l r : Char} {cs : List (Tree BasicStyle)} {n : Nat} {id : Nat} {nn : TreeNotation} {st : BasicStyle} {y : Bool}

theorem single_tree (hn : cs.length = n + 1) (c : Ctx (basicDoc sw)) :
    jsonSingleSeq.tree (P := basicDoc sw) (.branch cs id nn st [] false y)
      (docKid (basicLaw sw) (.branch cs id nn st [] false y)) none c =
    iter (docKid (basicLaw sw) (.branch cs id nn st [] false y) 0 { c with flat := true })
      (fun k acc => .concat (.concat acc (.text ⟨", ", sw ", ", c.style, false⟩))
        (docKid (basicLaw sw) (.branch cs id nn st [] false y) (k + 1) { c with flat := true })) n := by
  have hnum : (basicDoc sw).numChildren (.branch cs id nn st [] false y) = .ok (some (n + 1)) := by
    simp [Tree.children?, hn]
  have hch : ∀ i, i ≤ n → ∃ ch, (basicDoc sw).childAt (.branch cs id nn st [] false y) i = .ok ch := by
    intro i hi
    exact ⟨_, basic_childAt (List.getElem?_eq_getElem (by omega : i < cs.length))⟩
  have := fold_tree (P := basicDoc sw) (kid := docKid (basicLaw sw) (.branch cs id nn st [] false y))
    (first := .flat (.child 0))
    (join := .left + .literal ", " + .flat .right) (env := none) hnum hch c
    (fun k acc => .concat (.concat acc (.text ⟨", ", sw ", ", c.style, false⟩))
      (docKid (basicLaw sw) (.branch cs id nn st [] false y) (k + 1) { c with flat := true }))
    (fun acc k _ => rfl)
  refine this.trans ?_
  congr 1
  exact child_zero_tree (P := basicDoc sw) (env := none) hnum _

theorem multi_tree_eq (hn : cs.length = n + 1) (c : Ctx (basicDoc sw)) :
    jsonMultiFold.tree (P := basicDoc sw) (.branch cs id nn st [] false y)
      (docKid (basicLaw sw) (.branch cs id nn st [] false y)) none c =
    iter (docKid (basicLaw sw) (.branch cs id nn st [] false y) 0 c)
      (fun k acc => .concat (.concat (.concat acc
          (if (cs[k]?.map Tree.needsSeparator).getD false then .text ⟨",", sw ",", c.style, false⟩ else .empty)) (.newline c.indent))
        (docKid (basicLaw sw) (.branch cs id nn st [] false y) (k + 1) c)) n := by
  have hnum : (basicDoc sw).numChildren (.branch cs id nn st [] false y) = .ok (some (n + 1)) := by
    simp [Tree.children?, hn]
  have hch : ∀ i, i ≤ n → ∃ ch, cs[i]? = some ch ∧
      (basicDoc sw).childAt (.branch cs id nn st [] false y) i = .ok ch := by
    intro i hi
    exact ⟨_, List.getElem?_eq_getElem (by omega : i < cs.length), basic_childAt (List.getElem?_eq_getElem _)⟩
  have := fold_tree (P := basicDoc sw) (kid := docKid (basicLaw sw) (.branch cs id nn st [] false y))
    (first := .child 0)
    (join := (.left + jsonSeparator) ^^^ .right) (env := none) hnum (fun i hi => (hch i hi).imp fun _ h => h.2) c
    (fun k acc => .concat (.concat (.concat acc
        (if (cs[k]?.map Tree.needsSeparator).getD false then .text ⟨",", sw ",", c.style, false⟩ else .empty))
        (.newline c.indent)) (docKid (basicLaw sw) (.branch cs id nn st [] false y) (k + 1) c)) (by
      intro acc k hk
      obtain ⟨ch, h1, h2⟩ := hch k (by omega)
      have hsep : jsonSeparator.tree (P := basicDoc sw) (.branch cs id nn st [] false y)
          (docKid (basicLaw sw) (.branch cs id nn st [] false y)) (some ⟨acc, k + 1⟩) c =
          if (cs[k]?.map Tree.needsSeparator).getD false then .text ⟨",", sw ",", c.style, false⟩ else .empty := by
        simp only [jsonSeparator, Notation.tree, inspected, Nat.add_sub_cancel, h2, Call.toRes, NTree.orFail,
          Tree.condition]
        simp only [h1, Option.map_some, Option.getD_some]
        cases ch.needsSeparator <;> rfl
      rw [← hsep]
      rfl)
  refine this.trans ?_
  congr 1
  exact child_zero_tree (P := basicDoc sw) (env := none) hnum _

theorem multi_tree (hn : cs.length = n + 1) (c : Ctx (basicDoc sw)) : ∃ flags : Nat → Bool,
    jsonMultiFold.tree (P := basicDoc sw) (.branch cs id nn st [] false y)
      (docKid (basicLaw sw) (.branch cs id nn st [] false y)) none c =
    iter (docKid (basicLaw sw) (.branch cs id nn st [] false y) 0 c)
      (fun k acc => .concat (.concat (.concat acc
          (if flags k then .text ⟨",", sw ",", c.style, false⟩ else .empty)) (.newline c.indent))
        (docKid (basicLaw sw) (.branch cs id nn st [] false y) (k + 1) c)) n :=
  ⟨fun i => (cs[i]?.map Tree.needsSeparator).getD false, multi_tree_eq hn c⟩

theorem bracket_tree (hn : cs.length = n + 1) (hnn : nn.1 = bracketN l r) (c : Ctx (basicDoc sw)) :
    ∃ (o x z v : Textual (basicDoc sw)) (flags : Nat → Bool) (c' : Ctx (basicDoc sw)), o.width = sw (String.ofList [l]) ∧
      x.width = sw ", " ∧ z.width = sw (String.ofList [r]) ∧ c'.flat = c.flat ∧
      let K := docKid (basicLaw sw) (.branch cs id nn st [] false y)
      let single := .concat (.concat (.text o) (iter (K 0 { c with flat := true })
        (fun k acc => .concat (.concat acc (.text x)) (K (k + 1) { c with flat := true })) n)) (.text z)
      let t := nn.1.tree (P := basicDoc sw) (.branch cs id nn st [] false y) K none c
      (c.flat = true → t = single) ∧
      (c.flat = false → t = .choice single (.concat (.concat (.concat (.text o) (.concat (.newline c'.indent)
        (iter (K 0 c') (fun k acc => .concat (.concat (.concat acc (if flags k then .text v else .empty))
          (.newline c'.indent)) (K (k + 1) c')) n))) (.newline c.indent)) (.text z))) := by
  let c' : Ctx (basicDoc sw) := { c with indent := c.indent ++
    [⟨String.ofList (List.replicate 4 ' '), sw (String.ofList (List.replicate 4 ' ')), c.style⟩] }
  obtain ⟨flags, hm⟩ := multi_tree (sw := sw) (id := id) (nn := nn) (st := st) (y := y) hn c'
  refine ⟨⟨String.ofList [l], sw (String.ofList [l]), BasicStyle.combine c.style (BasicStyle.fromLabel "open"), false⟩,
    ⟨", ", sw ", ", c.style, false⟩,
    ⟨String.ofList [r], sw (String.ofList [r]), BasicStyle.combine c.style (BasicStyle.fromLabel "close"), false⟩,
    ⟨",", sw ",", c'.style, false⟩, flags, c', rfl, rfl, rfl, rfl, ?_⟩
  have hnum : (basicDoc sw).numChildren (.branch cs id nn st [] false y) = .ok (some (n + 1)) := by
    simp [Tree.children?, hn]
  have hbody : nn.1.tree (P := basicDoc sw) (.branch cs id nn st [] false y)
      (docKid (basicLaw sw) (.branch cs id nn st [] false y)) none c =
      (bracketBody l r).tree (P := basicDoc sw) (.branch cs id nn st [] false y)
      (docKid (basicLaw sw) (.branch cs id nn st [] false y)) none c := by
    rw [hnn]
    cases n with
    | zero => exact count_one_tree (P := basicDoc sw) hnum _
    | succ m => exact count_many_tree (P := basicDoc sw) hnum _
  dsimp only
  rw [hbody, ← hm, ← single_tree hn c]
  constructor
  · intro hf
    change (if c.flat then _ else _) = _
    rw [if_pos hf]
    rfl
  · intro hf
    change (if c.flat then _ else _) = _
    rw [if_neg (by simp [hf])]
    rfl

end

/-! ### The plan -/

/-- The plan for reading lines `lo` to `hi`: what is on them is open, and so are texts, and what is near the start of
    its parent. -/
def jsonPlan (sw : String → Nat) (w : Nat) (info : Nat → JInfo) (lo hi : Nat) : GPlan (basicDoc sw) where
  loc id := (info id).loc
  st id := (info id).st
  en id := (info id).st + (info id).e.span sw w
  oi id := decide ((info id).st ≤ hi ∧ lo ≤ (info id).st + (info id).e.span sw w) || (info id).e.isLeaf ||
    decide ((info id).off ≤ w)
  leaf id := (info id).e.isLeaf
  small id := decide ((info id).e.flatWidth sw ≤ w)

/-- The nodes are where they should be. -/
def Agrees (sw : String → Nat) (w : Nat) (info : Nat → JInfo) (e : Json) (loc : List Nat) (st off : Nat) : Prop :=
  ∀ x ∈ e.infos sw w loc st off, info x.1 = x.2

variable {info : Nat → JInfo} {lo hi : Nat}

local notation "JS" => jsonPlan sw w info lo hi
local notation "joff" => fun id => JInfo.off (info id)
local notation "jwd" => fun id => Json.flatWidth sw (JInfo.e (info id))

variable (sw w info lo hi) in
/-- The tree of the node `t` is as planned. -/
structure JGood (e : Json) (t : Tree BasicStyle) : Prop where
  id : t.id = e.rootId
  good : ∀ flat (ind : List (Segment (basicDoc sw))) outer, ∃ nt, docTree (basicLaw sw) t flat ind outer = .ok nt ∧
    (e.isLeaf = true → nt.Flatly) ∧
    (flat = true → FlatT JS joff jwd e.rootId nt 0 (e.flatWidth sw)) ∧
    (flat = false → e.isLeaf = false → ∃ g, TallT JS joff jwd w e.rootId nt (info e.rootId).st
      (!decide (e.flatWidth sw ≤ w)) ((info e.rootId).st + e.span sw w) g)

theorem infos_root (e : Json) (loc st off) : (e.rootId, (⟨e, loc, st, off⟩ : JInfo)) ∈ e.infos sw w loc st off := by
  cases e <;> simp [Json.infos, Json.rootId]

theorem Agrees.root {e : Json} {loc st off} (h : Agrees sw w info e loc st off) : info e.rootId = ⟨e, loc, st, off⟩ :=
  h _ (infos_root e loc st off)

theorem Agrees.kid {l r : String} {es : List Json} {e : Json} {id : Nat} (hg : e.IsGroup l r es id) {loc st off}
    (h : Agrees sw w info e loc st off) {k : Nat} {x : Json} (hk : es[k]? = some x) :
    Agrees sw w info x (loc ++ [k]) (st + e.lineStep sw w + Json.rows sw w (e.lineStep sw w) (es.take k))
        (sw l + Json.cells sw (es.take k)) := by
  intro y hy
  exact h y (hg.mem_infos.2 (.inr ⟨k, x, hk, hy⟩))

theorem flatly_text {P : PrettyDoc} (x : Textual P) : (NTree.text x).Flatly := by
  intro p hp
  simp only [NTree.parts, List.mem_singleton] at hp
  subst hp
  exact ⟨trivial, fun _ h => by cases h⟩

theorem flatly_mark {P : PrettyDoc} : (NTree.mark : NTree P).Flatly := by
  intro p hp
  simp only [NTree.parts, List.mem_singleton] at hp
  subst hp
  exact ⟨trivial, fun _ h => by cases h⟩

theorem flatly_concat {P : PrettyDoc} {a b : NTree P} (ha : a.Flatly) (hb : b.Flatly) : (NTree.concat a b).Flatly := by
  intro p hp
  rcases List.mem_append.1 hp with hp | hp
  · exact ha p hp
  · exact hb p hp

/-- What a kid looks like. -/
theorem JGood.kid {e : Json} {node ch : Tree BasicStyle} {i : Nat} (hc : (basicDoc sw).childAt node i = .ok ch)
    (h : JGood sw w info lo hi e ch) (c : Ctx (basicDoc sw)) :
    ∃ nt, docKid (basicLaw sw) node i c = .child i (.ok e.rootId) nt ∧ (e.isLeaf = true → nt.Flatly) ∧
    (c.flat = true → FlatT JS joff jwd e.rootId nt 0 (e.flatWidth sw)) ∧
    (c.flat = false → e.isLeaf = false → ∃ g, TallT JS joff jwd w e.rootId nt (info e.rootId).st
      (!decide (e.flatWidth sw ≤ w)) ((info e.rootId).st + e.span sw w) g) := by
  obtain ⟨nt, h1, h2⟩ := h.good c.flat c.indent (some c.style)
  refine ⟨nt, ?_, h2⟩
  have := docKid_of (basicLaw sw) hc h1
  rw [this]
  have hid : Call.toRes ((basicDoc sw).id ch) = .ok e.rootId := by
    show Call.toRes (.ok ch.id) = _
    rw [h.id]
    rfl
  rw [hid]

/-- A kid on one line. -/
theorem JGood.flatKid {e p : Json} {loc st off st' off' : _} {node ch : Tree BasicStyle} {i : Nat}
    (hc : (basicDoc sw).childAt node i = .ok ch) (h : JGood sw w info lo hi e ch) {c : Ctx (basicDoc sw)}
    (hf : c.flat = true) (hp : info p.rootId = ⟨p, loc, st, off⟩) (he : info e.rootId = ⟨e, loc ++ [i], st', off'⟩)
    (hw : e.flatWidth sw ≤ p.flatWidth sw) (hst : p.flatWidth sw ≤ w → st' = st) :
    FlatT JS joff jwd p.rootId (docKid (basicLaw sw) node i c) off' (off' + e.flatWidth sw) := by
  obtain ⟨nt, h1, h2, h3, -⟩ := h.kid hc c
  rw [h1]
  have hwd : Json.flatWidth sw (info e.rootId).e = e.flatWidth sw := by rw [he]
  have := FlatT.kid (S := JS) (off := joff) (wd := jwd) (id := p.rootId) (i := i) (cid := e.rootId) (tc := nt)
    (x := off') (by simp only [jsonPlan, hp, he]) (by simp only [he]) (by simp only [jsonPlan, he]; exact h2)
    (by
      simp only [jsonPlan, hp, he, decide_eq_true_eq]
      intro hs
      have : e.flatWidth sw ≤ w := by omega
      refine ⟨this, hst hs, ?_⟩
      rw [Json.span_small e this]
      exact hst hs)
    (by rw [hwd]; exact h3 hf)
  rwa [hwd] at this

/-- A kid on lines of its own. -/
theorem JGood.tallKid {e p : Json} {loc st off st' off' : _} {node ch : Tree BasicStyle} {i : Nat}
    (hc : (basicDoc sw).childAt node i = .ok ch) (h : JGood sw w info lo hi e ch) {c : Ctx (basicDoc sw)}
    (hf : c.flat = false) (hp : info p.rootId = ⟨p, loc, st, off⟩) (he : info e.rootId = ⟨e, loc ++ [i], st', off'⟩)
    {f : Bool} (hsm : f = false → e.flatWidth sw ≤ w) :
    ∃ g, TallT JS joff jwd w p.rootId (docKid (basicLaw sw) node i c) st' f (st' + e.span sw w) g ∧
      (e.isLeaf = true → g = f) := by
  obtain ⟨nt, h1, h2, -, h3⟩ := h.kid hc c
  rw [h1]
  have hst : (info e.rootId).st = st' := by rw [he]
  have hen : (JS).en e.rootId = st' + e.span sw w := by simp only [jsonPlan, he]
  cases hl : e.isLeaf with
  | true =>
    have := TallT.leafKid (S := JS) (off := joff) (wd := jwd) (w := w) (id := p.rootId) (i := i) (cid := e.rootId)
      (tc := nt) (f := f) (by simp only [jsonPlan, hp, he]) (by simp only [jsonPlan, he, hl])
      (by simp only [jsonPlan, he, Json.span_leaf e hl, Nat.add_zero]) (h2 hl)
    rw [hen] at this
    have e1 : (JS).st e.rootId = st' := hst
    rw [e1] at this
    exact ⟨_, this, fun _ => rfl⟩
  | false =>
    obtain ⟨g, h4⟩ := h3 hf hl
    have := TallT.kid (S := JS) (off := joff) (wd := jwd) (w := w) (id := p.rootId) (i := i) (cid := e.rootId)
      (tc := nt) (f := f) (g := g) (by simp only [jsonPlan, hp, he]) (by simp only [jsonPlan, he, hl])
      (by simp only [jsonPlan, he, decide_eq_true_eq]; exact hsm)
      (by
        rw [hen]
        simp only [jsonPlan, he]
        rw [hst] at h4
        exact h4)
    rw [hen] at this
    have e1 : (JS).st e.rootId = st' := hst
    rw [e1] at this
    exact ⟨_, this, fun h => by cases h⟩

/-! ### Sequences -/

section
variable {P : PrettyDoc} {S : GPlan P} {off wd : P.Id → Nat} {id : P.Id}

theorem flat_items {kids : Nat → NTree P} {x : Textual P} {pos wid : Nat → Nat} (n : Nat)
    (h : ∀ i, i ≤ n → FlatT S off wd id (kids i) (pos i) (pos i + wid i))
    (hp : ∀ i, i < n → pos (i + 1) = pos i + wid i + x.width) :
    FlatT S off wd id (iter (kids 0) (fun k acc => .concat (.concat acc (.text x)) (kids (k + 1))) n) (pos 0)
      (pos n + wid n) := by
  induction n with
  | zero => exact h 0 (Nat.le_refl _)
  | succ n ih =>
    have h1 := ih (fun i hi => h i (by omega)) (fun i hi => hp i (by omega))
    have h2 := h (n + 1) (Nat.le_refl _)
    have h3 := FlatT.text (S := S) (off := off) (wd := wd) (id := id) (x := pos n + wid n) (t := x)
    rw [← hp n (by omega)] at h3
    exact .concat (.concat h1 h3) h2

theorem tall_newline {step : Nat} (hs : step = 0 ∧ S.small id = true ∨ step = 1 ∧ S.small id = false) (ind a f) :
    ∃ g, TallT S off wd w id (.newline ind) a f (a + step) g ∧ (step = 1 → g = true) := by
  rcases hs with ⟨rfl, h⟩ | ⟨rfl, h⟩
  · exact ⟨f, .soft h, fun h => by omega⟩
  · exact ⟨true, .newline h, fun _ => rfl⟩

theorem tall_items {kids seps : Nat → NTree P} {ind} {pos len : Nat → Nat} {step : Nat}
    (hs : step = 0 ∧ S.small id = true ∨ step = 1 ∧ S.small id = false) (n : Nat)
    (hk : ∀ i, i ≤ n → ∀ f, (step = 1 → f = true) → ∃ g, TallT S off wd w id (kids i) (pos i) f (pos i + len i) g)
    (hse : ∀ i a f, TallT S off wd w id (seps i) a f a f)
    (hp : ∀ i, i < n → pos (i + 1) = pos i + len i + step) (f : Bool) (hf : step = 1 → f = true) :
    ∃ g, TallT S off wd w id (iter (kids 0)
      (fun k acc => .concat (.concat (.concat acc (seps k)) (.newline ind)) (kids (k + 1))) n) (pos 0) f (pos n + len n) g := by
  induction n with
  | zero => exact hk 0 (Nat.le_refl _) f hf
  | succ n ih =>
    obtain ⟨g1, h1⟩ := ih (fun i hi => hk i (by omega)) (fun i hi => hp i (by omega))
    obtain ⟨g2, h2, h3⟩ := tall_newline (w := w) (off := off) (wd := wd) hs ind (pos n + len n) g1
    rw [← hp n (by omega)] at h2
    obtain ⟨g3, h4⟩ := hk (n + 1) (Nat.le_refl _) g2 h3
    exact ⟨g3, .concat (.concat (.concat h1 (hse n _ _)) h2) h4⟩

end

/-! ### JSON -/

theorem JGood.of_flatly {e : Json} {t : Tree BasicStyle} (hid : t.id = e.rootId) (hl : e.isLeaf = true)
    (h : ∀ flat (ind : List (Segment (basicDoc sw))) outer, ∃ nt, docTree (basicLaw sw) t flat ind outer = .ok nt ∧
      nt.Flatly ∧ FlatT JS joff jwd e.rootId nt 0 (e.flatWidth sw)) : JGood sw w info lo hi e t := by
  refine ⟨hid, fun flat ind outer => ?_⟩
  obtain ⟨nt, h1, h2, h3⟩ := h flat ind outer
  exact ⟨nt, h1, fun _ => h2, fun _ => h3, fun _ h => by rw [hl] at h; cases h⟩

theorem flatT_text {P : PrettyDoc} {S : GPlan P} {off wd : P.Id → Nat} {id : P.Id} {t : Textual P} {y : Nat}
    (h : y = t.width) : FlatT S off wd id (.text t) 0 y := by
  have := FlatT.text (S := S) (off := off) (wd := wd) (id := id) (x := 0) (t := t)
  rwa [Nat.zero_add, ← h] at this

theorem jgood_literal {e : Json} {t : Tree BasicStyle} (hid : t.id = e.rootId) (hl : e.isLeaf = true) {s : BasicStyle}
    (hs : t.nodeStyle = s)
    (h : ∀ c : Ctx (basicDoc sw), ∃ x : Textual (basicDoc sw), x.width = e.flatWidth sw ∧
      t.notn.1.tree (P := basicDoc sw) t (docKid (basicLaw sw) t) none c = .text x) : JGood sw w info lo hi e t := by
  refine .of_flatly hid hl fun flat ind outer => ?_
  obtain ⟨x, h1, h2⟩ := h ⟨flat, ind, enterStyle outer s⟩
  refine ⟨_, docTree_of (basicLaw sw) (a := t.notn.1) (s := s) rfl (by simp [hs]) _ _ _, ?_⟩
  rw [h2]
  exact ⟨flatly_text x, flatT_text h1.symm⟩

theorem jgood_string {id : Nat} {s : String} {z} : JGood sw w info lo hi (.string id s) (.text s id jsonStringN default [] false z) := by
  refine .of_flatly rfl rfl fun flat ind outer => ?_
  refine ⟨_, docTree_of (basicLaw sw) (a := jsonStringN.1) (s := default) rfl rfl _ _ _, ?_⟩
  refine ⟨flatly_concat (flatly_concat (flatly_text _) (flatly_text _)) (flatly_text _), ?_⟩
  refine FlatT.concat (y := 0 + sw "\"" + sw s) (.concat (y := 0 + sw "\"") .text .text) ?_
  have : Json.flatWidth sw (.string id s) = 0 + sw "\"" + sw s + sw "\"" := by simp [Json.flatWidth]
  rw [this]
  exact .text

theorem jgood_pair {id keyId : Nat} {key : String} {v : Json} {loc st off}
    (ha : Agrees sw w info (.pair id keyId key v) loc st off)
    (hv : ∀ t, t.setNeedsSeparator = v.build.setNeedsSeparator → JGood sw w info lo hi v t)
    {t : Tree BasicStyle} (ht : t.setNeedsSeparator = (Json.pair id keyId key v).build.setNeedsSeparator) :
    JGood sw w info lo hi (.pair id keyId key v) t := by
  let cs : List (Tree BasicStyle) := [jsonString keyId key, v.build]
  obtain ⟨z, rfl⟩ : ∃ z, t = .branch (markSeparators cs).1 id jsonPairN default [] false z := by
    apply branch_of_set (y := false)
    rw [ht]
    simp only [Json.build]
    rfl
  obtain ⟨z0, h0⟩ : ∃ z', (basicDoc sw).childAt (.branch (markSeparators cs).1 id jsonPairN default [] false z) 0 =
      .ok (.text key keyId jsonStringN default [] false z') := by
    have hm := markSeparators_get cs 0 (jsonString keyId key) rfl
    split at hm
    · exact ⟨true, basic_childAt hm⟩
    · exact ⟨false, basic_childAt hm⟩
  obtain ⟨v', hv', h1⟩ : ∃ v', v'.setNeedsSeparator = v.build.setNeedsSeparator ∧
      (basicDoc sw).childAt (.branch (markSeparators cs).1 id jsonPairN default [] false z) 1 = .ok v' := by
    have hm := markSeparators_get cs 1 v.build rfl
    refine ⟨_, ?_, basic_childAt hm⟩
    split
    · cases v.build <;> rfl
    · rfl
  have hnum : (basicDoc sw).numChildren (.branch (markSeparators cs).1 id jsonPairN default [] false z) = .ok (some 2) := by
    simp [Tree.children?, markSeparators_length, cs]
  have hp : info (Json.pair id keyId key v).rootId = _ := ha.root
  have hk : info (Json.string keyId key).rootId = ⟨.string keyId key, loc ++ [0], st, 0⟩ :=
    ha (keyId, _) (by simp [Json.infos])
  have hva : Agrees sw w info v (loc ++ [1]) st (sw "\"" + sw key + sw "\"" + sw ": ") := by
    intro x hx
    exact ha x (by simp [Json.infos, hx])
  have hgk : JGood sw w info lo hi (.string keyId key) (.text key keyId jsonStringN default [] false z0) := jgood_string
  have hgv := hv v' hv'
  have hwk : (Json.string keyId key).flatWidth sw = sw "\"" + sw key + sw "\"" := by simp [Json.flatWidth]
  have hwp : (Json.pair id keyId key v).flatWidth sw = sw "\"" + sw key + sw "\"" + sw ": " + v.flatWidth sw := by
    simp [Json.flatWidth]
  refine ⟨rfl, fun flat ind outer => ?_⟩
  refine ⟨_, docTree_of (basicLaw sw) (a := jsonPairN.1) (s := default) rfl rfl _ _ _, fun h => (by cases h), ?_⟩
  have htree : ∀ c, jsonPairN.1.tree (P := basicDoc sw) (.branch (markSeparators cs).1 id jsonPairN default [] false z)
      (docKid (basicLaw sw) (.branch (markSeparators cs).1 id jsonPairN default [] false z)) none c =
      .concat (.concat (docKid (basicLaw sw) (.branch (markSeparators cs).1 id jsonPairN default [] false z) 0 c)
        (.text ⟨": ", sw ": ", c.style, false⟩))
        (docKid (basicLaw sw) (.branch (markSeparators cs).1 id jsonPairN default [] false z) 1 c) := by
    intro c
    rw [← child_zero_tree (P := basicDoc sw) (env := none) (kid := docKid (basicLaw sw) (.branch (markSeparators cs).1 id jsonPairN default [] false z)) hnum c,
      ← child_one_tree (P := basicDoc sw) (env := none) (kid := docKid (basicLaw sw) (.branch (markSeparators cs).1 id jsonPairN default [] false z)) hnum c]
    rfl
  rw [htree]
  constructor
  · intro hf
    have a := hgk.flatKid h0 (c := ⟨flat, ind, enterStyle outer default⟩) hf hp hk (by omega) (fun _ => rfl)
    have b := hgv.flatKid h1 (c := ⟨flat, ind, enterStyle outer default⟩) hf hp hva.root (by omega) (fun _ => rfl)
    rw [hwp]
    rw [hwk, Nat.zero_add] at a
    exact .concat (.concat a .text) b
  · intro hf _
    have hst : (info (Json.pair id keyId key v).rootId).st = st := by rw [hp]
    have hsp : (Json.pair id keyId key v).span sw w = v.span sw w := by simp [Json.span]
    have hsk : (Json.string keyId key).span sw w = 0 := by simp [Json.span]
    rw [hst, hsp]
    obtain ⟨g1, a, hg⟩ := hgk.tallKid h0 (c := ⟨flat, ind, enterStyle outer default⟩) hf hp hk
      (f := !decide (Json.flatWidth sw (.pair id keyId key v) ≤ w)) (by
        intro h
        simp only [Bool.not_eq_false', decide_eq_true_eq] at h
        omega)
    obtain ⟨nt, h2, h3, -⟩ := hgk.kid h0 ⟨flat, ind, enterStyle outer default⟩
    rw [hsk, Nat.add_zero] at a
    have hg := hg rfl
    subst hg
    obtain ⟨g2, b, -⟩ := hgv.tallKid h1 (c := ⟨flat, ind, enterStyle outer default⟩) hf hp hva.root
      (f := !decide (Json.flatWidth sw (.pair id keyId key v) ≤ w)) (by
        intro h
        simp only [Bool.not_eq_false', decide_eq_true_eq] at h
        omega)
    exact ⟨g2, .concat (.concat a .text) b⟩

theorem jgood_group {l r : Char} {es : List Json} {e : Json} {id : Nat}
    (hg : e.IsGroup (String.ofList [l]) (String.ofList [r]) es id)
    {notn : TreeNotation} (hnotn : notn.1 = bracketN l r) {loc st off} (ha : Agrees sw w info e loc st off)
    (h : ∀ (k : Nat) x, es[k]? = some x → ∀ t, t.setNeedsSeparator = x.build.setNeedsSeparator → JGood sw w info lo hi x t)
    {y : Bool} : JGood sw w info lo hi e (.branch (markSeparators (Json.builds es)).1 id notn default [] false y) := by
  have hid : (Tree.branch (markSeparators (Json.builds es)).1 id notn default [] false y).id = e.rootId := hg.rootId.symm
  cases hes : es with
  | nil =>
    subst hes
    refine .of_flatly hid (by rw [hg.isLeaf]; rfl) fun flat ind outer => ?_
    refine ⟨_, docTree_of (basicLaw sw) (a := bracketN l r) (s := default) (by simp [Tree.notn, hnotn]) rfl _ _ _, ?_, ?_⟩
    · exact flatly_concat (flatly_concat (flatly_text _) flatly_mark) (flatly_text _)
    · rw [hg.flatWidth]
      have : sw (String.ofList [l]) + (Json.cells sw [] - sw ", ") + sw (String.ofList [r]) =
          0 + sw (String.ofList [l]) + sw (String.ofList [r]) := by simp [Json.cells]
      rw [this]
      exact FlatT.concat (.concat .text .mark) .text
  | cons e0 es0 =>
    rw [← hes]
    have hne : es ≠ [] := by rw [hes]; simp
    have hlen : (markSeparators (Json.builds es)).1.length = es0.length + 1 := by
      rw [markSeparators_length, builds_eq, hes]; simp
    have hleaf : e.isLeaf = false := by rw [hg.isLeaf, hes]; rfl
    -- the kids
    have hkid : ∀ i, i ≤ es0.length → ∃ x ch, es[i]? = some x ∧
        (basicDoc sw).childAt (.branch (markSeparators (Json.builds es)).1 id notn default [] false y) i = .ok ch ∧
        JGood sw w info lo hi x ch := by
      intro i hi
      have hlt : i < es.length := by rw [hes]; simp; omega
      have hget : (Json.builds es)[i]? = some (es[i].build) := by
        rw [builds_eq, List.getElem?_map, List.getElem?_eq_getElem hlt]; rfl
      have hm := markSeparators_get _ i _ hget
      refine ⟨es[i], _, List.getElem?_eq_getElem hlt, basic_childAt hm, h i _ (List.getElem?_eq_getElem hlt) _ ?_⟩
      split
      · cases es[i].build <;> rfl
      · rfl
    have hroot := ha.root
    refine ⟨hid, fun flat ind outer => ?_⟩
    refine ⟨_, docTree_of (basicLaw sw) (a := notn.1) (s := default) (by simp [Tree.notn]) rfl _ _ _,
      fun h => (by rw [hleaf] at h; cases h), ?_⟩
    obtain ⟨o, x, z, v, flags, c', ho, hx, hz, hc', hft, htt⟩ := bracket_tree (sw := sw) (id := id) (st := default) (y := y)
      hlen hnotn ⟨flat, ind, enterStyle outer default⟩
    -- on one line
    have hsingle : FlatT JS joff jwd e.rootId (.concat (.concat (.text o) (iter (docKid (basicLaw sw)
        (.branch (markSeparators (Json.builds es)).1 id notn default [] false y) 0 ⟨true, ind, enterStyle outer default⟩)
        (fun k acc => .concat (.concat acc (.text x)) (docKid (basicLaw sw)
          (.branch (markSeparators (Json.builds es)).1 id notn default [] false y) (k + 1)
          ⟨true, ind, enterStyle outer default⟩)) es0.length)) (.text z)) 0 (e.flatWidth sw) := by
      have hi := flat_items (S := JS) (off := joff) (wd := jwd) (id := e.rootId) (x := x)
        (kids := fun i => docKid (basicLaw sw) (.branch (markSeparators (Json.builds es)).1 id notn default [] false y) i
          ⟨true, ind, enterStyle outer default⟩)
        (pos := fun i => sw (String.ofList [l]) + Json.cells sw (es.take i))
        (wid := fun i => (es[i]?.map (Json.flatWidth sw)).getD 0) es0.length
        (by
          intro i hi
          obtain ⟨a, ch, h1, h2, h3⟩ := hkid i hi
          have hka := ha.kid hg h1
          have := h3.flatKid h2 (c := ⟨true, ind, enterStyle outer default⟩) rfl hroot hka.root (hg.kid_width h1) (by
            intro hs
            have hr : Json.rows sw w 0 (es.take i) = 0 := by
              apply Json.rows_small
              intro b hb
              obtain ⟨k, hk⟩ := List.mem_iff_getElem?.1 (List.mem_of_mem_take hb)
              exact Nat.le_trans (hg.kid_width hk) hs
            rw [Json.lineStep_small hs, hr]
            rfl)
          simp only [h1, Option.map_some, Option.getD_some]
          exact this)
        (by
          intro i hi
          obtain ⟨a, ch, h1, h2, h3⟩ := hkid i (by omega)
          simp only [h1, Option.map_some, Option.getD_some, hx]
          rw [Json.cells_take h1]
          omega)
      obtain ⟨a, ch, h1, h2, h3⟩ := hkid es0.length (Nat.le_refl _)
      simp only [h1, Option.map_some, Option.getD_some] at hi
      have hc := Json.cells_take (sw := sw) h1
      have hall : es.take (es0.length + 1) = es := List.take_of_length_le (by rw [hes]; simp)
      rw [hall] at hc
      have e1 : sw (String.ofList [l]) + Json.cells sw (List.take 0 es) = 0 + o.width := by
        simp [Json.cells, ho]
      have e2 : e.flatWidth sw = sw (String.ofList [l]) + Json.cells sw (es.take es0.length) + a.flatWidth sw + z.width := by
        rw [hg.flatWidth, hz]; omega
      rw [e1] at hi
      rw [e2]
      exact .concat (.concat .text hi) .text
    constructor
    · intro hf
      have hf' : flat = true := hf
      subst hf'
      rw [hft rfl]
      exact hsingle
    · intro hf _
      have hf' : flat = false := hf
      subst hf'
      rw [htt rfl]
      have hsm : (jsonPlan sw w info lo hi).small e.rootId = decide (e.flatWidth sw ≤ w) := by
        simp only [jsonPlan, hroot]
      have hS : e.lineStep sw w = 0 ∧ (jsonPlan sw w info lo hi).small e.rootId = true ∨
          e.lineStep sw w = 1 ∧ (jsonPlan sw w info lo hi).small e.rootId = false := by
        rw [hsm]
        by_cases hs : e.flatWidth sw ≤ w
        · exact .inl ⟨Json.lineStep_small hs, by simp [hs]⟩
        · exact .inr ⟨Json.lineStep_long hs, by simp [hs]⟩
      have hstart : (jsonPlan sw w info lo hi).st e.rootId = st := by simp only [jsonPlan, hroot]
      have hend : (jsonPlan sw w info lo hi).en e.rootId = st + e.span sw w := by simp only [jsonPlan, hroot]
      have hstart' : (info e.rootId).st = st := by rw [hroot]
      rw [hstart']
      -- the lines
      let kids := fun i => docKid (basicLaw sw) (.branch (markSeparators (Json.builds es)).1 id notn default [] false y) i c'
      obtain ⟨g1, hn1, hg1⟩ := tall_newline (S := JS) (off := joff) (wd := jwd) (w := w) (id := e.rootId) hS c'.indent st
        (!decide (e.flatWidth sw ≤ w))
      obtain ⟨g2, hit⟩ := tall_items (S := JS) (off := joff) (wd := jwd) (w := w) (id := e.rootId) (kids := kids)
        (seps := fun k => if flags k then .text v else .empty) (ind := c'.indent)
        (pos := fun i => st + e.lineStep sw w + Json.rows sw w (e.lineStep sw w) (es.take i))
        (len := fun i => (es[i]?.map (Json.span sw w)).getD 0) hS es0.length
        (by
          intro i hi f hf
          obtain ⟨a, ch, h1, h2, h3⟩ := hkid i hi
          have hka := ha.kid hg h1
          obtain ⟨g, this, -⟩ := h3.tallKid h2 (c := c') hc' hroot hka.root (f := f) (by
            intro hff
            rcases hS with ⟨e1, e2⟩ | ⟨e1, e2⟩
            · rw [hsm] at e2
              simp only [decide_eq_true_eq] at e2
              exact Nat.le_trans (hg.kid_width h1) e2
            · rw [hf e1] at hff
              cases hff)
          refine ⟨g, ?_⟩
          simp only [h1, Option.map_some, Option.getD_some]
          exact this)
        (by
          intro i a f
          dsimp only
          split
          · exact .text
          · exact .empty)
        (by
          intro i hi
          obtain ⟨a, ch, h1, h2, h3⟩ := hkid i (by omega)
          simp only [h1, Option.map_some, Option.getD_some]
          rw [Json.rows_take h1]
          omega) g1 hg1
      obtain ⟨a, ch, h1, h2, h3⟩ := hkid es0.length (Nat.le_refl _)
      simp only [h1, Option.map_some, Option.getD_some] at hit
      have hc := Json.rows_take (sw := sw) (w := w) (step := e.lineStep sw w) h1
      have hall : es.take (es0.length + 1) = es := List.take_of_length_le (by rw [hes]; simp)
      rw [hall] at hc
      obtain ⟨g3, hn2, hg2⟩ := tall_newline (S := JS) (off := joff) (wd := jwd) (w := w) (id := e.rootId) hS ind
        (st + e.lineStep sw w + Json.rows sw w (e.lineStep sw w) (es.take es0.length) + a.span sw w) g2
      have e1 : st + e.lineStep sw w + Json.rows sw w (e.lineStep sw w) (es.take 0) = st + e.lineStep sw w := by
        simp [Json.rows]
      rw [e1] at hit
      have e2 : st + e.lineStep sw w + Json.rows sw w (e.lineStep sw w) (es.take es0.length) + a.span sw w +
          e.lineStep sw w = st + e.span sw w := by
        rw [hg.span_eq hne]; omega
      rw [e2] at hn2
      have := TallT.choice (S := JS) (off := joff) (wd := jwd) (w := w) (id := e.rootId)
        (f := !decide (e.flatWidth sw ≤ w)) (g := g3)
        (u := .concat (.concat (.concat (.text o) (.concat (.newline c'.indent) (iter (kids 0)
          (fun k acc => .concat (.concat (.concat acc (if flags k then .text v else .empty))
          (.newline c'.indent)) (kids (k + 1))) es0.length))) (.newline ind)) (.text z))
        (by simp only [jsonPlan, hroot, hleaf])
        (by intro hh; rw [hsm]; simpa using hh) hsingle
        (by intro hh; rw [hsm] at hh; simpa using hh)
        (by
          rw [hsm, hstart, hend]
          exact .concat (.concat (.concat .text (.concat hn1 hit)) hn2) .text)
      rw [hstart, hend] at this
      exact ⟨_, this⟩

/-- The trees of JSON expressions are as planned. -/
theorem json_planned (e : Json) : e.NoComments → ∀ {loc st off}, Agrees sw w info e loc st off →
    ∀ t : Tree BasicStyle, t.setNeedsSeparator = e.build.setNeedsSeparator → JGood sw w info lo hi e t := by
  induction e using Json.induct with
  | simple e he =>
    intro hnc loc st off ha t ht
    cases e with
    | null id =>
      obtain ⟨z, rfl⟩ := branch_of_set (y := false) (cs := []) (id := id) (n := jsonNullN) (st := default) (o := []) (c := false) ht
      exact jgood_literal rfl rfl rfl fun c => ⟨⟨"null", sw "null", BasicStyle.combine c.style (BasicStyle.fromLabel "green_bold"), false⟩,
        by simp [Json.flatWidth], rfl⟩
    | bool id b =>
      cases b with
      | true =>
        obtain ⟨z, rfl⟩ := branch_of_set (y := false) (cs := []) (id := id) (n := jsonTrueN) (st := default) (o := []) (c := false) ht
        exact jgood_literal rfl rfl rfl fun c => ⟨⟨"true", sw "true", BasicStyle.combine c.style (BasicStyle.fromLabel "green_bold"), false⟩,
          by simp [Json.flatWidth], rfl⟩
      | false =>
        obtain ⟨z, rfl⟩ := branch_of_set (y := false) (cs := []) (id := id) (n := jsonFalseN) (st := default) (o := []) (c := false) ht
        exact jgood_literal rfl rfl rfl fun c => ⟨⟨"false", sw "false", BasicStyle.combine c.style (BasicStyle.fromLabel "green_bold"), false⟩,
          by simp [Json.flatWidth], rfl⟩
    | string id s =>
      obtain ⟨z, rfl⟩ := text_of_set (y := false) (s := s) (id := id) (n := jsonStringN) (st := default) (o := []) (c := false) ht
      exact jgood_string
    | number id s =>
      obtain ⟨z, rfl⟩ := text_of_set (y := false) (s := s) (id := id) (n := jsonNumberN) (st := default) (o := []) (c := false) ht
      exact jgood_literal rfl rfl rfl fun c => ⟨⟨s, sw s, BasicStyle.combine c.style (BasicStyle.fromLabel "blue"), true⟩,
        by simp [Json.flatWidth], rfl⟩
    | comment => simp only [Json.NoComments] at hnc
    | roots => simp only [Json.NoComments] at hnc
    | _ => exact he.elim
  | pair id keyId key v ih =>
    intro hnc loc st off ha t ht
    simp only [Json.NoComments] at hnc
    refine jgood_pair ha (ih hnc (loc := loc ++ [1]) (st := st) (off := sw "\"" + sw key + sw "\"" + sw ": ") ?_) ht
    intro x hx
    exact ha x (by simp [Json.infos, hx])
  | group l r es e id hg ih =>
    intro hnc loc st off ha t ht
    have hin : ∀ es : List Json, Json.NoCommentsIn es → ∀ x ∈ es, x.NoComments := by
      intro es
      induction es with
      | nil => intro _ x hx; simp at hx
      | cons a es ih =>
        intro h x hx
        simp only [Json.NoCommentsIn] at h
        rcases List.mem_cons.1 hx with rfl | hx
        · exact h.1
        · exact ih h.2 x hx
    have hall : ∀ (k : Nat) x, es[k]? = some x → ∀ t : Tree BasicStyle, t.setNeedsSeparator = x.build.setNeedsSeparator →
        JGood sw w info lo hi x t := by
      intro k x hk
      refine ih k x hk (hin es ?_ x (List.mem_of_getElem? hk)) (ha.kid hg hk)
      cases hg <;> simpa only [Json.NoComments] using hnc
    cases hg with
    | array h1 h2 =>
      subst h1 h2
      obtain ⟨z, rfl⟩ : ∃ z, t = .branch (markSeparators (Json.builds es)).1 id jsonArrayN default [] false z := by
        apply branch_of_set (y := false)
        rw [ht]
        simp only [Json.build]
        rfl
      exact jgood_group (l := '[') (r := ']') (.array rfl rfl) rfl ha hall
    | object h1 h2 =>
      subst h1 h2
      obtain ⟨z, rfl⟩ : ∃ z, t = .branch (markSeparators (Json.builds es)).1 id jsonObjectN default [] false z := by
        apply branch_of_set (y := false)
        rw [ht]
        simp only [Json.build]
        rfl
      exact jgood_group (l := '{') (r := '}') (.object rfl rfl) rfl ha hall

end PPP
