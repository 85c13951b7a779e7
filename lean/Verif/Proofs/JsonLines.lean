import Verif.Proofs.JsonFormat
/-
The trees of JSON documents write the lines of the formatter.
-/
namespace PPP
variable {sw : String → Nat} {w : Nat}

section
variable {l r : Char} {cs : List (Tree BasicStyle)} {n : Nat} {id : Nat} {nn : TreeNotation} {st : BasicStyle} {y : Bool}

theorem bracket_tree_eq (hn : cs.length = n + 1) (hnn : nn.1 = bracketN l r) (c : Ctx (basicDoc sw)) :
    ∃ (o x z v : Textual (basicDoc sw)) (c' : Ctx (basicDoc sw)), o.word = piece sw (String.ofList [l]) ∧
      x.word = piece sw ", " ∧ z.word = piece sw (String.ofList [r]) ∧ v.word = piece sw "," ∧ c'.flat = c.flat ∧
      lineW c'.indent = lineW c.indent ++ piece sw "    " ∧
      let K := docKid (basicLaw sw) (.branch cs id nn st [] false y)
      let seq := iter (K 0 { c with flat := true })
        (fun k acc => .concat (.concat acc (.text x)) (K (k + 1) { c with flat := true })) n
      let t := nn.1.tree (P := basicDoc sw) (.branch cs id nn st [] false y) K none c
      (c.flat = true → t = .concat (.concat (.text o) seq) (.text z)) ∧
      (c.flat = false → t = .choice (.concat (.concat (.text o) seq) (.text z))
        (.concat (.concat (.concat (.text o) (.concat (.newline c'.indent)
        (iter (K 0 c') (fun k acc => .concat (.concat (.concat acc
          (if (cs[k]?.map Tree.needsSeparator).getD false then .text v else .empty))
          (.newline c'.indent)) (K (k + 1) c')) n))) (.newline c.indent)) (.text z))) := by
  let sp : Textual (basicDoc sw) := ⟨String.ofList (List.replicate 4 ' '), sw (String.ofList (List.replicate 4 ' ')), c.style, false⟩
  let c' : Ctx (basicDoc sw) := { c with indent := c.indent ++ [sp.segment] }
  have hm := multi_tree_eq (sw := sw) (id := id) (nn := nn) (st := st) (y := y) hn c'
  refine ⟨⟨String.ofList [l], sw (String.ofList [l]), BasicStyle.combine c.style (BasicStyle.fromLabel "open"), false⟩,
    ⟨", ", sw ", ", c.style, false⟩,
    ⟨String.ofList [r], sw (String.ofList [r]), BasicStyle.combine c.style (BasicStyle.fromLabel "close"), false⟩,
    ⟨",", sw ",", c'.style, false⟩, c', rfl, rfl, rfl, rfl, rfl, ?_, ?_⟩
  · exact lineW_snoc c.indent sp
  have hnum : (basicDoc sw).numChildren (.branch cs id nn st [] false y) = .ok (some (n + 1)) := by
    simp [Tree.children?, hn]
  have hbody : nn.1.tree (P := basicDoc sw) (.branch cs id nn st [] false y)
      (docKid (basicLaw sw) (.branch cs id nn st [] false y)) none c =
      (bracketBody l r).tree (P := basicDoc sw) (.branch cs id nn st [] false y)
      (docKid (basicLaw sw) (.branch cs id nn st [] false y)) none c := by
    rw [hnn]
    cases n with
    | zero => exact count_one_tree (P := basicDoc sw) hnum _
    | succ m => exact count_many_tree (P := basicDoc sw) hnum _
  dsimp only
  rw [hbody, ← hm, ← single_tree hn c]
  constructor
  · intro hf
    change (if c.flat then _ else _) = _
    rw [if_pos hf]
    rfl
  · intro hf
    change (if c.flat then _ else _) = _
    rw [if_neg (by simp [hf])]
    rfl

end

/-! ### The lines of an expression -/

variable (sw w) in
/-- The tree of the node `t` writes the lines of `e`. -/
structure Fmt (e : Json) (t : Tree BasicStyle) : Prop where
  id : t.id = e.rootId
  good : ∀ flat (ind : List (Segment (basicDoc sw))) outer, ∃ nt, docTree (basicLaw sw) t flat ind outer = .ok nt ∧ nt.NoFail ∧
    (flat = true → FlatW (e.oneLine sw) nt) ∧
    (flat = false → ∀ k, lineW ind = levelIndent sw k → ∀ st cur post K, st.eol = false → segsWidth cur = st.col →
      Follows w e.isComment post K → (e.isComment = true → post = .none) →
      Lays w e.rootId nt K st cur e.isComment post (e.lines sw w k (lineW cur) post))

theorem Fmt.kid {e : Json} {node ch : Tree BasicStyle} {i : Nat} (hc : (basicDoc sw).childAt node i = .ok ch)
    (h : Fmt sw w e ch) (c : Ctx (basicDoc sw)) :
    (docKid (basicLaw sw) node i c).NoFail ∧
    (c.flat = true → FlatW (e.oneLine sw) (docKid (basicLaw sw) node i c)) ∧
    (c.flat = false → ∀ k, lineW c.indent = levelIndent sw k → ∀ id st cur post K, st.eol = false → segsWidth cur = st.col →
      Follows w e.isComment post K → (e.isComment = true → post = .none) →
      Lays w id (docKid (basicLaw sw) node i c) K st cur e.isComment post (e.lines sw w k (lineW cur) post)) := by
  obtain ⟨nt, h1, h2, h3, h4⟩ := h.good c.flat c.indent (some c.style)
  have := docKid_of (basicLaw sw) hc h1
  have hid : Call.toRes ((basicDoc sw).id ch) = .ok e.rootId := by
    show Call.toRes (.ok ch.id) = _
    rw [h.id]
    rfl
  rw [this, hid]
  refine ⟨⟨⟨_, rfl⟩, h2⟩, fun hf => (h3 hf).child .., fun hf k hk id st cur post K a b c d => (h4 hf k hk st cur post K a b c d).child ..⟩

theorem Fmt.of_flat {e : Json} {t : Tree BasicStyle} (hid : t.id = e.rootId) (hc : e.isComment = false) {x : Word}
    (h1 : e.oneLine sw = some x) (h2 : ∀ k pre post, e.lines sw w k pre post = [pre ++ x ++ post]) {s : BasicStyle}
    (hs : t.nodeStyle = s)
    (h : ∀ c : Ctx (basicDoc sw), FlatW (some x) (t.notn.1.tree (P := basicDoc sw) t (docKid (basicLaw sw) t) none c)) :
    Fmt sw w e t := by
  refine ⟨hid, fun flat ind outer => ?_⟩
  have hf := h ⟨flat, ind, enterStyle outer s⟩
  refine ⟨_, docTree_of (basicLaw sw) (a := t.notn.1) (s := s) rfl (by simp [hs]) _ _ _, hf.noFail, fun _ => ?_, ?_⟩
  · rw [h1]; exact hf
  · intro _ k _ st cur post K he hcur _ _
    rw [hc, h2]
    exact hf.lays he hcur post

theorem string_flat {id : Nat} {s : String} {z} (c : Ctx (basicDoc sw)) : FlatW (some (quoted sw s))
    (jsonStringN.1.tree (P := basicDoc sw) (.text s id jsonStringN default [] false z)
      (docKid (basicLaw sw) (.text s id jsonStringN default [] false z)) none c) := by
  have a := fun s b => FlatW.text (P := basicDoc sw) ⟨s, sw s, BasicStyle.combine c.style (BasicStyle.fromLabel "magenta"), b⟩
  exact ((a "\"" false).concat (a s true)).concat (a "\"" false)

theorem fmt_string {id : Nat} {s : String} {z} : Fmt sw w (.string id s) (.text s id jsonStringN default [] false z) :=
  .of_flat rfl rfl (by rw [Json.oneLine]) (fun k pre post => by rw [Json.lines]) rfl string_flat

/-- A literal or a number. -/
theorem fmt_literal {e : Json} {t : Tree BasicStyle} (hid : t.id = e.rootId) (hc : e.isComment = false) {s : String}
    (h1 : e.oneLine sw = some (piece sw s)) (h2 : ∀ k pre post, e.lines sw w k pre post = [pre ++ piece sw s ++ post])
    {z : BasicStyle} (hs : t.nodeStyle = z)
    (h : ∀ c : Ctx (basicDoc sw), ∃ x : Textual (basicDoc sw), x.word = piece sw s ∧
      t.notn.1.tree (P := basicDoc sw) t (docKid (basicLaw sw) t) none c = .text x) : Fmt sw w e t := by
  refine .of_flat hid hc h1 h2 hs fun c => ?_
  obtain ⟨x, h3, h4⟩ := h c
  rw [h4]
  exact .text' h3

theorem fmt_pair {id keyId : Nat} {key : String} {v : Json} (hvc : v.isComment = false)
    (hv : ∀ t, t.setNeedsSeparator = v.build.setNeedsSeparator → Fmt sw w v t)
    {t : Tree BasicStyle} (ht : t.setNeedsSeparator = (Json.pair id keyId key v).build.setNeedsSeparator) :
    Fmt sw w (.pair id keyId key v) t := by
  let cs : List (Tree BasicStyle) := [jsonString keyId key, v.build]
  obtain ⟨z, rfl⟩ : ∃ z, t = .branch (markSeparators cs).1 id jsonPairN default [] false z := by
    apply branch_of_set (y := false)
    rw [ht]
    simp only [Json.build]
    rfl
  obtain ⟨z0, h0⟩ : ∃ z', (basicDoc sw).childAt (.branch (markSeparators cs).1 id jsonPairN default [] false z) 0 =
      .ok (.text key keyId jsonStringN default [] false z') := by
    have hm := markSeparators_get cs 0 (jsonString keyId key) rfl
    split at hm
    · exact ⟨true, basic_childAt hm⟩
    · exact ⟨false, basic_childAt hm⟩
  obtain ⟨v', hv', h1⟩ : ∃ v', v'.setNeedsSeparator = v.build.setNeedsSeparator ∧
      (basicDoc sw).childAt (.branch (markSeparators cs).1 id jsonPairN default [] false z) 1 = .ok v' := by
    have hm := markSeparators_get cs 1 v.build rfl
    refine ⟨_, ?_, basic_childAt hm⟩
    split
    · cases v.build <;> rfl
    · rfl
  have hnum : (basicDoc sw).numChildren (.branch (markSeparators cs).1 id jsonPairN default [] false z) = .ok (some 2) := by
    simp [Tree.children?, markSeparators_length, cs]
  have htree : ∀ c, jsonPairN.1.tree (P := basicDoc sw) (.branch (markSeparators cs).1 id jsonPairN default [] false z)
      (docKid (basicLaw sw) (.branch (markSeparators cs).1 id jsonPairN default [] false z)) none c =
      .concat (.concat (docKid (basicLaw sw) (.branch (markSeparators cs).1 id jsonPairN default [] false z) 0 c)
        (.text ⟨": ", sw ": ", c.style, false⟩))
        (docKid (basicLaw sw) (.branch (markSeparators cs).1 id jsonPairN default [] false z) 1 c) := by
    intro c
    rw [← child_zero_tree (P := basicDoc sw) (env := none) (kid := docKid (basicLaw sw) (.branch (markSeparators cs).1 id jsonPairN default [] false z)) hnum c,
      ← child_one_tree (P := basicDoc sw) (env := none) (kid := docKid (basicLaw sw) (.branch (markSeparators cs).1 id jsonPairN default [] false z)) hnum c]
    rfl
  have hkey : ∀ c : Ctx (basicDoc sw), FlatW (some (quoted sw key))
      (docKid (basicLaw sw) (.branch (markSeparators cs).1 id jsonPairN default [] false z) 0 c) := by
    intro c
    have := docKid_of (basicLaw sw) h0 (docTree_of (basicLaw sw) (a := jsonStringN.1) (s := default) rfl rfl c.flat c.indent (some c.style))
    rw [this]
    exact (string_flat (sw := sw) (id := keyId) (s := key) (z := z0) _).child ..
  have hgv := hv v' hv'
  refine ⟨rfl, fun flat ind outer => ?_⟩
  let c : Ctx (basicDoc sw) := ⟨flat, ind, enterStyle outer default⟩
  obtain ⟨k1, k2, k3⟩ := hgv.kid h1 c
  have hpre := (hkey c).concat (.text ⟨": ", sw ": ", c.style, false⟩)
  rw [catO_some] at hpre
  refine ⟨_, docTree_of (basicLaw sw) (a := jsonPairN.1) (s := default) rfl rfl _ _ _, ?_⟩
  rw [htree]
  refine ⟨⟨hpre.noFail, k1⟩, fun hf => ?_, fun hf k hk st cur post K he hcur hK hpost => ?_⟩
  · have := hpre.concat (k2 hf)
    have e : (Json.pair id keyId key v).oneLine sw = catO (some (quoted sw key ++ piece sw ": ")) (v.oneLine sw) := by
      rw [Json.oneLine]
      rfl
    rw [e]
    exact this
  · have hc1 : (Json.pair id keyId key v).isComment = false := rfl
    rw [hc1] at hK ⊢
    rw [hvc] at k3
    have e : (Json.pair id keyId key v).lines sw w k (lineW cur) post =
        v.lines sw w k (lineW cur ++ (quoted sw key ++ piece sw ": ")) post := by rw [Json.lines]
    rw [e]
    refine hpre.before he hcur fun st' cur' he' hc' hl => ?_
    have := k3 hf k hk id st' cur' post K he' hc' hK (fun h => by cases h)
    rw [hl] at this
    exact this

/-! ### Arrays and objects -/

theorem Json.IsGroup.oneLine {l r : String} {es : List Json} {e : Json} {id : Nat} (hg : e.IsGroup l r es id) :
    e.oneLine sw = (Json.oneLines sw es).map fun x => piece sw l ++ x ++ piece sw r := by
  cases hg with
  | array h1 h2 => subst h1 h2; rw [Json.oneLine]
  | object h1 h2 => subst h1 h2; rw [Json.oneLine]

theorem Json.IsGroup.lines {l r : String} {es : List Json} {e : Json} {id : Nat} (hg : e.IsGroup l r es id) (k : Nat) (pre post : Word) :
    e.lines sw w k pre post = if es.isEmpty then [pre ++ (piece sw l ++ piece sw r) ++ post]
      else bracketLines w pre post (levelIndent sw k) (piece sw l) (piece sw r) (e.oneLine sw) (Json.entryLines sw w (k + 1) es) := by
  cases hg with
  | array h1 h2 => subst h1 h2; rw [Json.lines]
  | object h1 h2 => subst h1 h2; rw [Json.lines]

theorem Json.IsGroup.not_comment {l r : String} {es : List Json} {e : Json} {id : Nat} (hg : e.IsGroup l r es id) :
    e.isComment = false := by cases hg <;> rfl

/-- A comma comes after entry `i`. -/
def commaAfter (es : List Json) (i : Nat) : Bool :=
  match es[i]? with
  | some e => !e.isComment && (es.drop (i + 1)).any fun e => !e.isComment
  | none => false

theorem comma_flag (es : List Json) (i : Nat) :
    ((markSeparators (Json.builds es)).1[i]?.map Tree.needsSeparator).getD false = commaAfter es i := by
  unfold commaAfter
  cases h : es[i]? with
  | none =>
    have : (markSeparators (Json.builds es)).1[i]? = none := by
      rw [List.getElem?_eq_none_iff, markSeparators_length, builds_eq, List.length_map]
      exact List.getElem?_eq_none_iff.1 h
    simp [this]
  | some e =>
    have hget : (Json.builds es)[i]? = some e.build := by rw [builds_eq, List.getElem?_map, h]; rfl
    rw [markSeparators_get _ i _ hget]
    have hiff : (e.build.isComment = false ∧ ∃ j : Nat, i < j ∧ ∃ d : Tree BasicStyle, (Json.builds es)[j]? = some d ∧ d.isComment = false) ↔
        (!e.isComment && (es.drop (i + 1)).any fun e => !e.isComment) = true := by
      rw [build_isComment]
      simp only [Bool.and_eq_true, Bool.not_eq_true', List.any_eq_true]
      refine and_congr_right fun _ => ?_
      constructor
      · rintro ⟨j, hj, d, hd, hc⟩
        rw [builds_eq, List.getElem?_map, Option.map_eq_some_iff] at hd
        obtain ⟨x, hx, rfl⟩ := hd
        rw [build_isComment] at hc
        refine ⟨x, ?_, hc⟩
        refine List.mem_of_getElem? (i := j - (i + 1)) ?_
        rw [List.getElem?_drop, show i + 1 + (j - (i + 1)) = j by omega]
        exact hx
      · rintro ⟨x, hx, hc⟩
        obtain ⟨j, hj⟩ := List.mem_iff_getElem?.1 hx
        rw [List.getElem?_drop] at hj
        refine ⟨i + 1 + j, by omega, x.build, ?_, by rw [build_isComment]; exact hc⟩
        rw [builds_eq, List.getElem?_map, hj]
        rfl
    by_cases hb : (!e.isComment && (es.drop (i + 1)).any fun e => !e.isComment) = true
    · rw [if_pos (hiff.2 hb)]
      simp only [Option.map_some, Option.getD_some, hb]
      cases e.build <;> rfl
    · rw [if_neg (fun h => hb (hiff.1 h))]
      simp only [Option.map_some, Option.getD_some, build_flag]
      simpa using hb

theorem entryLines_eq (k : Nat) (es : List Json) : Json.entryLines sw w k es =
    (List.range es.length).flatMap fun i => ((es[i]?).map fun e => e.lines sw w k (levelIndent sw k)
      (if commaAfter es i then piece sw "," else .none)).getD [] := by
  induction es with
  | nil => simp [Json.entryLines]
  | cons e es ih =>
    rw [Json.entryLines, ih, List.length_cons, List.range_succ_eq_map, List.flatMap_cons, List.flatMap_map]
    have e0 : (if e.isComment = false ∧ (es.any fun e => !e.isComment) = true then piece sw "," else Word.none) =
        (if commaAfter (e :: es) 0 then piece sw "," else Word.none) := by
      refine if_congr ?_ rfl rfl
      simp [commaAfter]
    rw [e0]
    rfl

theorem fmt_group {l r : Char} {es : List Json} {e : Json} {id : Nat}
    (hg : e.IsGroup (String.ofList [l]) (String.ofList [r]) es id)
    {notn : TreeNotation} (hnotn : notn.1 = bracketN l r)
    (h : ∀ (k : Nat) x, es[k]? = some x → ∀ t, t.setNeedsSeparator = x.build.setNeedsSeparator → Fmt sw w x t)
    {y : Bool} : Fmt sw w e (.branch (markSeparators (Json.builds es)).1 id notn default [] false y) := by
  have hid : (Tree.branch (markSeparators (Json.builds es)).1 id notn default [] false y).id = e.rootId := hg.rootId.symm
  cases hes : es with
  | nil =>
    subst hes
    refine .of_flat (x := piece sw (String.ofList [l]) ++ piece sw (String.ofList [r])) hid hg.not_comment ?_ ?_ rfl fun c => ?_
    · rw [hg.oneLine, Json.oneLines]
      simp
    · intro k pre post
      rw [hg.lines]
      rfl
    · have : (Tree.branch (markSeparators (Json.builds [])).1 id notn default [] false y).notn.1 = bracketN l r := by
        simp [Tree.notn, hnotn]
      rw [this]
      have a := fun s lab => FlatW.text (P := basicDoc sw) ⟨s, sw s, BasicStyle.combine c.style (BasicStyle.fromLabel lab), false⟩
      have := ((a (String.ofList [l]) "open").concat .mark).concat (a (String.ofList [r]) "close")
      simp only [catO_some, Word.append_none] at this
      exact this
  | cons e0 es0 =>
    rw [← hes]
    have hne : es.isEmpty = false := by rw [hes]; rfl
    have hlen' : es.length = es0.length + 1 := by rw [hes]; simp
    have hlen : (markSeparators (Json.builds es)).1.length = es0.length + 1 := by
      rw [markSeparators_length, builds_eq, hes]; simp
    -- the kids
    have hkid : ∀ i, i ≤ es0.length → ∃ x ch, es[i]? = some x ∧
        (basicDoc sw).childAt (.branch (markSeparators (Json.builds es)).1 id notn default [] false y) i = .ok ch ∧
        Fmt sw w x ch := by
      intro i hi
      have hlt : i < es.length := by omega
      have hget : (Json.builds es)[i]? = some (es[i].build) := by
        rw [builds_eq, List.getElem?_map, List.getElem?_eq_getElem hlt]; rfl
      have hm := markSeparators_get _ i _ hget
      refine ⟨es[i], _, List.getElem?_eq_getElem hlt, basic_childAt hm, h i _ (List.getElem?_eq_getElem hlt) _ ?_⟩
      split
      · cases es[i].build <;> rfl
      · rfl
    refine ⟨hid, fun flat ind outer => ?_⟩
    refine ⟨_, docTree_of (basicLaw sw) (a := notn.1) (s := default) (by simp [Tree.notn]) rfl _ _ _, ?_⟩
    obtain ⟨o, x, z, v, c', ho, hx, hz, hv, hc', hind, hft, htt⟩ := bracket_tree_eq (sw := sw) (id := id) (st := default) (y := y)
      hlen hnotn ⟨flat, ind, enterStyle outer default⟩
    dsimp only at hft htt hind hc'
    let N : Tree BasicStyle := .branch (markSeparators (Json.builds es)).1 id notn default [] false y
    have hseq := single_flat (P := basicDoc sw) (x := x) (n := es0.length)
      (kids := fun i => docKid (basicLaw sw) N i ⟨true, ind, enterStyle outer default⟩)
      (f := fun i => (es[i]?).bind (Json.oneLine sw)) (by
        intro i hi
        obtain ⟨a, ch, h1, h2, h3⟩ := hkid i hi
        simp only [h1, Option.bind_some]
        exact (h3.kid h2 ⟨true, ind, enterStyle outer default⟩).2.1 rfl)
    rw [hx, ← oneLines_eq sw es _ hlen'] at hseq
    have hone : FlatW (e.oneLine sw) (.concat (.concat (.text o) (iter (docKid (basicLaw sw) N 0 ⟨true, ind, enterStyle outer default⟩)
        (fun k acc => .concat (.concat acc (.text x)) (docKid (basicLaw sw) N (k + 1) ⟨true, ind, enterStyle outer default⟩)) es0.length))
        (.text z)) := by
      have := ((FlatW.text o).concat hseq).concat (.text z)
      rw [hg.oneLine, ← ho, ← hz]
      cases hl : Json.oneLines sw es with
      | none => rw [hl] at this; exact this
      | some b => rw [hl] at this; exact this
    have hitems : flat = false → ∀ (k : Nat), lineW ind = levelIndent sw k → ∀ (K : List (NTree (basicDoc sw))),
        (∀ st, SecondsFit w st K ↔ st.col ≤ w) →
        Lays w e.rootId (iter (docKid (basicLaw sw) N 0 c') (fun k acc => .concat (.concat (.concat acc
          (if ((markSeparators (Json.builds es)).1[k]?.map Tree.needsSeparator).getD false then .text v else .empty))
          (.newline c'.indent)) (docKid (basicLaw sw) N (k + 1) c')) es0.length) K ⟨segsWidth c'.indent, false⟩ c'.indent
          (((es[es0.length]?).map Json.isComment).getD false) .none (Json.entryLines sw w (k + 1) es) := by
      intro hf k hk K hK
      have hci : lineW c'.indent = levelIndent sw (k + 1) := by rw [hind, hk]; rfl
      have hlast : commaAfter es es0.length = false := by
        unfold commaAfter
        rw [List.drop_of_length_le (by omega)]
        cases es[es0.length]? <;> simp
      have := multi_lays (P := basicDoc sw) (w := w) (id := e.rootId) (n := es0.length) (v := v) (ci := c'.indent)
        (kids := fun i => docKid (basicLaw sw) N i c') (flags := commaAfter es)
        (com := fun i => ((es[i]?).map Json.isComment).getD false)
        (R := fun i => ((es[i]?).map fun e => e.lines sw w (k + 1) (levelIndent sw (k + 1))
          (if commaAfter es i then piece sw "," else .none)).getD [])
        (by
          intro i hi K' hK'
          obtain ⟨a, ch, h1, h2, h3⟩ := hkid i hi
          simp only [h1, Option.map_some, Option.getD_some] at hK' ⊢
          have := (h3.kid h2 c').2.2 (by rw [hc', hf]) (k + 1) hci e.rootId ⟨segsWidth c'.indent, false⟩ c'.indent
            (if commaAfter es i then v.word else .none) K' rfl rfl hK' (by
              intro hcom
              simp [commaAfter, h1, hcom])
          rw [hci, hv] at this
          rw [hv]
          exact this)
        (by
          intro i hfl
          cases hi : es[i]? with
          | none => rfl
          | some a =>
            simp only [commaAfter, hi, Bool.and_eq_true, Bool.not_eq_true'] at hfl
            simp [hfl.1])
        K (by
          rw [hlast]
          refine ⟨fun st _ => ?_, fun _ => hK⟩
          simpa [Word.none] using hK st)
      rw [hlast] at this
      rw [entryLines_eq, hlen']
      simp only [comma_flag]
      exact this
    have hsep : ∀ k : Nat, (if ((markSeparators (Json.builds es)).1[k]?.map Tree.needsSeparator).getD false then NTree.text v
        else NTree.empty).NoFail := by
      intro k
      split <;> trivial
    have hnf : ∀ (m : Nat), m ≤ es0.length → (iter (docKid (basicLaw sw) N 0 c') (fun k acc => .concat (.concat (.concat acc
          (if ((markSeparators (Json.builds es)).1[k]?.map Tree.needsSeparator).getD false then .text v else .empty))
          (.newline c'.indent)) (docKid (basicLaw sw) N (k + 1) c')) m).NoFail := by
      intro m
      induction m with
      | zero =>
        intro _
        obtain ⟨a, ch, h1, h2, h3⟩ := hkid 0 (Nat.zero_le _)
        exact (h3.kid h2 c').1
      | succ m ih =>
        intro hm
        obtain ⟨a, ch, h1, h2, h3⟩ := hkid (m + 1) hm
        exact ⟨⟨⟨ih (by omega), hsep m⟩, trivial⟩, (h3.kid h2 c').1⟩
    cases flat with
    | true =>
      rw [hft rfl]
      exact ⟨hone.noFail, fun _ => hone, fun hf => by cases hf⟩
    | false =>
      rw [htt rfl]
      refine ⟨⟨hone.noFail, ⟨⟨trivial, trivial, hnf _ (Nat.le_refl _)⟩, trivial⟩, trivial⟩, fun hf => (by cases hf), ?_⟩
      intro _ k hk st cur post K he hcur hK hpost
      rw [hg.lines, hne, hg.oneLine, hg.not_comment, ← hk, ← ho, ← hz]
      exact bracket_lays he hcur hK.1 hseq (hitems rfl k hk)

/-! ### Comments -/

theorem eolRun_noEol {P : PrettyDoc} (T : List (Tok P)) (h : .eol ∉ T) : eolRun false T = some false := by
  induction T with
  | nil => rfl
  | cons t T ih =>
    have := ih fun h' => h (by simp [h'])
    cases t with
    | eol => exact absurd (by simp) h
    | _ => simpa [eolRun] using this

theorem zipWith_lines (L : List (String × Nat)) :
    List.zipWith Word.mk (L.map Prod.fst) (L.map Prod.snd) = L.map fun p => ⟨p.1, p.2⟩ := by
  induction L with
  | nil => rfl
  | cons a L ih => simp [ih]

theorem comment_lays {id : Nat} {wordIds : Nat → Nat} {z : BasicStyle} {ind : List (Segment (basicDoc sw))} {s : String}
    {K : List (NTree (basicDoc sw))} {st : LineSt} {cur : List (Segment (basicDoc sw))}
    (he : st.eol = false) (hc : segsWidth cur = st.col) (hK : ∀ st, SecondsFit w st K ↔ st.col ≤ w) :
    Lays w id (.concat (.concat (.text (commentLit sw z "// "))
        (commentTree sw z (ind ++ [(commentLit sw z "// ").segment]) wordIds (splitWhitespace [] s.toList))) .eol) K st cur true .none
      (commentLines sw w (lineW cur) (lineW ind) s) := by
  let lit : Textual (basicDoc sw) := commentLit sw z "// "
  have hlit : lit.word = piece sw "// " := rfl
  have hcw : lineW (cur ++ [lit.segment]) = lineW cur ++ piece sw "// " := lineW_snoc cur lit
  have hiw : lineW (ind ++ [lit.segment]) = lineW ind ++ piece sw "// " := lineW_snoc ind lit
  unfold commentLines
  cases hw : splitWhitespace [] s.toList with
  | nil =>
    simp only [List.map_nil]
    refine ⟨_, _, [], cur ++ [lit.segment], .concat (.concat .text (by
      unfold commentTree
      rw [if_pos rfl]
      exact .mark)) .eol, ?_, rfl, ?_, ?_, ?_⟩
    · rfl
    · rfl
    · rw [segsWidth_snoc, hc]
    · rw [hcw]
      simp
  | cons x ws =>
    obtain ⟨T, st', g, h⟩ := words_greedy (w := w) (id := id) (comma := none)
      (sp := commentLit sw z " ") (ind := ind ++ [lit.segment]) (ids := wordIds) (t := commentText sw z (x :: ws))
      (st := ⟨st.col + sw "// ", false⟩) (cur := cur ++ [lit.segment]) rfl (by rw [segsWidth_snoc, hc]; rfl) ws.length
      (.eol :: K) 0 (by
        intro st hst
        have := hK ⟨st.col, true⟩
        simpa [SecondsFit, NTree.seconds] using this)
    have g' : Greedy w id (commentTree sw z (ind ++ [lit.segment]) wordIds (x :: ws)) (.eol :: K)
        ⟨st.col + sw "// ", st.eol⟩ st' T := by
      unfold commentTree
      rw [if_neg (by simp), he]
      exact g
    obtain ⟨ls, last, hl, hlw, hp⟩ := h.page
    refine ⟨[.tok (.text lit)] ++ T ++ [.tok .eol], ⟨st'.col, true⟩, ls, last, .concat (.concat .text g') .eol, ?_, rfl, ?_, hlw, ?_⟩
    · rw [erase_append, erase_append, eolRun_append, eolRun_append]
      simp [erase, eolRun, eolRun_noEol _ h.noEol]
    · have e2 : linesFrom cur (erase ([.tok (.text lit)] ++ T ++ [.tok .eol])) =
          linesFrom (cur ++ [lit.segment]) (erase T ++ [.eol]) := by
        simp [erase, erase_append, linesFrom]
      rw [e2, linesFrom_append hl.symm]
      simp [linesFrom]
    · have h3 := h.lines
      have hws : (x :: ws).map (fun x => piece sw (String.ofList x)) = asWords sw (x :: ws) := rfl
      rw [hws]
      obtain ⟨y, ys, hy⟩ : ∃ y ys, asWords sw (x :: ws) = y :: ys := ⟨_, _, rfl⟩
      have hpw := fullWords_comment (sw := sw) x ws (commentText sw z (x :: ws)) (fun _ => rfl)
      rw [hy] at hpw
      have key := pageAt_write (w := w) (sp := (commentLit sw z " ").word) (ind := lineW (ind ++ [lit.segment]))
        (start := ([], (lineW (cur ++ [lit.segment])).str, (lineW (cur ++ [lit.segment])).width)) "" ws.length 0 y ys hpw
      rw [show ((commentLit sw z " ").word) = (⟨" ", sw " "⟩ : Word) from rfl] at key
      have key' := congrArg Page.lines key
      rw [page_fill, ← hy] at key'
      have hlines : (ls ++ [last]).map lineOf = wordsLines (lineW (cur ++ [lit.segment])) (lineW (ind ++ [lit.segment])) (sw " ")
          (fill w (lineW (cur ++ [lit.segment])).width (lineW (ind ++ [lit.segment])).width (sw " ") (asWords sw (x :: ws))) := by
        rw [← key', ← hl, h3]
        simp only [Textual.word, String.append_empty, Nat.add_zero]
        rfl
      rw [hy]
      dsimp only
      rw [← hy, ← hcw, ← hiw, ← wordsLines_strs, ← wordsLines_cols, ← hlines, zipWith_lines]
      simp [lineOf, lineW]

theorem FlatW.eol {P : PrettyDoc} : FlatW (P := P) none .eol where
  noFail := trivial
  choiceFree := trivial
  noNl := by simp [NTree.seconds]
  isText x h := by cases h
  isEol _ := by simp [NTree.seconds]

theorem comment_body_flat {words : List (List Char)} {node : Tree BasicStyle} {cs : List (Tree BasicStyle)}
    {wordIds : Nat → Nat} (hnode : node.children? = some cs) (hcs : cs.length = words.length) (st : BasicStyle)
    (ind : List (Segment (basicDoc sw)))
    (hkids : ∀ (i : Nat), i < words.length → ∃ z, (basicDoc sw).childAt node i =
      .ok (.text (String.ofList (words.getD i [])) (wordIds i) jsonWordN default [] false z)) :
    ∃ o, FlatW o (jsonCommentBody.tree (P := basicDoc sw) node (docKid (basicLaw sw) node) none ⟨true, ind, st⟩) := by
  have hnum : (basicDoc sw).numChildren node = .ok (some cs.length) := by simp [hnode]
  let c : Ctx (basicDoc sw) := ⟨true, ind, st⟩
  have hk : ∀ i, i < words.length → docKid (basicLaw sw) node i c = wordTree wordIds (commentText sw st words) i := by
    intro i hi
    obtain ⟨z, h⟩ := hkids i hi
    refine docKid_of (basicLaw sw) h ?_
    rw [docTree_of (basicLaw sw) (a := .text) (s := default) rfl rfl]
    rfl
  unfold jsonCommentBody
  match hn : cs.length with
  | 0 =>
    rw [hn] at hnum
    rw [count_zero_tree (P := basicDoc sw) hnum]
    exact ⟨_, .mark⟩
  | 1 =>
    rw [hn] at hnum
    rw [count_one_tree (P := basicDoc sw) hnum, child_zero_tree (P := basicDoc sw) hnum]
    rw [show docKid (basicLaw sw) node 0 ⟨true, ind, st⟩ = _ from hk 0 (by omega)]
    exact ⟨_, (FlatW.text _).child ..⟩
  | n + 2 =>
    rw [hn] at hnum
    rw [count_many_tree (P := basicDoc sw) hnum]
    have hfold := fold_tree (P := basicDoc sw) (node := node) (kid := docKid (basicLaw sw) node) (first := .child 0)
      (join := .left + (.literal " " ||| .newline) + .right) (env := none) hnum
      (fun i hi => by
        obtain ⟨z, h⟩ := hkids i (by omega)
        exact ⟨_, h⟩) c
      (fun k acc => .concat (.concat acc (.text (commentLit sw st " "))) (wordTree wordIds (commentText sw st words) (k + 1)))
      (fun acc k hk' => by
        rw [← hk (k + 1) (by omega)]
        rfl)
    refine ⟨seqO (commentLit sw st " ").word (fun i => some (commentText sw st words i).word) (n + 1), ?_⟩
    have := single_flat (P := basicDoc sw) (x := commentLit sw st " ") (n := n + 1)
      (kids := wordTree wordIds (commentText sw st words)) (f := fun i => some (commentText sw st words i).word)
      (fun i _ => (FlatW.text _).child ..)
    rw [hfold, child_zero_tree (P := basicDoc sw) hnum, hk 0 (by omega)]
    exact this

theorem fmt_comment {id : Nat} {wordIds : Nat → Nat} {s : String} {t : Tree BasicStyle}
    (ht : t.setNeedsSeparator = (Json.comment id wordIds s).build.setNeedsSeparator) : Fmt sw w (.comment id wordIds s) t := by
  let words := splitWhitespace [] s.toList
  let cs : List (Tree BasicStyle) := words.mapIdx fun i word => Tree.newText (wordIds i) jsonWordN (String.ofList word)
  obtain ⟨z, rfl⟩ : ∃ z, t = .branch (markSeparators cs).1 id jsonCommentN default [] true z := by
    apply branch_of_set (y := false)
    rw [ht]
    rfl
  have hlen : (markSeparators cs).1.length = words.length := by
    rw [markSeparators_length]; simp [cs]
  have hch : ∀ (i : Nat), i < words.length → ∃ z', (basicDoc sw).childAt
      (.branch (markSeparators cs).1 id jsonCommentN default [] true z) i =
        .ok (.text (String.ofList (words.getD i [])) (wordIds i) jsonWordN default [] false z') := by
    intro i hi
    have hget : cs[i]? = some (Tree.newText (wordIds i) jsonWordN (String.ofList (words.getD i []))) := by
      simp [cs, List.getElem?_mapIdx, List.getElem?_eq_getElem hi]
    have hm := markSeparators_get cs i _ hget
    split at hm
    · exact ⟨true, basic_childAt hm⟩
    · exact ⟨false, basic_childAt hm⟩
  refine ⟨rfl, fun flat ind outer => ?_⟩
  let st : BasicStyle := BasicStyle.combine (enterStyle (P := basicDoc sw) outer default) (BasicStyle.fromLabel "yellow")
  have htree := docTree_of (basicLaw sw) (node := .branch (markSeparators cs).1 id jsonCommentN default [] true z)
    (a := jsonCommentN.1) (s := default) rfl rfl flat ind outer
  cases flat with
  | true =>
    obtain ⟨o, ho⟩ := comment_body_flat (sw := sw) (words := words) (wordIds := wordIds)
      (node := .branch (markSeparators cs).1 id jsonCommentN default [] true z) rfl hlen st
      (ind ++ [(commentLit sw st "// ").segment]) hch
    have hall := ((FlatW.text (commentLit sw st "// ")).concat ho).concat FlatW.eol
    have e : catO (catO (some (commentLit sw st "// ").word) o) none = none := by
      cases o <;> rfl
    rw [e] at hall
    exact ⟨_, htree, hall.noFail, fun _ => (by rw [Json.oneLine]; exact hall), fun hf => (by cases hf)⟩
  | false =>
    have key := comment_body_tree (sw := sw) (words := words) (wordIds := wordIds)
      (node := .branch (markSeparators cs).1 id jsonCommentN default [] true z) rfl hlen st
      (ind ++ [(commentLit sw st "// ").segment]) hch
    have key := congrArg (fun t => NTree.concat (P := basicDoc sw) (.concat (.text (commentLit sw st "// ")) t) .eol) key
    refine ⟨_, htree.trans (congrArg Except.ok key), ⟨⟨trivial, commentTree_noFail ..⟩, trivial⟩, fun hf => (by cases hf), ?_⟩
    intro _ k hk st cur post K he hcur hK hpost
    rw [hpost rfl, Json.lines, ← hk]
    exact comment_lays he hcur (hK.2 rfl)

/-! ### All expressions -/

/-- What is inside of arrays and objects. -/
def Json.Item (okString okNumber : String → Prop) (e : Json) : Prop :=
  e.isComment = true ∨ e.Value okString okNumber ∨ ∃ id keyId key v, e = .pair id keyId key v ∧ v.Value okString okNumber

theorem value_not_comment {okString okNumber : String → Prop} {e : Json} (h : e.Value okString okNumber) : e.isComment = false := by
  cases h <;> rfl

theorem json_fmt {okString okNumber : String → Prop} (e : Json) : e.Item okString okNumber →
    ∀ t : Tree BasicStyle, t.setNeedsSeparator = e.build.setNeedsSeparator → Fmt sw w e t := by
  induction e using Json.induct with
  | simple e he =>
    intro hit t ht
    cases e with
    | null id =>
      obtain ⟨z, rfl⟩ := branch_of_set (y := false) (cs := []) (id := id) (n := jsonNullN) (st := default) (o := []) (c := false) ht
      exact fmt_literal (s := "null") rfl rfl (by rw [Json.oneLine]) (fun _ _ _ => by rw [Json.lines]) rfl fun c =>
        ⟨⟨"null", sw "null", BasicStyle.combine c.style (BasicStyle.fromLabel "green_bold"), false⟩, rfl, rfl⟩
    | bool id b =>
      cases b with
      | true =>
        obtain ⟨z, rfl⟩ := branch_of_set (y := false) (cs := []) (id := id) (n := jsonTrueN) (st := default) (o := []) (c := false) ht
        exact fmt_literal (s := "true") rfl rfl (by rw [Json.oneLine]; rfl) (fun _ _ _ => by rw [Json.lines]; rfl) rfl fun c =>
          ⟨⟨"true", sw "true", BasicStyle.combine c.style (BasicStyle.fromLabel "green_bold"), false⟩, rfl, rfl⟩
      | false =>
        obtain ⟨z, rfl⟩ := branch_of_set (y := false) (cs := []) (id := id) (n := jsonFalseN) (st := default) (o := []) (c := false) ht
        exact fmt_literal (s := "false") rfl rfl (by rw [Json.oneLine]; rfl) (fun _ _ _ => by rw [Json.lines]; rfl) rfl fun c =>
          ⟨⟨"false", sw "false", BasicStyle.combine c.style (BasicStyle.fromLabel "green_bold"), false⟩, rfl, rfl⟩
    | string id s =>
      obtain ⟨z, rfl⟩ := text_of_set (y := false) (s := s) (id := id) (n := jsonStringN) (st := default) (o := []) (c := false) ht
      exact fmt_string
    | number id s =>
      obtain ⟨z, rfl⟩ := text_of_set (y := false) (s := s) (id := id) (n := jsonNumberN) (st := default) (o := []) (c := false) ht
      exact fmt_literal (s := s) rfl rfl (by rw [Json.oneLine]) (fun _ _ _ => by rw [Json.lines]) rfl fun c =>
        ⟨⟨s, sw s, BasicStyle.combine c.style (BasicStyle.fromLabel "blue"), true⟩, rfl, rfl⟩
    | comment id wordIds s => exact fmt_comment ht
    | roots id es =>
      rcases hit with h | h | ⟨_, _, _, _, h, _⟩
      · cases h
      · cases h
      · cases h
    | _ => exact he.elim
  | pair id keyId key v ih =>
    intro hit t ht
    rcases hit with h | h | ⟨_, _, _, _, h, hv⟩
    · cases h
    · cases h
    · cases h
      exact fmt_pair (value_not_comment hv) (ih (.inr (.inl hv))) ht
  | group l r es e id hg ih =>
    intro hit t ht
    have hall : ∀ (k : Nat) x, es[k]? = some x → ∀ t : Tree BasicStyle, t.setNeedsSeparator = x.build.setNeedsSeparator →
        Fmt sw w x t := by
      intro k x hk
      refine ih k x hk ?_
      have hx := List.mem_of_getElem? hk
      by_cases hc : x.isComment = true
      · exact .inl hc
      · simp only [Bool.not_eq_true] at hc
        cases hg with
        | array h1 h2 =>
          rcases hit with h | h | ⟨_, _, _, _, h, _⟩
          · cases h
          · cases h with
            | array _ h => exact .inr (.inl (h x hx hc))
          · cases h
        | object h1 h2 =>
          rcases hit with h | h | ⟨_, _, _, _, h, _⟩
          · cases h
          · cases h with
            | object _ h1 h2 h3 =>
              have := h1 x hx hc
              cases x with
              | pair pid keyId key v => exact .inr (.inr ⟨_, _, _, _, rfl, h3 _ _ _ _ hx⟩)
              | _ => simp [Json.isPair] at this
          · cases h
    cases hg with
    | array h1 h2 =>
      subst h1 h2
      obtain ⟨z, rfl⟩ : ∃ z, t = .branch (markSeparators (Json.builds es)).1 id jsonArrayN default [] false z := by
        apply branch_of_set (y := false)
        rw [ht]
        simp only [Json.build]
        rfl
      exact fmt_group (l := '[') (r := ']') (.array rfl rfl) rfl hall
    | object h1 h2 =>
      subst h1 h2
      obtain ⟨z, rfl⟩ : ∃ z, t = .branch (markSeparators (Json.builds es)).1 id jsonObjectN default [] false z := by
        apply branch_of_set (y := false)
        rw [ht]
        simp only [Json.build]
        rfl
      exact fmt_group (l := '{') (r := '}') (.object rfl rfl) rfl hall

/-- Values and comments, printed on their own. -/
theorem item_prints {okString okNumber : String → Prop} {e : Json} (h : e.Item okString okNumber) (s : String) :
    prettyPrintToString (P := basicDoc sw) e.build w = Exec.ofRes (.ok s) ↔
      s = "\n".intercalate ((e.lines sw w 0 .none .none).map Word.str) ∧
        ∀ l ∈ e.lines sw w 0 .none .none, l.width ≤ maxWidth := by
  have hf := json_fmt (sw := sw) (w := w) e h e.build rfl
  obtain ⟨nt, h1, h2, -, h3⟩ := hf.good false [] none
  have hK : ∀ st, SecondsFit (P := basicDoc sw) w st [] ↔ st.col ≤ w := by
    intro st
    simp [SecondsFit]
  obtain ⟨U, st', ls, last, g, he, -, hl, -, hL⟩ := h3 rfl 0 rfl ⟨0, false⟩ [] .none [] rfl rfl
    ⟨fun st _ => by simpa [Word.none] using hK st, fun _ => hK⟩ (fun _ => rfl)
  have hr : rootTree (basicLaw sw) e.build none = .ok (e.rootId, nt) := by
    unfold rootTree
    rw [h1]
    have hid : Call.toRes ((basicDoc sw).id e.build) = .ok e.rootId := by
      show Call.toRes (.ok e.build.id) = _
      rw [hf.id]
      rfl
    rw [hid]
    rfl
  have := print_of_greedy (basicLaw sw) hr h2 ⟨_, g⟩ (eolRun_no_defect _ he)
    (L := (e.lines sw w 0 .none .none).map fun x => (x.str, x.width)) (by
      rw [show linesOf (erase U) = ls ++ [last] from hl]
      rw [lineW_nil] at hL
      rw [hL]
      simp [lineOf, lineW]) s
  simpa [List.map_map, Function.comp_def] using this

theorem lines_ne_nil {okString okNumber : String → Prop} {e : Json} (h : e.Item okString okNumber) (k : Nat) (pre post : Word) : e.lines sw w k pre post ≠ [] := by
  induction e using Json.induct generalizing k pre post with
  | simple e he =>
    cases e with
    | comment id ids s =>
      rw [Json.lines]
      unfold commentLines
      split
      · simp
      · rename_i x xs _
        obtain ⟨l, ls, hl⟩ := fillFrom_cons w ((levelIndent sw k) ++ piece sw "// ").width (sw " ") xs
          ((pre ++ piece sw "// ").width + x.width) [x]
        simp only [fill]
        rw [hl]
        simp [wordLines, linesCols]
    | roots =>
      rcases h with h | h | ⟨_, _, _, _, h, _⟩
      · cases h
      · cases h
      · cases h
    | array => exact he.elim
    | object => exact he.elim
    | pair => exact he.elim
    | _ => rw [Json.lines]; simp
  | pair id keyId key v ih =>
    rw [Json.lines]
    rcases h with h | h | ⟨_, _, _, _, h, hv⟩
    · cases h
    · cases h
    · cases h
      exact ih (.inr (.inl hv)) _ _ _
  | group l r es e id hg ih =>
    rw [hg.lines]
    unfold bracketLines
    split
    · simp
    · split
      · split <;> simp
      · simp

end PPP
