import Verif.Proofs.JsonTree
/-
What the notation trees of JSON documents display.
-/
namespace PPP
variable (sw : String → Nat)

/-- The contract holds for `&Tree<BasicStyle>`. -/
abbrev basicLaw : (basicDoc sw).Lawful := treeDoc_lawful _ _ _

/-- What an item of an array stands for. -/
def Json.item (e : Json) : Option (List Char) := if e.isComment then none else some e.compact

/-- The tree of a document node displays the item. -/
def Good (C : Prop) (item : Option (List Char)) (t : Tree BasicStyle) : Prop :=
  ∀ flat (ind : List (Segment (basicDoc sw))) outer, Blank ind → ∃ nt, docTree (basicLaw sw) t flat ind outer = .ok nt ∧
    (flat = true → FlatItem C item nt) ∧ (flat = false → OpenItem C item nt)

variable {sw} {C : Prop} {item : Option (List Char)}

theorem builds_eq (es : List Json) : Json.builds es = es.map Json.build := by
  induction es with
  | nil => rfl
  | cons e es ih => simp [Json.builds, ih]

theorem compacts_eq (es : List Json) : Json.compacts es = (es.map Json.item).filterMap fun x => x := by
  induction es with
  | nil => rfl
  | cons e es ih =>
    simp only [Json.compacts, Json.item, List.map_cons] at *
    split <;> simp [ih]

theorem build_flag (e : Json) : e.build.needsSeparator = false := by
  cases e with
  | bool id b => cases b <;> rfl
  | _ => rfl

theorem build_isComment (e : Json) : e.build.isComment = e.isComment := by
  cases e with
  | bool id b => cases b <;> rfl
  | _ => rfl

theorem branch_of_set {S : Type} {t : Tree S} {cs id n st o c y}
    (h : t.setNeedsSeparator = (Tree.branch cs id n st o c y).setNeedsSeparator) :
    ∃ z, t = .branch cs id n st o c z := by
  cases t with
  | text => cases h
  | branch => simp only [Tree.setNeedsSeparator, Tree.branch.injEq] at h; simp [h]

theorem text_of_set {S : Type} {t : Tree S} {s id n st o c y}
    (h : t.setNeedsSeparator = (Tree.text s id n st o c y).setNeedsSeparator) :
    ∃ z, t = .text s id n st o c z := by
  cases t with
  | branch => cases h
  | text => simp only [Tree.setNeedsSeparator, Tree.text.injEq] at h; simp [h]

variable {P : PrettyDoc}

theorem FlatItem.child {nt : NTree P} (h : FlatItem C item nt) (i : Nat) (id : P.Id) :
    FlatItem C item (.child i (.ok id) nt) := by
  refine ⟨⟨⟨id, rfl⟩, h.noFail⟩, h.choiceFree, h.noNl, ?_⟩
  rcases h.run with h | h
  · exact .inl h.child
  · exact .inr h.child

theorem OpenItem.child {nt : NTree P} (h : OpenItem C item nt) (i : Nat) (id : P.Id) :
    OpenItem C item (.child i (.ok id) nt) :=
  ⟨⟨⟨id, rfl⟩, h.noFail⟩, h.run.child⟩

/-- A tree without choices and line breaks. -/
theorem item_of_fstep {nt : NTree P} (h1 : nt.NoFail) (h2 : nt.ChoiceFree) (h3 : nt.NoNl)
    (h4 : FStep C false .normal nt item.isNone (lexOf item) (item.getD [])) :
    FlatItem C item nt ∧ OpenItem C item nt :=
  ⟨⟨h1, h2, h3, .inr h4⟩, ⟨h1, h4.step⟩⟩

/-- The kids of a node. -/
theorem Good.kid {node ch : Tree BasicStyle} {i : Nat} (hc : (basicDoc sw).childAt node i = .ok ch) (h : Good sw C item ch) :
    (∀ c : Ctx (basicDoc sw), c.flat = true → Blank c.indent → FlatItem C item (docKid (basicLaw sw) node i c)) ∧
    (∀ c : Ctx (basicDoc sw), c.flat = false → Blank c.indent → OpenItem C item (docKid (basicLaw sw) node i c)) := by
  constructor
  · intro c hf hb
    obtain ⟨nt, h1, h2, _⟩ := h c.flat c.indent (some c.style) hb
    rw [docKid_of (basicLaw sw) hc h1]
    exact (h2 hf).child i _
  · intro c hf hb
    obtain ⟨nt, h1, _, h2⟩ := h c.flat c.indent (some c.style) hb
    rw [docKid_of (basicLaw sw) hc h1]
    exact (h2 hf).child i _

theorem basic_childAt {cs : List (Tree BasicStyle)} {ch : Tree BasicStyle} {i id n st o c y} (h : cs[i]? = some ch) :
    (basicDoc sw).childAt (.branch cs id n st o c y) i = .ok ch := by
  have hi : i < cs.length := (List.getElem?_eq_some_iff.1 h).1
  have hj : cs[i] = ch := (List.getElem?_eq_some_iff.1 h).2
  simp [PrettyDoc.childAt, Tree.children?, Tree.unwrapChild, hi, hj]

theorem segsString_toList (l : List (Segment P)) : (segsString l).toList = l.flatMap fun s => s.str.toList := by
  simp [segsString_eq, styledChars, List.map_flatMap, Function.comp_def]

theorem Blank.append {ind ind' : List (Segment P)} (h : Blank ind) (h' : Blank ind') : Blank (ind ++ ind') := by
  intro c hc
  simp only [segsString_toList, List.flatMap_append, List.mem_append] at hc
  rcases hc with hc | hc
  · exact h c (by rw [segsString_toList]; exact hc)
  · exact h' c (by rw [segsString_toList]; exact hc)

theorem Blank.spaces (n : Nat) (w : Nat) (s : P.Style) :
    Blank (P := P) [⟨String.ofList (List.replicate n ' '), w, s⟩] := by
  intro c hc
  simp [segsString] at hc
  exact hc.2

/-! ### Arrays and objects -/

/-- `JSON_ARRAY_NOTATION` and `JSON_OBJECT_NOTATION` are the same but for the brackets. -/
def bracketBody (l r : Char) : Notation String TreeCondition :=
  (.style "open" (.literal (String.ofList [l])) + jsonSingleSeq + .style "close" (.literal (String.ofList [r]))) |||
  ((.style "open" (.literal (String.ofList [l])) + .nest 4 jsonMultiFold) ^^^ .style "close" (.literal (String.ofList [r])))

@[inherit_doc bracketBody]
def bracketN (l r : Char) : Notation String TreeCondition :=
  .count (.style "open" (.literal (String.ofList [l])) + .focusMark + .style "close" (.literal (String.ofList [r])))
    (bracketBody l r) (bracketBody l r)

theorem bracketBody_good {l r : Char} (hl : lexStep .normal l = ([l], .normal)) (hr : lexStep .normal r = ([r], .normal))
    {cs : List (Tree BasicStyle)} {its : List (Option (List Char))} {n : Nat} {id nn st y}
    (hn : cs.length = n + 1) (hlen : its.length = n + 1)
    (hgood : ∀ (i : Nat) ch, cs[i]? = some ch → Good sw C (its[i]?.join) ch)
    (hflags : ∀ (i : Nat) ch, cs[i]? = some ch → (ch.needsSeparator = true ↔ (its[i]?.join).isSome = true ∧
        ∃ j, i < j ∧ j ≤ n ∧ (its[j]?.join).isSome = true))
    (c : Ctx (basicDoc sw)) (hb : Blank c.indent) :
    let item := some (l :: List.intercalate [','] (its.filterMap fun x => x) ++ [r])
    let nt := (bracketBody l r).tree (P := basicDoc sw) (.branch cs id nn st [] false y)
      (docKid (basicLaw sw) (.branch cs id nn st [] false y)) none c
    (c.flat = true → FlatItem C item nt) ∧ (c.flat = false → OpenItem C item nt) := by
  let node : Tree BasicStyle := .branch cs id nn st [] false y
  let kid := docKid (basicLaw sw) node
  have hnum : (basicDoc sw).numChildren node = .ok (some (n + 1)) := by
    simp [node, Tree.children?, hn]
  have hch : ∀ i, i ≤ n → ∃ ch, cs[i]? = some ch ∧ (basicDoc sw).childAt node i = .ok ch := by
    intro i hi
    refine ⟨_, List.getElem?_eq_getElem (by omega : i < cs.length), basic_childAt (List.getElem?_eq_getElem _)⟩
  -- the flags
  let flags : Nat → Bool := fun i => (cs[i]?.map Tree.needsSeparator).getD false
  let c' : Ctx (basicDoc sw) := { c with indent := c.indent ++
    [⟨String.ofList (List.replicate 4 ' '), sw (String.ofList (List.replicate 4 ' ')), c.style⟩] }
  have hb' : Blank c'.indent := hb.append (Blank.spaces 4 _ _)
  have hsingle : ∀ c : Ctx (basicDoc sw), jsonSingleSeq.tree (P := basicDoc sw) node kid none c =
      iter (kid 0 { c with flat := true })
        (fun k acc => .concat (.concat acc (.text ⟨", ", sw ", ", c.style, false⟩)) (kid (k + 1) { c with flat := true })) n := by
    intro c
    have := fold_tree (P := basicDoc sw) (kid := kid) (first := .flat (.child 0))
      (join := .left + .literal ", " + .flat .right) (env := none) hnum (fun i hi => (hch i hi).imp fun _ h => h.2) c
      (fun k acc => .concat (.concat acc (.text ⟨", ", sw ", ", c.style, false⟩)) (kid (k + 1) { c with flat := true }))
      (fun acc k _ => rfl)
    refine this.trans ?_
    congr 1
    exact child_zero_tree (P := basicDoc sw) (env := none) hnum _
  have hmulti : jsonMultiFold.tree (P := basicDoc sw) node kid none c' =
      iter (kid 0 c')
        (fun k acc => .concat (.concat (.concat acc
          (if flags k then .text ⟨",", sw ",", c'.style, false⟩ else .empty)) (.newline c'.indent)) (kid (k + 1) c')) n := by
    have := fold_tree (P := basicDoc sw) (kid := kid) (first := .child 0)
      (join := (.left + jsonSeparator) ^^^ .right) (env := none) hnum (fun i hi => (hch i hi).imp fun _ h => h.2) c'
      (fun k acc => .concat (.concat (.concat acc
          (if flags k then .text ⟨",", sw ",", c'.style, false⟩ else .empty)) (.newline c'.indent)) (kid (k + 1) c')) (by
        intro acc k hk
        obtain ⟨ch, h1, h2⟩ := hch k (by omega)
        have hsep : jsonSeparator.tree (P := basicDoc sw) node kid (some ⟨acc, k + 1⟩) c' =
            if flags k then .text ⟨",", sw ",", c'.style, false⟩ else .empty := by
          simp only [jsonSeparator, Notation.tree, inspected, Nat.add_sub_cancel, h2, Call.toRes, NTree.orFail,
            Tree.condition]
          simp only [flags, h1, Option.map_some, Option.getD_some]
          cases ch.needsSeparator <;> rfl
        rw [← hsep]
        rfl)
    refine this.trans ?_
    congr 1
    exact child_zero_tree (P := basicDoc sw) (env := none) hnum _
  obtain ⟨b1, b2⟩ := bracketed (C := C) (P := basicDoc sw) (flags := flags) (items := fun i => its[i]?.join)
    (x := ⟨", ", sw ", ", c.style, false⟩) (y := ⟨",", sw ",", c'.style, false⟩)
    (o1 := ⟨String.ofList [l], sw (String.ofList [l]), BasicStyle.combine c.style (BasicStyle.fromLabel "open"), false⟩)
    (o2 := ⟨String.ofList [l], sw (String.ofList [l]), BasicStyle.combine c.style (BasicStyle.fromLabel "open"), false⟩)
    (c1 := ⟨String.ofList [r], sw (String.ofList [r]), BasicStyle.combine c.style (BasicStyle.fromLabel "close"), false⟩)
    (c2 := ⟨String.ofList [r], sw (String.ofList [r]), BasicStyle.combine c.style (BasicStyle.fromLabel "close"), false⟩)
    hl hr rfl rfl rfl rfl rfl rfl hb hb' n
    (flatKids := fun i => kid i { c with flat := true }) (kids := fun i => kid i { c' with flat := false })
    (by
      intro i hi
      obtain ⟨ch, h1, h2⟩ := hch i hi
      exact ((hgood i ch h1).kid h2).1 _ rfl hb)
    (by
      intro i hi
      obtain ⟨ch, h1, h2⟩ := hch i hi
      exact ((hgood i ch h1).kid h2).2 _ rfl hb')
    (by
      intro i hi
      obtain ⟨ch, h1, h2⟩ := hch i hi
      simp only [flags, h1, Option.map_some, Option.getD_some]
      exact hflags i ch h1)
  rw [mText_list its flags n hlen (by
    intro i hi
    obtain ⟨ch, h1, h2⟩ := hch i hi
    simp only [flags, h1, Option.map_some, Option.getD_some]
    exact hflags i ch h1)] at b1 b2
  constructor
  · intro hflat
    have : (bracketBody l r).tree (P := basicDoc sw) node kid none c =
        .concat (.concat (.text ⟨String.ofList [l], sw (String.ofList [l]),
          BasicStyle.combine c.style (BasicStyle.fromLabel "open"), false⟩)
          (jsonSingleSeq.tree (P := basicDoc sw) node kid none c))
          (.text ⟨String.ofList [r], sw (String.ofList [r]),
            BasicStyle.combine c.style (BasicStyle.fromLabel "close"), false⟩) := by
      change (if c.flat then _ else _) = _
      rw [if_pos hflat]
      rfl
    change FlatItem C _ ((bracketBody l r).tree (P := basicDoc sw) node kid none c)
    rw [this, hsingle]
    exact b1
  · intro hflat
    have : (bracketBody l r).tree (P := basicDoc sw) node kid none c = .choice
        (.concat (.concat (.text ⟨String.ofList [l], sw (String.ofList [l]),
          BasicStyle.combine c.style (BasicStyle.fromLabel "open"), false⟩)
          (jsonSingleSeq.tree (P := basicDoc sw) node kid none c))
          (.text ⟨String.ofList [r], sw (String.ofList [r]),
            BasicStyle.combine c.style (BasicStyle.fromLabel "close"), false⟩))
        (.concat (.concat (.concat (.text ⟨String.ofList [l], sw (String.ofList [l]),
          BasicStyle.combine c.style (BasicStyle.fromLabel "open"), false⟩)
          (.concat (.newline c'.indent) (jsonMultiFold.tree (P := basicDoc sw) node kid none c')))
          (.newline c.indent))
          (.text ⟨String.ofList [r], sw (String.ofList [r]),
            BasicStyle.combine c.style (BasicStyle.fromLabel "close"), false⟩)) := by
      change (if c.flat then _ else _) = _
      rw [if_neg (by simp [hflat])]
      rfl
    change OpenItem C _ ((bracketBody l r).tree (P := basicDoc sw) node kid none c)
    rw [this, hsingle, hmulti]
    have hc' : ({ c' with flat := false } : Ctx (basicDoc sw)) = c' := by
      simp only [c']
      rw [hflat]
    rw [hc'] at b2
    exact b2

theorem bracketN_good {l r : Char} (hl : lexStep .normal l = ([l], .normal)) (hr : lexStep .normal r = ([r], .normal))
    {notn : TreeNotation} (hnotn : notn.1 = bracketN l r) {es : List Json} {id y}
    (h : ∀ e ∈ es, ∀ t, t.setNeedsSeparator = e.build.setNeedsSeparator → Good sw C e.item t) :
    Good sw C (some (l :: List.intercalate [','] (Json.compacts es) ++ [r]))
      (.branch (markSeparators (Json.builds es)).1 id notn default [] false y) := by
  intro flat ind outer hb
  refine ⟨_, docTree_of (basicLaw sw) (a := bracketN l r) (s := default) (by simp [Tree.notn, hnotn]) rfl _ _ _, ?_⟩
  cases hes : es with
  | nil =>
    have : FlatItem C (some (l :: List.intercalate [','] (Json.compacts []) ++ [r]))
        ((bracketN l r).tree (P := basicDoc sw) (.branch [] id notn default [] false y)
          (docKid (basicLaw sw) (.branch [] id notn default [] false y)) none ⟨flat, ind, enterStyle outer default⟩) ∧
      OpenItem C (some (l :: List.intercalate [','] (Json.compacts []) ++ [r]))
        ((bracketN l r).tree (P := basicDoc sw) (.branch [] id notn default [] false y)
          (docKid (basicLaw sw) (.branch [] id notn default [] false y)) none ⟨flat, ind, enterStyle outer default⟩) := by
      refine item_of_fstep (item := some [l, r]) ⟨⟨trivial, trivial⟩, trivial⟩ ⟨⟨trivial, trivial⟩, trivial⟩
        ⟨⟨trivial, trivial⟩, trivial⟩ ?_
      refine FStep.concat (out := [l] ++ []) (out' := [r]) (s1 := .normal) (FStep.concat (s1 := .normal) (FStep.text fun _ => ?_) FStep.mark) (FStep.text fun _ => ?_)
      · simp [lexRun, hl]
      · simp [lexRun, hr, lexOf]
    exact ⟨fun _ => this.1, fun _ => this.2⟩
  | cons e0 es0 =>
    have hlen : (markSeparators (Json.builds es)).1.length = es0.length + 1 := by
      rw [markSeparators_length, builds_eq, hes]; simp
    have key := bracketBody_good (sw := sw) (C := C) hl hr (cs := (markSeparators (Json.builds es)).1)
      (its := es.map Json.item) (n := es0.length) (id := id) (nn := notn) (st := default) (y := y) hlen (by rw [hes]; simp)
      (by
        intro i ch hi
        have hlt : i < es.length := by
          have := (List.getElem?_eq_some_iff.1 hi).1
          rw [hlen] at this; rw [hes]; simpa using this
        have hget : (Json.builds es)[i]? = some (es[i].build) := by
          rw [builds_eq, List.getElem?_map, List.getElem?_eq_getElem hlt]; rfl
        have hm := markSeparators_get _ i _ hget
        rw [hm] at hi
        have hitem : (es.map Json.item)[i]?.join = es[i].item := by
          rw [List.getElem?_map, List.getElem?_eq_getElem hlt]; rfl
        rw [hitem]
        apply h es[i] (List.getElem_mem hlt)
        simp only [Option.some.injEq] at hi
        rw [← hi]
        split
        · cases es[i].build <;> rfl
        · rfl)
      (by
        intro i ch hi
        have hlt : i < es.length := by
          have := (List.getElem?_eq_some_iff.1 hi).1
          rw [hlen] at this; rw [hes]; simpa using this
        have hget : ∀ j (hj : j < es.length), (Json.builds es)[j]? = some (es[j].build) := by
          intro j hj
          rw [builds_eq, List.getElem?_map, List.getElem?_eq_getElem hj]; rfl
        have hitem : ∀ j (hj : j < es.length), ((es.map Json.item)[j]?.join).isSome = true ↔ es[j].isComment = false := by
          intro j hj
          rw [List.getElem?_map, List.getElem?_eq_getElem hj]
          simp only [Option.map_some, Option.join_some, Json.item]
          cases es[j].isComment <;> simp
        obtain ⟨ds, q1, _, q3⟩ := C32_separators (S := BasicStyle) 0 notn (Json.builds es)
        cases q1
        obtain ⟨d, q4, _, q5⟩ := q3 i _ (hget i hlt)
        have hd : d = ch := by
          have : some d = some ch := by rw [← q4]; exact hi
          exact Option.some.inj this
        subst hd
        change d.condition .needsSeparator = true ↔ _
        rw [q5]
        have hf : es[i].build.condition .needsSeparator = false := build_flag _
        rw [hf, hitem i hlt]
        have hc : es[i].build.condition .isComment = es[i].isComment := build_isComment _
        rw [hc]
        simp only [Bool.false_eq_true, false_or]
        refine and_congr_right fun _ => ?_
        constructor
        · rintro ⟨j, h1, e, h2, h3⟩
          have hj : j < es.length := by
            have := (List.getElem?_eq_some_iff.1 h2).1
            rw [builds_eq] at this; simpa using this
          refine ⟨j, h1, by rw [hes] at hj; simp at hj; omega, ?_⟩
          rw [hget j hj] at h2
          cases h2
          rw [hitem j hj, ← build_isComment]; exact h3
        · rintro ⟨j, h1, h2, h3⟩
          have hj : j < es.length := by rw [hes]; simp; omega
          refine ⟨j, h1, _, hget j hj, ?_⟩
          rw [hitem j hj, ← build_isComment] at h3
          exact h3)
      ⟨flat, ind, enterStyle outer default⟩ hb
    rw [← hes]
    rw [← compacts_eq] at key
    have htree : (bracketN l r).tree (P := basicDoc sw) (.branch (markSeparators (Json.builds es)).1 id notn default [] false y)
        (docKid (basicLaw sw) (.branch (markSeparators (Json.builds es)).1 id notn default [] false y)) none
          ⟨flat, ind, enterStyle outer default⟩ =
        (bracketBody l r).tree (P := basicDoc sw) (.branch (markSeparators (Json.builds es)).1 id notn default [] false y)
        (docKid (basicLaw sw) (.branch (markSeparators (Json.builds es)).1 id notn default [] false y)) none
          ⟨flat, ind, enterStyle outer default⟩ := by
      have hnum : (basicDoc sw).numChildren (.branch (markSeparators (Json.builds es)).1 id notn default [] false y) =
          .ok (some (es0.length + 1)) := by
        simp [Tree.children?, hlen]
      cases hm : es0.length with
      | zero => rw [hm] at hnum; exact count_one_tree (P := basicDoc sw) hnum _
      | succ m => rw [hm] at hnum; exact count_many_tree (P := basicDoc sw) hnum _
    rw [htree]
    exact key

end PPP
