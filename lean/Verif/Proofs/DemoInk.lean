import Verif.Proofs.Demo
/-
What the demo program shows, apart from white space.
-/
namespace PPP
variable {sw : String → Nat}

theorem ink_append (a b : List TermCell) : ink (a ++ b) = ink a ++ ink b := by simp [ink]

/-- The cells of a line. -/
def lineCells (line : List (Segment (basicDoc sw))) : List TermCell :=
  (styledChars line).map fun (c, style) => .of (some (BasicStyle.color style)) c

theorem lineCells_append (a b : List (Segment (basicDoc sw))) : lineCells (a ++ b) = lineCells a ++ lineCells b := by
  simp [lineCells, styledChars]

theorem lineCells_one (s : String) (w : Nat) (st : BasicStyle) :
    lineCells (sw := sw) [⟨s, w, st⟩] = colored st.color s := by
  simp [lineCells, styledChars, colored, Function.comp_def]

/-- What the tokens show, apart from white space. -/
def toksInk : List (Tok (basicDoc sw)) → List TermCell
  | [] => []
  | .text x :: T => ink (lineCells [x.segment]) ++ toksInk T
  | .nl ind :: T => ink (lineCells ind) ++ toksInk T
  | .eol :: T => toksInk T
  | .mark _ :: T => toksInk T

theorem toksInk_append (A B : List (Tok (basicDoc sw))) : toksInk (A ++ B) = toksInk A ++ toksInk B := by
  induction A with
  | nil => rfl
  | cons t T ih => cases t <;> simp [toksInk, ih]

theorem shown_ink (T : List (Tok (basicDoc sw))) : ∀ cur : List (Segment (basicDoc sw)),
    ink (onScreen (linesFrom cur T)) = ink (lineCells cur) ++ toksInk T := by
  have hcons : ∀ (l : List (Segment (basicDoc sw))) ls, ink (onScreen (l :: ls)) = ink (lineCells l) ++ ink (onScreen ls) := by
    intro l ls
    have : onScreen (l :: ls) = lineCells l ++ ([.of none '\n'] ++ onScreen ls) := by simp [onScreen, lineCells]
    rw [this, ink_append, ink_append]
    have : ink [.of none '\n'] = [] := rfl
    rw [this]; rfl
  induction T with
  | nil => intro cur; rw [linesFrom, hcons]; rfl
  | cons t T ih =>
    intro cur
    cases t with
    | text x => rw [linesFrom, ih, lineCells_append, ink_append, List.append_assoc]; rfl
    | nl ind => rw [linesFrom, hcons, ih]; rfl
    | eol => rw [linesFrom, ih]; rfl
    | mark => rw [linesFrom, ih]; rfl

/-- However the choices are taken, the tree shows the cells. -/
inductive NTree.Ink : NTree (basicDoc sw) → List TermCell → Prop where
  | empty : Ink .empty []
  | mark : Ink .mark []
  | newline {ind} : ink (lineCells ind) = [] → Ink (.newline ind) []
  | text {t cs} : ink (lineCells [t.segment]) = cs → Ink (.text t) cs
  | concat {a b cs ds} : Ink a cs → Ink b ds → Ink (.concat a b) (cs ++ ds)
  | choice {a b cs} : Ink a cs → Ink b cs → Ink (.choice a b) cs
  | child {i id t cs} : Ink t cs → Ink (.child i id t) cs

theorem greedy_ink {w id} {t : NTree (basicDoc sw)} {k st st' G} (h : Greedy w id t k st st' G) :
    ∀ {cs}, t.Ink cs → toksInk (erase G) = cs := by
  induction h with
  | empty => intro cs h; cases h; rfl
  | mark => intro cs h; cases h; rfl
  | eol => intro cs h; cases h
  | newline => intro cs h; cases h with | newline h => simp [erase, toksInk, h]
  | text => intro cs h; cases h with | text h => simp [erase, toksInk, h]
  | child _ ih => intro cs h; cases h with | child h => exact ih h
  | concat _ _ iha ihb =>
    intro cs h
    cases h with
    | concat h1 h2 => rw [erase_append, toksInk_append, iha h1, ihb h2]
  | choice_first _ _ ih => intro cs h; cases h with | choice h1 h2 => exact ih h1
  | choice_second _ _ ih => intro cs h; cases h with | choice h1 h2 => exact ih h2

/-- The indentation is white space. -/
def White (ind : List (Segment (basicDoc sw))) : Prop := ink (lineCells ind) = []

variable (sw) in
/-- The document shows the cells. -/
def Inked (cs : List TermCell) (t : Tree BasicStyle) : Prop :=
  ∀ flat (ind : List (Segment (basicDoc sw))) outer, White ind →
    ∃ nt, docTree (basicLaw sw) t flat ind outer = .ok nt ∧ nt.Ink (ink cs)

theorem Inked.kid {node ch : Tree BasicStyle} {i : Nat} {cs} (hc : (basicDoc sw).childAt node i = .ok ch)
    (h : Inked sw cs ch) (c : Ctx (basicDoc sw)) (hw : White c.indent) :
    (docKid (basicLaw sw) node i c).Ink (ink cs) := by
  obtain ⟨nt, h1, h2⟩ := h c.flat c.indent (some c.style) hw
  rw [docKid_of (basicLaw sw) hc h1]
  exact .child h2

theorem inked_of_tree {t : Tree BasicStyle} {cs} (hs : t.nodeStyle = default)
    (h : ∀ c : Ctx (basicDoc sw), White c.indent → c.style.color = .white →
      (t.notn.1.tree (P := basicDoc sw) t (docKid (basicLaw sw) t) none c).Ink (ink cs)) : Inked sw cs t := by
  intro flat ind outer hb
  refine ⟨_, docTree_of (basicLaw sw) (a := t.notn.1) (s := default) rfl (by simp [hs]) _ _ _, ?_⟩
  refine h ⟨flat, ind, enterStyle outer default⟩ hb ?_
  cases outer <;> rfl

theorem White.nest {ind : List (Segment (basicDoc sw))} (h : White ind) {w st} (hst : BasicStyle.color st = .white) :
    White (ind ++ [⟨String.ofList (List.replicate 4 ' '), w, st⟩]) := by
  unfold White at h ⊢
  rw [lineCells_append, ink_append, h, lineCells_one, hst]
  rfl

/-! ### Brackets -/

theorem iter_ink {x : NTree (basicDoc sw)} {g : Nat → NTree (basicDoc sw) → NTree (basicDoc sw)}
    {K : Nat → List TermCell} (n : Nat) (h0 : x.Ink (K 0))
    (hg : ∀ k acc cs, k < n → NTree.Ink acc cs → (g k acc).Ink (cs ++ (colored .white "," ++ K (k + 1)))) :
    ∀ k, k ≤ n → (iter x g k).Ink (K 0 ++ (List.range k).flatMap fun i => colored .white "," ++ K (i + 1)) := by
  intro k
  induction k with
  | zero => intro _; simpa [iter] using h0
  | succ k ih =>
    intro hk
    rw [List.range_succ, List.flatMap_append, ← List.append_assoc]
    have := hg k _ _ (by omega) (ih (by omega))
    simpa [iter] using this

theorem ink_comma : ink (colored .white ",") = colored .white "," := rfl

theorem ink_comma_space : ink (colored .white ", ") = colored .white "," := rfl
theorem ink_colon : ink (colored .white ": ") = colored .white ":" := rfl

theorem ink_withCommas (c : List TermCell) (cs : List (List TermCell)) : ink (withCommas (c :: cs)) =
    ink ((c :: cs)[0]?.getD []) ++ (List.range cs.length).flatMap fun i =>
      colored .white "," ++ ink ((c :: cs)[i + 1]?.getD []) := by
  have key : ∀ cs : List (List TermCell), ink (cs.flatMap (colored .white "," ++ ·)) =
      (List.range cs.length).flatMap fun i => colored .white "," ++ ink (cs[i]?.getD []) := by
    intro cs
    induction cs with
    | nil => rfl
    | cons c cs ih =>
      rw [List.flatMap_cons, ink_append, ih, ink_append, ink_comma, List.length_cons, List.range_succ_eq_map,
        List.flatMap_cons, List.flatMap_map]
      rfl
  rw [withCommas, ink_append, key]
  rfl

theorem bracket_inked {l r : Char} (hl : TermCell.isSpace (.of (some .white) l) = false)
    (hr : TermCell.isSpace (.of (some .white) r) = false)
    {notn : TreeNotation} (hnotn : notn.1 = bracketN l r) {es : List Json} {id y} {K : List (List TermCell)}
    (hlen : K.length = es.length)
    (h : ∀ (i : Nat) e, es[i]? = some e → e.isComment = false ∧
      ∀ t, t.setNeedsSeparator = e.build.setNeedsSeparator → Inked sw (K[i]?.getD []) t) :
    Inked sw ([.of (some .white) l] ++ withCommas K ++ [.of (some .white) r])
      (.branch (markSeparators (Json.builds es)).1 id notn default [] false y) := by
  refine inked_of_tree rfl fun c hb hw => ?_
  simp only [Tree.notn, hnotn]
  let cs := (markSeparators (Json.builds es)).1
  let node : Tree BasicStyle := .branch cs id notn default [] false y
  let kid := docKid (basicLaw sw) node
  have hcl : cs.length = es.length := by simp [cs, markSeparators_length, builds_eq]
  have hopen : ∀ l : Char, TermCell.isSpace (.of (some .white) l) = false → ∀ label,
      BasicStyle.color (BasicStyle.fromLabel label) = .white →
      NTree.Ink (sw := sw) (.text ⟨String.ofList [l], sw (String.ofList [l]),
        BasicStyle.combine c.style (BasicStyle.fromLabel label), false⟩) [.of (some .white) l] := by
    intro l hl label hlab
    refine .text ?_
    change ink (lineCells [⟨_, _, _⟩]) = _
    rw [lineCells_one]
    simp only [BasicStyle.combine, hlab, colored, String.toList_ofList, List.map_cons, List.map_nil, ink]
    simp [hl]
  have hink1 : ∀ l : Char, TermCell.isSpace (.of (some .white) l) = false → ink [.of (some .white) l] = [.of (some .white) l] := by
    intro l hl; simp [ink, hl]
  have ho := hopen l hl "open" rfl
  have hc := hopen r hr "close" rfl
  rw [ink_append, ink_append, hink1 l hl, hink1 r hr]
  change NTree.Ink ((bracketN l r).tree (P := basicDoc sw) node kid none c) _
  cases hes : es with
  | nil =>
    have hnum : (basicDoc sw).numChildren node = .ok (some 0) := by
      simp only [node, Tree.children?, Option.map_some, hcl, hes]; rfl
    have : K = [] := List.eq_nil_of_length_eq_zero (by rw [hlen, hes]; rfl)
    subst this
    unfold bracketN
    rw [count_zero_tree (P := basicDoc sw) hnum]
    exact .concat (.concat ho .mark) hc
  | cons e0 es0 =>
    obtain ⟨K0, Ks, rfl⟩ : ∃ K0 Ks, K = K0 :: Ks := by
      cases K with
      | nil => rw [hes] at hlen; cases hlen
      | cons a b => exact ⟨a, b, rfl⟩
    have hn : cs.length = es0.length + 1 := by rw [hcl, hes]; rfl
    have hKs : Ks.length = es0.length := by rw [hes] at hlen; simpa using hlen
    have hnum : (basicDoc sw).numChildren node = .ok (some (es0.length + 1)) := by
      simp [node, Tree.children?, hn]
    have hget : ∀ j (hj : j < es.length), (Json.builds es)[j]? = some (es[j].build) := by
      intro j hj
      rw [builds_eq, List.getElem?_map, List.getElem?_eq_getElem hj]; rfl
    have hch : ∀ i, i ≤ es0.length → ∃ ch, cs[i]? = some ch ∧ (basicDoc sw).childAt node i = .ok ch ∧
        Inked sw ((K0 :: Ks)[i]?.getD []) ch ∧ (i < es0.length → ch.needsSeparator = true) := by
      intro i hi
      have hlt : i < es.length := by rw [hes]; simpa using Nat.lt_succ_of_le hi
      obtain ⟨h1, h2⟩ := h i _ (List.getElem?_eq_getElem hlt)
      have hm := markSeparators_get _ i _ (hget i hlt)
      refine ⟨_, hm, basic_childAt hm, h2 _ ?_, ?_⟩
      · split
        · cases es[i].build <;> rfl
        · rfl
      · intro hi'
        have hlt' : i + 1 < es.length := by rw [hes]; simpa using hi'
        rw [if_pos ⟨by rw [build_isComment]; exact h1, i + 1, by omega, _, hget (i + 1) hlt', by
          rw [build_isComment]; exact (h (i + 1) _ (List.getElem?_eq_getElem hlt')).1⟩]
        cases es[i].build <;> rfl
    have hkid : ∀ i, i ≤ es0.length → ∀ c : Ctx (basicDoc sw), White c.indent →
        (kid i c).Ink (ink ((K0 :: Ks)[i]?.getD [])) := by
      intro i hi c hc
      obtain ⟨ch, _, h2, h3, _⟩ := hch i hi
      exact h3.kid h2 c hc
    have hcount : (bracketN l r).tree (P := basicDoc sw) node kid none c =
        (bracketBody l r).tree (P := basicDoc sw) node kid none c := by
      unfold bracketN
      cases hm : es0.length with
      | zero => rw [hm] at hnum; exact count_one_tree (P := basicDoc sw) hnum c
      | succ m => rw [hm] at hnum; exact count_many_tree (P := basicDoc sw) hnum c
    rw [hcount, ink_withCommas, hKs]
    let c' : Ctx (basicDoc sw) := { c with indent := c.indent ++
      [⟨String.ofList (List.replicate 4 ' '), sw (String.ofList (List.replicate 4 ' ')), c.style⟩] }
    have hb' : White c'.indent := hb.nest hw
    have hsingle : NTree.Ink (jsonSingleSeq.tree (P := basicDoc sw) node kid none c)
        (ink ((K0 :: Ks)[0]?.getD []) ++ (List.range es0.length).flatMap fun i =>
          colored .white "," ++ ink ((K0 :: Ks)[i + 1]?.getD [])) := by
      have := fold_tree (P := basicDoc sw) (kid := kid) (first := .flat (.child 0))
        (join := .left + .literal ", " + .flat .right) (env := none) hnum (fun i hi => (hch i hi).imp fun _ h => h.2.1) c
        (fun k acc => .concat (.concat acc (.text ⟨", ", sw ", ", c.style, false⟩)) (kid (k + 1) { c with flat := true }))
        (fun acc k _ => rfl)
      unfold jsonSingleSeq
      rw [this]
      refine iter_ink (K := fun i => ink ((K0 :: Ks)[i]?.getD [])) es0.length ?_ ?_ _ (Nat.le_refl _)
      · have := child_zero_tree (P := basicDoc sw) (kid := kid) (env := none) hnum { c with flat := true }
        change NTree.Ink ((Notation.child 0).tree (P := basicDoc sw) node kid none { c with flat := true }) _
        rw [this]
        exact hkid 0 (by omega) _ hb
      · intro k acc cs hk hacc
        rw [← List.append_assoc]
        refine .concat (.concat hacc (.text ?_)) (hkid (k + 1) (by omega) _ hb)
        change ink (lineCells [⟨_, _, _⟩]) = _
        rw [lineCells_one, hw]
        exact ink_comma_space
    have hmulti : NTree.Ink (jsonMultiFold.tree (P := basicDoc sw) node kid none c')
        (ink ((K0 :: Ks)[0]?.getD []) ++ (List.range es0.length).flatMap fun i =>
          colored .white "," ++ ink ((K0 :: Ks)[i + 1]?.getD [])) := by
      have := fold_tree (P := basicDoc sw) (kid := kid) (first := .child 0)
        (join := (.left + jsonSeparator) ^^^ .right) (env := none) hnum (fun i hi => (hch i hi).imp fun _ h => h.2.1) c'
        (fun k acc => .concat (.concat (.concat acc
            (.text ⟨",", sw ",", c'.style, false⟩)) (.newline c'.indent)) (kid (k + 1) c')) (by
          intro acc k hk
          obtain ⟨ch, h1, h2, _, h4⟩ := hch k (by omega)
          have hsep : jsonSeparator.tree (P := basicDoc sw) node kid (some ⟨acc, k + 1⟩) c' =
              .text ⟨",", sw ",", c'.style, false⟩ := by
            simp only [jsonSeparator, Notation.tree, inspected, Nat.add_sub_cancel, h2, Call.toRes, NTree.orFail,
              Tree.condition, h4 hk]
          rw [← hsep]
          rfl)
      unfold jsonMultiFold
      rw [this]
      refine iter_ink (K := fun i => ink ((K0 :: Ks)[i]?.getD [])) es0.length ?_ ?_ _ (Nat.le_refl _)
      · rw [child_zero_tree (P := basicDoc sw) (kid := kid) (env := none) hnum]
        exact hkid 0 (by omega) _ hb'
      · intro k acc cs hk hacc
        rw [← List.append_assoc]
        refine .concat ?_ (hkid (k + 1) (by omega) _ hb')
        have : ∀ ds : List TermCell, ds = ds ++ [] := by simp
        rw [this (cs ++ _)]
        refine .concat (.concat hacc (.text ?_)) (.newline hb')
        change ink (lineCells [⟨_, _, _⟩]) = _
        rw [lineCells_one, (hw : c'.style.color = _)]
        exact ink_comma
    change NTree.Ink (if c.flat then _ else _) _
    split
    · exact .concat (.concat ho hsingle) hc
    · refine .choice (.concat (.concat ho hsingle) hc) ?_
      have : ∀ ds : List TermCell, ds = ds ++ [] := by simp
      refine .concat ?_ hc
      rw [this (_ ++ (_ ++ _))]
      exact .concat (.concat ho (.concat (cs := []) (.newline hb') hmulti)) (.newline hb)

/-! ### Values -/

theorem text_ink {x : Textual (basicDoc sw)} {color : Color} (h : BasicStyle.color x.style = color) :
    NTree.Ink (.text x) (ink (colored color x.str)) := by
  refine .text ?_
  change ink (lineCells [⟨_, _, _⟩]) = _
  rw [lineCells_one, h]

theorem colored_append (color : Color) (a b : String) : colored color (a ++ b) = colored color a ++ colored color b := by
  simp [colored]

theorem string_inked {s : String} {id : Nat} {z : Bool} :
    Inked sw (colored .magenta ("\"" ++ s ++ "\"")) (.text s id jsonStringN default [] false z) := by
  refine inked_of_tree rfl fun c _ _ => ?_
  rw [colored_append, colored_append, ink_append, ink_append]
  exact .concat (.concat (text_ink rfl) (text_ink rfl)) (text_ink rfl)

theorem pair_inked {id keyId : Nat} {key : String} {v : Json} {cs}
    (hv : ∀ t, t.setNeedsSeparator = v.build.setNeedsSeparator → Inked sw cs t)
    {t : Tree BasicStyle} (ht : t.setNeedsSeparator = (Json.pair id keyId key v).build.setNeedsSeparator) :
    Inked sw (colored .magenta ("\"" ++ key ++ "\"") ++ colored .white ":" ++ cs) t := by
  let ch : List (Tree BasicStyle) := [jsonString keyId key, v.build]
  obtain ⟨z, rfl⟩ : ∃ z, t = .branch (markSeparators ch).1 id jsonPairN default [] false z := by
    apply branch_of_set (y := false)
    rw [ht]
    simp only [Json.build]
    rfl
  let node : Tree BasicStyle := .branch (markSeparators ch).1 id jsonPairN default [] false z
  refine inked_of_tree rfl fun c hb hw => ?_
  obtain ⟨z0, h0⟩ : ∃ z', (basicDoc sw).childAt node 0 = .ok (.text key keyId jsonStringN default [] false z') := by
    have hm := markSeparators_get ch 0 (jsonString keyId key) rfl
    split at hm
    · exact ⟨true, basic_childAt hm⟩
    · exact ⟨false, basic_childAt hm⟩
  obtain ⟨v', hv', h1⟩ : ∃ v', v'.setNeedsSeparator = v.build.setNeedsSeparator ∧
      (basicDoc sw).childAt node 1 = .ok v' := by
    have hm := markSeparators_get ch 1 v.build rfl
    refine ⟨_, ?_, basic_childAt hm⟩
    split
    · cases v.build <;> rfl
    · rfl
  have hnum : (basicDoc sw).numChildren node = .ok (some 2) := by
    simp [node, Tree.children?, markSeparators_length, ch]
  have e0 := child_zero_tree (P := basicDoc sw) (env := none) (kid := docKid (basicLaw sw) node) hnum c
  have e1 := child_one_tree (P := basicDoc sw) (env := none) (kid := docKid (basicLaw sw) node) hnum c
  have a0 := (string_inked (sw := sw)).kid h0 c hb
  have a1 := (hv v' hv').kid h1 c hb
  rw [← e0] at a0
  rw [← e1] at a1
  rw [ink_append, ink_append]
  refine .concat (.concat a0 ?_) a1
  have := text_ink (sw := sw) (x := ⟨": ", sw ": ", c.style, false⟩) hw
  rw [ink_colon] at this
  exact this

mutual
theorem expr_inked : ∀ (v : Serde) next (t : Tree BasicStyle),
    t.setNeedsSeparator = (v.expr next).1.build.setNeedsSeparator → Inked sw v.cells t
  | .null, next, t, ht => by
    simp only [Serde.expr, Json.build, Serde.cells] at ht ⊢
    obtain ⟨z, rfl⟩ := branch_of_set (y := false) (cs := []) (id := next) (n := jsonNullN) (st := default) (o := []) (c := false) ht
    exact inked_of_tree rfl fun c _ _ => text_ink rfl
  | .bool b, next, t, ht => by
    simp only [Serde.expr, Json.build, Serde.cells] at ht ⊢
    cases b with
    | true =>
      obtain ⟨z, rfl⟩ := branch_of_set (y := false) (cs := []) (id := next) (n := jsonTrueN) (st := default) (o := []) (c := false) ht
      exact inked_of_tree rfl fun c _ _ => text_ink rfl
    | false =>
      obtain ⟨z, rfl⟩ := branch_of_set (y := false) (cs := []) (id := next) (n := jsonFalseN) (st := default) (o := []) (c := false) ht
      exact inked_of_tree rfl fun c _ _ => text_ink rfl
  | .number s, next, t, ht => by
    simp only [Serde.expr, Json.build, Serde.cells] at ht ⊢
    obtain ⟨z, rfl⟩ := text_of_set (y := false) (s := s) (id := next) (n := jsonNumberN) (st := default) (o := []) (c := false) ht
    exact inked_of_tree rfl fun c _ _ => text_ink rfl
  | .string s, next, t, ht => by
    simp only [Serde.expr, Json.build, Serde.cells] at ht ⊢
    obtain ⟨z, rfl⟩ := text_of_set (y := false) (s := s) (id := next) (n := jsonStringN) (st := default) (o := []) (c := false) ht
    exact string_inked
  | .array vs, next, t, ht => by
    obtain ⟨z, rfl⟩ : ∃ z, t = .branch (markSeparators (Json.builds (Serde.exprs vs next).1)).1 (Serde.exprs vs next).2
        jsonArrayN default [] false z := by
      apply branch_of_set (y := false)
      rw [ht]
      simp only [Serde.expr, Json.build]
      rfl
    simp only [Serde.cells]
    obtain ⟨h1, h2⟩ := exprs_inked vs next
    exact bracket_inked (l := '[') (r := ']') rfl rfl (notn := jsonArrayN) rfl h1 h2
  | .object es, next, t, ht => by
    obtain ⟨z, rfl⟩ : ∃ z, t = .branch (markSeparators (Json.builds (Serde.pairs es next).1)).1 (Serde.pairs es next).2
        jsonObjectN default [] false z := by
      apply branch_of_set (y := false)
      rw [ht]
      simp only [Serde.expr, Json.build]
      rfl
    simp only [Serde.cells]
    obtain ⟨h1, h2⟩ := pairs_inked es next
    exact bracket_inked (l := '{') (r := '}') rfl rfl (notn := jsonObjectN) rfl h1 h2
theorem exprs_inked : ∀ (vs : List Serde) next, (Serde.cellsList vs).length = (Serde.exprs vs next).1.length ∧
    ∀ (i : Nat) e, (Serde.exprs vs next).1[i]? = some e → e.isComment = false ∧
      ∀ t, t.setNeedsSeparator = e.build.setNeedsSeparator → Inked sw ((Serde.cellsList vs)[i]?.getD []) t
  | [], next => by simp [Serde.exprs, Serde.cellsList]
  | v :: vs, next => by
    obtain ⟨h1, h2⟩ := exprs_inked vs (v.expr next).2
    simp only [Serde.exprs, Serde.cellsList]
    refine ⟨by simp [h1], ?_⟩
    intro i e he
    cases i with
    | zero =>
      simp only [List.getElem?_cons_zero, Option.some.injEq] at he
      subst he
      exact ⟨expr_isComment v next, fun t ht => expr_inked v next t ht⟩
    | succ i =>
      simp only [List.getElem?_cons_succ] at he ⊢
      exact h2 i e he
theorem pairs_inked : ∀ (es : List (String × Serde)) next, (Serde.cellsPairs es).length = (Serde.pairs es next).1.length ∧
    ∀ (i : Nat) e, (Serde.pairs es next).1[i]? = some e → e.isComment = false ∧
      ∀ t, t.setNeedsSeparator = e.build.setNeedsSeparator → Inked sw ((Serde.cellsPairs es)[i]?.getD []) t
  | [], next => by simp [Serde.pairs, Serde.cellsPairs]
  | (key, v) :: es, next => by
    obtain ⟨h1, h2⟩ := pairs_inked es ((v.expr next).2 + 2)
    simp only [Serde.pairs, Serde.cellsPairs]
    refine ⟨by simp [h1], ?_⟩
    intro i e he
    cases i with
    | zero =>
      simp only [List.getElem?_cons_zero, Option.some.injEq] at he
      subst he
      exact ⟨rfl, fun t ht => pair_inked (fun t ht => expr_inked v next t ht) ht⟩
    | succ i =>
      simp only [List.getElem?_cons_succ] at he ⊢
      exact h2 i e he
end

/-- What a document of the demo program shows. -/
theorem demo_layout_ink {v : Serde} {next w id} {L : LTree (basicDoc sw)}
    (h : docLayout (basicLaw sw) (jsonToDoc v next).1 w none = .ok (id, L)) :
    ink (onScreen (linesOf L.toks)) = ink v.cells := by
  obtain ⟨t, T, h1, ⟨st, h2⟩, h3, _⟩ := docLayout_greedy (basicLaw sw) h
  obtain ⟨nt, hnt, hink⟩ := expr_inked (sw := sw) v next (jsonToDoc v next).1 (by rw [jsonToDoc_expr]) false [] none rfl
  have := (rootTree_inv (basicLaw sw) h1).1
  rw [hnt] at this
  cases this
  have := greedy_ink h2 hink
  rw [linesOf, shown_ink, ← h3, this]
  rfl

end PPP
