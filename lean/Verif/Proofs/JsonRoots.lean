import Verif.Proofs.JsonMain
import Verif.Proofs.Reach
/-
JSON documents: several values at the top level; paths into JSON documents.
-/
namespace PPP
variable {sw : String → Nat} {C : Prop}

/-- Values and comments, one after the other. -/
theorem roots_seq {P : PrettyDoc} {items : Nat → Option (List Char)} {kids : Nat → NTree P}
    {ind : List (Segment P)} (hb : Blank ind) (n : Nat) (h : ∀ i, i ≤ n → OpenItem C (items i) (kids i)) :
    let t := iter (kids 0) (fun k acc => .concat (.concat acc (.newline ind)) (kids (k + 1))) n
    t.NoFail ∧ Step C false .normal t (items n).isNone (lexOf (items n))
      ((List.range (n + 1)).flatMap fun i => (items i).getD []) := by
  induction n with
  | zero =>
    obtain ⟨h1, h2⟩ := h 0 (Nat.le_refl _)
    exact ⟨h1, by simpa [iter] using h2⟩
  | succ n ih =>
    obtain ⟨a1, a2⟩ := ih fun i hi => h i (by omega)
    obtain ⟨h1, h2⟩ := h (n + 1) (Nat.le_refl _)
    refine ⟨⟨⟨a1, trivial⟩, h1⟩, ?_⟩
    rw [List.range_succ, List.flatMap_append]
    refine Step.concat (e1 := false) (s1 := .normal) ?_ (by simpa using h2)
    have := Step.concat a2 (FStep.newline (C := C) fun _ => lex_newline (lexOf_cases (items n)) hb).step
    simpa using this

theorem flatten_items (es : List Json) : (Json.compacts es).flatten =
    (List.range es.length).flatMap fun i => ((es.map Json.item)[i]?.join).getD [] := by
  induction es with
  | nil => rfl
  | cons e es ih =>
    rw [List.length_cons, List.range_succ_eq_map, List.flatMap_cons, List.flatMap_map]
    simp only [List.map_cons, List.getElem?_cons_zero, List.getElem?_cons_succ]
    rw [← ih]
    simp only [Json.compacts, Json.item, Option.join_some]
    split <;> simp

/-- What a JSON document displays. -/
theorem document_step {okString okNumber : String → Prop} (hS : ∀ s, okString s → C → Quotable s)
    (hN : ∀ s, okNumber s → C → PlainNumber s) {e : Json} (h : e.Document okString okNumber)
    (outer : Option BasicStyle) :
    ∃ nt, docTree (basicLaw sw) e.build false [] outer = .ok nt ∧ nt.NoFail ∧
      ∃ e1 i1, Step C false .normal nt e1 (lexOf i1) e.compact := by
  have hblank : Blank (P := basicDoc sw) [] := by intro c hc; simp [segsString] at hc
  cases h with
  | value h =>
    obtain ⟨nt, h1, _, h2⟩ := value_good (sw := sw) hS hN h e.build rfl false [] outer hblank
    exact ⟨nt, h1, (h2 rfl).noFail, _, _, (h2 rfl).run⟩
  | @roots id es hes =>
    have hgood : ∀ e ∈ es, ∀ t : Tree BasicStyle, t.setNeedsSeparator = e.build.setNeedsSeparator → Good sw C e.item t := by
      intro e he t ht
      cases hc : e.isComment with
      | true => simpa [Json.item, hc] using comment_good hc ht
      | false => simpa [Json.item, hc] using value_good hS hN (hes e he hc) t ht
    let cs := (markSeparators (Json.builds es)).1
    let node : Tree BasicStyle := .branch cs id jsonRootsN default [] false false
    let kid := docKid (basicLaw sw) node
    let c : Ctx (basicDoc sw) := ⟨false, [], enterStyle outer default⟩
    have hlen : cs.length = es.length := by rw [markSeparators_length, builds_eq]; simp
    have hbuild : (Json.roots id es).build = node := by simp only [Json.build]; rfl
    rw [hbuild]
    refine ⟨_, docTree_of (basicLaw sw) (a := jsonRootsN.1) (s := default) rfl rfl _ _ _, ?_⟩
    change NTree.NoFail (jsonRootsN.1.tree (P := basicDoc sw) node kid none c) ∧ _
    change _ ∧ ∃ e1 i1, Step C false .normal (jsonRootsN.1.tree (P := basicDoc sw) node kid none c) e1 (lexOf i1) _
    have hnum : (basicDoc sw).numChildren node = .ok (some es.length) := by
      simp [node, Tree.children?, hlen]
    have hget : ∀ i (hi : i < es.length), ∃ ch, ch.setNeedsSeparator = es[i].build.setNeedsSeparator ∧
        (basicDoc sw).childAt node i = .ok ch := by
      intro i hi
      have hget : (Json.builds es)[i]? = some (es[i].build) := by
        rw [builds_eq, List.getElem?_map, List.getElem?_eq_getElem hi]; rfl
      have hm := markSeparators_get _ i _ hget
      refine ⟨_, ?_, basic_childAt hm⟩
      split
      · cases es[i].build <;> rfl
      · rfl
    have hkid : ∀ i, i < es.length → OpenItem C ((es.map Json.item)[i]?.join) (kid i c) := by
      intro i hi
      obtain ⟨ch, h1, h2⟩ := hget i hi
      have := ((hgood es[i] (List.getElem_mem hi) ch h1).kid h2).2 c rfl hblank
      rw [List.getElem?_map, List.getElem?_eq_getElem hi]
      exact this
    have hcompact : (Json.roots id es).compact = (Json.compacts es).flatten := by simp [Json.compact]
    rw [hcompact, flatten_items]
    match hn : es.length with
    | 0 =>
      rw [hn] at hnum
      have := count_zero_tree (P := basicDoc sw) (kid := kid) (env := none) (z := .focusMark)
        (o := .child 0) (m := .fold (.child 0) (.left ^^^ .right)) hnum c
      simp only [jsonRootsN]
      rw [this]
      exact ⟨trivial, _, some [], FStep.mark.step⟩
    | 1 =>
      rw [hn] at hnum
      have := count_one_tree (P := basicDoc sw) (kid := kid) (env := none) (z := .focusMark)
        (o := .child 0) (m := .fold (.child 0) (.left ^^^ .right)) hnum c
      simp only [jsonRootsN]
      rw [this, child_zero_tree (P := basicDoc sw) hnum]
      obtain ⟨r1, r2⟩ := hkid 0 (by omega)
      exact ⟨r1, _, _, by simpa using r2⟩
    | n + 2 =>
      rw [hn] at hnum
      have hcount := count_many_tree (P := basicDoc sw) (kid := kid) (env := none) (z := .focusMark)
        (o := .child 0) (m := .fold (.child 0) (.left ^^^ .right)) hnum c
      have hfold := fold_tree (P := basicDoc sw) (kid := kid) (first := .child 0)
        (join := .left ^^^ .right) (env := none) hnum
        (fun i hi => (hget i (by omega)).imp fun _ h => h.2) c
        (fun k acc => .concat (.concat acc (.newline [])) (kid (k + 1) c)) (fun acc k _ => rfl)
      rw [child_zero_tree (P := basicDoc sw) (env := none) hnum] at hfold
      simp only [jsonRootsN]
      rw [hcount, hfold]
      obtain ⟨r1, r2⟩ := roots_seq (C := C) (kids := fun i => kid i c) (items := fun i => (es.map Json.item)[i]?.join)
        hblank (n + 1) (fun i hi => hkid i (by omega))
      exact ⟨r1, _, _, r2⟩

/-! ### Paths -/

/-- A node and everything in it displays all of its children, and ids are smaller below. -/
inductive JNode (sw : String → Nat) : Tree BasicStyle → Prop where
  | text {s id n st o c y} : JNode sw (.text s id n st o c y)
  | branch {cs id n st o c y} :
      (∀ i, i < cs.length → ∀ (node : Tree BasicStyle) kid env ctx, (basicDoc sw).numChildren node = .ok (some cs.length) →
        (∀ j c, (kid j c).Has j) → (n.1.tree (P := basicDoc sw) node kid env ctx).Has i) →
      (∀ c ∈ cs, JNode sw c) → (∀ c ∈ cs, c.id < id) → JNode sw (.branch cs id n st o c y)

theorem JNode.child {t ch : Tree BasicStyle} {i : Nat} (h : JNode sw t) (hc : (basicDoc sw).childAt t i = .ok ch) :
    JNode sw ch ∧ ch.id < t.id := by
  cases h with
  | text => simp [PrettyDoc.childAt, Tree.children?] at hc
  | @branch cs id n st o c y _ hcs hids =>
    by_cases hi : i < cs.length
    · rw [basic_childAt (List.getElem?_eq_getElem hi)] at hc
      simp only [Except.ok.injEq] at hc
      subst hc
      exact ⟨hcs _ (List.getElem_mem hi), hids _ (List.getElem_mem hi)⟩
    · simp [PrettyDoc.childAt, Tree.children?, hi] at hc

theorem JNode.ids {t : Tree BasicStyle} (h : JNode sw t) : (basicDoc sw).IdsOnPaths t := by
  have key : ∀ p, (basicDoc sw).Within t p → JNode sw p := by
    intro p hp
    refine PrettyDoc.Within.induct (P := basicDoc sw) (Φ := JNode sw) h ?_ hp
    rintro p q hp ⟨i, hq⟩
    exact (hp.child hq).1
  refine idsOnPaths_of_rank (P := basicDoc sw) (fun i : Nat => i) ?_ (fun p => ⟨_, rfl⟩)
  rintro p q i j hp ⟨k, hq⟩ hi hj
  have hi' : p.id = i := Except.ok.inj hi
  have hj' : q.id = j := Except.ok.inj hj
  have := ((key p hp).child hq).2
  subst hi' hj'
  exact this

theorem JNode.reach {t : Tree BasicStyle} (h : JNode sw t) {path : List Nat} (hp : PathIn (basicDoc sw) t path)
    {flat ind outer nt} (ht : docTree (basicLaw sw) t flat ind outer = .ok nt) : nt.Reach path := by
  refine docTree_reach (basicLaw sw) (JNode sw) (fun p i ch hp hc => (hp.child hc).1) ?_ path t h hp _ _ _ _ ht
  intro node i child a c hn hc ha
  cases hn with
  | text => simp [PrettyDoc.childAt, Tree.children?] at hc
  | @branch cs id n st o cm y hcov _ _ =>
    have hi : i < cs.length := by
      by_contra hi
      simp [PrettyDoc.childAt, Tree.children?, hi] at hc
    have ha' : n.1 = a := Except.ok.inj ha
    subst ha'
    exact hcov i hi _ _ _ _ (by simp [Tree.children?]) (docKid_has _ _)

theorem JNode.set {t t' : Tree BasicStyle} (h : JNode sw t) (he : t'.setNeedsSeparator = t.setNeedsSeparator) :
    JNode sw t' ∧ t'.id = t.id := by
  cases h with
  | text =>
    obtain ⟨z, rfl⟩ := text_of_set he
    exact ⟨.text, rfl⟩
  | branch h1 h2 h3 =>
    obtain ⟨z, rfl⟩ := branch_of_set he
    exact ⟨.branch h1 h2 h3, rfl⟩

theorem JNode.mark {cs : List (Tree BasicStyle)} {id : Nat} (h : ∀ c ∈ cs, JNode sw c ∧ c.id < id) :
    ∀ c ∈ (markSeparators cs).1, JNode sw c ∧ c.id < id := by
  intro c hc
  obtain ⟨i, hi⟩ := List.mem_iff_getElem?.1 hc
  have hlt : i < cs.length := by
    have := (List.getElem?_eq_some_iff.1 hi).1
    rwa [markSeparators_length] at this
  have hm := markSeparators_get cs i _ (List.getElem?_eq_getElem hlt)
  rw [hi] at hm
  have hc' := Option.some.inj hm
  obtain ⟨g1, g2⟩ := h cs[i] (List.getElem_mem hlt)
  have : c.setNeedsSeparator = cs[i].setNeedsSeparator := by
    rw [hc']
    split
    · cases cs[i] <;> rfl
    · rfl
  obtain ⟨r1, r2⟩ := g1.set this
  exact ⟨r1, by rw [r2]; exact g2⟩

/-! ### The order of ids -/

theorem build_id (e : Json) : e.build.id = e.rootId := by
  cases e with
  | bool id b => cases b <;> rfl
  | _ => simp [Json.build, Json.rootId] <;> rfl

/-- The array and object notations display all children. -/
theorem bracketN_covers {l r : Char} {n i : Nat} (hi : i < n) {node : Tree BasicStyle} {kid env ctx}
    (hn : (basicDoc sw).numChildren node = .ok (some n)) (hk : ∀ j c, (kid j c).Has j) :
    ((bracketN l r).tree (P := basicDoc sw) node kid env ctx).Has i := by
  have hbody : ((bracketBody l r).tree (P := basicDoc sw) node kid env ctx).Has i := by
    refine surely_has (P := basicDoc sw) (p := fun a => a = jsonSingleSeq ∨ a = jsonMultiFold) ?_ _ _ ?_
    · rintro a (rfl | rfl) c
      · refine fold_has (P := basicDoc sw) hk ?_ ?_ ?_ hn hi env c
        · exact rfl
        · exact .inl (.inl rfl)
        · exact .inr rfl
      · refine fold_has (P := basicDoc sw) hk ?_ ?_ ?_ hn hi env c
        · exact rfl
        · exact .inl (.inl (.inl rfl))
        · exact .inr rfl
    · exact ⟨.inl (.inr (.inl rfl)), .inl (.inl (.inr (.inr (.inr rfl))))⟩
  match n, hi, hn with
  | 1, _, hn => rw [bracketN, count_one_tree (P := basicDoc sw) hn]; exact hbody
  | n + 2, _, hn => rw [bracketN, count_many_tree (P := basicDoc sw) hn]; exact hbody

theorem builds_node {id : Nat} {es : List Json} (h : Json.AllBelow id es)
    (ih : ∀ e ∈ es, e.Ordered → JNode sw e.build) : ∀ c ∈ Json.builds es, JNode sw c ∧ c.id < id := by
  have key : ∀ e ∈ es, e.rootId < id ∧ e.Ordered := by
    clear ih
    induction es with
    | nil => simp
    | cons e es ih' =>
      intro x hx
      rcases List.mem_cons.1 hx with rfl | hx
      · exact ⟨h.1, h.2.1⟩
      · exact ih' h.2.2 x hx
  intro c hc
  rw [builds_eq] at hc
  obtain ⟨e, he, rfl⟩ := List.mem_map.1 hc
  exact ⟨ih e he (key e he).2, by rw [build_id]; exact (key e he).1⟩

theorem mark_branch {cs : List (Tree BasicStyle)} {id : Nat} {n st o c y} (h : ∀ c ∈ cs, JNode sw c ∧ c.id < id)
    (hcov : ∀ i, i < cs.length → ∀ (node : Tree BasicStyle) kid env ctx, (basicDoc sw).numChildren node = .ok (some cs.length) →
        (∀ j c, (kid j c).Has j) → (n.1.tree (P := basicDoc sw) node kid env ctx).Has i) :
    JNode sw (.branch (markSeparators cs).1 id n st o c y) := by
  have := JNode.mark h
  refine .branch ?_ (fun c hc => (this c hc).1) (fun c hc => (this c hc).2)
  rw [markSeparators_length]
  exact hcov

theorem comment_node {id : Nat} {wordIds : Nat → Nat} {s : String} (h : (Json.comment id wordIds s).Ordered) :
    JNode sw (Json.comment id wordIds s).build := by
  simp only [Json.build, jsonComment, Tree.newBranch, Tree.intoComment]
  refine mark_branch ?_ ?_
  · intro c hc
    obtain ⟨i, hi⟩ := List.mem_iff_getElem?.1 hc
    rw [List.getElem?_mapIdx] at hi
    obtain ⟨w, hw, rfl⟩ := Option.map_eq_some_iff.1 hi
    have hlt : i < (splitWhitespace [] s.toList).length := (List.getElem?_eq_some_iff.1 hw).1
    simp only [Json.Ordered] at h
    exact ⟨.text, h i hlt⟩
  · intro i hi node kid env ctx hn hk
    generalize (List.mapIdx (fun i word => (Tree.newText (wordIds i) jsonWordN (String.ofList word) : Tree BasicStyle))
      (splitWhitespace [] s.toList)).length = n at hi hn
    refine surely_has (P := basicDoc sw) (p := (· = jsonCommentBody)) ?_ _ _ (.inl (.inr rfl))
    rintro a rfl c
    match n, hi, hn with
    | 1, hi, hn =>
      rw [jsonCommentBody, count_one_tree (P := basicDoc sw) hn, child_zero_tree (P := basicDoc sw) hn]
      obtain rfl : i = 0 := by omega
      exact hk _ _
    | n + 2, hi, hn =>
      rw [jsonCommentBody, count_many_tree (P := basicDoc sw) hn]
      refine fold_has (P := basicDoc sw) hk ?_ ?_ ?_ hn hi env c
      · exact rfl
      · exact .inl (.inl rfl)
      · exact .inr rfl

theorem value_node {okString okNumber : String → Prop} {e : Json} (h : e.Value okString okNumber) :
    e.Ordered → JNode sw e.build := by
  have hcomment : ∀ e : Json, e.isComment = true → e.Ordered → JNode sw e.build := by
    intro e he ho
    cases e with
    | comment id wordIds s => exact comment_node ho
    | _ => simp [Json.isComment] at he
  induction h with
  | null id => intro _; exact mark_branch (cs := []) (by simp) (by simp)
  | bool id b => intro _; cases b <;> exact mark_branch (cs := []) (by simp) (by simp)
  | string id _ => intro _; exact .text
  | number id _ => intro _; exact .text
  | @array id es hes ih =>
    intro ho
    simp only [Json.build, Json.Ordered] at ho ⊢
    refine mark_branch (builds_node ho ?_) ?_
    · intro e he
      cases hc : e.isComment with
      | true => exact hcomment e hc
      | false => exact ih e he hc
    · intro i hi node kid env ctx hn hk
      exact bracketN_covers (l := '[') (r := ']') hi hn hk
  | @object id es hpair hkey hval ih =>
    intro ho
    simp only [Json.build, Json.Ordered] at ho ⊢
    refine mark_branch (builds_node ho ?_) ?_
    · intro e he
      cases hc : e.isComment with
      | true => exact hcomment e hc
      | false =>
        have hp := hpair e he hc
        cases e with
        | pair pid keyId key v =>
          intro hpo
          simp only [Json.Ordered, Json.build] at hpo ⊢
          refine mark_branch (cs := [jsonString keyId key, v.build]) ?_ ?_
          · intro c hc
            simp only [List.mem_cons, List.not_mem_nil, or_false] at hc
            rcases hc with rfl | rfl
            · exact ⟨.text, hpo.1⟩
            · exact ⟨ih pid keyId key v he hpo.2.2, by rw [build_id]; exact hpo.2.1⟩
          · intro i hi node kid env ctx hn hk
            have hi' : i = 0 ∨ i = 1 := by simp at hi; omega
            rcases hi' with rfl | rfl
            · refine surely_has (P := basicDoc sw) (p := (· = .child 0)) ?_ _ _ (.inl (.inl rfl))
              rintro a rfl c
              rw [child_zero_tree (P := basicDoc sw) hn]
              exact hk _ _
            · refine surely_has (P := basicDoc sw) (p := (· = .child 1)) ?_ _ _ (.inr rfl)
              rintro a rfl c
              rw [child_one_tree (P := basicDoc sw) hn]
              exact hk _ _
        | _ => simp [Json.isPair] at hp
    · intro i hi node kid env ctx hn hk
      exact bracketN_covers (l := '{') (r := '}') hi hn hk

theorem document_node {okString okNumber : String → Prop} {e : Json} (h : e.Document okString okNumber)
    (ho : e.Ordered) : JNode sw e.build := by
  cases h with
  | value h => exact value_node h ho
  | @roots id es hes =>
    simp only [Json.build, Json.Ordered] at ho ⊢
    refine mark_branch (builds_node ho ?_) ?_
    · intro e he
      cases hc : e.isComment with
      | true =>
        intro ho
        cases e with
        | comment id wordIds s => exact comment_node ho
        | _ => simp [Json.isComment] at hc
      | false => exact value_node (hes e he hc)
    · intro i hi node kid env ctx hn hk
      generalize (Json.builds es).length = n at hi hn
      match n, hi, hn with
      | 1, hi, hn =>
        rw [jsonRootsN, count_one_tree (P := basicDoc sw) hn, child_zero_tree (P := basicDoc sw) hn]
        obtain rfl : i = 0 := by omega
        exact hk _ _
      | n + 2, hi, hn =>
        rw [jsonRootsN, count_many_tree (P := basicDoc sw) hn]
        refine fold_has (P := basicDoc sw) hk ?_ ?_ ?_ hn hi env ctx
        · exact rfl
        · exact .inl (.inl rfl)
        · exact .inr rfl

end PPP
