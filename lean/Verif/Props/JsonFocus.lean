import Verif.Proofs.JsonFocus
import Verif.Props.JsonFormat
import Verif.Props.Json
import Verif.Proofs.JsonWider
/-
C78: where the focus is in JSON.
-/
namespace PPP
variable {sw : String → Nat} {w : Nat}

/-- The layout of a document. -/
theorem json_spots {e : Json} (h : e.Document anyText anyText) (hw : ∀ l ∈ e.docLines sw w, l.width ≤ maxWidth)
    (style : Option BasicStyle) :
    ∃ L, docLayout (basicLaw sw) e.build w style = .ok (e.rootId, L) ∧ (linesOf L.toks).map lineW = e.docLines sw w ∧
      ∀ path p, e.docPlace sw w path = some p → ∃ l, L.locate e.rootId path = .ok l ∧
        (linesOf l.before).map lineW = p.above ++ [p.left] ∧ (linesOf (l.before ++ l.node.toks)).map lineW = p.above ++ p.own := by
  obtain ⟨nt, h1, h2, ⟨U, st', g, he, hl⟩, hp⟩ := document_foc (sw := sw) (w := w) h style
  have hr : rootTree (basicLaw sw) e.build style = .ok (e.rootId, nt) := by
    unfold rootTree
    rw [h1]
    have hid : Call.toRes ((basicDoc sw).id e.build) = .ok e.rootId := by
      show Call.toRes (.ok e.build.id) = _
      rw [build_id]
      rfl
    rw [hid]
    rfl
  have hpr : Printable (erase U) := by
    constructor
    · rintro ⟨l, h1, h2⟩
      have := hw (lineW l) (by rw [← hl]; exact List.mem_map_of_mem h1)
      simp only [lineW] at this
      omega
    · obtain ⟨b, hb⟩ := Option.ne_none_iff_exists'.1 he
      exact eolRun_no_defect _ hb
  have hd := docLayout_of_greedy (basicLaw sw) hr h2 ⟨_, g⟩
  rw [(printable_iff _).1 hpr] at hd
  obtain ⟨L, hL, ht⟩ := hd
  refine ⟨L, hL, by rw [ht]; exact hl, fun path p hb => ?_⟩
  obtain ⟨U, B, ls', last, hat, k1, k2, k3, k4⟩ := hp path p hb
  obtain ⟨nt', hr', hlay⟩ := docLayout_ok (basicLaw sw) hL
  rw [hr] at hr'
  cases hr'
  unfold NTree.layoutDoc at hlay
  simp only [Except.bind_eq] at hlay
  split at hlay
  rotate_left
  · simp at hlay
  rename_i r hlay'
  obtain ⟨st, L'⟩ := r
  simp only [Except.ok.injEq] at hlay
  subst hlay
  obtain ⟨l, hloc, hbef, hnode⟩ := hat.locate hlay'
  refine ⟨l, hloc, ?_, ?_⟩
  · rw [hbef]
    show (linesFrom [] (erase B)).map lineW = _
    rw [k1, ← k2, ← k3]
    simp
  · rw [hbef, hnode]
    show (linesFrom [] (erase B ++ erase U)).map lineW = _
    rw [linesFrom_append k1.symm, List.map_append, k2, k4]

/-- **C78.**  When a JSON document is printed with the focus at the start of the node at a path, what is printed before the focus
    are the lines above the node, and what is to the left of it on its line, as given in Spec/JsonFocus.lean; in texts and in
    columns.  Together with what is printed after the focus, it is the lines of the document.  (`hw`: no line is too wide for the
    printer.) -/
theorem C78_start {e : Json} (h : e.Document anyText anyText) (ho : e.Ordered) (hw : ∀ l ∈ e.docLines sw w, l.width ≤ maxWidth)
    (style : Option BasicStyle) {path : List Nat} {p : Spot} (hb : e.docPlace sw w path = some p) :
    ∃ o, printAll (P := basicDoc sw) e.build w path .start style = Exec.ofRes (.ok o) ∧
      o.beforeFocus.map (fun l => (⟨segsString l, segsWidth l⟩ : Word)) = p.above ++ [p.left] ∧
      o.lines.map (fun l => (⟨segsString l, segsWidth l⟩ : Word)) = e.docLines sw w := by
  obtain ⟨L, hL, h1, h2⟩ := json_spots h hw style
  obtain ⟨l, hloc, h3, -⟩ := h2 path p hb
  obtain ⟨o, g1, g2, -⟩ := C03_start (basicLaw sw) (document_node (sw := sw) h ho).ids hL hloc
  refine ⟨o, g1, by rw [g2]; exact h3, ?_⟩
  obtain ⟨id', L2, hL', _, _, h4⟩ := C02_focus_independent (basicLaw sw) (.inl (by simp)) g1
  rw [hL] at hL'
  simp only [Except.ok.injEq, Prod.mk.injEq] at hL'
  obtain ⟨rfl, rfl⟩ := hL'
  rw [h4 (by simp)]
  exact h1

/-- **C78**, the end: with the focus at the end of the node at a path, what is printed before the focus are the lines above the
    node, and its own lines (with what is to the left of it on its first line). -/
theorem C78_end {e : Json} (h : e.Document anyText anyText) (ho : e.Ordered) (hw : ∀ l ∈ e.docLines sw w, l.width ≤ maxWidth)
    (style : Option BasicStyle) {path : List Nat} {p : Spot} (hb : e.docPlace sw w path = some p) :
    ∃ o, printAll (P := basicDoc sw) e.build w path .end style = Exec.ofRes (.ok o) ∧
      o.beforeFocus.map (fun l => (⟨segsString l, segsWidth l⟩ : Word)) = p.above ++ p.own ∧
      o.lines.map (fun l => (⟨segsString l, segsWidth l⟩ : Word)) = e.docLines sw w := by
  obtain ⟨L, hL, h1, h2⟩ := json_spots h hw style
  obtain ⟨l, hloc, -, h3⟩ := h2 path p hb
  obtain ⟨o, g1, g2, -⟩ := C04_end (basicLaw sw) (document_node (sw := sw) h ho).ids hL hloc
  refine ⟨o, g1, by rw [g2]; exact h3, ?_⟩
  obtain ⟨id', L2, hL', _, _, h4⟩ := C02_focus_independent (basicLaw sw) (.inl (by simp)) g1
  rw [hL] at hL'
  simp only [Except.ok.injEq, Prod.mk.injEq] at hL'
  obtain ⟨rfl, rfl⟩ := hL'
  rw [h4 (by simp)]
  exact h1

/-! ### All paths -/

theorem oneLine_entries {es : List Json} (h : (Json.oneLines sw es).isSome = true) : ∀ (i : Nat), i < es.length →
    (seqB (piece sw ", ") (fun j => (es[j]?).bind (Json.oneLine sw)) i).isSome = true ∧
    ∀ a, es[i]? = some a → (a.oneLine sw).isSome = true := by
  obtain ⟨n, hn⟩ : ∃ n, es.length = n + 1 ∨ es.length = 0 := ⟨es.length - 1, by omega⟩
  intro i hi
  have hn : es.length = n + 1 := by omega
  rw [oneLines_eq sw es n hn] at h
  have key : ∀ n, (seqO (piece sw ", ") (fun j => (es[j]?).bind (Json.oneLine sw)) n).isSome = true → ∀ i, i ≤ n →
      (seqO (piece sw ", ") (fun j => (es[j]?).bind (Json.oneLine sw)) i).isSome = true ∧
      ((es[i]?).bind (Json.oneLine sw)).isSome = true := by
    intro n
    induction n with
    | zero =>
      intro h i hi
      have : i = 0 := by omega
      subst this
      exact ⟨h, h⟩
    | succ n ih =>
      intro h i hi
      have h' : (seqO (piece sw ", ") (fun j => (es[j]?).bind (Json.oneLine sw)) n).isSome = true ∧
          ((es[n + 1]?).bind (Json.oneLine sw)).isSome = true := by
        simp only [seqO] at h
        revert h
        cases seqO (piece sw ", ") (fun j => (es[j]?).bind (Json.oneLine sw)) n <;>
          cases (es[n + 1]?).bind (Json.oneLine sw) <;> simp [catO]
      by_cases he : i = n + 1
      · subst he
        exact ⟨h, h'.2⟩
      · exact ih h'.1 i (by omega)
  refine ⟨?_, fun a ha => ?_⟩
  · cases i with
    | zero => rfl
    | succ i =>
      have := (key n h i (by omega)).1
      simp only [seqB]
      revert this
      cases seqO (piece sw ", ") (fun j => (es[j]?).bind (Json.oneLine sw)) i <;> simp [catO]
  · have := (key n h i (by omega)).2
    rw [ha] at this
    exact this

theorem entryAt_eq (es : List Json) (i : Nat) (path : List Nat) : Json.entryAt es i path = (es[i]?).bind fun e => e.at path := by
  induction es generalizing i with
  | nil => cases i <;> simp [Json.entryAt]
  | cons e es ih =>
    cases i with
    | zero => simp [Json.entryAt]
    | succ i => simp [Json.entryAt, ih]

theorem Json.IsGroup.at {l r : String} {es : List Json} {e : Json} {id : Nat} (hg : e.IsGroup l r es id) (i : Nat) (path : List Nat) :
    e.at (i :: path) = Json.entryAt es i path := by
  cases hg with
  | array h1 h2 => rw [Json.at]
  | object h1 h2 => rw [Json.at]

theorem leftOf_isSome (e : Json) : (e.oneLine sw).isSome = true → ∀ path, (e.at path).isSome = true →
    ∀ pre, (e.leftOf sw pre path).isSome = true := by
  induction e using Json.induct with
  | simple e he =>
    intro h path hp pre
    cases path with
    | nil => simp [Json.leftOf_nil, h]
    | cons i path =>
      cases e with
      | array => exact he.elim
      | object => exact he.elim
      | pair => exact he.elim
      | roots => simp [Json.oneLine] at h
      | _ => simp [Json.at] at hp
  | pair id keyId key v ih =>
    intro h path hp pre
    match path, hp with
    | [], _ => simp [Json.leftOf_nil, h]
    | [0], _ => simp [Json.leftOf]
    | 0 :: _ :: _, hp => simp [Json.at] at hp
    | 1 :: path, hp =>
      rw [Json.at] at hp
      rw [Json.leftOf]
      refine ih ?_ path hp _
      simpa [Json.oneLine] using h
    | (i + 2) :: path, hp => simp [Json.at] at hp
  | group l r es e id hg ih =>
    intro h path hp pre
    cases path with
    | nil => simp [Json.leftOf_nil, h]
    | cons i path =>
      rw [hg.at, entryAt_eq] at hp
      rw [hg.oneLine] at h
      cases ha : es[i]? with
      | none => simp [ha] at hp
      | some a =>
        obtain ⟨h1, h2⟩ := oneLine_entries (by simpa using h) i (List.getElem?_eq_some_iff.1 ha).1
        rw [hg.leftOf, entryLeftOf_eq, ha]
        obtain ⟨y, hy⟩ := Option.isSome_iff_exists.1 h1
        rw [hy]
        exact ih i a ha (h2 a ha) path (by simpa [ha] using hp) _

theorem onOneLine_isSome {pre post : Word} {o : Option Word} (h : onOneLine w pre post o = true) : o.isSome = true := by
  cases o with
  | none => cases h
  | some => rfl

theorem place_isSome {okString okNumber : String → Prop} (e : Json) : e.Item okString okNumber → ∀ path, (e.at path).isSome = true →
    ∀ k pre post, (e.place sw w k pre post path).isSome = true := by
  induction e using Json.induct with
  | simple e he =>
    intro hit path hp k pre post
    cases path with
    | nil => simp [Json.place_nil]
    | cons i path =>
      cases e with
      | array => exact he.elim
      | object => exact he.elim
      | pair => exact he.elim
      | roots =>
        rcases hit with h | h | ⟨_, _, _, _, h, _⟩
        · cases h
        · cases h
        · cases h
      | _ => simp [Json.at] at hp
  | pair id keyId key v ih =>
    intro hit path hp k pre post
    match path, hp with
    | [], _ => simp [Json.place_nil]
    | [0], _ => simp [Json.place]
    | 0 :: _ :: _, hp => simp [Json.at] at hp
    | 1 :: path, hp =>
      rw [Json.at] at hp
      rw [Json.place]
      refine ih ?_ path hp _ _ _
      rcases hit with h | h | ⟨_, _, _, _, h, hv⟩
      · cases h
      · cases h
      · cases h
        exact .inr (.inl hv)
    | (i + 2) :: path, hp => simp [Json.at] at hp
  | group l r es e id hg ih =>
    intro hit path hp k pre post
    cases path with
    | nil => simp [Json.place_nil]
    | cons i path =>
      have hp0 := hp
      rw [hg.at, entryAt_eq] at hp
      cases ha : es[i]? with
      | none => simp [ha] at hp
      | some a =>
        rw [hg.place]
        split
        · rename_i hf
          have := leftOf_isSome e (onOneLine_isSome hf) (i :: path) hp0 pre
          rw [hg.leftOf] at this
          simpa using this
        · rw [entryPlace_eq, ha]
          have := ih i a ha (Json.Item.kid hg hit a (List.mem_of_getElem? ha)) path (by simpa [ha] using hp) (k + 1) (levelIndent sw (k + 1))
            (if commaAfter es i then piece sw "," else .none)
          simpa using this

/-- **C78**, all nodes: for every path to a node of the document (but not to a word of a comment), it is given what is before it.
    (For these, see `C78_words`.) -/
theorem C78_all {okString okNumber : String → Prop} {e : Json} (h : e.Document okString okNumber) {path : List Nat} {n : Json}
    (hn : e.at path = some n) : ∃ p, e.docPlace sw w path = some p := by
  have key : (e.docPlace sw w path).isSome = true := by
    have hp : (e.at path).isSome = true := by rw [hn]; rfl
    cases h with
    | value h =>
      have hd : e.docPlace sw w path = e.place sw w 0 .none .none path := by
        cases e with
        | roots => cases h
        | _ => cases path <;> rfl
      rw [hd]
      exact place_isSome e (.inr (.inl h)) path hp _ _ _
    | @roots id es hes =>
      cases path with
      | nil =>
        rfl
      | cons i path =>
        rw [Json.at, entryAt_eq] at hp
        cases ha : es[i]? with
        | none => simp [ha] at hp
        | some a =>
          have hx := List.mem_of_getElem? ha
          have hit : a.Item okString okNumber := by
            by_cases hc : a.isComment = true
            · exact .inl hc
            · exact .inr (.inl (hes a hx (by simpa using hc)))
          have := place_isSome (sw := sw) (w := w) a hit path (by simpa [ha] using hp) 0 .none .none
          simpa [Json.docPlace, ha] using this
  exact Option.isSome_iff_exists.1 key

/-! ### Which nodes the paths lead to -/

theorem walks_entry {es : List Json} {id : Nat} {notn : TreeNotation} {y : Bool} {i : Nat} {a : Json} (ha : es[i]? = some a) :
    ∃ t : Tree BasicStyle, t.setNeedsSeparator = a.build.setNeedsSeparator ∧
      (basicDoc sw).childAt (.branch (markSeparators (Json.builds es)).1 id notn default [] false y) i = .ok t := by
  have hget : (Json.builds es)[i]? = some (a.build) := by
    rw [builds_eq, List.getElem?_map, ha]; rfl
  have hms := markSeparators_get _ i _ hget
  refine ⟨_, ?_, basic_childAt hms⟩
  split
  · cases a.build <;> rfl
  · rfl

theorem walks_at {okString okNumber : String → Prop} (e : Json) : e.Item okString okNumber →
    ∀ (t : Tree BasicStyle), t.setNeedsSeparator = e.build.setNeedsSeparator → ∀ path n, e.at path = some n →
    ∃ t' : Tree BasicStyle, Walks (basicDoc sw) t path t' ∧ t'.setNeedsSeparator = n.build.setNeedsSeparator := by
  have nil : ∀ (e : Json) (t : Tree BasicStyle), t.setNeedsSeparator = e.build.setNeedsSeparator → ∀ n, e.at [] = some n →
      ∃ t' : Tree BasicStyle, Walks (basicDoc sw) t [] t' ∧ t'.setNeedsSeparator = n.build.setNeedsSeparator := by
    intro e t ht n hn
    have : e = n := by
      cases e <;> simpa [Json.at] using hn
    subst this
    exact ⟨t, .nil, ht⟩
  induction e using Json.induct with
  | simple e he =>
    intro hit t ht path n hn
    cases path with
    | nil => exact nil _ t ht n hn
    | cons i path =>
      cases e with
      | array => exact he.elim
      | object => exact he.elim
      | pair => exact he.elim
      | roots =>
        rcases hit with h | h | ⟨_, _, _, _, h, _⟩
        · cases h
        · cases h
        · cases h
      | _ => simp [Json.at] at hn
  | pair id keyId key v ih =>
    intro hit t ht path n hn
    have hv : v.Item okString okNumber := by
      rcases hit with h | h | ⟨_, _, _, _, h, hv⟩
      · cases h
      · cases h
      · cases h
        exact .inr (.inl hv)
    let cs : List (Tree BasicStyle) := [jsonString keyId key, v.build]
    obtain ⟨z, hz⟩ : ∃ z, t = .branch (markSeparators cs).1 id jsonPairN default [] false z := by
      apply branch_of_set (y := false)
      rw [ht]
      simp only [Json.build]
      rfl
    match path, hn with
    | [], hn => exact nil _ t ht n hn
    | [0], hn =>
      simp only [Json.at, Option.some.injEq] at hn
      subst hn hz
      have hm := markSeparators_get cs 0 (jsonString keyId key) rfl
      refine ⟨_, .cons (basic_childAt hm) .nil, ?_⟩
      split <;> rfl
    | 0 :: _ :: _, hn => simp [Json.at] at hn
    | 1 :: path, hn =>
      rw [Json.at] at hn
      subst hz
      have hm := markSeparators_get cs 1 v.build rfl
      obtain ⟨v', hc, hv'⟩ : ∃ v', (basicDoc sw).childAt (.branch (markSeparators cs).1 id jsonPairN default [] false z) 1 = .ok v' ∧
          v'.setNeedsSeparator = v.build.setNeedsSeparator := by
        refine ⟨_, basic_childAt hm, ?_⟩
        split
        · cases v.build <;> rfl
        · rfl
      obtain ⟨t', h1, h2⟩ := ih hv v' hv' path n hn
      exact ⟨t', .cons hc h1, h2⟩
    | (i + 2) :: path, hn => simp [Json.at] at hn
  | group l r es e id hg ih =>
    intro hit t ht path n hn
    cases path with
    | nil => exact nil _ t ht n hn
    | cons i path =>
      rw [hg.at, entryAt_eq] at hn
      simp only [Option.bind_eq_some_iff] at hn
      obtain ⟨a, ha, hn⟩ := hn
      have ha' := Json.Item.kid hg hit a (List.mem_of_getElem? ha)
      obtain ⟨notn, z, rfl⟩ : ∃ notn z, t = .branch (markSeparators (Json.builds es)).1 id notn default [] false z := by
        cases hg with
        | array h1 h2 =>
          refine ⟨jsonArrayN, ?_⟩
          apply branch_of_set (y := false)
          rw [ht]
          simp only [Json.build]
          rfl
        | object h1 h2 =>
          refine ⟨jsonObjectN, ?_⟩
          apply branch_of_set (y := false)
          rw [ht]
          simp only [Json.build]
          rfl
      obtain ⟨t1, h1, h2⟩ := walks_entry (sw := sw) (id := id) (notn := notn) (y := z) ha
      obtain ⟨t', h3, h4⟩ := ih i a ha ha' t1 h1 path n hn
      exact ⟨t', .cons h2 h3, h4⟩

/-- **C78**, which node: the path leads from the document to the node that was made for the expression (up to whether a comma
    comes after it). -/
theorem C78_node {okString okNumber : String → Prop} {e : Json} (h : e.Document okString okNumber) {path : List Nat} {n : Json}
    (hn : e.at path = some n) :
    ∃ t : Tree BasicStyle, Walks (basicDoc sw) e.build path t ∧ t.setNeedsSeparator = n.build.setNeedsSeparator := by
  cases h with
  | value h => exact walks_at e (.inr (.inl h)) e.build rfl path n hn
  | @roots id es hes =>
    cases path with
    | nil =>
      have : Json.roots id es = n := by simpa [Json.at] using hn
      subst this
      exact ⟨_, .nil, rfl⟩
    | cons i path =>
      rw [Json.at, entryAt_eq] at hn
      simp only [Option.bind_eq_some_iff] at hn
      obtain ⟨a, ha, hn⟩ := hn
      have hx := List.mem_of_getElem? ha
      have hit : a.Item okString okNumber := by
        by_cases hc : a.isComment = true
        · exact .inl hc
        · exact .inr (.inl (hes a hx (by simpa using hc)))
      obtain ⟨t1, h1, h2⟩ := walks_entry (sw := sw) (id := id) (notn := jsonRootsN) (y := false) ha
      obtain ⟨t', h3, h4⟩ := walks_at a hit t1 h1 path n hn
      have hbuild : (Json.roots id es).build = .branch (markSeparators (Json.builds es)).1 id jsonRootsN default [] false false := by
        simp only [Json.build]; rfl
      rw [hbuild]
      exact ⟨t', .cons h2 h3, h4⟩

/-! ### Words of comments -/

theorem comment_not_oneLine (e : Json) : ∀ path {id ids s}, e.at path = some (.comment id ids s) → e.oneLine sw = none := by
  induction e using Json.induct with
  | simple e he =>
    intro path id ids s h
    cases path with
    | nil =>
      have : e = .comment id ids s := by cases e <;> simpa [Json.at] using h
      subst this
      rfl
    | cons i path =>
      cases e with
      | array => exact he.elim
      | object => exact he.elim
      | pair => exact he.elim
      | roots => rfl
      | _ => simp [Json.at] at h
  | pair id keyId key v ih =>
    intro path id' ids s h
    match path, h with
    | [], h => simp [Json.at] at h
    | [0], h => simp [Json.at] at h
    | 0 :: _ :: _, h => simp [Json.at] at h
    | 1 :: path, h =>
      rw [Json.at] at h
      rw [Json.oneLine, ih path h]
      rfl
    | (i + 2) :: path, h => simp [Json.at] at h
  | group l r es e id hg ih =>
    intro path id' ids s h
    cases path with
    | nil =>
      have : e = .comment id' ids s := by cases e <;> simpa [Json.at] using h
      subst this
      cases hg
    | cons i path =>
      rw [hg.at, entryAt_eq] at h
      cases ha : es[i]? with
      | none => simp [ha] at h
      | some a =>
        simp only [ha, Option.bind_some] at h
        have hn := ih i a ha path h
        rw [hg.oneLine]
        cases ho : Json.oneLines sw es with
        | none => rfl
        | some x =>
          have := (oneLine_entries (sw := sw) (es := es) (by rw [ho]; rfl) i (List.getElem?_eq_some_iff.1 ha).1).2 a ha
          rw [hn] at this
          cases this

theorem wordPlace_isSome (ind : Word) (xs : List Word) : ∀ (cur : Word) (i : Nat), i < xs.length →
    (wordPlace sw w ind cur xs i).isSome = true := by
  induction xs with
  | nil => intro cur i h; simp at h
  | cons x xs ih =>
    intro cur i h
    cases i with
    | zero => simp only [wordPlace]; split <;> rfl
    | succ i =>
      simp only [List.length_cons, Nat.add_lt_add_iff_right] at h
      simp only [wordPlace]
      split
      · exact ih _ i h
      · rw [Option.isSome_map]
        exact ih _ i h

theorem commentPlace_isSome (pre ind : Word) (s : String) (i : Nat) (h : i < (commentWords s).length) :
    (commentPlace sw w pre ind s i).isSome = true := by
  have h' : i < ((commentWords s).map (piece sw)).length := by simpa using h
  unfold commentPlace
  cases hx : (commentWords s).map (piece sw) with
  | nil => simp [hx] at h'
  | cons x xs =>
    rw [hx] at h'
    cases i with
    | zero => rfl
    | succ i => exact wordPlace_isSome _ _ _ _ (by simpa using h')

theorem wordPlace_at {okString okNumber : String → Prop} (e : Json) : e.Item okString okNumber → ∀ path {id ids s i},
    e.at path = some (.comment id ids s) → i < (commentWords s).length →
    ∀ k pre post, (e.place sw w k pre post (path ++ [i])).isSome = true := by
  induction e using Json.induct with
  | simple e he =>
    intro hit path id ids s j h hj k pre post
    cases path with
    | nil =>
      have : e = .comment id ids s := by cases e <;> simpa [Json.at] using h
      subst this
      rw [List.nil_append, Json.place]
      exact commentPlace_isSome _ _ _ _ hj
    | cons i path =>
      cases e with
      | array => exact he.elim
      | object => exact he.elim
      | pair => exact he.elim
      | roots =>
        rcases hit with h | h | ⟨_, _, _, _, h, _⟩
        · cases h
        · cases h
        · cases h
      | _ => simp [Json.at] at h
  | pair id keyId key v ih =>
    intro hit path id' ids s j h hj k pre post
    match path, h with
    | [], h => simp [Json.at] at h
    | [0], h => simp [Json.at] at h
    | 0 :: _ :: _, h => simp [Json.at] at h
    | 1 :: path, h =>
      rw [Json.at] at h
      rw [List.cons_append, Json.place]
      refine ih ?_ path h hj _ _ _
      rcases hit with h | h | ⟨_, _, _, _, h, hv⟩
      · cases h
      · cases h
      · cases h
        exact .inr (.inl hv)
    | (i + 2) :: path, h => simp [Json.at] at h
  | group l r es e id hg ih =>
    intro hit path id' ids s j h hj k pre post
    cases path with
    | nil =>
      have : e = .comment id' ids s := by cases e <;> simpa [Json.at] using h
      subst this
      cases hg
    | cons i path =>
      have h0 := comment_not_oneLine (sw := sw) e _ h
      rw [hg.at, entryAt_eq] at h
      cases ha : es[i]? with
      | none => simp [ha] at h
      | some a =>
        simp only [ha, Option.bind_some] at h
        rw [List.cons_append, hg.place, h0]
        simp only [onOneLine, Bool.false_eq_true, if_false]
        rw [entryPlace_eq, ha]
        have := ih i a ha (Json.Item.kid hg hit a (List.mem_of_getElem? ha)) path h hj (k + 1) (levelIndent sw (k + 1))
          (if commaAfter es i then piece sw "," else .none)
        simpa using this

theorem Walks.snoc {P : PrettyDoc} {a b c : P.Node} {path : List Nat} {i : Nat} (h : Walks P a path b)
    (hc : P.childAt b i = .ok c) : Walks P a (path ++ [i]) c := by
  induction h with
  | nil => exact .cons hc .nil
  | cons h1 _ ih => exact .cons h1 (ih hc)

/-- **C78**, words of comments: for every path to a word of a comment, it is given what is before it; and walking down the
    children of the document along the path leads to a node with this word as its text. -/
theorem C78_words {okString okNumber : String → Prop} {e : Json} (h : e.Document okString okNumber) {path : List Nat} {x : String}
    (hx : e.commentWordAt path = some x) : (∃ p, e.docPlace sw w path = some p) ∧
      ∃ t : Tree BasicStyle, Walks (basicDoc sw) e.build path t ∧ (basicDoc sw).unwrapText t = .ok x := by
  obtain ⟨path', i, id, ids, s, rfl, hat, hi⟩ : ∃ path' i id ids s, path = path' ++ [i] ∧ e.at path' = some (.comment id ids s) ∧
      (commentWords s)[i]? = some x := by
    unfold Json.commentWordAt at hx
    split at hx
    · rename_i id ids s i h1 h2
      refine ⟨path.dropLast, i, id, ids, s, ?_, h1, hx⟩
      obtain ⟨l, rfl⟩ := List.getLast?_eq_some_iff.1 h2
      simp
    · cases hx
  have hlt := (List.getElem?_eq_some_iff.1 hi).1
  constructor
  · rw [← Option.isSome_iff_exists]
    cases h with
    | value h =>
      have hd : e.docPlace sw w (path' ++ [i]) = e.place sw w 0 .none .none (path' ++ [i]) := by
        cases e with
        | roots => cases h
        | _ => cases path' <;> rfl
      rw [hd]
      exact wordPlace_at e (.inr (.inl h)) path' hat hlt _ _ _
    | @roots id es hes =>
      cases path' with
      | nil => simp [Json.at] at hat
      | cons j path' =>
        rw [Json.at, entryAt_eq] at hat
        cases ha : es[j]? with
        | none => simp [ha] at hat
        | some a =>
          simp only [ha, Option.bind_some] at hat
          have hit : a.Item okString okNumber := by
            by_cases hc : a.isComment = true
            · exact .inl hc
            · exact .inr (.inl (hes a (List.mem_of_getElem? ha) (by simpa using hc)))
          have := wordPlace_at (sw := sw) (w := w) a hit path' hat hlt 0 .none .none
          simpa [Json.docPlace, ha] using this
  · obtain ⟨t, h1, h2⟩ := C78_node (sw := sw) h hat
    let cs : List (Tree BasicStyle) := (splitWhitespace [] s.toList).mapIdx fun i word =>
      Tree.newText (ids i) jsonWordN (String.ofList word)
    obtain ⟨z, rfl⟩ : ∃ z, t = .branch (markSeparators cs).1 id jsonCommentN default [] true z := by
      apply branch_of_set (y := false)
      rw [h2]
      rfl
    have hi' : (splitWhitespace [] s.toList)[i]?.map String.ofList = some x := by
      rw [← List.getElem?_map]
      exact hi
    obtain ⟨y, hy, rfl⟩ := Option.map_eq_some_iff.1 hi'
    have hget : cs[i]? = some (Tree.newText (ids i) jsonWordN (String.ofList y)) := by
      simp [cs, List.getElem?_mapIdx, hy]
    have hm := markSeparators_get cs i _ hget
    refine ⟨_, h1.snoc (basic_childAt hm), ?_⟩
    split <;> rfl

namespace Ex

/-- A comment, and `{"a": [1, 2], "b": [// x y⏎ 3]}`. -/
def focJson : Json :=
  .roots 16 [.comment 2 id "hi you",
    .object 15 [.pair 7 6 "a" (.array 5 [.number 3 "1", .number 4 "2"]),
      .pair 14 13 "b" (.array 12 [.comment 10 (fun i => 8 + i) "x  y", .number 11 "3"])]]

theorem focJson_ok : focJson.Document anyText anyText := by
  refine .roots _ fun e he hc => ?_
  simp only [List.mem_cons, List.not_mem_nil, or_false] at he
  rcases he with rfl | rfl
  · cases hc
  refine .object _ ?_ ?_ ?_
  · intro e he _
    simp only [List.mem_cons, List.not_mem_nil, or_false] at he
    rcases he with rfl | rfl <;> rfl
  · intros; trivial
  · intro pid keyId key v hv
    simp only [List.mem_cons, List.not_mem_nil, or_false, Json.pair.injEq] at hv
    rcases hv with ⟨_, _, _, rfl⟩ | ⟨_, _, _, rfl⟩
    · refine .array _ fun e he _ => ?_
      simp only [List.mem_cons, List.not_mem_nil, or_false] at he
      rcases he with rfl | rfl <;> exact .number _ trivial
    · refine .array _ fun e he hc => ?_
      simp only [List.mem_cons, List.not_mem_nil, or_false] at he
      rcases he with rfl | rfl
      · cases hc
      · exact .number _ trivial

theorem focJson_ordered : focJson.Ordered := by
  simp only [focJson, Json.Ordered, Json.AllBelow, Json.rootId, and_true]
  decide

/-- The `2`, and the array with the `3`, in 30 columns. -/
theorem focJson_places :
    focJson.docPlace String.length 30 [1, 0, 1, 1] =
      some ⟨[⟨"// hi you", 9⟩, ⟨"{", 1⟩], ⟨"    \"a\": [1, ", 13⟩, [⟨"    \"a\": [1, 2", 14⟩]⟩ ∧
    focJson.docPlace String.length 30 [1, 1, 1] =
      some ⟨[⟨"// hi you", 9⟩, ⟨"{", 1⟩, ⟨"    \"a\": [1, 2],", 16⟩], ⟨"    \"b\": ", 9⟩,
        [⟨"    \"b\": [", 10⟩, ⟨"        // x y", 14⟩, ⟨"        3", 9⟩, ⟨"    ]", 5⟩]⟩ := by
  decide +kernel

theorem focJson_narrow : ∀ l ∈ focJson.docLines String.length 30, l.width ≤ maxWidth := by
  have : (focJson.docLines String.length 30).all (fun l => decide (l.width ≤ maxWidth)) = true := by decide +kernel
  simpa [List.all_eq_true] using this

/-- C78 is about this document. -/
example : ∃ o, printAll (P := basicDoc String.length) focJson.build 30 [1, 0, 1, 1] .start none = Exec.ofRes (.ok o) ∧
    o.beforeFocus.map segsString = ["// hi you", "{", "    \"a\": [1, "] := by
  obtain ⟨o, h1, h2, -⟩ := C78_start focJson_ok focJson_ordered focJson_narrow none focJson_places.1
  refine ⟨o, h1, ?_⟩
  have := congrArg (List.map Word.str) h2
  rw [List.map_map] at this
  exact this

/-- The end of the array with the `3`. -/
example : ∃ o, printAll (P := basicDoc String.length) focJson.build 30 [1, 1, 1] .end none = Exec.ofRes (.ok o) ∧
    o.beforeFocus.map segsString =
      ["// hi you", "{", "    \"a\": [1, 2],", "    \"b\": [", "        // x y", "        3", "    ]"] := by
  obtain ⟨o, h1, h2, -⟩ := C78_end focJson_ok focJson_ordered focJson_narrow none focJson_places.2
  refine ⟨o, h1, ?_⟩
  have := congrArg (List.map Word.str) h2
  rw [List.map_map] at this
  exact this

/-- The word `y` of the comment, in 13 columns, where it is on a line of its own. -/
example : focJson.commentWordAt [1, 1, 1, 0, 1] = some "y" ∧
    (focJson.docPlace String.length 13 [1, 1, 1, 0, 1]).map (fun p => (p.above.map Word.str, p.left, p.own)) =
      some (["// hi you", "{", "    \"a\": [", "        1,", "        2", "    ],", "    \"b\": [", "        // x"],
        ⟨"        // ", 11⟩, [⟨"        // y", 12⟩]) := by
  decide +kernel

end Ex

end PPP
