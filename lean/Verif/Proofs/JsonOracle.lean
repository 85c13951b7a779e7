import Verif.Spec.JsonOracle
import Verif.Proofs.JsonTall
import Verif.Props.OracleTest
/-
The test of the printer against the oracle, for JSON documents.
-/
namespace PPP
variable {P : PrettyDoc}

/-- Scanning the tokens for texts without width, directly after an end-of-line mark (`e`: there was such a
    mark, and no text since). -/
def zRun (e : Bool) : List (Tok P) → Option Bool
  | [] => some e
  | .text x :: T => if e = true ∧ x.width = 0 then none else zRun false T
  | .nl _ :: T => zRun false T
  | .eol :: T => zRun true T
  | .mark _ :: T => zRun e T

theorem zRun_append (A B : List (Tok P)) : ∀ e, zRun e (A ++ B) = (zRun e A).bind fun e' => zRun e' B := by
  induction A with
  | nil => intro e; rfl
  | cons t T ih =>
    intro e
    cases t with
    | text x =>
      simp only [List.cons_append, zRun]
      split
      · rfl
      · exact ih false
    | nl => exact ih false
    | eol => exact ih true
    | mark => exact ih e

theorem zRun_no_text (B : List (Tok P)) (h1 : ∀ ind, .nl ind ∉ B) (h2 : ∀ y, .text y ∉ B) : zRun true B = some true := by
  induction B with
  | nil => rfl
  | cons t T ih =>
    have := ih (fun ind h => h1 ind (List.mem_cons_of_mem _ h)) (fun y h => h2 y (List.mem_cons_of_mem _ h))
    cases t with
    | text x => exact absurd (List.mem_cons_self ..) (h2 x)
    | nl x => exact absurd (List.mem_cons_self ..) (h1 x)
    | eol => exact this
    | mark => exact this

theorem zeroAfterEol_run {T : List (Tok P)} (h : ZeroAfterEol T) (e : Bool) : zRun e T = none := by
  obtain ⟨A, B, x, C, rfl, h1, h2, h3⟩ := h
  rw [List.append_assoc, List.cons_append, zRun_append]
  cases zRun e A with
  | none => rfl
  | some e' =>
    rw [Option.bind_some, zRun, zRun_append, zRun_no_text B h1 h2]
    simp [zRun, h3]

/-- However the choices are taken, the scan goes from `e` to `e'`; and no text is wider than `m`. -/
inductive NTree.Scan (m : Nat) : Bool → NTree P → Bool → Prop where
  | empty {e} : Scan m e .empty e
  | mark {e} : Scan m e .mark e
  | eol {e} : Scan m e .eol true
  | newline {e ind} : Scan m e (.newline ind) false
  | text {x : Textual P} : x.width ≤ m → Scan m false (.text x) false
  | wide {e} {x : Textual P} : x.width ≤ m → 0 < x.width → Scan m e (.text x) false
  | concat {e e' e'' a b} : Scan m e a e' → Scan m e' b e'' → Scan m e (.concat a b) e''
  | choice {e e' a b} : Scan m e a e' → Scan m e b e' → Scan m e (.choice a b) e'
  | child {e e' i id t} : Scan m e t e' → Scan m e (.child i id t) e'

theorem NTree.Scan.within {m e e'} {t : NTree P} (h : t.Scan m e e') : t.TextsWithin m := by
  induction h with
  | text h => exact h
  | wide h _ => exact h
  | concat _ _ h1 h2 => exact ⟨h1, h2⟩
  | choice _ _ h1 h2 => exact ⟨h1, h2⟩
  | child _ h => exact h
  | _ => trivial

theorem scan_resolves {id : P.Id} {t : NTree P} {T} (hr : Resolves id t T) :
    ∀ {m e e'}, t.Scan m e e' → zRun e (erase T) = some e' := by
  induction hr with
  | empty => intro m e e' h; cases h; rfl
  | mark => intro m e e' h; cases h; rfl
  | eol => intro m e e' h; cases h; rfl
  | newline => intro m e e' h; cases h; rfl
  | text =>
    intro m e e' h
    cases h with
    | text h => simp [erase, zRun]
    | wide h1 h2 => simp [erase, zRun]; omega
  | child _ ih => intro m e e' h; cases h with | child h => exact ih h
  | concat _ _ iha ihb =>
    intro m e e' h
    cases h with
    | concat h1 h2 => rw [erase_append, zRun_append, iha h1]; exact ihb h2
  | choice_first _ ih => intro m e e' h; cases h with | choice h1 h2 => exact ih h1
  | choice_second _ ih => intro m e e' h; cases h with | choice h1 h2 => exact ih h2

theorem NTree.Scan.not_zero {m e e'} {t : NTree P} (h : t.Scan m e e') {id T} (hr : Resolves id t T) :
    ¬ ZeroAfterEol (erase T) := by
  intro hz
  have := scan_resolves hr h
  rw [zeroAfterEol_run hz] at this
  cases this

/-! ### JSON -/

variable {sw : String → Nat} {m : Nat}

variable (sw m) in
/-- In all contexts, the document can be scanned. -/
def Scanned (t : Tree BasicStyle) : Prop :=
  ∀ flat (ind : List (Segment (basicDoc sw))) outer, ∃ nt e,
    docTree (basicLaw sw) t flat ind outer = .ok nt ∧ nt.Scan m false e

theorem Scanned.kid {node ch : Tree BasicStyle} {i : Nat} (hc : (basicDoc sw).childAt node i = .ok ch)
    (h : Scanned sw m ch) (c : Ctx (basicDoc sw)) : ∃ e, (docKid (basicLaw sw) node i c).Scan m false e := by
  obtain ⟨nt, e, h1, h2⟩ := h c.flat c.indent (some c.style)
  rw [docKid_of (basicLaw sw) hc h1]
  exact ⟨e, .child h2⟩

theorem scanned_of_tree {t : Tree BasicStyle} (hs : t.nodeStyle = default)
    (h : ∀ c : Ctx (basicDoc sw), ∃ e,
      (t.notn.1.tree (P := basicDoc sw) t (docKid (basicLaw sw) t) none c).Scan m false e) : Scanned sw m t := by
  intro flat ind outer
  obtain ⟨e, h⟩ := h ⟨flat, ind, enterStyle outer default⟩
  exact ⟨_, e, docTree_of (basicLaw sw) (a := t.notn.1) (s := default) rfl (by simp [hs]) _ _ _, h⟩

theorem iter_scan {x : NTree P} {g : Nat → NTree P → NTree P} (n : Nat) (h0 : ∃ e, x.Scan m false e)
    (hg : ∀ k acc e, k < n → NTree.Scan m false acc e → ∃ e', (g k acc).Scan m false e') :
    ∀ k, k ≤ n → ∃ e, (iter x g k).Scan m false e := by
  intro k
  induction k with
  | zero => intro _; exact h0
  | succ k ih =>
    intro hk
    obtain ⟨e, h⟩ := ih (by omega)
    exact hg k _ e (by omega) h

theorem builds_kid {es : List Json} {id : Nat} {notn : TreeNotation} {y : Bool} {i : Nat} (hi : i < es.length) :
    ∃ ch : Tree BasicStyle, ch.setNeedsSeparator = es[i].build.setNeedsSeparator ∧ (basicDoc sw).childAt
      (.branch (markSeparators (Json.builds es)).1 id notn default [] false y) i = .ok ch := by
  have hget : (Json.builds es)[i]? = some (es[i].build) := by
    rw [builds_eq, List.getElem?_map, List.getElem?_eq_getElem hi]; rfl
  have hm := markSeparators_get _ i _ hget
  refine ⟨_, ?_, basic_childAt hm⟩
  split
  · cases es[i].build <;> rfl
  · rfl

theorem bracket_scanned (hj : JsonWidths sw m) {l r : Char} (hl : sw (String.ofList [l]) ≤ m)
    (hr : sw (String.ofList [r]) ≤ m) (hr' : 0 < sw (String.ofList [r]))
    {notn : TreeNotation} (hnotn : notn.1 = bracketN l r) {es : List Json} {id y}
    (h : ∀ e ∈ es, ∀ t, t.setNeedsSeparator = e.build.setNeedsSeparator → Scanned sw m t) :
    Scanned sw m (.branch (markSeparators (Json.builds es)).1 id notn default [] false y) := by
  refine scanned_of_tree rfl fun c => ⟨false, ?_⟩
  simp only [Tree.notn]
  cases hes : es with
  | nil =>
    subst hes
    rw [hnotn]
    unfold bracketN
    rw [count_zero_tree (P := basicDoc sw) (by simp only [Tree.children?, Option.map_some, markSeparators_length]; rfl)]
    exact .concat (.concat (.text hl) .mark) (.wide hr hr')
  | cons e0 es0 =>
    rw [← hes]
    have hn : (markSeparators (Json.builds es)).1.length = es0.length + 1 := by
      simp [markSeparators_length, builds_eq, hes]
    have hc1 : ∀ s ∈ [",", ", ", "]", "}"], 0 < sw s ∧ sw s ≤ m := fun s hs =>
      ⟨hj.some s hs, hj.within s (by simp only [List.mem_cons, List.not_mem_nil, or_false] at hs ⊢; rcases hs with rfl | rfl | rfl | rfl <;> simp)⟩
    have hcomma := hc1 "," (by simp)
    have hsep := hc1 ", " (by simp)
    let kid := docKid (basicLaw sw) (.branch (markSeparators (Json.builds es)).1 id notn default [] false y)
    have hkid : ∀ i, i ≤ es0.length → ∀ c : Ctx (basicDoc sw), ∃ e, (kid i c).Scan m false e := by
      intro i hi c
      have hlt : i < es.length := by rw [hes]; simp only [List.length_cons]; omega
      obtain ⟨ch, h1, h2⟩ := builds_kid (sw := sw) (id := id) (notn := notn) (y := y) hlt
      exact (h _ (List.getElem_mem hlt) ch h1).kid h2 c
    have hsingle : ∀ x : Textual (basicDoc sw), x.width = sw ", " → ∃ e, (iter (kid 0 { c with flat := true })
        (fun k acc => .concat (.concat acc (.text x)) (kid (k + 1) { c with flat := true })) es0.length).Scan m false e := by
      intro x hx
      refine iter_scan es0.length (hkid 0 (by omega) _) ?_ _ (Nat.le_refl _)
      intro k acc e hk ha
      obtain ⟨e', he'⟩ := hkid (k + 1) (by omega) { c with flat := true }
      exact ⟨e', .concat (.concat ha (.wide (by omega) (by omega))) he'⟩
    let c' : Ctx (basicDoc sw) := { c with indent := c.indent ++
      [⟨String.ofList (List.replicate 4 ' '), sw (String.ofList (List.replicate 4 ' ')), c.style⟩] }
    obtain ⟨flags, hm⟩ := multi_tree (sw := sw) (id := id) (nn := notn) (st := default) (y := y) hn c'
    have hnum : (basicDoc sw).numChildren (.branch (markSeparators (Json.builds es)).1 id notn default [] false y) =
        .ok (some (es0.length + 1)) := by simp [Tree.children?, hn]
    have hbody : notn.1.tree (P := basicDoc sw) (.branch (markSeparators (Json.builds es)).1 id notn default [] false y) kid none c =
        (bracketBody l r).tree (P := basicDoc sw) (.branch (markSeparators (Json.builds es)).1 id notn default [] false y)
          kid none c := by
      rw [hnotn]
      cases hm : es0.length with
      | zero => rw [hm] at hnum; exact count_one_tree (P := basicDoc sw) hnum _
      | succ k => rw [hm] at hnum; exact count_many_tree (P := basicDoc sw) hnum _
    rw [hbody]
    obtain ⟨e1, hs⟩ := hsingle ⟨", ", sw ", ", c.style, false⟩ rfl
    rw [← single_tree hn c] at hs
    have hmulti : ∃ e, (jsonMultiFold.tree (P := basicDoc sw)
        (.branch (markSeparators (Json.builds es)).1 id notn default [] false y) kid none c').Scan m false e := by
      rw [hm]
      refine iter_scan es0.length (hkid 0 (by omega) _) ?_ _ (Nat.le_refl _)
      intro k acc e hk ha
      obtain ⟨e', he'⟩ := hkid (k + 1) (by omega) c'
      have hsp : ∃ e', (if flags k then .text ⟨",", sw ",", c'.style, false⟩ else .empty :
          NTree (basicDoc sw)).Scan m e e' := by
        split
        · exact ⟨false, .wide hcomma.2 hcomma.1⟩
        · exact ⟨e, .empty⟩
      obtain ⟨e2, h2⟩ := hsp
      exact ⟨e', .concat (.concat (.concat ha h2) .newline) he'⟩
    obtain ⟨e2, hm2⟩ := hmulti
    change NTree.Scan m false (if c.flat then _ else _) false
    split
    · exact .concat (.concat (.text hl) hs) (.wide hr hr')
    · refine .choice (.concat (.concat (.text hl) hs) (.wide hr hr')) ?_
      exact .concat (.concat (.concat (.text hl) (.concat .newline hm2)) .newline) (.wide hr hr')

theorem string_scanned (hj : JsonWidths sw m) {s : String} {id : Nat} {z : Bool} (hs : sw s ≤ m) :
    Scanned sw m (.text s id jsonStringN default [] false z) := by
  refine scanned_of_tree rfl fun c => ⟨false, ?_⟩
  have hq := hj.within "\"" (by simp)
  exact .concat (.concat (.text hq) (.text hs)) (.text hq)

theorem pair_scanned (hj : JsonWidths sw m) {id keyId : Nat} {key : String} {v : Json} (hk : sw key ≤ m)
    (hv : ∀ t, t.setNeedsSeparator = v.build.setNeedsSeparator → Scanned sw m t)
    {t : Tree BasicStyle} (ht : t.setNeedsSeparator = (Json.pair id keyId key v).build.setNeedsSeparator) :
    Scanned sw m t := by
  let ch : List (Tree BasicStyle) := [jsonString keyId key, v.build]
  obtain ⟨z, rfl⟩ : ∃ z, t = .branch (markSeparators ch).1 id jsonPairN default [] false z := by
    apply branch_of_set (y := false)
    rw [ht]
    simp only [Json.build]
    rfl
  let node : Tree BasicStyle := .branch (markSeparators ch).1 id jsonPairN default [] false z
  refine scanned_of_tree rfl fun c => ?_
  obtain ⟨z0, h0⟩ : ∃ z', (basicDoc sw).childAt node 0 = .ok (.text key keyId jsonStringN default [] false z') := by
    have hm := markSeparators_get ch 0 (jsonString keyId key) rfl
    split at hm
    · exact ⟨true, basic_childAt hm⟩
    · exact ⟨false, basic_childAt hm⟩
  obtain ⟨v', hv', h1⟩ : ∃ v', v'.setNeedsSeparator = v.build.setNeedsSeparator ∧
      (basicDoc sw).childAt node 1 = .ok v' := by
    have hm := markSeparators_get ch 1 v.build rfl
    refine ⟨_, ?_, basic_childAt hm⟩
    split
    · cases v.build <;> rfl
    · rfl
  have hnum : (basicDoc sw).numChildren node = .ok (some 2) := by
    simp [node, Tree.children?, markSeparators_length, ch]
  have e0 := child_zero_tree (P := basicDoc sw) (env := none) (kid := docKid (basicLaw sw) node) hnum c
  have e1 := child_one_tree (P := basicDoc sw) (env := none) (kid := docKid (basicLaw sw) node) hnum c
  have a0 : NTree.Scan m false (docKid (basicLaw sw) node 0 c) false := by
    have hq := hj.within "\"" (by simp)
    have : docKid (basicLaw sw) node 0 c = _ := docKid_of (basicLaw sw) h0
      (docTree_of (basicLaw sw) (a := jsonStringN.1) (s := default) rfl rfl _ _ _)
    rw [this]
    exact .child (.concat (.concat (.text hq) (.text hk)) (.text hq))
  obtain ⟨e, a1⟩ := (hv v' hv').kid h1 c
  rw [← e0] at a0
  rw [← e1] at a1
  exact ⟨e, .concat (.concat a0 (.text (hj.within ": " (by simp)))) a1⟩

theorem comment_scanned (hj : JsonWidths sw m) {id : Nat} {wordIds : Nat → Nat} {s : String}
    (hs : ∀ word ∈ splitWhitespace [] s.toList, sw (String.ofList word) ≤ m) {t : Tree BasicStyle}
    (ht : t.setNeedsSeparator = (Json.comment id wordIds s).build.setNeedsSeparator) : Scanned sw m t := by
  let words := splitWhitespace [] s.toList
  let cs : List (Tree BasicStyle) := words.mapIdx fun i word => Tree.newText (wordIds i) jsonWordN (String.ofList word)
  obtain ⟨z, rfl⟩ : ∃ z, t = .branch (markSeparators cs).1 id jsonCommentN default [] true z := by
    apply branch_of_set (y := false)
    rw [ht]
    rfl
  let node : Tree BasicStyle := .branch (markSeparators cs).1 id jsonCommentN default [] true z
  have hlen : (markSeparators cs).1.length = words.length := by
    rw [markSeparators_length]; simp [cs]
  have hnum : (basicDoc sw).numChildren node = .ok (some words.length) := by
    simp [node, Tree.children?, hlen]
  have hch : ∀ i (hi : i < words.length), ∃ z', (basicDoc sw).childAt node i =
        .ok (.text (String.ofList words[i]) (wordIds i) jsonWordN default [] false z') := by
    intro i hi
    have hget : cs[i]? = some (Tree.newText (wordIds i) jsonWordN (String.ofList words[i])) := by
      simp [cs, hi]
    have hm := markSeparators_get cs i _ hget
    split at hm
    · exact ⟨true, basic_childAt hm⟩
    · exact ⟨false, basic_childAt hm⟩
  let kid := docKid (basicLaw sw) node
  have hkid : ∀ i, i < words.length → ∀ c : Ctx (basicDoc sw), (kid i c).Scan m false false := by
    intro i hi c
    obtain ⟨z', h⟩ := hch i hi
    have : kid i c = _ := docKid_of (basicLaw sw) h (docTree_of (basicLaw sw) (a := .text) (s := default) rfl rfl _ _ _)
    rw [this]
    exact .child (.text (hs _ (List.getElem_mem hi)))
  refine scanned_of_tree rfl fun c => ⟨true, ?_⟩
  suffices H : ∀ c : Ctx (basicDoc sw), (jsonCommentBody.tree (P := basicDoc sw) node kid none c).Scan m false false by
    exact .concat (.concat (.text (hj.within "// " (by simp))) (H _)) .eol
  intro c
  unfold jsonCommentBody
  match hn : words.length with
  | 0 =>
    rw [hn] at hnum
    rw [count_zero_tree (P := basicDoc sw) hnum]
    exact .mark
  | 1 =>
    rw [hn] at hnum
    rw [count_one_tree (P := basicDoc sw) hnum, child_zero_tree (P := basicDoc sw) hnum]
    exact hkid 0 (by omega) c
  | n + 2 =>
    rw [hn] at hnum
    rw [count_many_tree (P := basicDoc sw) hnum]
    have hfold := fold_tree (P := basicDoc sw) (node := node) (kid := kid) (first := .child 0)
      (join := .left + (.literal " " ||| .newline) + .right) (env := none) hnum
      (fun i hi => by
        obtain ⟨z, h⟩ := hch i (by omega)
        exact ⟨_, h⟩) c
      (fun k acc => .concat (.concat acc (if c.flat then .text ⟨" ", sw " ", c.style, false⟩ else
        .choice (.text ⟨" ", sw " ", c.style, false⟩) (.newline c.indent))) (kid (k + 1) c))
      (fun acc k hk' => rfl)
    rw [hfold, child_zero_tree (P := basicDoc sw) hnum]
    have key : ∀ k, k ≤ n + 1 → (iter (kid 0 c) (fun k acc => .concat (.concat acc
        (if c.flat then .text ⟨" ", sw " ", c.style, false⟩ else
        .choice (.text ⟨" ", sw " ", c.style, false⟩) (.newline c.indent))) (kid (k + 1) c)) k).Scan m false false := by
      intro k
      induction k with
      | zero => intro _; exact hkid 0 (by omega) c
      | succ k ih =>
        intro hk
        have hsp := hj.within " " (by simp)
        refine .concat (.concat (ih (by omega)) (e' := false) ?_) (hkid (k + 1) (by omega) c)
        split
        · exact .text hsp
        · exact .choice (.text hsp) .newline
    exact key _ (Nat.le_refl _)

theorem roots_scanned {es : List Json} {id y}
    (h : ∀ e ∈ es, ∀ t, t.setNeedsSeparator = e.build.setNeedsSeparator → Scanned sw m t) :
    Scanned sw m (.branch (markSeparators (Json.builds es)).1 id jsonRootsN default [] false y) := by
  refine scanned_of_tree rfl fun c => ?_
  let node : Tree BasicStyle := .branch (markSeparators (Json.builds es)).1 id jsonRootsN default [] false y
  let kid := docKid (basicLaw sw) node
  have hlen : (markSeparators (Json.builds es)).1.length = es.length := by rw [markSeparators_length, builds_eq]; simp
  have hnum : (basicDoc sw).numChildren node = .ok (some es.length) := by
    simp [node, Tree.children?, hlen]
  have hget : ∀ i (hi : i < es.length), ∃ ch, ch.setNeedsSeparator = es[i].build.setNeedsSeparator ∧
      (basicDoc sw).childAt node i = .ok ch := fun i hi => builds_kid hi
  have hkid : ∀ i, i < es.length → ∃ e, (kid i c).Scan m false e := by
    intro i hi
    obtain ⟨ch, h1, h2⟩ := hget i hi
    exact (h _ (List.getElem_mem hi) ch h1).kid h2 c
  change ∃ e, NTree.Scan m false (jsonRootsN.1.tree (P := basicDoc sw) node kid none c) e
  simp only [jsonRootsN]
  match hn : es.length with
  | 0 =>
    rw [hn] at hnum
    rw [count_zero_tree (P := basicDoc sw) hnum]
    exact ⟨false, .mark⟩
  | 1 =>
    rw [hn] at hnum
    rw [count_one_tree (P := basicDoc sw) hnum, child_zero_tree (P := basicDoc sw) hnum]
    exact hkid 0 (by omega)
  | n + 2 =>
    rw [hn] at hnum
    rw [count_many_tree (P := basicDoc sw) hnum]
    have hfold := fold_tree (P := basicDoc sw) (node := node) (kid := kid) (first := .child 0)
      (join := .left ^^^ .right) (env := none) hnum
      (fun i hi => (hget i (by omega)).imp fun _ h => h.2) c
      (fun k acc => .concat (.concat acc (.newline c.indent)) (kid (k + 1) c)) (fun acc k _ => rfl)
    rw [hfold, child_zero_tree (P := basicDoc sw) hnum]
    refine iter_scan (n + 1) (hkid 0 (by omega)) ?_ _ (Nat.le_refl _)
    intro k acc e hk ha
    obtain ⟨e', he'⟩ := hkid (k + 1) (by omega)
    exact ⟨e', .concat (.concat ha .newline) he'⟩

mutual
/-- Every document made with the `json_*` functions can be scanned. -/
theorem json_scanned (hj : JsonWidths sw m) : ∀ (e : Json), e.TextsWithin sw m → ∀ t : Tree BasicStyle,
    t.setNeedsSeparator = e.build.setNeedsSeparator → Scanned sw m t
  | .null id, _, t, ht => by
    obtain ⟨z, rfl⟩ := branch_of_set (y := false) (cs := []) (id := id) (n := jsonNullN) (st := default) (o := []) (c := false) ht
    exact scanned_of_tree rfl fun c => ⟨false, .text (hj.within "null" (by simp))⟩
  | .bool id b, _, t, ht => by
    cases b with
    | true =>
      obtain ⟨z, rfl⟩ := branch_of_set (y := false) (cs := []) (id := id) (n := jsonTrueN) (st := default) (o := []) (c := false) ht
      exact scanned_of_tree rfl fun c => ⟨false, .text (hj.within "true" (by simp))⟩
    | false =>
      obtain ⟨z, rfl⟩ := branch_of_set (y := false) (cs := []) (id := id) (n := jsonFalseN) (st := default) (o := []) (c := false) ht
      exact scanned_of_tree rfl fun c => ⟨false, .text (hj.within "false" (by simp))⟩
  | .string id s, h, t, ht => by
    simp only [Json.TextsWithin] at h
    obtain ⟨z, rfl⟩ := text_of_set (y := false) (s := s) (id := id) (n := jsonStringN) (st := default) (o := []) (c := false) ht
    exact string_scanned hj h
  | .number id s, h, t, ht => by
    simp only [Json.TextsWithin] at h
    obtain ⟨z, rfl⟩ := text_of_set (y := false) (s := s) (id := id) (n := jsonNumberN) (st := default) (o := []) (c := false) ht
    exact scanned_of_tree rfl fun c => ⟨false, .text h⟩
  | .array id es, h, t, ht => by
    simp only [Json.TextsWithin] at h
    obtain ⟨z, rfl⟩ : ∃ z, t = .branch (markSeparators (Json.builds es)).1 id jsonArrayN default [] false z := by
      apply branch_of_set (y := false)
      rw [ht]
      simp only [Json.build]
      rfl
    exact bracket_scanned hj (l := '[') (r := ']') (hj.within "[" (by simp)) (hj.within "]" (by simp))
      (hj.some "]" (by simp)) rfl (json_scanneds hj es h)
  | .object id es, h, t, ht => by
    simp only [Json.TextsWithin] at h
    obtain ⟨z, rfl⟩ : ∃ z, t = .branch (markSeparators (Json.builds es)).1 id jsonObjectN default [] false z := by
      apply branch_of_set (y := false)
      rw [ht]
      simp only [Json.build]
      rfl
    exact bracket_scanned hj (l := '{') (r := '}') (hj.within "{" (by simp)) (hj.within "}" (by simp))
      (hj.some "}" (by simp)) rfl (json_scanneds hj es h)
  | .pair id keyId key v, h, t, ht => by
    simp only [Json.TextsWithin] at h
    exact pair_scanned hj h.1 (json_scanned hj v h.2) ht
  | .comment id wordIds s, h, t, ht => by
    simp only [Json.TextsWithin] at h
    exact comment_scanned hj h ht
  | .roots id es, h, t, ht => by
    simp only [Json.TextsWithin] at h
    obtain ⟨z, rfl⟩ : ∃ z, t = .branch (markSeparators (Json.builds es)).1 id jsonRootsN default [] false z := by
      apply branch_of_set (y := false)
      rw [ht]
      simp only [Json.build]
      rfl
    exact roots_scanned (json_scanneds hj es h)
@[inherit_doc json_scanned]
theorem json_scanneds (hj : JsonWidths sw m) : ∀ (es : List Json), Json.AllTextsWithin sw m es → ∀ e ∈ es,
    ∀ t : Tree BasicStyle, t.setNeedsSeparator = e.build.setNeedsSeparator → Scanned sw m t
  | [], _, _, h => by simp at h
  | x :: xs, hx, e, h => by
    simp only [Json.AllTextsWithin] at hx
    rcases List.mem_cons.1 h with h' | h'
    · rw [h']; exact json_scanned hj x hx.1
    · exact json_scanneds hj xs hx.2 e h'
end

theorem tree_walkable (doc : Tree BasicStyle) : (basicDoc sw).Walkable doc := by
  constructor
  · intro q _
    exact ⟨_, rfl⟩
  · intro q n i _ hn hi
    cases q with
    | text => simp [Tree.children?] at hn
    | branch cs =>
      simp [Tree.children?] at hn
      exact ⟨cs[i]'(by omega), by simp [Tree.unwrapChild, Tree.children?, show i < cs.length by omega]⟩

end PPP
