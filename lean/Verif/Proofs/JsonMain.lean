import Verif.Proofs.JsonDoc
/-
What JSON documents display: values, comments, and several of them.
-/
namespace PPP
variable {sw : String → Nat} {C : Prop} {item : Option (List Char)}

theorem lex_null : lexRun .normal "null".toList = ("null".toList, .normal) := by decide
theorem lex_true : lexRun .normal "true".toList = ("true".toList, .normal) := by decide
theorem lex_false : lexRun .normal "false".toList = ("false".toList, .normal) := by decide
theorem lex_open_quote : lexRun .normal "\"".toList = (['"'], .str) := by decide
theorem lex_close_quote : lexRun .str "\"".toList = (['"'], .normal) := by decide
theorem lex_slashes : lexRun .normal "// ".toList = ([], .comment) := by decide
theorem lex_space : lexRun .comment " ".toList = ([], .comment) := by decide
theorem lex_colon : lexRun .normal ": ".toList = ([':'], .normal) := by decide

theorem good_of_tree {t : Tree BasicStyle} {s : BasicStyle}
    (hs : t.nodeStyle = s)
    (h : ∀ c : Ctx (basicDoc sw), Blank c.indent →
      (c.flat = true → FlatItem C item (t.notn.1.tree (P := basicDoc sw) t (docKid (basicLaw sw) t) none c)) ∧
      (c.flat = false → OpenItem C item (t.notn.1.tree (P := basicDoc sw) t (docKid (basicLaw sw) t) none c))) :
    Good sw C item t := by
  intro flat ind outer hb
  refine ⟨_, docTree_of (basicLaw sw) (a := t.notn.1) (s := s) rfl (by simp [hs]) _ _ _, ?_⟩
  exact h ⟨flat, ind, enterStyle outer s⟩ hb

theorem text_good {x : Textual (basicDoc sw)} {v : List Char} (h : C → lexRun .normal x.str.toList = (v, .normal)) :
    FlatItem C (some v) (.text x) ∧ OpenItem C (some v) (.text x) :=
  item_of_fstep trivial trivial trivial (FStep.text h)

theorem lex_plain {l : List Char} (h : ∀ c ∈ l, isJsonSpace c = false ∧ c ≠ '"' ∧ c ≠ '/') :
    lexRun .normal l = (l, .normal) := by
  induction l with
  | nil => rfl
  | cons c l ih =>
    obtain ⟨h1, h2, h3⟩ := h c (by simp)
    have hs : lexStep .normal c = ([c], .normal) := by simp [lexStep, h1, h2, h3]
    simp only [lexRun, hs, ih fun c hc => h c (by simp [hc])]
    rfl

theorem string_good {id : Nat} {s : String} {z} (h : C → Quotable s) :
    Good sw C (some ('"' :: s.toList ++ ['"'])) (.text s id jsonStringN default [] false z) := by
  refine good_of_tree rfl fun c _ => ?_
  have : FlatItem C (some ('"' :: s.toList ++ ['"'])) (jsonStringN.1.tree (P := basicDoc sw) (.text s id jsonStringN default [] false z)
      (docKid (basicLaw sw) (.text s id jsonStringN default [] false z)) none c) ∧
    OpenItem C (some ('"' :: s.toList ++ ['"'])) (jsonStringN.1.tree (P := basicDoc sw) (.text s id jsonStringN default [] false z)
      (docKid (basicLaw sw) (.text s id jsonStringN default [] false z)) none c) := by
    refine item_of_fstep (nt := .concat (.concat (.text _) (.text _)) (.text _)) ⟨⟨trivial, trivial⟩, trivial⟩
      ⟨⟨trivial, trivial⟩, trivial⟩ ⟨⟨trivial, trivial⟩, trivial⟩ ?_
    refine FStep.concat (out := ['"'] ++ s.toList) (out' := ['"']) (s1 := .str)
      (FStep.concat (out := ['"']) (s1 := .str) (FStep.text fun _ => lex_open_quote) (FStep.text fun hC => h hC)) (FStep.text fun _ => lex_close_quote)
  exact ⟨fun _ => this.1, fun _ => this.2⟩

/-- The words of a comment have no white space in them and are not empty. -/
theorem splitWhitespace_words (l : List Char) : ∀ cur : List Char, (∀ c ∈ cur, isWhitespace c = false) →
    ∀ w ∈ splitWhitespace cur l, w ≠ [] ∧ ∀ c ∈ w, isWhitespace c = false := by
  induction l with
  | nil =>
    intro cur hcur w hw
    simp only [splitWhitespace] at hw
    split at hw
    · simp at hw
    · simp only [List.mem_singleton] at hw
      subst hw
      exact ⟨by assumption, hcur⟩
  | cons c l ih =>
    intro cur hcur w hw
    simp only [splitWhitespace] at hw
    split at hw
    · split at hw
      · exact ih [] (by simp) w hw
      · rcases List.mem_cons.1 hw with rfl | hw
        · exact ⟨by assumption, hcur⟩
        · exact ih [] (by simp) w hw
    · rename_i hc
      refine ih _ ?_ w hw
      intro d hd
      rcases List.mem_append.1 hd with hd | hd
      · exact hcur d hd
      · simp at hd; subst hd; simpa using hc

theorem lex_comment {l : List Char} (h : ∀ c ∈ l, isWhitespace c = false) : lexRun .comment l = ([], .comment) := by
  induction l with
  | nil => rfl
  | cons c l ih =>
    have hc : c ≠ '\n' := by
      rintro rfl
      exact absurd (h '\n' (by simp)) (by decide)
    have hs : lexStep .comment c = ([], .comment) := by simp [lexStep, hc]
    simp only [lexRun, hs, ih fun c hc => h c (by simp [hc])]
    rfl

/-- Reading a line break and the indentation inside of a comment. -/
theorem lex_comment_newline {P : PrettyDoc} {ind : List (Segment P)} {w : Nat} {s : P.Style} (h : Blank ind) :
    lexRun .comment ('\n' :: (segsString (ind ++ [⟨"// ", w, s⟩])).toList) = ([], .comment) := by
  have h1 := lex_newline (P := P) (s := .comment) (.inr rfl) h
  have h2 : '\n' :: (segsString (ind ++ [⟨"// ", w, s⟩])).toList =
      ('\n' :: (segsString ind).toList) ++ "// ".toList := by
    simp [segsString_toList]
  rw [h2, lexRun_append, h1]
  rfl

/-- The words of a comment, with blanks or line breaks between them. -/
theorem comment_seq {P : PrettyDoc} {kids seps : Nat → NTree P} (n : Nat)
    (h : ∀ i, i ≤ n → (kids i).NoFail ∧ FStep C false .comment (kids i) false .comment [])
    (hs : ∀ i, i < n → (seps i).NoFail ∧ FStep C false .comment (seps i) false .comment []) :
    let t := iter (kids 0) (fun k acc => .concat (.concat acc (seps k)) (kids (k + 1))) n
    t.NoFail ∧ FStep C false .comment t false .comment [] := by
  induction n with
  | zero => exact h 0 (Nat.le_refl _)
  | succ n ih =>
    obtain ⟨a1, a2⟩ := ih (fun i hi => h i (by omega)) (fun i hi => hs i (by omega))
    obtain ⟨b1, b2⟩ := hs n (by omega)
    obtain ⟨c1, c2⟩ := h (n + 1) (Nat.le_refl _)
    exact ⟨⟨⟨a1, b1⟩, c1⟩, (a2.concat b2).concat c2⟩

theorem iter_choiceFree {P : PrettyDoc} {kids seps : Nat → NTree P} (n : Nat)
    (h : ∀ i, i ≤ n → (kids i).ChoiceFree ∧ (kids i).NoNl) (hs : ∀ i, i < n → (seps i).ChoiceFree ∧ (seps i).NoNl) :
    let t := iter (kids 0) (fun k acc => .concat (.concat acc (seps k)) (kids (k + 1))) n
    t.ChoiceFree ∧ t.NoNl := by
  induction n with
  | zero => exact h 0 (Nat.le_refl _)
  | succ n ih =>
    obtain ⟨a1, a2⟩ := ih (fun i hi => h i (by omega)) (fun i hi => hs i (by omega))
    obtain ⟨b1, b2⟩ := hs n (by omega)
    obtain ⟨c1, c2⟩ := h (n + 1) (Nat.le_refl _)
    exact ⟨⟨⟨a1, b1⟩, c1⟩, ⟨⟨a2, b2⟩, c2⟩⟩

/-- The body of a comment. -/
theorem commentBody_good {words : List (List Char)} (hw : ∀ w ∈ words, ∀ c ∈ w, isWhitespace c = false)
    {node : Tree BasicStyle} {cs : List (Tree BasicStyle)} (hnode : node.children? = some cs)
    (hcs : cs.length = words.length)
    (hkids : ∀ (i : Nat) word, words[i]? = some word → ∀ c : Ctx (basicDoc sw), ∃ x id, x.str = String.ofList word ∧
      docKid (basicLaw sw) node i c = .child i (.ok id) (.text x))
    (hchild : ∀ i, i < cs.length → ∃ ch, (basicDoc sw).childAt node i = .ok ch)
    (c : Ctx (basicDoc sw)) (hb : ∃ ind w s, Blank ind ∧ c.indent = ind ++ [⟨"// ", w, s⟩]) :
    let t := jsonCommentBody.tree (P := basicDoc sw) node (docKid (basicLaw sw) node) none c
    t.NoFail ∧ FStep C false .comment t false .comment [] ∧ (c.flat = true → t.ChoiceFree ∧ t.NoNl) := by
  have hnum : (basicDoc sw).numChildren node = .ok (some cs.length) := by simp [hnode]
  have hk : ∀ i, i < cs.length → ∀ c : Ctx (basicDoc sw), (docKid (basicLaw sw) node i c).NoFail ∧
      FStep C false .comment (docKid (basicLaw sw) node i c) false .comment [] ∧
      (docKid (basicLaw sw) node i c).ChoiceFree ∧ (docKid (basicLaw sw) node i c).NoNl := by
    intro i hi c
    obtain ⟨x, id, hx, he⟩ := hkids i _ (List.getElem?_eq_getElem (by omega : i < words.length)) c
    rw [he]
    refine ⟨⟨⟨id, rfl⟩, trivial⟩, FStep.child (FStep.text fun _ => ?_), trivial, trivial⟩
    rw [hx]
    simpa using lex_comment (hw _ (List.getElem_mem (by omega : i < words.length)))
  match hn : cs.length with
  | 0 =>
    rw [hn] at hnum
    have := count_zero_tree (P := basicDoc sw) (kid := docKid (basicLaw sw) node) (env := none) (z := .focusMark)
      (o := .child 0) (m := .fold (.child 0) (.left + (.literal " " ||| .newline) + .right)) hnum c
    simp only [jsonCommentBody]
    rw [this]
    exact ⟨trivial, FStep.mark, fun _ => ⟨trivial, trivial⟩⟩
  | 1 =>
    rw [hn] at hnum
    have := count_one_tree (P := basicDoc sw) (kid := docKid (basicLaw sw) node) (env := none) (z := .focusMark)
      (o := .child 0) (m := .fold (.child 0) (.left + (.literal " " ||| .newline) + .right)) hnum c
    simp only [jsonCommentBody]
    rw [this, child_zero_tree (P := basicDoc sw) hnum]
    obtain ⟨h1, h2, h3, h4⟩ := hk 0 (by omega) c
    exact ⟨h1, h2, fun _ => ⟨h3, h4⟩⟩
  | n + 2 =>
    rw [hn] at hnum
    have hcount := count_many_tree (P := basicDoc sw) (kid := docKid (basicLaw sw) node) (env := none) (z := .focusMark)
      (o := .child 0) (m := .fold (.child 0) (.left + (.literal " " ||| .newline) + .right)) hnum c
    let x : Textual (basicDoc sw) := ⟨" ", sw " ", c.style, false⟩
    let sep : NTree (basicDoc sw) := if c.flat then .text x else .choice (.text x) (.newline c.indent)
    have hfold := fold_tree (P := basicDoc sw) (kid := docKid (basicLaw sw) node) (first := .child 0)
      (join := .left + (.literal " " ||| .newline) + .right) (env := none) hnum
      (fun i hi => hchild i (by omega)) c
      (fun k acc => .concat (.concat acc sep) (docKid (basicLaw sw) node (k + 1) c)) (fun acc k _ => rfl)
    rw [child_zero_tree (P := basicDoc sw) (env := none) hnum] at hfold
    simp only [jsonCommentBody]
    rw [hcount, hfold]
    have hsepOk : sep.NoFail ∧ FStep C false .comment sep false .comment [] := by
      simp only [sep]
      have h1 : FStep C false .comment (.text x) false .comment [] := FStep.text fun _ => lex_space
      split
      · exact ⟨trivial, h1⟩
      · refine ⟨⟨trivial, trivial⟩, FStep.choice h1 (FStep.newline fun _ => ?_)⟩
        obtain ⟨ind, w, s, g1, g2⟩ := hb
        rw [g2]
        exact lex_comment_newline g1
    obtain ⟨r1, r2⟩ := comment_seq (C := C) (kids := fun i => docKid (basicLaw sw) node i c) (seps := fun _ => sep) (n + 1)
      (fun i hi => ⟨(hk i (by omega) c).1, (hk i (by omega) c).2.1⟩) (fun _ _ => hsepOk)
    refine ⟨r1, r2, fun hf => ?_⟩
    refine iter_choiceFree (kids := fun i => docKid (basicLaw sw) node i c) (seps := fun _ => sep) (n + 1)
      (fun i hi => (hk i (by omega) c).2.2) (fun _ _ => ?_)
    simp only [sep, hf, if_true]
    exact ⟨trivial, trivial⟩

/-- A text node is shown as its text. -/
theorem kid_text {node : Tree BasicStyle} {i : Nat} {s id z} {notn : TreeNotation} (hn : notn.1 = .text)
    (h : (basicDoc sw).childAt node i = .ok (.text s id notn default [] false z)) (c : Ctx (basicDoc sw)) :
    ∃ x id, x.str = s ∧ docKid (basicLaw sw) node i c = .child i (.ok id) (.text x) := by
  refine ⟨⟨s, sw s, enterStyle (P := basicDoc sw) (some c.style) default, true⟩, id, rfl, ?_⟩
  refine docKid_of (basicLaw sw) h ?_
  rw [docTree_of (basicLaw sw) (a := .text) (s := default) (by simp [Tree.notn, hn]) rfl]
  rfl

theorem comment_good {e : Json} (he : e.isComment = true) {t : Tree BasicStyle}
    (ht : t.setNeedsSeparator = e.build.setNeedsSeparator) : Good sw C none t := by
  cases e with
  | comment id wordIds s =>
    let words := splitWhitespace [] s.toList
    let cs : List (Tree BasicStyle) := words.mapIdx fun i word => Tree.newText (wordIds i) jsonWordN (String.ofList word)
    obtain ⟨z, rfl⟩ : ∃ z, t = .branch (markSeparators cs).1 id jsonCommentN default [] true z := by
      apply branch_of_set (y := false)
      rw [ht]
      rfl
    have hlen : (markSeparators cs).1.length = words.length := by
      rw [markSeparators_length]; simp [cs]
    refine good_of_tree rfl fun c hb => ?_
    have hch : ∀ (i : Nat) word, words[i]? = some word → ∃ z', (basicDoc sw).childAt
        (.branch (markSeparators cs).1 id jsonCommentN default [] true z) i =
          .ok (.text (String.ofList word) (wordIds i) jsonWordN default [] false z') := by
      intro i word hi
      have hget : cs[i]? = some (Tree.newText (wordIds i) jsonWordN (String.ofList word)) := by
        simp [cs, List.getElem?_mapIdx, hi]
      have hm := markSeparators_get cs i _ hget
      split at hm
      · exact ⟨true, basic_childAt hm⟩
      · exact ⟨false, basic_childAt hm⟩
    have key := commentBody_good (sw := sw) (C := C) (words := words)
      (fun w hw => (splitWhitespace_words s.toList [] (by simp) w hw).2)
      (node := .branch (markSeparators cs).1 id jsonCommentN default [] true z) rfl hlen
      (fun i word hi c => by
        obtain ⟨z', h⟩ := hch i word hi
        exact kid_text rfl h c)
      (fun i hi => by
        obtain ⟨z', h⟩ := hch i _ (List.getElem?_eq_getElem (by omega : i < words.length))
        exact ⟨_, h⟩)
      { c with
        style := BasicStyle.combine c.style (BasicStyle.fromLabel "yellow"),
        indent := c.indent ++ [⟨"// ", sw "// ", BasicStyle.combine c.style (BasicStyle.fromLabel "yellow")⟩] }
      ⟨_, _, _, hb, rfl⟩
    obtain ⟨k1, k2, k3⟩ := key
    have hstep := (FStep.concat (FStep.text (C := C) (P := basicDoc sw) (s0 := .normal) (s1 := .comment) (out := [])
        (x := ⟨"// ", sw "// ", BasicStyle.combine c.style (BasicStyle.fromLabel "yellow"), false⟩) fun _ => lex_slashes) k2).concat
        FStep.eol
    constructor
    · intro hf
      exact ⟨⟨⟨trivial, k1⟩, trivial⟩, ⟨⟨trivial, (k3 hf).1⟩, trivial⟩, ⟨⟨trivial, (k3 hf).2⟩, trivial⟩, .inr hstep⟩
    · intro _
      exact ⟨⟨⟨trivial, k1⟩, trivial⟩, hstep.step⟩
  | _ => simp [Json.isComment] at he

/-- A key-value pair. -/
theorem pair_good {id keyId : Nat} {key : String} {v : Json} (hk : C → Quotable key)
    (hv : ∀ t, t.setNeedsSeparator = v.build.setNeedsSeparator → Good sw C (some v.compact) t)
    {t : Tree BasicStyle} (ht : t.setNeedsSeparator = (Json.pair id keyId key v).build.setNeedsSeparator) :
    Good sw C (some (Json.pair id keyId key v).compact) t := by
  let cs : List (Tree BasicStyle) := [jsonString keyId key, v.build]
  obtain ⟨z, rfl⟩ : ∃ z, t = .branch (markSeparators cs).1 id jsonPairN default [] false z := by
    apply branch_of_set (y := false)
    rw [ht]
    simp only [Json.build]
    rfl
  refine good_of_tree rfl fun c hb => ?_
  obtain ⟨z0, h0⟩ : ∃ z', (basicDoc sw).childAt (.branch (markSeparators cs).1 id jsonPairN default [] false z) 0 =
      .ok (.text key keyId jsonStringN default [] false z') := by
    have hm := markSeparators_get cs 0 (jsonString keyId key) rfl
    split at hm
    · exact ⟨true, basic_childAt hm⟩
    · exact ⟨false, basic_childAt hm⟩
  obtain ⟨v', hv', h1⟩ : ∃ v', v'.setNeedsSeparator = v.build.setNeedsSeparator ∧
      (basicDoc sw).childAt (.branch (markSeparators cs).1 id jsonPairN default [] false z) 1 = .ok v' := by
    have hm := markSeparators_get cs 1 v.build rfl
    refine ⟨_, ?_, basic_childAt hm⟩
    split
    · cases v.build <;> rfl
    · rfl
  obtain ⟨a1, a2⟩ := (string_good (sw := sw) (C := C) hk).kid h0
  obtain ⟨b1, b2⟩ := (hv v' hv').kid h1
  have hnum : (basicDoc sw).numChildren (.branch (markSeparators cs).1 id jsonPairN default [] false z) = .ok (some 2) := by
    simp [Tree.children?, markSeparators_length, cs]
  have hc1 : ∀ kid, (Notation.child 1 : Notation String TreeCondition).tree (P := basicDoc sw)
      (.branch (markSeparators cs).1 id jsonPairN default [] false z) kid none c = kid 1 c := by
    intro kid
    exact child_one_tree (P := basicDoc sw) hnum c
  have htree : jsonPairN.1.tree (P := basicDoc sw) (.branch (markSeparators cs).1 id jsonPairN default [] false z)
      (docKid (basicLaw sw) (.branch (markSeparators cs).1 id jsonPairN default [] false z)) none c =
      .concat (.concat (docKid (basicLaw sw) (.branch (markSeparators cs).1 id jsonPairN default [] false z) 0 c)
        (.text ⟨": ", sw ": ", c.style, false⟩))
        (docKid (basicLaw sw) (.branch (markSeparators cs).1 id jsonPairN default [] false z) 1 c) := by
    rw [← child_zero_tree (P := basicDoc sw) (env := none) (kid := docKid (basicLaw sw) (.branch (markSeparators cs).1 id jsonPairN default [] false z)) hnum c,
      ← hc1 (docKid (basicLaw sw) (.branch (markSeparators cs).1 id jsonPairN default [] false z))]
    rfl
  change (c.flat = true → FlatItem C _ (jsonPairN.1.tree _ _ none c)) ∧ (c.flat = false → OpenItem C _ (jsonPairN.1.tree _ _ none c))
  rw [htree]
  have hcolon : FStep C (P := basicDoc sw) false .normal (.text ⟨": ", sw ": ", c.style, false⟩) false .normal [':'] :=
    FStep.text fun _ => lex_colon
  have hcomp : (Json.pair id keyId key v).compact = ('"' :: key.toList ++ ['"']) ++ [':'] ++ v.compact := by
    simp [Json.compact]
  rw [hcomp]
  constructor
  · intro hf
    have a := a1 c hf hb
    have b := b1 c hf hb
    refine ⟨⟨⟨a.noFail, trivial⟩, b.noFail⟩, ⟨⟨a.choiceFree, trivial⟩, b.choiceFree⟩, ⟨⟨a.noNl, trivial⟩, b.noNl⟩, ?_⟩
    rcases a.run with ha | ha
    · exact .inl ha.concat_left.concat_left
    · rcases b.run with hb | hb
      · exact .inl (DeadEnd.concat_right (FStep.concat ha hcolon) rfl rfl hb)
      · exact .inr ((FStep.concat ha hcolon).concat hb)
  · intro hf
    have a := a2 c hf hb
    have b := b2 c hf hb
    exact ⟨⟨⟨a.noFail, trivial⟩, b.noFail⟩, (Step.concat a.run hcolon.step).concat b.run⟩

/-- JSON values display their text. -/
theorem value_good {okString okNumber : String → Prop} (hS : ∀ s, okString s → C → Quotable s)
    (hN : ∀ s, okNumber s → C → PlainNumber s) {e : Json} (h : e.Value okString okNumber) :
    ∀ t : Tree BasicStyle, t.setNeedsSeparator = e.build.setNeedsSeparator → Good sw C (some e.compact) t := by
  induction h with
  | null id =>
    intro t ht
    obtain ⟨z, rfl⟩ := branch_of_set (y := false) (cs := []) (id := id) (n := jsonNullN) (st := default) (o := []) (c := false) ht
    refine good_of_tree rfl fun c _ => ?_
    have := text_good (sw := sw) (C := C) (x := ⟨"null", sw "null", BasicStyle.combine c.style (BasicStyle.fromLabel "green_bold"), false⟩)
      (v := "null".toList) fun _ => lex_null
    exact ⟨fun _ => this.1, fun _ => this.2⟩
  | bool id b =>
    intro t ht
    cases b with
    | true =>
      obtain ⟨z, rfl⟩ := branch_of_set (y := false) (cs := []) (id := id) (n := jsonTrueN) (st := default) (o := []) (c := false) ht
      refine good_of_tree rfl fun c _ => ?_
      have := text_good (sw := sw) (C := C) (x := ⟨"true", sw "true", BasicStyle.combine c.style (BasicStyle.fromLabel "green_bold"), false⟩)
        (v := "true".toList) fun _ => lex_true
      exact ⟨fun _ => this.1, fun _ => this.2⟩
    | false =>
      obtain ⟨z, rfl⟩ := branch_of_set (y := false) (cs := []) (id := id) (n := jsonFalseN) (st := default) (o := []) (c := false) ht
      refine good_of_tree rfl fun c _ => ?_
      have := text_good (sw := sw) (C := C) (x := ⟨"false", sw "false", BasicStyle.combine c.style (BasicStyle.fromLabel "green_bold"), false⟩)
        (v := "false".toList) fun _ => lex_false
      exact ⟨fun _ => this.1, fun _ => this.2⟩
  | @string id s hs =>
    intro t ht
    obtain ⟨z, rfl⟩ := text_of_set (y := false) (s := s) (id := id) (n := jsonStringN) (st := default) (o := []) (c := false) ht
    exact string_good (hS s hs)
  | @number id s hs =>
    intro t ht
    obtain ⟨z, rfl⟩ := text_of_set (y := false) (s := s) (id := id) (n := jsonNumberN) (st := default) (o := []) (c := false) ht
    refine good_of_tree rfl fun c _ => ?_
    have := text_good (sw := sw) (C := C) (x := ⟨s, sw s, BasicStyle.combine c.style (BasicStyle.fromLabel "blue"), true⟩)
      (v := s.toList) fun hC => lex_plain (hN s hs hC)
    exact ⟨fun _ => this.1, fun _ => this.2⟩
  | @array id es hes ih =>
    intro t ht
    obtain ⟨z, rfl⟩ : ∃ z, t = .branch (markSeparators (Json.builds es)).1 id jsonArrayN default [] false z := by
      apply branch_of_set (y := false)
      rw [ht]
      simp only [Json.build]
      rfl
    have := bracketN_good (sw := sw) (C := C) (l := '[') (r := ']') rfl rfl (notn := jsonArrayN) rfl (es := es) (id := id) (y := z) (by
      intro e he t ht
      cases hc : e.isComment with
      | true => simpa [Json.item, hc] using comment_good hc ht
      | false => simpa [Json.item, hc] using ih e he hc t ht)
    simpa [Json.compact] using this
  | @object id es hpair hkey hval ih =>
    intro t ht
    obtain ⟨z, rfl⟩ : ∃ z, t = .branch (markSeparators (Json.builds es)).1 id jsonObjectN default [] false z := by
      apply branch_of_set (y := false)
      rw [ht]
      simp only [Json.build]
      rfl
    have := bracketN_good (sw := sw) (C := C) (l := '{') (r := '}') rfl rfl (notn := jsonObjectN) rfl (es := es) (id := id) (y := z) (by
      intro e he t ht
      cases hc : e.isComment with
      | true => simpa [Json.item, hc] using comment_good hc ht
      | false =>
        have hp := hpair e he hc
        cases e with
        | pair pid keyId key v =>
          simpa [Json.item, hc] using pair_good (sw := sw) (C := C) (hS key (hkey pid keyId key v he)) (ih pid keyId key v he) ht
        | _ => simp [Json.isPair] at hp)
    simpa [Json.compact] using this

end PPP
