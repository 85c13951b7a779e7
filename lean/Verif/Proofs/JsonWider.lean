import Verif.Proofs.JsonLines
import Verif.Proofs.Fill
import Verif.Props.Wrap
/-
The lines of a JSON document at two widths.
-/
namespace PPP
variable {sw : String → Nat} {w w' : Nat} {okString okNumber : String → Prop}

/-! ### Filling at two widths -/

theorem full_line {a sp : Nat} : ∀ {ls : List (List Word)}, Full w a a sp ls → ∀ l ∈ ls, wordCols a sp l ≤ w ∨ l.length = 1
  | [], _, l, hl => by simp at hl
  | [m], h, l, hl => by
    simp only [List.mem_singleton] at hl
    subst hl
    exact h
  | m :: m' :: ls, h, l, hl => by
    rcases List.mem_cons.1 hl with rfl | hl
    · exact h.1
    · exact full_line h.2.2 l hl

theorem fill_line {a sp : Nat} (xs : List Word) (l : List Word) (hl : l ∈ fill w a a sp xs) :
    wordCols a sp l ≤ w ∨ l.length = 1 :=
  full_line (C68_fill_iff xs _ |>.1 rfl).2.2 l hl

theorem fill_le_of_le {a sp : Nat} (hw : w ≤ w') (xs : List Word) : (fill w' a a sp xs).length ≤ (fill w a a sp xs).length := by
  have h := (C68_fill_iff (w := w) (first := a) (start := a) (space := sp) xs _).1 rfl
  refine C68_fewest_lines xs _ h.1 fun i l hl => ?_
  have := fill_line xs l (List.mem_of_getElem? hl)
  split <;> omega

/-- A word that is too wide for a line has a line of its own. -/
theorem fillFrom_wide {a sp : Nat} {x : Word} (hx : ¬ a + x.width ≤ w) (xs : List Word) : ∀ (col : Nat) (line : List Word), a ≤ col →
    (x ∈ xs ∨ (line = [x] ∧ col = a + x.width)) → [x] ∈ fillFrom w a sp col line xs := by
  induction xs with
  | nil =>
    intro col line _ h
    rcases h with h | ⟨h, _⟩
    · simp at h
    · simp [fillFrom, h]
  | cons y ys ih =>
    intro col line hc h
    simp only [fillFrom]
    rcases h with h | ⟨h1, h2⟩
    · split
      · rename_i hf
        rcases List.mem_cons.1 h with rfl | h
        · omega
        · exact ih _ _ (by omega) (.inl h)
      · refine List.mem_cons_of_mem _ (ih _ _ (by omega) ?_)
        rcases List.mem_cons.1 h with rfl | h
        · exact .inr ⟨rfl, rfl⟩
        · exact .inl h
    · rw [if_neg (by omega), h1]
      exact List.mem_cons_self ..

theorem fill_wide {a sp : Nat} (hw : w ≤ w') (xs : List Word) (l : List Word) (hl : l ∈ fill w' a a sp xs)
    (hwide : w' < wordCols a sp l) : l ∈ fill w a a sp xs := by
  have h1 : l.length = 1 := (fill_line xs l hl).resolve_left (by omega)
  obtain ⟨x, rfl⟩ := List.length_eq_one_iff.1 h1
  rw [wordCols_one] at hwide
  have hx : x ∈ xs := by
    have := ((C68_fill_iff (w := w') (first := a) (start := a) (space := sp) xs _).1 rfl).1
    rw [← this]
    exact List.mem_flatten.2 ⟨_, hl, by simp⟩
  cases xs with
  | nil => simp at hx
  | cons y ys =>
    refine fillFrom_wide (by omega) ys _ _ (by omega) ?_
    rcases List.mem_cons.1 hx with rfl | h
    · exact .inr ⟨rfl, rfl⟩
    · exact .inl h

/-! ### Newlines in the text -/

/-- How many newlines there are in a text. -/
def nls (s : String) : Nat := s.toList.count '\n'

theorem nls_append (a b : String) : nls (a ++ b) = nls a + nls b := by
  simp [nls]

theorem nls_word (a b : Word) : nls (a ++ b).str = nls a.str + nls b.str := nls_append ..

theorem nls_piece (s : String) : nls (piece sw s).str = nls s := rfl

theorem nls_none : nls Word.none.str = 0 := by decide

/-- How many newlines there are in the texts of some lines. -/
def nlsAll (L : List Word) : Nat := (L.map fun l => nls l.str).sum

theorem nlsAll_nil : nlsAll [] = 0 := rfl
theorem nlsAll_cons (l : Word) (L : List Word) : nlsAll (l :: L) = nls l.str + nlsAll L := by simp [nlsAll]
theorem nlsAll_append (L M : List Word) : nlsAll (L ++ M) = nlsAll L + nlsAll M := by simp [nlsAll]

theorem nls_indent (k : Nat) : nls (levelIndent sw k).str = 0 := by
  induction k with
  | zero => exact nls_none
  | succ k ih =>
    rw [levelIndent, nls_word, ih, nls_piece]
    decide

theorem nls_quoted (s : String) : nls (quoted sw s).str = nls s := by
  unfold quoted
  rw [nls_word, nls_word]
  have : nls (piece sw "\"").str = 0 := by simp [nls, piece]
  rw [this]
  simp [piece]

theorem nls_lines (L : List String) (h : L ≠ []) : nls ("\n".intercalate L) + 1 = (L.map nls).sum + L.length := by
  induction L with
  | nil => exact absurd rfl h
  | cons a L ih =>
    cases L with
    | nil => simp
    | cons b L =>
      have := ih (by simp)
      rw [intercalate_cons_cons, nls_append, nls_append]
      have e : nls "\n" = 1 := by decide
      simp only [List.map_cons, List.sum_cons, List.length_cons] at this ⊢
      omega

/-! ### The lines at two widths -/

/-- The lines `L` of a smaller width, and the lines `L'` of the width `w'`. -/
structure Wider (w' : Nat) (L L' : List Word) : Prop where
  fewer : L'.length ≤ L.length
  wide : ∀ l ∈ L', w' < l.width → l ∈ L
  nls : nlsAll L' = nlsAll L

theorem Wider.refl {L : List Word} : Wider w' L L := ⟨Nat.le_refl _, fun _ h _ => h, rfl⟩

theorem Wider.append {L L' M M' : List Word} (h : Wider w' L L') (k : Wider w' M M') : Wider w' (L ++ M) (L' ++ M') where
  fewer := by have := h.fewer; have := k.fewer; simp; omega
  wide l hl hw := by
    rcases List.mem_append.1 hl with hl | hl
    · exact List.mem_append_left _ (h.wide l hl hw)
    · exact List.mem_append_right _ (k.wide l hl hw)
  nls := by rw [nlsAll_append, nlsAll_append, h.nls, k.nls]

/-- A line of a comment. -/
def commentLine (sw : String → Nat) (pre : Word) (l : List Word) : Word :=
  ⟨(wordLine pre (sw " ") l).1, (wordLine pre (sw " ") l).2⟩

theorem commentLines_eq (ind : Word) (s : String) : commentLines sw w ind ind s =
    match (splitWhitespace [] s.toList).map fun x => piece sw (String.ofList x) with
    | [] => [ind ++ piece sw "// "]
    | x :: xs => (fill w (ind ++ piece sw "// ").width (ind ++ piece sw "// ").width (sw " ") (x :: xs)).map
        (commentLine sw (ind ++ piece sw "// ")) := by
  unfold commentLines
  generalize (splitWhitespace [] s.toList).map (fun x => piece sw (String.ofList x)) = ws
  cases ws with
  | nil => rfl
  | cons x xs =>
    dsimp only
    generalize ind ++ piece sw "// " = p
    obtain ⟨l, ls, hl⟩ := fillFrom_cons w p.width (sw " ") xs (p.width + x.width) [x]
    simp only [fill]
    rw [hl]
    simp only [wordLines, linesCols, List.zipWith_cons_cons, List.map_cons]
    refine congrArg (List.cons _) ?_
    induction ls with
    | nil => rfl
    | cons a ls ih => simp [commentLine, wordLine] at ih ⊢

theorem nls_words (l : List Word) (h : ∀ x ∈ l, nls x.str = 0) : nls (" ".intercalate (l.map Word.str)) = 0 := by
  induction l with
  | nil => decide
  | cons a l ih =>
    cases l with
    | nil => simpa using h a (by simp)
    | cons b l =>
      have := ih fun x hx => h x (by simp [hx])
      rw [List.map_cons, List.map_cons, intercalate_cons_cons, nls_append, nls_append, h a (by simp)]
      have e : nls " " = 0 := by decide
      rw [List.map_cons] at this
      omega

theorem comment_nls (k : Nat) (s : String) : nlsAll (commentLines sw w (levelIndent sw k) (levelIndent sw k) s) = 0 := by
  rw [commentLines_eq]
  have h0 : nls (levelIndent sw k ++ piece sw "// ").str = 0 := by
    rw [nls_word, nls_indent, nls_piece]
    decide
  have hw : ∀ x ∈ (splitWhitespace [] s.toList).map (fun x => piece sw (String.ofList x)), nls x.str = 0 := by
    intro x hx
    obtain ⟨y, hy, rfl⟩ := List.mem_map.1 hx
    have := (splitWhitespace_words s.toList [] (by simp) y hy).2
    simp only [nls, piece, String.toList_ofList]
    rw [List.count_eq_zero]
    intro hm
    have := this _ hm
    simp [isWhitespace] at this
  split
  · rw [nlsAll_cons, nlsAll_nil, h0]
  · rename_i x xs e
    rw [e] at hw
    have hfl := ((C68_fill_iff (w := w) (first := (levelIndent sw k ++ piece sw "// ").width)
      (start := (levelIndent sw k ++ piece sw "// ").width) (space := sw " ") (x :: xs) _).1 rfl).1
    generalize fill w _ _ (sw " ") (x :: xs) = ls at hfl ⊢
    unfold nlsAll
    rw [List.sum_eq_zero_iff_forall_eq_nat]
    intro n hn
    simp only [List.map_map, List.mem_map, Function.comp] at hn
    obtain ⟨l, hl, rfl⟩ := hn
    rw [show (commentLine sw (levelIndent sw k ++ piece sw "// ") l).str =
      (levelIndent sw k ++ piece sw "// ").str ++ " ".intercalate (l.map Word.str) from rfl, nls_append, h0, nls_words]
    intro y hy
    refine hw y ?_
    rw [← hfl]
    exact List.mem_flatten.2 ⟨_, hl, hy⟩

theorem comment_wider (hw : w ≤ w') (k : Nat) (s : String) : Wider w' (commentLines sw w (levelIndent sw k) (levelIndent sw k) s)
    (commentLines sw w' (levelIndent sw k) (levelIndent sw k) s) := by
  refine ⟨?_, ?_, by rw [comment_nls, comment_nls]⟩
  · rw [commentLines_eq, commentLines_eq]
    split
    · simp
    · simp only [List.length_map]
      exact fill_le_of_le hw _
  · rw [commentLines_eq, commentLines_eq]
    split
    · intro l hl _; exact hl
    · intro l hl hlw
      obtain ⟨m, hm, rfl⟩ := List.mem_map.1 hl
      exact List.mem_map.2 ⟨m, fill_wide hw _ _ hm hlw, rfl⟩

theorem bracketLines_ne (pre post ind l r : Word) (one : Option Word) (inner : List Word) :
    bracketLines w pre post ind l r one inner ≠ [] := by
  unfold bracketLines
  split
  · split <;> simp
  · simp

/-- An entry of an array or of an object: a comment, a value, or a pair. -/
theorem Json.Item.kid {l r : String} {es : List Json} {e : Json} {id : Nat} (hg : e.IsGroup l r es id)
    (hit : e.Item okString okNumber) : ∀ x ∈ es, x.Item okString okNumber := by
  intro x hx
  by_cases hc : x.isComment = true
  · exact .inl hc
  · simp only [Bool.not_eq_true] at hc
    cases hg with
    | array h1 h2 =>
      rcases hit with h | h | ⟨_, _, _, _, h, _⟩
      · cases h
      · cases h with
        | array _ h => exact .inr (.inl (h x hx hc))
      · cases h
    | object h1 h2 =>
      rcases hit with h | h | ⟨_, _, _, _, h, _⟩
      · cases h
      · cases h with
        | object _ h1 h2 h3 =>
          have := h1 x hx hc
          cases x with
          | pair pid keyId key v => exact .inr (.inr ⟨_, _, _, _, rfl, h3 _ _ _ _ hx⟩)
          | _ => simp [Json.isPair] at this
      · cases h

theorem nls_comma (b : Prop) [Decidable b] : nls (if b then piece sw "," else Word.none).str = 0 := by
  split
  · rw [nls_piece]; decide
  · decide

theorem oneLine_nls {x : Word} {e : Json} (h : e.oneLine sw = some x) : ∀ (w k : Nat) (pre post : Word),
    nlsAll (e.lines sw w k pre post) = nls pre.str + nls x.str + nls post.str := by
  induction e using Json.induct generalizing x with
  | simple e he =>
    intro w k pre post
    cases e with
    | comment => rw [Json.oneLine] at h; cases h
    | roots => rw [Json.oneLine] at h; cases h
    | array => exact he.elim
    | object => exact he.elim
    | pair => exact he.elim
    | _ =>
      rw [Json.oneLine] at h
      cases h
      rw [Json.lines, nlsAll_cons, nlsAll_nil, nls_word, nls_word, Nat.add_zero]
  | pair id keyId key v ih =>
    intro w k pre post
    rw [Json.oneLine] at h
    obtain ⟨y, hy, rfl⟩ := Option.map_eq_some_iff.1 h
    rw [Json.lines, ih hy]
    simp only [nls_word]
    omega
  | group l r es e id hg ih =>
    intro w k pre post
    have h' := h
    rw [hg.oneLine] at h
    obtain ⟨y, hy, rfl⟩ := Option.map_eq_some_iff.1 h
    rw [hg.lines]
    have inner : ∀ (es : List Json) (y : Word) (k : Nat), (∀ x ∈ es, ∀ {z : Word}, x.oneLine sw = some z → ∀ (w k : Nat) (pre post : Word),
        nlsAll (x.lines sw w k pre post) = nls pre.str + nls z.str + nls post.str) →
        Json.oneLines sw es = some y → nlsAll (Json.entryLines sw w k es) = nls y.str := by
      intro es
      induction es with
      | nil =>
        intro y k _ hy
        rw [Json.oneLines] at hy
        cases hy
        rw [Json.entryLines]
        rfl
      | cons a es ihs =>
        intro y k hkid hy
        rw [Json.entryLines, nlsAll_append]
        cases es with
        | nil =>
          rw [Json.oneLines] at hy
          rw [hkid a (by simp) hy, nls_indent, nls_comma, Json.entryLines]
          simp [nlsAll]
        | cons b es =>
          rw [Json.oneLines] at hy
          obtain ⟨p, hp, hy⟩ := Option.bind_eq_some_iff.1 hy
          obtain ⟨q, hq, rfl⟩ := Option.map_eq_some_iff.1 hy
          rw [hkid a (by simp) hp, nls_indent, nls_comma, ihs q k (fun x hx => hkid x (by simp [hx])) hq]
          have : nls (piece sw ", ").str = 0 := by rw [nls_piece]; decide
          simp only [nls_word, this]
          omega
    have hin := inner es y (k + 1) (fun x hx {z} hz => by
      obtain ⟨i, hi⟩ := List.mem_iff_getElem?.1 hx
      exact ih i x hi hz) hy
    split
    · rename_i he
      simp only [List.isEmpty_iff] at he
      subst he
      rw [Json.oneLines] at hy
      cases hy
      simp only [nlsAll_cons, nlsAll_nil, nls_word, nls_none]
      omega
    · unfold bracketLines
      rw [h']
      dsimp only
      split
      · simp only [nlsAll_cons, nlsAll_nil, nls_word]
        omega
      · simp only [nlsAll_append, nlsAll_cons, nlsAll_nil, nls_word, hin, nls_indent]
        omega

/-- The lines of a wider page. -/
theorem lines_wider (hw : w ≤ w') {e : Json} (hit : e.Item okString okNumber) : ∀ (k : Nat) (pre post : Word),
    (e.isComment = true → pre = levelIndent sw k) →
    Wider w' (e.lines sw w k pre post) (e.lines sw w' k pre post) := by
  induction e using Json.induct with
  | simple e he =>
    intro k pre post hpre
    cases e with
    | comment id ids s =>
      cases hpre rfl
      rw [Json.lines, Json.lines]
      exact comment_wider hw k s
    | roots => rw [Json.lines, Json.lines]; exact .refl
    | array => exact he.elim
    | object => exact he.elim
    | pair => exact he.elim
    | _ => rw [Json.lines, Json.lines]; exact .refl
  | pair id keyId key v ih =>
    intro k pre post _
    rw [Json.lines, Json.lines]
    rcases hit with h | h | ⟨_, _, _, _, h, hv⟩
    · cases h
    · cases h
    · cases h
      exact ih (.inr (.inl hv)) _ _ _ (fun h => by rw [value_not_comment hv] at h; cases h)
  | group l r es e id hg ih =>
    intro k pre post _
    have hkid := hit.kid hg
    have inner : ∀ es' : List Json, (∀ x ∈ es', x ∈ es) →
        Wider w' (Json.entryLines sw w (k + 1) es') (Json.entryLines sw w' (k + 1) es') := by
      intro es'
      induction es' with
      | nil => intro _; rw [Json.entryLines, Json.entryLines]; exact .refl
      | cons a es' ihs =>
        intro hs
        rw [Json.entryLines, Json.entryLines]
        obtain ⟨i, hi⟩ := List.mem_iff_getElem?.1 (hs a (by simp))
        exact (ih i a hi (hkid a (hs a (by simp))) _ _ _ (fun _ => rfl)).append (ihs fun x hx => hs x (by simp [hx]))
    have hin := inner es fun _ h => h
    have hne : e.lines sw w k pre post ≠ [] := by
      rw [hg.lines]
      split
      · simp
      · exact bracketLines_ne _ _ _ _ _ _ _
    cases hone : e.oneLine sw with
    | none =>
      rw [hg.lines, hg.lines, hone]
      split
      · exact .refl
      · unfold bracketLines
        dsimp only
        exact ((Wider.refl (L := [_])).append hin).append .refl
    | some x =>
      have n1 := oneLine_nls hone w k pre post
      have n2 := oneLine_nls hone w' k pre post
      refine ⟨?_, ?_, by rw [n1, n2]⟩ <;> clear n1 n2
      · rw [hg.lines, hg.lines] at *
        split
        · simp
        · rename_i hempty
          rw [if_neg hempty] at hne
          unfold bracketLines at hne ⊢
          rw [hone] at hne ⊢
          dsimp only at hne ⊢
          by_cases hf : (pre ++ x ++ post).width ≤ w'
          · rw [if_pos hf]
            exact List.length_pos_iff.2 hne
          · rw [if_neg hf, if_neg (by omega)]
            have := hin.fewer
            simp
            omega
      · rw [hg.lines, hg.lines]
        split
        · intro l hl _; exact hl
        · unfold bracketLines
          rw [hone]
          dsimp only
          by_cases hf : (pre ++ x ++ post).width ≤ w'
          · rw [if_pos hf]
            intro l hl hlw
            simp only [List.mem_singleton] at hl
            subst hl
            omega
          · rw [if_neg hf, if_neg (by omega)]
            exact (((Wider.refl (L := [_])).append hin).append .refl).wide

theorem docLines_wider (hw : w ≤ w') {e : Json} (h : e.Document okString okNumber) :
    Wider w' (e.docLines sw w) (e.docLines sw w') := by
  cases h with
  | value h =>
    have : ∀ w, e.docLines sw w = e.lines sw w 0 .none .none := by
      intro w
      cases e with
      | roots => cases h
      | _ => rfl
    rw [this, this]
    exact lines_wider hw (.inr (.inl h)) _ _ _ fun _ => rfl
  | roots id h =>
    rename_i es
    have hi : ∀ x ∈ es, x.Item okString okNumber := by
      intro x hx
      by_cases hc : x.isComment = true
      · exact .inl hc
      · exact .inr (.inl (h x hx (by simpa using hc)))
    cases es with
    | nil => exact .refl
    | cons e es =>
      have hd : ∀ w, (Json.roots id (e :: es)).docLines sw w = (e :: es).flatMap (Json.lines sw w 0 .none .none) := fun _ => rfl
      rw [hd, hd]
      generalize e :: es = l at hi
      induction l with
      | nil => exact .refl
      | cons a l ih =>
        rw [List.flatMap_cons, List.flatMap_cons]
        exact (lines_wider hw (hi a (by simp)) _ _ _ fun _ => rfl).append (ih fun x hx => hi x (by simp [hx]))

/-! ### Lines that fit a smaller width -/

theorem full_of_fits {a sp : Nat} (hw : w ≤ w') : ∀ {ls : List (List Word)}, Full w' a a sp ls →
    (∀ l ∈ ls, wordCols a sp l ≤ w) → Full w a a sp ls
  | [], _, _ => trivial
  | [_], _, hl => .inl (hl _ (List.mem_cons_self ..))
  | _ :: _ :: _, h, hl =>
    ⟨.inl (hl _ (List.mem_cons_self ..)), fun x hx => by have := h.2.1 x hx; omega,
      full_of_fits hw h.2.2 fun l h => hl l (List.mem_cons_of_mem _ h)⟩

theorem comment_same (hw : w ≤ w') (k : Nat) (s : String)
    (h : ∀ l ∈ commentLines sw w' (levelIndent sw k) (levelIndent sw k) s, l.width ≤ w) :
    commentLines sw w (levelIndent sw k) (levelIndent sw k) s = commentLines sw w' (levelIndent sw k) (levelIndent sw k) s := by
  rw [commentLines_eq] at h ⊢
  rw [commentLines_eq (w := w')]
  generalize (splitWhitespace [] s.toList).map (fun x => piece sw (String.ofList x)) = ws at h ⊢
  cases ws with
  | nil => rfl
  | cons x xs =>
    dsimp only at h ⊢
    have hf := (C68_fill_iff (w := w') (first := (levelIndent sw k ++ piece sw "// ").width)
      (start := (levelIndent sw k ++ piece sw "// ").width) (space := sw " ") (x :: xs) _).1 rfl
    refine congrArg _ ((C68_fill_iff _ _).2 ⟨hf.1, hf.2.1, full_of_fits hw hf.2.2 fun l hl => ?_⟩)
    exact h _ (List.mem_map_of_mem hl)

/-- If the lines of a page fit in a smaller width, they are the lines of the page of that width. -/
theorem lines_same (hw : w ≤ w') {e : Json} (hit : e.Item okString okNumber) : ∀ (k : Nat) (pre post : Word),
    (e.isComment = true → pre = levelIndent sw k) → (∀ l ∈ e.lines sw w' k pre post, l.width ≤ w) →
    e.lines sw w k pre post = e.lines sw w' k pre post := by
  induction e using Json.induct with
  | simple e he =>
    intro k pre post hpre hl
    cases e with
    | comment id ids s =>
      cases hpre rfl
      rw [Json.lines] at hl
      rw [Json.lines, Json.lines]
      exact comment_same hw k s hl
    | array => exact he.elim
    | object => exact he.elim
    | pair => exact he.elim
    | _ => rw [Json.lines, Json.lines]
  | pair id keyId key v ih =>
    intro k pre post _ hl
    rw [Json.lines] at hl
    rw [Json.lines, Json.lines]
    rcases hit with h | h | ⟨_, _, _, _, h, hv⟩
    · cases h
    · cases h
    · cases h
      exact ih (.inr (.inl hv)) _ _ _ (fun h => by rw [value_not_comment hv] at h; cases h) hl
  | group l r es e id hg ih =>
    intro k pre post _ hl
    have hkid := hit.kid hg
    have inner : ∀ es' : List Json, (∀ x ∈ es', x ∈ es) → (∀ l ∈ Json.entryLines sw w' (k + 1) es', l.width ≤ w) →
        Json.entryLines sw w (k + 1) es' = Json.entryLines sw w' (k + 1) es' := by
      intro es'
      induction es' with
      | nil => intro _ _; rw [Json.entryLines, Json.entryLines]
      | cons a es' ihs =>
        intro hs hl
        rw [Json.entryLines] at hl
        rw [Json.entryLines, Json.entryLines]
        obtain ⟨i, hi⟩ := List.mem_iff_getElem?.1 (hs a (by simp))
        rw [ih i a hi (hkid a (hs a (by simp))) _ _ _ (fun _ => rfl) fun l h => hl l (List.mem_append_left _ h),
          ihs (fun x hx => hs x (by simp [hx])) fun l h => hl l (List.mem_append_right _ h)]
    rw [hg.lines] at hl
    rw [hg.lines, hg.lines]
    split
    · rfl
    · rename_i hempty
      rw [if_neg hempty] at hl
      unfold bracketLines at hl ⊢
      cases hone : e.oneLine sw with
      | none =>
        rw [hone] at hl
        dsimp only at hl ⊢
        rw [inner es (fun _ h => h) fun l h => hl l (List.mem_append_left _ (List.mem_cons_of_mem _ h))]
      | some x =>
        rw [hone] at hl
        dsimp only at hl ⊢
        by_cases hf : (pre ++ x ++ post).width ≤ w'
        · rw [if_pos hf] at hl ⊢
          rw [if_pos (hl _ (List.mem_cons_self ..))]
        · rw [if_neg hf] at hl ⊢
          rw [if_neg (by omega), inner es (fun _ h => h) fun l h => hl l (List.mem_append_left _ (List.mem_cons_of_mem _ h))]

theorem docLines_same (hw : w ≤ w') {e : Json} (h : e.Document okString okNumber) (hl : ∀ l ∈ e.docLines sw w', l.width ≤ w) :
    e.docLines sw w = e.docLines sw w' := by
  cases h with
  | value h =>
    have : ∀ w, e.docLines sw w = e.lines sw w 0 .none .none := by
      intro w
      cases e with
      | roots => cases h
      | _ => rfl
    rw [this] at hl
    rw [this, this]
    exact lines_same hw (.inr (.inl h)) _ _ _ (fun _ => rfl) hl
  | roots id h =>
    rename_i es
    have hi : ∀ x ∈ es, x.Item okString okNumber := by
      intro x hx
      by_cases hc : x.isComment = true
      · exact .inl hc
      · exact .inr (.inl (h x hx (by simpa using hc)))
    cases es with
    | nil => rfl
    | cons e es =>
      have hd : ∀ w, (Json.roots id (e :: es)).docLines sw w = (e :: es).flatMap (Json.lines sw w 0 .none .none) := fun _ => rfl
      rw [hd] at hl
      rw [hd, hd]
      generalize e :: es = l at hi hl
      induction l with
      | nil => rfl
      | cons a l ih =>
        rw [List.flatMap_cons] at hl
        rw [List.flatMap_cons, List.flatMap_cons,
          lines_same hw (hi a (by simp)) 0 .none .none (fun _ => rfl) fun l h => hl l (List.mem_append_left _ h),
          ih (fun x hx => hi x (by simp [hx])) fun l h => hl l (List.mem_append_right _ h)]

end PPP
