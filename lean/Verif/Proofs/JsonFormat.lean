import Verif.Spec.JsonFormat
import Verif.Proofs.CommentWrap
import Verif.Proofs.JsonTall
import Verif.Proofs.EolRun
/-
Formatting JSON: lines, trees on one line, and sequences.
-/
namespace PPP
variable {P : PrettyDoc}

/-! ### Words -/

theorem Word.append_mk (a b : Word) : a ++ b = ⟨a.str ++ b.str, a.width + b.width⟩ := rfl

@[simp] theorem Word.append_str (a b : Word) : (a ++ b).str = a.str ++ b.str := rfl
@[simp] theorem Word.append_width (a b : Word) : (a ++ b).width = a.width + b.width := rfl

@[simp] theorem Word.append_none (a : Word) : a ++ Word.none = a := by
  cases a; simp [Word.append_mk, Word.none]

@[simp] theorem Word.none_append (a : Word) : Word.none ++ a = a := by
  cases a; simp [Word.append_mk, Word.none]

theorem Word.append_assoc (a b c : Word) : a ++ b ++ c = a ++ (b ++ c) := by
  simp [Word.append_mk, String.append_assoc, Nat.add_assoc]

/-- The text of a line, with its width. -/
def lineW (l : List (Segment P)) : Word := ⟨segsString l, segsWidth l⟩

theorem lineW_nil : lineW ([] : List (Segment P)) = Word.none := rfl

theorem lineW_snoc (l : List (Segment P)) (t : Textual P) : lineW (l ++ [t.segment]) = lineW l ++ t.word := by
  simp only [lineW, segsString_snoc, segsWidth_snoc]
  rfl

/-- One text after the other, if they exist. -/
def catO (x y : Option Word) : Option Word := x.bind fun a => y.map fun b => a ++ b

theorem catO_some (x y : Word) : catO (some x) (some y) = some (x ++ y) := rfl

theorem catO_assoc (x y z : Option Word) : catO (catO x y) z = catO x (catO y z) := by
  cases x <;> cases y <;> cases z <;> simp [catO, Word.append_assoc]

/-! ### Trees on one line -/

/-- The text of some tokens. -/
def toksStr : List (Tok P) → String
  | [] => ""
  | .text t :: T => t.str ++ toksStr T
  | _ :: T => toksStr T

theorem toksStr_append (A B : List (Tok P)) : toksStr (A ++ B) = toksStr A ++ toksStr B := by
  induction A with
  | nil => simp [toksStr]
  | cons t A ih => cases t <;> simp [toksStr, ih, String.append_assoc]

theorem toksWidth_append' (A B : List (Tok P)) : toksWidth (A ++ B) = toksWidth A + toksWidth B := by
  simp [toksWidth]

/-- The text and the width of some tokens. -/
def toksW (T : List (Tok P)) : Word := ⟨toksStr T, toksWidth T⟩

/-- There are no choices and no line breaks in the tree.  If there are no end-of-line marks, then its text is `o`; and there
    is one if `o` is `none`. -/
structure FlatW (o : Option Word) (t : NTree P) : Prop where
  noFail : t.NoFail
  choiceFree : t.ChoiceFree
  noNl : ∀ ind, .nl ind ∉ t.seconds
  isText : ∀ x, o = some x → .eol ∉ t.seconds ∧ toksW t.seconds = x
  isEol : o = none → .eol ∈ t.seconds

theorem FlatW.text (t : Textual P) : FlatW (some t.word) (.text t) where
  noFail := trivial
  choiceFree := trivial
  noNl := by simp [NTree.seconds]
  isText x h := by
    cases h
    simp [NTree.seconds, toksW, toksStr, toksWidth, Textual.word]
  isEol h := by cases h

theorem FlatW.text' {t : Textual P} {x : Word} (h : t.word = x) : FlatW (some x) (.text t) := h ▸ FlatW.text t

theorem FlatW.mark : FlatW (P := P) (some Word.none) .mark where
  noFail := trivial
  choiceFree := trivial
  noNl := by simp [NTree.seconds]
  isText x h := by
    cases h
    simp [NTree.seconds, toksW, toksStr, toksWidth, Word.none]
  isEol h := by cases h

theorem FlatW.child {o : Option Word} {t : NTree P} (h : FlatW o t) (i : Nat) (id : P.Id) :
    FlatW o (.child i (.ok id) t) where
  noFail := ⟨⟨_, rfl⟩, h.noFail⟩
  choiceFree := h.choiceFree
  noNl := h.noNl
  isText := h.isText
  isEol := h.isEol

theorem FlatW.concat {x y : Option Word} {a b : NTree P} (ha : FlatW x a) (hb : FlatW y b) :
    FlatW (catO x y) (.concat a b) where
  noFail := ⟨ha.noFail, hb.noFail⟩
  choiceFree := ⟨ha.choiceFree, hb.choiceFree⟩
  noNl ind := by simp [NTree.seconds, ha.noNl, hb.noNl]
  isText z h := by
    cases x with
    | none => simp [catO] at h
    | some x =>
      cases y with
      | none => simp [catO] at h
      | some y =>
        simp only [catO_some, Option.some.injEq] at h
        subst h
        obtain ⟨h1, rfl⟩ := ha.isText x rfl
        obtain ⟨h2, rfl⟩ := hb.isText y rfl
        refine ⟨by simp [NTree.seconds, h1, h2], ?_⟩
        simp [NTree.seconds, toksW, toksStr_append, toksWidth_append', Word.append_mk]
  isEol h := by
    cases x with
    | none => simp [NTree.seconds, ha.isEol rfl]
    | some x =>
      cases y with
      | none => simp [NTree.seconds, hb.isEol rfl]
      | some y => simp [catO] at h

theorem flat_greedy {w : Nat} : ∀ (t : NTree P), t.NoFail → t.ChoiceFree → (∀ ind, .nl ind ∉ t.seconds) → .eol ∉ t.seconds →
    ∀ (id : P.Id) (k : List (NTree P)) (st : LineSt), ∃ U, Greedy w id t k st ⟨st.col + toksWidth t.seconds, st.eol⟩ U ∧
      eolRun false (erase U) = some false ∧
      ∀ cur, ∃ last, linesFrom cur (erase U) = [last] ∧ lineW last = lineW cur ++ toksW t.seconds := by
  intro t
  induction t with
  | fail f => intro h; exact h.elim
  | empty =>
    intro _ _ _ _ id k st
    exact ⟨[], .empty, rfl, fun cur => ⟨cur, rfl, (Word.append_none _).symm⟩⟩
  | mark =>
    intro _ _ _ _ id k st
    exact ⟨_, .mark, rfl, fun cur => ⟨cur, rfl, (Word.append_none _).symm⟩⟩
  | eol =>
    intro _ _ _ h
    simp [NTree.seconds] at h
  | newline ind =>
    intro _ _ h
    exact absurd (by simp [NTree.seconds]) (h ind)
  | text t =>
    intro _ _ _ _ id k st
    refine ⟨[.tok (.text t)], ?_, rfl, fun cur => ⟨cur ++ [t.segment], rfl, ?_⟩⟩
    · have := Greedy.text (w := w) (id := id) (k := k) (st := st) (t := t)
      simpa [NTree.seconds, toksWidth] using this
    · rw [lineW_snoc]
      simp [NTree.seconds, toksW, toksStr, toksWidth, Textual.word]
  | child i c t ih =>
    intro h1 h2 h3 h4 id k st
    obtain ⟨⟨c, rfl⟩, h1⟩ := h1
    obtain ⟨U, g, h⟩ := ih h1 h2 h3 h4 c k st
    exact ⟨U, .child g, h⟩
  | concat a b iha ihb =>
    intro h1 h2 h3 h4 id k st
    simp only [NTree.seconds, List.mem_append, not_or] at h3 h4
    obtain ⟨U, g, e, h⟩ := iha h1.1 h2.1 (fun i => (h3 i).1) h4.1 id (b :: k) st
    obtain ⟨V, g', e', h'⟩ := ihb h1.2 h2.2 (fun i => (h3 i).2) h4.2 id k ⟨st.col + toksWidth a.seconds, st.eol⟩
    refine ⟨U ++ V, ?_, ?_, fun cur => ?_⟩
    · have := Greedy.concat g g'
      simpa [NTree.seconds, toksWidth_append', Nat.add_assoc] using this
    · rw [erase_append, eolRun_append, e]
      exact e'
    · obtain ⟨l, hl, hw⟩ := h cur
      obtain ⟨l', hl', hw'⟩ := h' l
      refine ⟨l', ?_, ?_⟩
      · rw [erase_append, linesFrom_append (ls := []) (cur := l) (by simpa using hl.symm)]
        simpa using hl'
      · rw [hw', hw, Word.append_assoc]
        simp [NTree.seconds, toksW, toksStr_append, toksWidth_append', Word.append_mk]
  | choice a b => intro _ h; exact h.elim

theorem fits_flat {w : Nat} (T : List (Tok P)) (h1 : ∀ ind, .nl ind ∉ T) (h2 : .eol ∉ T) (U : List (Tok P)) :
    ∀ st : LineSt, st.eol = false → (LineFits w st (T ++ U) ↔ LineFits w ⟨st.col + toksWidth T, false⟩ U) := by
  induction T with
  | nil =>
    intro st hst
    simp [toksWidth, ← hst]
  | cons t T ih =>
    intro st hst
    have h1' : ∀ ind, .nl ind ∉ T := fun i h => h1 i (by simp [h])
    have h2' : .eol ∉ T := fun h => h2 (by simp [h])
    cases t with
    | text x =>
      rw [List.cons_append, lineFits_text, ih h1' h2' ⟨st.col + x.width, st.eol⟩ hst]
      simp [hst, toksWidth, Nat.add_assoc]
    | nl ind => exact absurd (by simp) (h1 ind)
    | eol => exact absurd (by simp) h2
    | mark i =>
      rw [List.cons_append, lineFits_mark, ih h1' h2' _ hst]
      simp [toksWidth]

theorem fits_dead {w : Nat} (T : List (Tok P)) (h1 : ∀ ind, .nl ind ∉ T) (h2 : .eol ∈ T) (x : Textual P) (U : List (Tok P)) :
    ∀ st : LineSt, ¬ LineFits w st (T ++ .text x :: U) := by
  intro st h
  have hf : firstLine (T ++ .text x :: U) = T ++ .text x :: firstLine U := by
    unfold firstLine
    rw [List.takeWhile_append_of_pos (by
      intro t ht
      cases t with
      | nl ind => exact absurd ht (h1 ind)
      | _ => rfl)]
    rfl
  refine h.2 ?_
  rw [hf]
  exact ⟨T, x, _, rfl, .inr h2⟩

/-! ### What a tree writes -/

/-- What comes after an item: `post`, and then the end of the line. -/
def Follows (w : Nat) (com : Bool) (post : Word) (k : List (NTree P)) : Prop :=
  Trails w post.width k ∧ (com = true → ∀ st, SecondsFit w st k ↔ st.col ≤ w)

/-- The tree `t` is displayed after `cur` on the current line, and writes the lines `L`, the last one without `post`.
    At the end, there is an end-of-line mark on the line if `com`. -/
def Lays (w : Nat) (id : P.Id) (t : NTree P) (k : List (NTree P)) (st : LineSt) (cur : List (Segment P)) (com : Bool)
    (post : Word) (L : List Word) : Prop :=
  ∃ U st' ls last, Greedy w id t k st st' U ∧ eolRun false (erase U) = some com ∧ st'.eol = com ∧
    linesFrom cur (erase U) = ls ++ [last] ∧ segsWidth last = st'.col ∧ L = ls.map lineW ++ [lineW last ++ post]

theorem Lays.child {w : Nat} {id cid : P.Id} {t k st cur com post L} (h : Lays w cid t k st cur com post L) (i : Nat) :
    Lays w id (.child i (.ok cid) t) k st cur com post L := by
  obtain ⟨U, st', ls, last, g, h⟩ := h
  exact ⟨U, st', ls, last, .child g, h⟩

theorem FlatW.greedy {w : Nat} {x : Word} {t : NTree P} (h : FlatW (some x) t) (id : P.Id) (k : List (NTree P)) (st : LineSt) :
    ∃ U, Greedy w id t k st ⟨st.col + x.width, st.eol⟩ U ∧ eolRun false (erase U) = some false ∧
      ∀ cur, ∃ last, linesFrom cur (erase U) = [last] ∧ lineW last = lineW cur ++ x := by
  obtain ⟨h1, rfl⟩ := h.isText x rfl
  exact flat_greedy t h.noFail h.choiceFree h.noNl h1 id k st

theorem FlatW.lays {w : Nat} {x : Word} {t : NTree P} (h : FlatW (some x) t) {id : P.Id} {k : List (NTree P)} {st : LineSt}
    {cur : List (Segment P)} (he : st.eol = false) (hc : segsWidth cur = st.col) (post : Word) :
    Lays w id t k st cur false post [lineW cur ++ x ++ post] := by
  obtain ⟨U, g, e, hl⟩ := h.greedy (w := w) id k st
  obtain ⟨last, h1, h2⟩ := hl cur
  refine ⟨U, _, [], last, g, e, he, h1, ?_, by simp [h2]⟩
  have := congrArg Word.width h2
  simpa [lineW, hc] using this

theorem FlatW.before {w : Nat} {x : Word} {a b : NTree P} (h : FlatW (some x) a) {id : P.Id} {k : List (NTree P)} {st : LineSt}
    {cur : List (Segment P)} (he : st.eol = false) (hc : segsWidth cur = st.col) {com post L}
    (hb : ∀ st' cur', st'.eol = false → segsWidth cur' = st'.col → lineW cur' = lineW cur ++ x →
      Lays w id b k st' cur' com post L) :
    Lays w id (.concat a b) k st cur com post L := by
  obtain ⟨U, g, e, hl⟩ := h.greedy (w := w) id (b :: k) st
  obtain ⟨cur', h1, h2⟩ := hl cur
  obtain ⟨V, st', ls, last, g', e', h3, h4, h5, h6⟩ := hb ⟨st.col + x.width, st.eol⟩ cur' he (by
    have := congrArg Word.width h2
    simpa [lineW, hc] using this) h2
  refine ⟨U ++ V, st', ls, last, .concat g g', ?_, h3, ?_, h5, h6⟩
  · rw [erase_append, eolRun_append, e]
    exact e'
  · rw [erase_append, linesFrom_append (ls := []) (cur := cur') (by simpa using h1.symm)]
    simpa using h4

/-- What fits, for a tree on one line. -/
theorem FlatW.fits {w : Nat} {x : Word} {t : NTree P} (h : FlatW (some x) t) {k : List (NTree P)} {e : Nat} (hk : Trails w e k)
    {st : LineSt} (he : st.eol = false) : SecondsFit w st (t :: k) ↔ st.col + x.width + e ≤ w := by
  obtain ⟨h1, rfl⟩ := h.isText x rfl
  unfold SecondsFit
  rw [List.flatMap_cons, fits_flat _ h.noNl h1 _ st he]
  exact hk ⟨st.col + toksWidth t.seconds, false⟩ rfl

/-- A line break between two trees, with perhaps a text before it. -/
theorem Lays.then {w : Nat} {id : P.Id} {a b : NTree P} {k st cur com com' v flag ind post L L'} (hf : flag = true → com = false)
    (ha : Lays w id a ((if flag then .text v else .empty) :: .newline ind :: b :: k) st cur com
      (if flag then v.word else .none) L)
    (hb : Lays w id b k ⟨segsWidth ind, false⟩ ind com' post L') :
    Lays w id (.concat (.concat (.concat a (if flag then .text v else .empty)) (.newline ind)) b) k st cur com' post
      (L ++ L') := by
  obtain ⟨U, st1, ls, last, g, e, h1, h2, h3, rfl⟩ := ha
  obtain ⟨V, st', ls', last', g', e', h1', h2', h3', rfl⟩ := hb
  obtain ⟨S, st2, gs, es, last1, hl1, hw1⟩ : ∃ S st2, Greedy w id (if flag then .text v else .empty) (.newline ind :: b :: k) st1 st2 S ∧
      (∃ c, eolRun com (erase S) = some c) ∧ ∃ last1, linesFrom last (erase S) = [last1] ∧
        lineW last1 = lineW last ++ (if flag then v.word else .none) := by
    cases flag with
    | true =>
      refine ⟨[.tok (.text v)], _, .text, ⟨false, ?_⟩, last ++ [v.segment], rfl, lineW_snoc _ _⟩
      rw [hf rfl]
      rfl
    | false => exact ⟨[], _, .empty, ⟨com, rfl⟩, last, rfl, (Word.append_none _).symm⟩
  obtain ⟨c, es⟩ := es
  refine ⟨U ++ S ++ [.tok (.nl ind)] ++ V, st', ls ++ [last1] ++ ls', last', .concat (.concat (.concat g gs) .newline) g', ?_, h1', ?_, h3',
    ?_⟩
  · simp only [erase_append, erase, eolRun_append, e, Option.bind_some, es, eolRun]
    exact e'
  · rw [show erase (U ++ S ++ [.tok (.nl ind)] ++ V) = (erase U ++ erase S) ++ .nl ind :: erase V by
      simp [erase_append, erase]]
    rw [linesFrom_append_nl, linesFrom_append h2.symm, hl1, h2']
    simp
  · simp [hw1]

/-- Items on lines of their own. -/
theorem multi_lays {w : Nat} {id : P.Id} {kids : Nat → NTree P} {flags com : Nat → Bool} {v : Textual P} {ci : List (Segment P)}
    {R : Nat → List Word} {n : Nat}
    (hk : ∀ i, i ≤ n → ∀ K, Follows w (com i) (if flags i then v.word else .none) K →
      Lays w id (kids i) K ⟨segsWidth ci, false⟩ ci (com i) (if flags i then v.word else .none) (R i))
    (hf : ∀ i, flags i = true → com i = false) :
    ∀ K, Follows w (com n) (if flags n then v.word else .none) K →
      Lays w id (iter (kids 0) (fun k acc => .concat (.concat (.concat acc (if flags k then .text v else .empty)) (.newline ci))
        (kids (k + 1))) n) K ⟨segsWidth ci, false⟩ ci (com n) (if flags n then v.word else .none)
        ((List.range (n + 1)).flatMap R) := by
  induction n with
  | zero =>
    intro K hK
    simpa [iter] using hk 0 (Nat.le_refl _) K hK
  | succ n ih =>
    intro K hK
    have h1 := ih (fun i hi => hk i (by omega)) ((if flags n then .text v else .empty) :: .newline ci :: kids (n + 1) :: K) (by
      constructor
      · intro st hst
        cases flags n with
        | true => simp [SecondsFit, NTree.seconds, lineFits_text, hst, Textual.word]
        | false => simp [SecondsFit, NTree.seconds, Word.none]
      · intro hc st
        cases hfl : flags n with
        | true => rw [hf n hfl] at hc; cases hc
        | false => simp [SecondsFit, NTree.seconds])
    have h2 := hk (n + 1) (Nat.le_refl _) K hK
    have := Lays.then (hf n) h1 h2
    rw [List.range_succ, List.flatMap_append]
    simpa [iter] using this

/-- The text of items `0 .. n` on one line. -/
def seqO (x : Word) (f : Nat → Option Word) : Nat → Option Word
  | 0 => f 0
  | n + 1 => catO (catO (seqO x f n) (some x)) (f (n + 1))

theorem single_flat {kids : Nat → NTree P} {x : Textual P} {f : Nat → Option Word} {n : Nat}
    (h : ∀ i, i ≤ n → FlatW (f i) (kids i)) :
    FlatW (seqO x.word f n) (iter (kids 0) (fun k acc => .concat (.concat acc (.text x)) (kids (k + 1))) n) := by
  induction n with
  | zero => exact h 0 (Nat.le_refl _)
  | succ n ih => exact ((ih fun i hi => h i (by omega)).concat (.text x)).concat (h (n + 1) (Nat.le_refl _))

theorem seqO_shift (x : Word) (f : Nat → Option Word) (n : Nat) :
    seqO x f (n + 1) = catO (catO (f 0) (some x)) (seqO x (fun i => f (i + 1)) n) := by
  induction n with
  | zero => rfl
  | succ n ih =>
    rw [seqO, ih]
    simp only [seqO, catO_assoc]

theorem oneLines_eq (sw : String → Nat) (es : List Json) : ∀ (n : Nat), es.length = n + 1 →
    Json.oneLines sw es = seqO (piece sw ", ") (fun i => (es[i]?).bind (Json.oneLine sw)) n := by
  induction es with
  | nil => intro n h; simp at h
  | cons e es ih =>
    intro n h
    cases es with
    | nil =>
      have : n = 0 := by simpa using h.symm
      subst this
      simp [Json.oneLines, seqO]
    | cons e' es =>
      obtain ⟨m, rfl⟩ : ∃ m, n = m + 1 := ⟨n - 1, by simp at h; omega⟩
      rw [seqO_shift]
      have := ih m (by simpa using h)
      simp only [Json.oneLines, List.getElem?_cons_succ, List.getElem?_cons_zero, Option.bind_some]
      rw [this]
      cases e.oneLine sw with
      | none => rfl
      | some a =>
        simp only [Option.bind_some, catO]
        rfl

/-- Brackets. -/
theorem bracket_lays {w : Nat} {id : P.Id} {o z : Textual P} {inner single : NTree P} {ci ind : List (Segment P)} {one : Option Word}
    {K : List (NTree P)} {st : LineSt} {cur : List (Segment P)} {post : Word} {L : List Word} {com : Bool}
    (he : st.eol = false) (hc : segsWidth cur = st.col) (hK : Trails w post.width K)
    (hs : FlatW one single)
    (hi : ∀ K, (∀ st, SecondsFit w st K ↔ st.col ≤ w) → Lays w id inner K ⟨segsWidth ci, false⟩ ci com .none L) :
    Lays w id (.choice (.concat (.concat (.text o) single) (.text z)) (.concat (.concat (.concat (.text o) (.concat (.newline ci)
      inner)) (.newline ind)) (.text z))) K st cur false post
      (bracketLines w (lineW cur) post (lineW ind) o.word z.word (one.map fun x => o.word ++ x ++ z.word) L) := by
  have hcw : (lineW cur).width = st.col := hc
  have tall : ¬ SecondsFit w st (.concat (.concat (.text o) single) (.text z) :: K) →
      Lays w id (.choice (.concat (.concat (.text o) single) (.text z)) (.concat (.concat (.concat (.text o) (.concat (.newline ci)
        inner)) (.newline ind)) (.text z))) K st cur false post ((lineW cur ++ o.word) :: L ++ [lineW ind ++ z.word ++ post]) := by
    intro hn
    obtain ⟨V, st', ls, last, g, e, h1, h2, h3, rfl⟩ := hi (.newline ind :: .text z :: K) (by
      intro st
      simp [SecondsFit, NTree.seconds])
    refine ⟨_, _, (cur ++ [o.segment]) :: ls ++ [last], ind ++ [z.segment], .choice_second hn (.concat (.concat
      (.concat .text (.concat .newline g)) .newline) .text), ?_, rfl, ?_, ?_, ?_⟩
    · simp only [erase_append, erase, eolRun_append, List.singleton_append, eolRun, e, Option.bind_some, Bool.false_eq_true, if_false]
    · simp only [erase_append, erase, List.singleton_append]
      rw [show (Tok.text o :: .nl ci :: erase V) ++ [.nl ind] ++ [Tok.text z] = ([.text o] ++ .nl ci :: erase V) ++ .nl ind :: [.text z] by
        simp]
      rw [linesFrom_append_nl, linesFrom_append_nl, h2]
      simp [linesFrom]
    · simp [segsWidth_snoc]
    · simp [lineW_snoc, Word.append_assoc]
  cases one with
  | none =>
    refine tall fun h => ?_
    unfold SecondsFit at h
    have hA := ((FlatW.text o).concat hs)
    have := hA.isEol rfl
    rw [List.flatMap_cons, show NTree.seconds (.concat (.concat (.text o) single) (.text z)) =
      NTree.seconds (.concat (.text o) single) ++ [.text z] from rfl, List.append_assoc] at h
    exact fits_dead _ hA.noNl this z _ st h
  | some x =>
    have hA := ((FlatW.text o).concat hs).concat (.text z)
    rw [catO_some, catO_some] at hA
    have hfit := hA.fits hK he
    simp only [Option.map_some, bracketLines]
    split
    · rename_i hf
      have : SecondsFit w st (.concat (.concat (.text o) single) (.text z) :: K) := by
        rw [hfit]
        simpa [hcw] using hf
      obtain ⟨U, st', ls, last, g, h⟩ := hA.lays (w := w) (id := id) (k := K) he hc post
      exact ⟨.first :: U, st', ls, last, .choice_first this g, h⟩
    · rename_i hf
      refine tall fun h => hf ?_
      rw [hfit] at h
      simpa [hcw] using h

end PPP
