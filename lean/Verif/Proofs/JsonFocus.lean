import Verif.Spec.JsonFocus
import Verif.Proofs.FocusAt
import Verif.Proofs.JsonLines
/-
Where the nodes of a JSON document are in the printed text.
-/
namespace PPP

section
variable {P : PrettyDoc}

/-- The node at the path is at the place `p`. -/
def Puts (w : Nat) (id : P.Id) (t : NTree P) (k : List (NTree P)) (st : LineSt) (cur : List (Segment P)) (path : List Nat)
    (p : Spot) : Prop :=
  ∃ U B ls last, PathAt w U id t k st path B ∧ linesFrom cur (erase B) = ls ++ [last] ∧ ls.map lineW = p.above ∧ lineW last = p.left ∧
    (linesFrom last (erase U)).map lineW = p.own

/-- Child `i` is below the lines `ls`, and to the right of `y`; what follows it satisfies `F`. -/
def Lead (w i : Nat) (c : P.Id) (t' : NTree P) (F : List (NTree P) → Prop) (id : P.Id) (t : NTree P) (k : List (NTree P))
    (st : LineSt) (cur : List (Segment P)) (ls : List Word) (y : Word) : Prop :=
  ∃ B ls' cur' st' k', Own w i c t' k' st' id t k st B ∧ linesFrom cur (erase B) = ls' ++ [cur'] ∧ ls'.map lineW = ls ∧
    lineW cur' = y ∧ st'.eol = false ∧ segsWidth cur' = st'.col ∧ F k'

variable {w i : Nat} {c : P.Id} {t' : NTree P} {F : List (NTree P) → Prop} {id : P.Id} {k : List (NTree P)} {st : LineSt}
  {cur : List (Segment P)} {ls : List Word} {y : Word} {a b : NTree P}

theorem Puts.here {t : NTree P} {st' U own} (hg : Greedy w id t k st st' U) (hl : (linesFrom cur (erase U)).map lineW = own) :
    Puts w id t k st cur [] ⟨[], lineW cur, own⟩ :=
  ⟨U, [], [], cur, .here hg, rfl, rfl, rfl, hl⟩

theorem Puts.here_lays {t : NTree P} {com post L init last} (h : Lays w id t k st cur com post L) (hL : L = init ++ [last ++ post]) :
    Puts w id t k st cur [] ⟨[], lineW cur, init ++ [last]⟩ := by
  obtain ⟨U, st', ls, last', g, _, _, h1, _, h2⟩ := h
  refine .here g ?_
  rw [h1]
  rw [hL] at h2
  obtain ⟨rfl, h3⟩ := List.append_inj' h2 rfl
  have h3 := List.cons.inj h3
  have h4 : last = lineW last' := by
    have h3 := h3.1
    have hs := congrArg Word.str h3
    have hw := congrArg Word.width h3
    simp only [Word.append_str, Word.append_width] at hs hw
    have hs' := congrArg String.toList hs
    simp only [String.toList_append] at hs'
    have hs'' := String.ext (List.append_cancel_right hs')
    have hw' : last.width = (lineW last').width := by omega
    revert hs'' hw'
    generalize lineW last' = b
    intro hs hw
    cases last
    cases b
    simp_all
  subst h4
  simp

theorem Lead.puts {t : NTree P} {path p} (h : Lead w i c t' F id t k st cur ls y)
    (h2 : ∀ k' st' cur', st'.eol = false → segsWidth cur' = st'.col → lineW cur' = y → F k' →
      Puts w c t' k' st' cur' path p) : Puts w id t k st cur (i :: path) (p.below ls) := by
  obtain ⟨B, ls', cur', st', k', h3, h4, h5, h6, h7, h8, h9⟩ := h
  obtain ⟨U, C, ls2', last, g1, g2, g3, g4, g5⟩ := h2 k' st' cur' h7 h8 h6 h9
  refine ⟨U, B ++ C, ls' ++ ls2', last, .step h3 g1, ?_, by simp [Spot.below, h5, g3], g4, g5⟩
  rw [erase_append, linesFrom_append h4.symm, g2, List.append_assoc]

theorem Lead.child (he : st.eol = false) (hc : segsWidth cur = st.col) (hF : F k) :
    Lead w i c t' F id (.child i (.ok c) t') k st cur [] (lineW cur) :=
  ⟨[], [], cur, st, k, .child, rfl, rfl, rfl, he, hc, hF⟩

theorem Lead.left (h : Lead w i c t' F id a (b :: k) st cur ls y) : Lead w i c t' F id (.concat a b) k st cur ls y := by
  obtain ⟨B, ls', cur', st', k', h1, h⟩ := h
  exact ⟨B, ls', cur', st', k', .left h1, h⟩

theorem Lead.first (hf : SecondsFit w st (a :: k)) (h : Lead w i c t' F id a k st cur ls y) :
    Lead w i c t' F id (.choice a b) k st cur ls y := by
  obtain ⟨B, ls', cur', st', k', h1, h⟩ := h
  exact ⟨_, ls', cur', st', k', .first hf h1, h⟩

theorem Lead.second (hf : ¬ SecondsFit w st (a :: k)) (h : Lead w i c t' F id b k st cur ls y) :
    Lead w i c t' F id (.choice a b) k st cur ls y := by
  obtain ⟨B, ls', cur', st', k', h1, h⟩ := h
  exact ⟨_, ls', cur', st', k', .second hf h1, h⟩

theorem Lead.right {T st1 l1 cur1} (hn : a.NoChild i) (hg : Greedy w id a (b :: k) st st1 T)
    (hl : linesFrom cur (erase T) = l1 ++ [cur1]) (h : Lead w i c t' F id b k st1 cur1 ls y) :
    Lead w i c t' F id (.concat a b) k st cur (l1.map lineW ++ ls) y := by
  obtain ⟨B, ls', cur', st', k', h1, h2, h3, h⟩ := h
  refine ⟨T ++ B, l1 ++ ls', cur', st', k', .right hn hg h1, ?_, by simp [h3], h⟩
  rw [erase_append, linesFrom_append hl.symm, h2, List.append_assoc]

theorem Lead.right_flat {x : Word} (ha : FlatW (some x) a) (hn : a.NoChild i) (he : st.eol = false)
    (hc : segsWidth cur = st.col) (h : ∀ st1 cur1, st1.eol = false → segsWidth cur1 = st1.col → lineW cur1 = lineW cur ++ x →
      Lead w i c t' F id b k st1 cur1 ls y) : Lead w i c t' F id (.concat a b) k st cur ls y := by
  obtain ⟨U, g, e, hl⟩ := ha.greedy (w := w) id (b :: k) st
  obtain ⟨cur1, h1, h2⟩ := hl cur
  have := Lead.right (l1 := []) hn g h1 (h _ _ he (by
    have := congrArg Word.width h2
    simpa [lineW, hc] using this) h2)
  exact this

theorem Lead.right_newline {ind : List (Segment P)} (h : Lead w i c t' F id b k ⟨segsWidth ind, false⟩ ind ls y) :
    Lead w i c t' F id (.concat (.newline ind) b) k st cur (lineW cur :: ls) y :=
  Lead.right (l1 := [cur]) (T := [.tok (.nl ind)]) trivial .newline rfl h

/-- What is before item `i` of some items on one line. -/
def seqB (x : Word) (f : Nat → Option Word) : Nat → Option Word
  | 0 => some .none
  | i + 1 => catO (seqO x f i) (some x)

theorem iter_noChild {kids : Nat → NTree P} {g : Nat → NTree P → NTree P} {n : Nat}
    (h0 : (kids 0).NoChild i) (hg : ∀ k acc, k < n → acc.NoChild i → (g k acc).NoChild i) : (iter (kids 0) g n).NoChild i := by
  induction n with
  | zero => exact h0
  | succ n ih => exact hg n _ (by omega) (ih fun k acc hk => hg k acc (by omega))

theorem Lead.seq {kids : Nat → NTree P} {x : Textual P} {f : Nat → Option Word} {n : Nat} (hi : i ≤ n)
    (hf : ∀ j, j ≤ n → FlatW (f j) (kids j)) (hki : kids i = .child i (.ok c) t')
    (hn : ∀ j, j ≤ n → j ≠ i → (kids j).NoChild i) {y : Word} (hy : seqB x.word f i = some y) :
    ∀ {k st cur}, st.eol = false → segsWidth cur = st.col → Lead w i c t' (fun _ => True) id
      (iter (kids 0) (fun k acc => .concat (.concat acc (.text x)) (kids (k + 1))) n) k st cur [] (lineW cur ++ y) := by
  induction n with
  | zero =>
    intro k st cur he hc
    have : i = 0 := by omega
    subst this
    cases hy
    rw [Word.append_none]
    simp only [iter, hki]
    exact Lead.child he hc trivial
  | succ n ih =>
    intro k st cur he hc
    simp only [iter]
    by_cases h : i = n + 1
    · subst h
      rw [hki]
      simp only [seqB] at hy
      have hflat := (single_flat (P := P) (x := x) (n := n) (kids := kids) (f := f) (fun j hj => hf j (by omega))).concat (.text x)
      rw [hy] at hflat
      refine Lead.right_flat hflat ⟨?_, trivial⟩ he hc fun st1 cur1 h1 h2 h3 => ?_
      · exact iter_noChild (hn 0 (by omega) (by omega)) fun k acc hk ha => ⟨⟨ha, trivial⟩, hn (k + 1) (by omega) (by omega)⟩
      · rw [← h3]
        exact Lead.child h1 h2 trivial
    · exact (ih (by omega) (fun j hj => hf j (by omega)) (fun j hj => hn j (by omega)) he hc).left.left

/-- A line break after a tree, with perhaps a text before it. -/
theorem Lays.sep {v : Textual P} {flag : Bool} {ind : List (Segment P)} {com : Bool} {L : List Word}
    (ha : Lays w id a ((if flag then .text v else .empty) :: .newline ind :: b :: k) st cur com
      (if flag then v.word else .none) L) :
    ∃ T ls, Greedy w id (.concat (.concat a (if flag then .text v else .empty)) (.newline ind)) (b :: k) st
      ⟨segsWidth ind, false⟩ T ∧ linesFrom cur (erase T) = ls ++ [ind] ∧ ls.map lineW = L := by
  obtain ⟨U, st1, ls, last, g, e, h1, h2, h3, rfl⟩ := ha
  obtain ⟨S, st2, gs, last1, hl1, hw1⟩ : ∃ S st2, Greedy w id (if flag then .text v else .empty) (.newline ind :: b :: k) st1 st2 S ∧
      ∃ last1, linesFrom last (erase S) = [last1] ∧ lineW last1 = lineW last ++ (if flag then v.word else .none) := by
    cases flag with
    | true => exact ⟨[.tok (.text v)], _, .text, last ++ [v.segment], rfl, lineW_snoc _ _⟩
    | false => exact ⟨[], _, .empty, last, rfl, (Word.append_none _).symm⟩
  refine ⟨U ++ S ++ [.tok (.nl ind)], ls ++ [last1], .concat (.concat g gs) .newline, ?_, by simp [hw1]⟩
  rw [show erase (U ++ S ++ [.tok (.nl ind)]) = (erase U ++ erase S) ++ .nl ind :: [] by
    simp [erase_append, erase]]
  rw [linesFrom_append_nl, linesFrom_append h2.symm, hl1]
  simp [linesFrom]

theorem Lead.multi {kids : Nat → NTree P} {flags com : Nat → Bool} {v : Textual P} {ci : List (Segment P)}
    {R : Nat → List Word} {n : Nat} (hi : i ≤ n)
    (hk : ∀ i, i ≤ n → ∀ K, Follows w (com i) (if flags i then v.word else .none) K →
      Lays w id (kids i) K ⟨segsWidth ci, false⟩ ci (com i) (if flags i then v.word else .none) (R i))
    (hf : ∀ i, flags i = true → com i = false) (hki : kids i = .child i (.ok c) t')
    (hn : ∀ j, j ≤ n → j ≠ i → (kids j).NoChild i) :
    ∀ K, Follows w (com n) (if flags n then v.word else .none) K →
      Lead w i c t' (Follows w (com i) (if flags i then v.word else .none)) id
        (iter (kids 0) (fun k acc => .concat (.concat (.concat acc (if flags k then .text v else .empty)) (.newline ci))
        (kids (k + 1))) n) K ⟨segsWidth ci, false⟩ ci ((List.range i).flatMap R) (lineW ci) := by
  induction n with
  | zero =>
    intro K hK
    have : i = 0 := by omega
    subst this
    simp only [iter, hki]
    exact Lead.child rfl rfl hK
  | succ n ih =>
    intro K hK
    have hK' : Follows w (com n) (if flags n then v.word else .none)
        ((if flags n then .text v else .empty) :: .newline ci :: kids (n + 1) :: K) := by
      constructor
      · intro st hst
        cases flags n with
        | true => simp [SecondsFit, NTree.seconds, lineFits_text, hst, Textual.word]
        | false => simp [SecondsFit, NTree.seconds, Word.none]
      · intro hc st
        cases hfl : flags n with
        | true => rw [hf n hfl] at hc; cases hc
        | false => simp [SecondsFit, NTree.seconds]
    simp only [iter]
    by_cases h : i = n + 1
    · subst h
      have h1 := multi_lays (fun i hi => hk i (by omega)) hf _ hK'
      obtain ⟨T, ls, g, hl, hL⟩ := h1.sep
      rw [← hL]
      have h2 : Lead w (n + 1) c t' (Follows w (com (n + 1)) (if flags (n + 1) then v.word else .none)) id (kids (n + 1)) K
          ⟨segsWidth ci, false⟩ ci [] (lineW ci) := by
        rw [hki]
        exact Lead.child rfl rfl hK
      have := Lead.right (a := .concat (.concat (iter (kids 0) (fun k acc => .concat (.concat (.concat acc
        (if flags k then .text v else .empty)) (.newline ci)) (kids (k + 1))) n) (if flags n then .text v else .empty)) (.newline ci))
        ⟨⟨iter_noChild (hn 0 (by omega) (by omega)) fun k acc hk ha => ⟨⟨⟨ha, ?_⟩, trivial⟩, hn (k + 1) (by omega) (by omega)⟩, ?_⟩,
        trivial⟩ g hl h2
      · simpa using this
      · split <;> trivial
      · split <;> trivial
    · exact (ih (by omega) (fun j hj => hk j (by omega)) (fun j hj => hn j (by omega)) _ hK').left.left.left

/-- When brackets are on one line. -/
theorem bracket_fits {o z : Textual P} {single : NTree P} {one : Option Word} {post : Word} (he : st.eol = false)
    (hc : segsWidth cur = st.col) (hK : Trails w post.width k)
    (hone : FlatW one (.concat (.concat (.text o) single) (.text z))) (hs : ∃ o, FlatW o single ∧ (o = none ↔ one = none)) :
    SecondsFit w st (.concat (.concat (.text o) single) (.text z) :: k) ↔ onOneLine w (lineW cur) post one = true := by
  have hcw : (lineW cur).width = st.col := hc
  cases one with
  | none =>
    obtain ⟨o', hs, ho⟩ := hs
    cases ho.2 rfl
    simp only [onOneLine, Bool.false_eq_true, iff_false]
    intro h
    unfold SecondsFit at h
    have hA := ((FlatW.text o).concat hs)
    have := hA.isEol rfl
    rw [List.flatMap_cons, show NTree.seconds (.concat (.concat (.text o) single) (.text z)) =
      NTree.seconds (.concat (.text o) single) ++ [.text z] from rfl, List.append_assoc] at h
    exact fits_dead _ hA.noNl this z _ st h
  | some x =>
    rw [hone.fits hK he]
    simp [onOneLine, hcw]

end

variable {sw : String → Nat} {w : Nat}

/-! ### The specification, for entries -/

theorem entryLeftOf_eq (pre : Word) (es : List Json) (i : Nat) (path : List Nat) :
    Json.entryLeftOf sw pre es i path = (seqB (piece sw ", ") (fun j => (es[j]?).bind (Json.oneLine sw)) i).bind fun y =>
      (es[i]?).bind fun e => e.leftOf sw (pre ++ y) path := by
  induction es generalizing i pre with
  | nil =>
    cases i <;> simp [Json.entryLeftOf]
  | cons e es ih =>
    cases i with
    | zero => simp [Json.entryLeftOf, seqB]
    | succ i =>
      have h : seqB (piece sw ", ") (fun j => ((e :: es)[j]?).bind (Json.oneLine sw)) (i + 1) =
          catO (catO (e.oneLine sw) (some (piece sw ", "))) (seqB (piece sw ", ") (fun j => (es[j]?).bind (Json.oneLine sw)) i) := by
        cases i with
        | zero =>
          simp only [seqB, seqO, List.getElem?_cons_zero, Option.bind_some]
          cases e.oneLine sw <;> simp [catO]
        | succ m =>
          simp only [seqB]
          rw [seqO_shift]
          simp only [List.getElem?_cons_zero, Option.bind_some, List.getElem?_cons_succ, catO_assoc]
      rw [h, Json.entryLeftOf]
      simp only [ih]
      cases e.oneLine sw with
      | none => rfl
      | some x =>
        cases seqB (piece sw ", ") (fun j => (es[j]?).bind (Json.oneLine sw)) i with
        | none => rfl
        | some y => simp [catO, Word.append_assoc]

theorem Spot.below_below (a b : List Word) (p : Spot) : (p.below b).below a = p.below (a ++ b) := by
  simp [Spot.below]

theorem Spot.below_nil (p : Spot) : p.below [] = p := rfl

theorem entryPlace_eq (k : Nat) (es : List Json) (i : Nat) (path : List Nat) :
    Json.entryPlace sw w k es i path = (es[i]?).bind fun e =>
      (e.place sw w k (levelIndent sw k) (if commaAfter es i then piece sw "," else .none) path).map (Spot.below
        ((List.range i).flatMap (fun j => ((es[j]?).map fun e => e.lines sw w k (levelIndent sw k)
          (if commaAfter es j then piece sw "," else .none)).getD []))) := by
  induction es generalizing i with
  | nil => cases i <;> simp [Json.entryPlace]
  | cons e es ih =>
    have e0 : (if e.isComment = false ∧ (es.any fun e => !e.isComment) = true then piece sw "," else Word.none) =
        (if commaAfter (e :: es) 0 then piece sw "," else Word.none) := by
      refine if_congr ?_ rfl rfl
      simp [commaAfter]
    cases i with
    | zero =>
      rw [Json.entryPlace, e0]
      have : Spot.below [] = id := rfl
      simp [this]
    | succ i =>
      rw [Json.entryPlace, ih, e0, List.getElem?_cons_succ]
      cases hx : es[i]? with
      | none => rfl
      | some x =>
        simp only [Option.bind_some, Option.map_map]
        have e1 : commaAfter (e :: es) (i + 1) = commaAfter es i := rfl
        rw [e1]
        congr 1
        funext r
        simp only [Function.comp_apply, Spot.below_below, List.range_succ_eq_map, List.flatMap_cons, List.flatMap_map]
        rfl

theorem Json.IsGroup.leftOf {l r : String} {es : List Json} {e : Json} {id : Nat} (hg : e.IsGroup l r es id) (pre : Word)
    (i : Nat) (path : List Nat) : e.leftOf sw pre (i :: path) = Json.entryLeftOf sw (pre ++ piece sw l) es i path := by
  cases hg with
  | array h1 h2 => subst h1 h2; rw [Json.leftOf]
  | object h1 h2 => subst h1 h2; rw [Json.leftOf]

theorem Json.IsGroup.place {l r : String} {es : List Json} {e : Json} {id : Nat} (hg : e.IsGroup l r es id) (k : Nat)
    (pre post : Word) (i : Nat) (path : List Nat) : e.place sw w k pre post (i :: path) =
      if onOneLine w pre post (e.oneLine sw) then (Json.entryLeftOf sw (pre ++ piece sw l) es i path).map fun x => .inLine x.1 x.2
      else (Json.entryPlace sw w (k + 1) es i path).map (Spot.below [pre ++ piece sw l]) := by
  cases hg with
  | array h1 h2 => subst h1 h2; rw [Json.place]
  | object h1 h2 => subst h1 h2; rw [Json.place]

theorem Json.leftOf_nil (e : Json) (pre : Word) : e.leftOf sw pre [] = (e.oneLine sw).map fun x => (pre, x) := by
  cases e <;> rw [Json.leftOf]

theorem Json.place_nil (e : Json) (k : Nat) (pre post : Word) :
    e.place sw w k pre post [] = some ⟨[], pre, e.ownLines sw w k pre post⟩ := by
  cases e <;> rw [Json.place]

theorem bracket_own {pre post ind l r : Word} {one : Option Word} {inner : List Word} : ∃ init last,
    (if onOneLine w pre post one then [pre ++ one.getD .none] else (pre ++ l) :: inner ++ [ind ++ r]) = init ++ [last] ∧
    bracketLines w pre post ind l r one inner = init ++ [last ++ post] := by
  cases one with
  | none => exact ⟨_, _, by simp only [onOneLine]; rfl, by simp [bracketLines]⟩
  | some x =>
    by_cases h : (pre ++ x ++ post).width ≤ w
    · refine ⟨[], pre ++ x, ?_, ?_⟩
      · rw [if_pos (by simpa [onOneLine] using h)]
        rfl
      · rw [bracketLines]
        rw [if_pos h]
        rfl
    · refine ⟨(pre ++ l) :: inner, ind ++ r, ?_, ?_⟩
      · rw [if_neg (by simpa [onOneLine] using h)]
      · rw [bracketLines]
        rw [if_neg h]

/-- The lines of an expression itself, and its lines. -/
theorem own_lines {okString okNumber : String → Prop} (e : Json) (hit : e.Item okString okNumber)
    (k : Nat) (pre post : Word) (hp : e.isComment = true → post = .none) : ∃ init last,
    e.ownLines sw w k pre post = init ++ [last] ∧ e.lines sw w k pre post = init ++ [last ++ post] := by
  induction e using Json.induct generalizing pre with
  | simple e he =>
    cases e with
    | comment id ids s =>
      cases hp rfl
      have := lines_ne_nil hit k pre (.none) (sw := sw) (w := w)
      refine ⟨((Json.comment id ids s).lines sw w k pre .none).dropLast, ((Json.comment id ids s).lines sw w k pre .none).getLast this,
        ?_, ?_⟩
      · rw [List.dropLast_concat_getLast, Json.ownLines, Json.lines]
      · rw [Word.append_none, List.dropLast_concat_getLast]
    | roots =>
      rcases hit with h | h | ⟨_, _, _, _, h, _⟩
      · cases h
      · cases h
      · cases h
    | array => exact he.elim
    | object => exact he.elim
    | pair => exact he.elim
    | _ => exact ⟨[], _, by rw [Json.ownLines]; rfl, by rw [Json.lines]; rfl⟩
  | pair id keyId key v ih =>
    rw [Json.ownLines, Json.lines]
    rcases hit with h | h | ⟨_, _, _, _, h, hv⟩
    · cases h
    · cases h
    · cases h
      refine ih (.inr (.inl hv)) _ (fun h => ?_)
      rw [value_not_comment hv] at h
      cases h
  | group l r es e id hg ih =>
    have : e.ownLines sw w k pre post = if es.isEmpty then [pre ++ (piece sw l ++ piece sw r)]
        else if onOneLine w pre post (e.oneLine sw) then [pre ++ (e.oneLine sw).getD .none]
        else (pre ++ piece sw l) :: Json.entryLines sw w (k + 1) es ++ [levelIndent sw k ++ piece sw r] := by
      cases hg with
      | array h1 h2 => subst h1 h2; rw [Json.ownLines]
      | object h1 h2 => subst h1 h2; rw [Json.ownLines]
    rw [this, hg.lines]
    cases hes : es.isEmpty with
    | true => exact ⟨[], _, rfl, rfl⟩
    | false => exact bracket_own

/-! ### The trees of documents -/

theorem Puts.flat {P : PrettyDoc} {id : P.Id} {t : NTree P} {k st cur} {x : Word} (h : FlatW (some x) t) :
    Puts w id t k st cur [] (.inLine (lineW cur) x) := by
  obtain ⟨U, g, -, hl⟩ := h.greedy (w := w) id k st
  obtain ⟨last, h1, h2⟩ := hl cur
  exact .here g (by rw [h1, ← h2]; rfl)

variable (sw w) in
/-- In the tree of the node `t`, the nodes are where they are in `e`. -/
def Foc (e : Json) (t : Tree BasicStyle) : Prop :=
  ∀ flat (ind : List (Segment (basicDoc sw))) outer nt, docTree (basicLaw sw) t flat ind outer = .ok nt →
    (flat = true → ∀ path pre y, e.leftOf sw pre path = some y → ∀ K st cur, st.eol = false → segsWidth cur = st.col →
      lineW cur = pre → Puts w e.rootId nt K st cur path (.inLine y.1 y.2)) ∧
    (flat = false → ∀ k, lineW ind = levelIndent sw k → ∀ path st cur post K p, st.eol = false → segsWidth cur = st.col →
      Follows w e.isComment post K → (e.isComment = true → post = .none) →
      e.place sw w k (lineW cur) post path = some p → Puts w e.rootId nt K st cur path p)

/-- A node whose children are found. -/
theorem Foc.step {okString okNumber : String → Prop} {e : Json} {t : Tree BasicStyle} (hit : e.Item okString okNumber)
    (hf : Fmt sw w e t)
    (h1 : ∀ (ind : List (Segment (basicDoc sw))) outer nt, docTree (basicLaw sw) t true ind outer = .ok nt → ∀ i path pre y,
      e.leftOf sw pre (i :: path) = some y → ∀ K st cur, st.eol = false → segsWidth cur = st.col → lineW cur = pre →
      Puts w e.rootId nt K st cur (i :: path) (.inLine y.1 y.2))
    (h2 : ∀ (ind : List (Segment (basicDoc sw))) outer nt, docTree (basicLaw sw) t false ind outer = .ok nt →
      ∀ k, lineW ind = levelIndent sw k → ∀ i path st cur post K p, st.eol = false → segsWidth cur = st.col →
      Follows w e.isComment post K → (e.isComment = true → post = .none) →
      e.place sw w k (lineW cur) post (i :: path) = some p → Puts w e.rootId nt K st cur (i :: path) p) :
    Foc sw w e t := by
  intro flat ind outer nt hnt
  obtain ⟨nt', g1, g2, g3, g4⟩ := hf.good flat ind outer
  rw [hnt] at g1
  cases g1
  constructor
  · rintro rfl (_ | ⟨i, path⟩) pre y h K st cur he hc hl
    · rw [Json.leftOf_nil] at h
      simp only [Option.map_eq_some_iff] at h
      obtain ⟨x, hx, rfl⟩ := h
      subst hl
      have := g3 rfl
      rw [hx] at this
      exact .flat this
    · exact h1 ind outer nt hnt i path pre y h K st cur he hc hl
  · rintro rfl k hk (_ | ⟨i, path⟩) st cur post K p he hc hK hp h
    · rw [Json.place_nil] at h
      cases h
      obtain ⟨init, last, h5, h6⟩ := own_lines (sw := sw) (w := w) e hit k (lineW cur) post hp
      rw [h5]
      exact .here_lays (g4 rfl k hk st cur post K he hc hK hp) h6
    · exact h2 ind outer nt hnt k hk i path st cur post K p he hc hK hp h

theorem Foc.leaf {okString okNumber : String → Prop} {e : Json} {t : Tree BasicStyle} (hit : e.Item okString okNumber)
    (hf : Fmt sw w e t) (h1 : ∀ pre i path, e.leftOf sw pre (i :: path) = none)
    (h2 : ∀ k pre post i path, e.place sw w k pre post (i :: path) = none) : Foc sw w e t := by
  refine .step hit hf ?_ ?_
  · intro ind outer nt _ i path pre y h
    rw [h1] at h
    cases h
  · intro ind outer nt _ k _ i path st cur post K p _ _ _ _ h
    rw [h2] at h
    cases h

/-- A child, as it is found in its parent's tree. -/
theorem Foc.kid {e : Json} {node ch : Tree BasicStyle} {i : Nat} (hc : (basicDoc sw).childAt node i = .ok ch)
    (hf : Fmt sw w e ch) (c : Ctx (basicDoc sw)) :
    ∃ nt, docTree (basicLaw sw) ch c.flat c.indent (some c.style) = .ok nt ∧
      docKid (basicLaw sw) node i c = .child i (.ok e.rootId) nt := by
  obtain ⟨nt, h1, -⟩ := hf.good c.flat c.indent (some c.style)
  refine ⟨nt, h1, ?_⟩
  have hid : Call.toRes ((basicDoc sw).id ch) = .ok e.rootId := by
    show Call.toRes (.ok ch.id) = _
    rw [hf.id]
    rfl
  rw [docKid_of (basicLaw sw) hc h1, hid]

theorem foc_pair {okString okNumber : String → Prop} {id keyId : Nat} {key : String} {v : Json} (hit : (Json.pair id keyId key v).Item okString okNumber)
    (hvc : v.isComment = false)
    (hm : ∀ t, t.setNeedsSeparator = v.build.setNeedsSeparator → Fmt sw w v t)
    (hv : ∀ t, t.setNeedsSeparator = v.build.setNeedsSeparator → Foc sw w v t)
    {t : Tree BasicStyle} (ht : t.setNeedsSeparator = (Json.pair id keyId key v).build.setNeedsSeparator) :
    Foc sw w (.pair id keyId key v) t := by
  have hfmt := json_fmt (sw := sw) (w := w) _ hit t ht
  let cs : List (Tree BasicStyle) := [jsonString keyId key, v.build]
  obtain ⟨z, rfl⟩ : ∃ z, t = .branch (markSeparators cs).1 id jsonPairN default [] false z := by
    apply branch_of_set (y := false)
    rw [ht]
    simp only [Json.build]
    rfl
  obtain ⟨z0, h0⟩ : ∃ z', (basicDoc sw).childAt (.branch (markSeparators cs).1 id jsonPairN default [] false z) 0 =
      .ok (.text key keyId jsonStringN default [] false z') := by
    have hm := markSeparators_get cs 0 (jsonString keyId key) rfl
    split at hm
    · exact ⟨true, basic_childAt hm⟩
    · exact ⟨false, basic_childAt hm⟩
  obtain ⟨v', hv', h1⟩ : ∃ v', v'.setNeedsSeparator = v.build.setNeedsSeparator ∧
      (basicDoc sw).childAt (.branch (markSeparators cs).1 id jsonPairN default [] false z) 1 = .ok v' := by
    have hm := markSeparators_get cs 1 v.build rfl
    refine ⟨_, ?_, basic_childAt hm⟩
    split
    · cases v.build <;> rfl
    · rfl
  have hnum : (basicDoc sw).numChildren (.branch (markSeparators cs).1 id jsonPairN default [] false z) = .ok (some 2) := by
    simp [Tree.children?, markSeparators_length, cs]
  have htree : ∀ c, jsonPairN.1.tree (P := basicDoc sw) (.branch (markSeparators cs).1 id jsonPairN default [] false z)
      (docKid (basicLaw sw) (.branch (markSeparators cs).1 id jsonPairN default [] false z)) none c =
      .concat (.concat (docKid (basicLaw sw) (.branch (markSeparators cs).1 id jsonPairN default [] false z) 0 c)
        (.text ⟨": ", sw ": ", c.style, false⟩))
        (docKid (basicLaw sw) (.branch (markSeparators cs).1 id jsonPairN default [] false z) 1 c) := by
    intro c
    rw [← child_zero_tree (P := basicDoc sw) (env := none) (kid := docKid (basicLaw sw) (.branch (markSeparators cs).1 id jsonPairN default [] false z)) hnum c,
      ← child_one_tree (P := basicDoc sw) (env := none) (kid := docKid (basicLaw sw) (.branch (markSeparators cs).1 id jsonPairN default [] false z)) hnum c]
    rfl
  have hkey : ∀ c : Ctx (basicDoc sw), FlatW (some (quoted sw key))
      (docKid (basicLaw sw) (.branch (markSeparators cs).1 id jsonPairN default [] false z) 0 c) := by
    intro c
    have := docKid_of (basicLaw sw) h0 (docTree_of (basicLaw sw) (a := jsonStringN.1) (s := default) rfl rfl c.flat c.indent (some c.style))
    rw [this]
    exact (string_flat (sw := sw) (id := keyId) (s := key) (z := z0) _).child ..
  have hk0 : Fmt sw w (.string keyId key) (.text key keyId jsonStringN default [] false z0) := fmt_string
  have htr : ∀ flat (ind : List (Segment (basicDoc sw))) outer nt, docTree (basicLaw sw)
      (.branch (markSeparators cs).1 id jsonPairN default [] false z) flat ind outer = .ok nt →
      nt = .concat (.concat (docKid (basicLaw sw) (.branch (markSeparators cs).1 id jsonPairN default [] false z) 0
          ⟨flat, ind, enterStyle outer default⟩) (.text ⟨": ", sw ": ", (enterStyle outer default : BasicStyle), false⟩))
        (docKid (basicLaw sw) (.branch (markSeparators cs).1 id jsonPairN default [] false z) 1
          ⟨flat, ind, enterStyle outer default⟩) := by
    intro flat ind outer nt h
    rw [docTree_of (basicLaw sw) (a := jsonPairN.1) (s := default) rfl rfl] at h
    rw [htree] at h
    exact (Except.ok.inj h).symm
  -- both children
  have hlead0 : ∀ (c : Ctx (basicDoc sw)) K st cur, st.eol = false → segsWidth cur = st.col → ∃ nt0, FlatW (some (quoted sw key)) nt0 ∧
      Lead (P := basicDoc sw) w 0 keyId nt0 (fun _ => True) id (.concat (.concat (docKid (basicLaw sw) (.branch (markSeparators cs).1 id jsonPairN default [] false z) 0
          c) (.text ⟨": ", sw ": ", c.style, false⟩))
        (docKid (basicLaw sw) (.branch (markSeparators cs).1 id jsonPairN default [] false z) 1 c)) K st cur [] (lineW cur) := by
    intro c K st cur he hc
    obtain ⟨nt0, g0, g⟩ := Foc.kid h0 hk0 c
    rw [docTree_of (basicLaw sw) (a := jsonStringN.1) (s := default) rfl rfl] at g0
    have g0 := Except.ok.inj g0
    refine ⟨nt0, by rw [← g0]; exact string_flat _, ?_⟩
    rw [g]
    exact (Lead.child he hc trivial).left.left
  have hlead1 : ∀ (c : Ctx (basicDoc sw)) (F : List (NTree (basicDoc sw)) → Prop) K st cur, F K → st.eol = false → segsWidth cur = st.col →
      ∃ nt1, docTree (basicLaw sw) v' c.flat c.indent (some c.style) = .ok nt1 ∧
      Lead (P := basicDoc sw) w 1 v.rootId nt1 F id (.concat (.concat (docKid (basicLaw sw) (.branch (markSeparators cs).1 id jsonPairN default [] false z) 0
          c) (.text ⟨": ", sw ": ", c.style, false⟩))
        (docKid (basicLaw sw) (.branch (markSeparators cs).1 id jsonPairN default [] false z) 1 c)) K st cur []
        (lineW cur ++ (quoted sw key ++ piece sw ": ")) := by
    intro c F K st cur hF he hc
    obtain ⟨nt0, -, g0⟩ := Foc.kid h0 hk0 c
    obtain ⟨nt1, gt, g1⟩ := Foc.kid h1 (hm v' hv') c
    refine ⟨nt1, gt, ?_⟩
    have hpre := (hkey c).concat (.text ⟨": ", sw ": ", c.style, false⟩)
    rw [catO_some] at hpre
    rw [g1]
    refine Lead.right_flat hpre ?_ he hc fun st1 cur1 h1 h2 h3 => ?_
    · rw [g0]
      exact ⟨by simp [NTree.NoChild], trivial⟩
    · have h3' : lineW cur ++ (quoted sw key ++ piece sw ": ") = lineW cur1 := h3.symm
      rw [h3']
      exact Lead.child h1 h2 hF
  refine Foc.step hit hfmt ?_ ?_
  · intro ind outer nt hnt i path pre y h K st cur he hc hl
    have hnt := htr _ _ _ _ hnt
    subst hnt hl
    have hpos : (i = 0 ∧ path = [] ∧ y = (lineW cur, quoted sw key)) ∨
        (i = 1 ∧ v.leftOf sw (lineW cur ++ (quoted sw key ++ piece sw ": ")) path = some y) := by
      match i, path, h with
      | 0, [], h => simp only [Json.leftOf, Option.some.injEq] at h; exact .inl ⟨rfl, rfl, h.symm⟩
      | 0, _ :: _, h => simp [Json.leftOf] at h
      | 1, path, h => simp only [Json.leftOf] at h; exact .inr ⟨rfl, h⟩
      | i + 2, path, h => simp [Json.leftOf] at h
    rcases hpos with ⟨rfl, rfl, rfl⟩ | ⟨rfl, h⟩
    · obtain ⟨nt0, hq, hl⟩ := hlead0 ⟨true, ind, enterStyle outer default⟩ K st cur he hc
      exact hl.puts fun k' st' cur' a b c d => c ▸ Puts.flat hq
    · obtain ⟨nt1, hnt1, hl⟩ := hlead1 ⟨true, ind, enterStyle outer default⟩ (fun _ => True) K st cur trivial he hc
      exact hl.puts fun k' st' cur' a b c d => (hv v' hv' _ _ _ _ hnt1).1 rfl _ _ _ h _ _ _ a b c
  · intro ind outer nt hnt k hk i path st cur post K p he hc hK hp h
    have hnt := htr _ _ _ _ hnt
    subst hnt
    have hpos : (i = 0 ∧ path = [] ∧ p = .inLine (lineW cur) (quoted sw key)) ∨
        (i = 1 ∧ v.place sw w k (lineW cur ++ (quoted sw key ++ piece sw ": ")) post path = some p) := by
      match i, path, h with
      | 0, [], h => simp only [Json.place, Option.some.injEq] at h; exact .inl ⟨rfl, rfl, h.symm⟩
      | 0, _ :: _, h => simp [Json.place] at h
      | 1, path, h => simp only [Json.place] at h; exact .inr ⟨rfl, h⟩
      | i + 2, path, h => simp [Json.place] at h
    rcases hpos with ⟨rfl, rfl, rfl⟩ | ⟨rfl, h⟩
    · obtain ⟨nt0, hq, hl⟩ := hlead0 ⟨false, ind, enterStyle outer default⟩ K st cur he hc
      exact hl.puts fun k' st' cur' a b c d => c ▸ Puts.flat hq
    · obtain ⟨nt1, hnt1, hl⟩ := hlead1 ⟨false, ind, enterStyle outer default⟩ (Follows w v.isComment post) K st cur
        (by rw [hvc]; exact hK) he hc
      refine hl.puts fun k' st' cur' a b c d => ?_
      refine (hv v' hv' _ _ _ _ hnt1).2 rfl k hk _ _ _ _ _ _ a b d (fun h => ?_) (by rw [c]; exact h)
      rw [hvc] at h
      cases h

theorem foc_group {okString okNumber : String → Prop} {l r : Char} {es : List Json} {e : Json} {id : Nat}
    (hg : e.IsGroup (String.ofList [l]) (String.ofList [r]) es id)
    {notn : TreeNotation} (hnotn : notn.1 = bracketN l r)
    (hit : e.Item okString okNumber)
    (hm : ∀ (k : Nat) x, es[k]? = some x → ∀ t, t.setNeedsSeparator = x.build.setNeedsSeparator → Fmt sw w x t)
    (h : ∀ (k : Nat) x, es[k]? = some x → ∀ t, t.setNeedsSeparator = x.build.setNeedsSeparator → Foc sw w x t)
    {y : Bool} (hfmt : Fmt sw w e (.branch (markSeparators (Json.builds es)).1 id notn default [] false y)) : Foc sw w e (.branch (markSeparators (Json.builds es)).1 id notn default [] false y) := by
  cases hes : es with
  | nil =>
    subst hes
    refine .leaf hit hfmt ?_ ?_
    · intro pre i path
      rw [hg.leftOf, Json.entryLeftOf]
    · intro k pre post i path
      rw [hg.place]
      simp [Json.entryLeftOf, Json.entryPlace]
  | cons e0 es0 =>
    rw [← hes]
    have hlen' : es.length = es0.length + 1 := by rw [hes]; simp
    have hlen : (markSeparators (Json.builds es)).1.length = es0.length + 1 := by
      rw [markSeparators_length, builds_eq, hes]; simp
    -- the kids
    have hkid : ∀ i, i ≤ es0.length → ∃ x ch, es[i]? = some x ∧
        (basicDoc sw).childAt (.branch (markSeparators (Json.builds es)).1 id notn default [] false y) i = .ok ch ∧
        Fmt sw w x ch ∧ Foc sw w x ch := by
      intro i hi
      have hlt : i < es.length := by omega
      have hget : (Json.builds es)[i]? = some (es[i].build) := by
        rw [builds_eq, List.getElem?_map, List.getElem?_eq_getElem hlt]; rfl
      have hms := markSeparators_get _ i _ hget
      obtain ⟨ch, hch, hset⟩ : ∃ ch, (markSeparators (Json.builds es)).1[i]? = some ch ∧
          ch.setNeedsSeparator = es[i].build.setNeedsSeparator := by
        refine ⟨_, hms, ?_⟩
        split
        · cases es[i].build <;> rfl
        · rfl
      exact ⟨es[i], ch, List.getElem?_eq_getElem hlt, basic_childAt hch, hm i _ (List.getElem?_eq_getElem hlt) _ hset,
        h i _ (List.getElem?_eq_getElem hlt) _ hset⟩
    let N : Tree BasicStyle := .branch (markSeparators (Json.builds es)).1 id notn default [] false y
    -- one line
    have hseqAt : ∀ (c : Ctx (basicDoc sw)) (x : Textual (basicDoc sw)), c.flat = true → x.word = piece sw ", " →
        ∀ i path pre z, Json.entryLeftOf sw pre es i path = some z → ∀ k st cur, st.eol = false → segsWidth cur = st.col →
        lineW cur = pre → ∃ c' t' F y, Lead (P := basicDoc sw) w i c' t' F e.rootId (iter (docKid (basicLaw sw) N 0 c)
          (fun k acc => .concat (.concat acc (.text x)) (docKid (basicLaw sw) N (k + 1) c)) es0.length) k st cur [] y ∧
          ∀ k' st' cur', st'.eol = false → segsWidth cur' = st'.col → lineW cur' = y → F k' →
            Puts w c' t' k' st' cur' path (.inLine z.1 z.2) := by
      intro c x hcf hx i path pre z hz k st cur he hc hl
      rw [entryLeftOf_eq] at hz
      simp only [Option.bind_eq_some_iff] at hz
      obtain ⟨p, hp, a, ha, hz⟩ := hz
      have hi : i ≤ es0.length := by
        have := (List.getElem?_eq_some_iff.1 ha).1
        omega
      obtain ⟨a', ch, ha', hch, hfm, hfo⟩ := hkid i hi
      rw [ha] at ha'
      cases ha'
      obtain ⟨nt, hnt, hk⟩ := Foc.kid hch hfm c
      refine ⟨a.rootId, nt, fun _ => True, lineW cur ++ p, ?_, ?_⟩
      · refine Lead.seq (kids := fun i => docKid (basicLaw sw) N i c) (f := fun i => (es[i]?).bind (Json.oneLine sw)) hi ?_ hk ?_
          (by rw [hx]; exact hp) he hc
        · intro j hj
          obtain ⟨b, ch, h1, h2, h3, -⟩ := hkid j hj
          simp only [h1, Option.bind_some]
          exact (h3.kid h2 c).2.1 hcf
        · intro j hj hne
          obtain ⟨b, ch, h1, h2, h3, -⟩ := hkid j hj
          obtain ⟨nt', -, hk'⟩ := Foc.kid h2 h3 c
          show NTree.NoChild i (docKid (basicLaw sw) N j c)
          rw [hk']
          exact hne
      · intro k' st' cur' a1 a2 a3 _
        refine (hfo _ _ _ _ hnt).1 hcf _ _ _ hz _ _ _ a1 a2 ?_
        rw [a3, hl]
    have hkb : (Tree.branch (markSeparators (Json.builds es)).1 id notn default [] false y).notn.1 = notn.1 := by simp [Tree.notn]
    refine Foc.step hit hfmt ?_ ?_
    · intro ind outer nt hnt i path pre z hz K st cur he hc hl
      rw [docTree_of (basicLaw sw) (a := notn.1) (s := default) (by simp [Tree.notn]) rfl] at hnt
      have hnt := Except.ok.inj hnt
      obtain ⟨o, x, zz, v, c', ho, hx, hzz, hv, hc', hind, hft, htt⟩ := bracket_tree_eq (sw := sw) (id := id) (st := default) (y := y)
        hlen hnotn ⟨true, ind, enterStyle outer default⟩
      dsimp only at hft
      rw [hft rfl] at hnt
      subst hnt
      rw [hg.leftOf] at hz
      have hlo : lineW (cur ++ [o.segment]) = pre ++ piece sw (String.ofList [l]) := by rw [lineW_snoc, hl, ho]
      obtain ⟨cc, tt, F, yy, hL, hP⟩ := hseqAt ⟨true, ind, enterStyle outer default⟩ x rfl hx i path _ z hz
        (.text zz :: K) ⟨st.col + o.width, false⟩ (cur ++ [o.segment]) rfl (by rw [segsWidth_snoc, hc]) hlo
      have := (Lead.right (a := NTree.text o) (T := [.tok (.text o)]) (l1 := []) (cur := cur) trivial
        (by have := Greedy.text (w := w) (id := e.rootId) (st := st) (t := o)
              (k := iter (docKid (basicLaw sw) N 0 ⟨true, ind, enterStyle outer default⟩) (fun k acc => .concat (.concat acc (.text x))
                (docKid (basicLaw sw) N (k + 1) ⟨true, ind, enterStyle outer default⟩)) es0.length :: .text zz :: K)
            rw [he] at this
            exact this) rfl hL).left
      exact this.puts hP
    · intro ind outer nt hnt k hk i path st cur post K p he hc hK hp hb
      rw [docTree_of (basicLaw sw) (a := notn.1) (s := default) (by simp [Tree.notn]) rfl] at hnt
      have hnt := Except.ok.inj hnt
      obtain ⟨o, sx, zz, v, c', ho, hx, hzz, hv, hc', hind, hft, htt⟩ := bracket_tree_eq (sw := sw) (id := id) (st := default) (y := y)
        hlen hnotn ⟨false, ind, enterStyle outer default⟩
      dsimp only at htt hind hc'
      rw [htt rfl] at hnt
      subst hnt
      have hseq := single_flat (P := basicDoc sw) (x := sx) (n := es0.length)
        (kids := fun i => docKid (basicLaw sw) N i ⟨true, ind, enterStyle outer default⟩)
        (f := fun i => (es[i]?).bind (Json.oneLine sw)) (by
          intro i hi
          obtain ⟨a, ch, h1, h2, h3, -⟩ := hkid i hi
          simp only [h1, Option.bind_some]
          exact (h3.kid h2 ⟨true, ind, enterStyle outer default⟩).2.1 rfl)
      rw [hx, ← oneLines_eq sw es _ hlen'] at hseq
      have hone : FlatW (e.oneLine sw) (.concat (.concat (.text o) (iter (docKid (basicLaw sw) N 0 ⟨true, ind, enterStyle outer default⟩)
          (fun k acc => .concat (.concat acc (.text sx)) (docKid (basicLaw sw) N (k + 1) ⟨true, ind, enterStyle outer default⟩)) es0.length))
          (.text zz)) := by
        have := ((FlatW.text o).concat hseq).concat (.text zz)
        rw [hg.oneLine, ← ho, ← hzz]
        cases hl : Json.oneLines sw es with
        | none => rw [hl] at this; exact this
        | some b => rw [hl] at this; exact this
      have hfit := bracket_fits (P := basicDoc sw) (w := w) he hc hK.1 hone ⟨_, hseq, by rw [hg.oneLine]; simp⟩
      rw [hg.place] at hb
      by_cases hf : onOneLine w (lineW cur) post (e.oneLine sw) = true
      · rw [if_pos hf] at hb
        simp only [Option.map_eq_some_iff] at hb
        obtain ⟨z, hz, rfl⟩ := hb
        have hlo : lineW (cur ++ [o.segment]) = lineW cur ++ piece sw (String.ofList [l]) := by rw [lineW_snoc, ho]
        obtain ⟨cc, tt, F, yy, hL, hP⟩ := hseqAt ⟨true, ind, enterStyle outer default⟩ sx rfl hx i path _ z hz
          (.text zz :: K) ⟨st.col + o.width, false⟩ (cur ++ [o.segment]) rfl (by rw [segsWidth_snoc, hc]) hlo
        have := (Lead.right (a := NTree.text o) (T := [.tok (.text o)]) (l1 := []) (cur := cur) trivial
          (by have := Greedy.text (w := w) (id := e.rootId) (st := st) (t := o)
                (k := iter (docKid (basicLaw sw) N 0 ⟨true, ind, enterStyle outer default⟩) (fun k acc => .concat (.concat acc (.text sx))
                  (docKid (basicLaw sw) N (k + 1) ⟨true, ind, enterStyle outer default⟩)) es0.length :: .text zz :: K)
              rw [he] at this
              exact this) rfl hL).left
        exact (Lead.first (hfit.2 hf) this).puts hP
      · rw [if_neg hf] at hb
        simp only [Option.map_eq_some_iff] at hb
        obtain ⟨r0, hr0, rfl⟩ := hb
        rw [entryPlace_eq] at hr0
        simp only [Option.bind_eq_some_iff, Option.map_eq_some_iff] at hr0
        obtain ⟨a, ha, r1, hr1, rfl⟩ := hr0
        have hi : i ≤ es0.length := by
          have := (List.getElem?_eq_some_iff.1 ha).1
          omega
        obtain ⟨a', ch, ha', hch, hfm, hfo⟩ := hkid i hi
        rw [ha] at ha'
        cases ha'
        obtain ⟨nt, hnt, hki⟩ := Foc.kid hch hfm c'
        have hci : lineW c'.indent = levelIndent sw (k + 1) := by rw [hind, hk]; rfl
        have hlast : commaAfter es es0.length = false := by
          unfold commaAfter
          rw [List.drop_of_length_le (by omega)]
          cases es[es0.length]? <;> simp
        have hLead := Lead.multi (P := basicDoc sw) (w := w) (id := e.rootId) (n := es0.length) (v := v) (ci := c'.indent)
          (kids := fun i => docKid (basicLaw sw) N i c') (flags := commaAfter es)
          (com := fun i => ((es[i]?).map Json.isComment).getD false)
          (R := fun i => ((es[i]?).map fun e => e.lines sw w (k + 1) (levelIndent sw (k + 1))
            (if commaAfter es i then piece sw "," else .none)).getD []) hi
          (by
            intro i hi K' hK'
            obtain ⟨a, ch, h1, h2, h3, -⟩ := hkid i hi
            simp only [h1, Option.map_some, Option.getD_some] at hK' ⊢
            have := (h3.kid h2 c').2.2 (by rw [hc']) (k + 1) hci e.rootId ⟨segsWidth c'.indent, false⟩ c'.indent
              (if commaAfter es i then v.word else .none) K' rfl rfl hK' (by
                intro hcom
                simp [commaAfter, h1, hcom])
            rw [hci, hv] at this
            rw [hv]
            exact this)
          (by
            intro i hfl
            cases hi : es[i]? with
            | none => rfl
            | some a =>
              simp only [commaAfter, hi, Bool.and_eq_true, Bool.not_eq_true'] at hfl
              simp [hfl.1])
          hki
          (by
            intro j hj hne
            obtain ⟨b, ch, h1, h2, h3, -⟩ := hkid j hj
            obtain ⟨nt', -, hk'⟩ := Foc.kid h2 h3 c'
            show NTree.NoChild i (docKid (basicLaw sw) N j c')
            rw [hk']
            exact hne)
          (.newline ind :: .text zz :: K) (by
            rw [hlast]
            refine ⟨fun st _ => ?_, fun _ st => ?_⟩
            · simp [SecondsFit, NTree.seconds, Word.none]
            · simp [SecondsFit, NTree.seconds])
        simp only [comma_flag]
        have hL2 := Lead.right_newline (st := ⟨st.col + o.width, st.eol⟩) (cur := cur ++ [o.segment]) hLead
        have hL3 := Lead.right (a := NTree.text o) (T := [.tok (.text o)]) (l1 := []) (cur := cur) trivial
          (Greedy.text (w := w) (id := e.rootId) (st := st) (t := o)) rfl hL2
        have hL4 := (Lead.second (fun h => hf (hfit.1 h)) hL3.left.left).puts (path := path) (p := r1)
          (fun k' st' cur' a1 a2 a3 a4 => by
            simp only [ha, Option.map_some, Option.getD_some] at a4
            refine (hfo _ _ _ _ hnt).2 hc' (k + 1) hci _ _ _ _ _ _ a1 a2 a4 (fun hcom => ?_) (by rw [a3, hci, hv]; exact hr1)
            simp [commaAfter, ha, hcom])
        rw [lineW_snoc, ho] at hL4
        simpa [Spot.below_below] using hL4

/-! ### Words of comments -/

/-- The place of a word that is written on a page. -/
def Page.spot (p : Page) (x : Word) : Spot :=
  ⟨p.1.map fun l => ⟨l.1, l.2⟩, ⟨p.2.1, p.2.2⟩, [⟨p.2.1, p.2.2⟩ ++ x]⟩

theorem wordPlace_write (ind : Word) (xs : List Word) : ∀ (p : Page) (i : Nat) x, xs[i]? = some x →
    (wordPlace sw w ind ⟨p.2.1, p.2.2⟩ xs i).map (Spot.below (p.1.map fun l => ⟨l.1, l.2⟩)) =
      some (((p.write w (piece sw " ") ind (xs.take i)).next w (piece sw " ") ind x.width).spot x) := by
  induction xs with
  | nil => intro p i x h; simp at h
  | cons y ys ih =>
    intro p i x h
    have hw : ((⟨p.2.1, p.2.2⟩ ++ piece sw " " ++ y : Word)).width = p.2.2 + (piece sw " ").width + y.width := by
      simp only [Word.append_width]
    cases i with
    | zero =>
      simp only [List.getElem?_cons_zero, Option.some.injEq] at h
      subst h
      simp only [wordPlace, List.take_zero, Page.write, List.foldl_nil, Page.next, hw]
      by_cases hf : p.2.2 + (piece sw " ").width + y.width ≤ w
      · simp only [hf, if_true, Option.map_some, Spot.inLine, Spot.below, Page.spot, List.append_nil]
        rfl
      · simp only [hf, if_false, Option.map_some, Spot.inLine, Spot.below, Page.spot, List.append_nil, List.map_append]
        rfl
    | succ i =>
      simp only [List.getElem?_cons_succ] at h
      have := ih ((p.next w (piece sw " ") ind y.width).put y) i x h
      simp only [wordPlace, hw, List.take_succ_cons, Page.write, List.foldl_cons]
      rw [Page.write] at this
      rw [← this]
      unfold Page.next
      split
      · rfl
      · simp only [Option.map_map]
        congr 1
        funext q
        simp [Spot.below, Page.put]

theorem pageAt_words {P : PrettyDoc} {sp ind : Word} {t : Nat → Textual P} {start : Page} {y : Word} {ys : List Word}
    (ht : ∀ i, i ≤ ys.length → ((y :: ys)[i]?) = some (t i).word) : ∀ i, i ≤ ys.length →
    (pageAt w none sp ind t start i 0).put (t i).word = (start.put y).write w sp ind (ys.take i) := by
  intro i
  induction i with
  | zero =>
    intro _
    have := ht 0 (by omega)
    simp only [List.getElem?_cons_zero, Option.some.injEq] at this
    rw [this]
    rfl
  | succ i ih =>
    intro hi
    have h1 := ht (i + 1) hi
    simp only [List.getElem?_cons_succ] at h1
    rw [List.take_succ, h1, Option.toList_some, Page.write_snoc, ← ih (by omega)]
    simp [pageAt, optWidth, optStr, Textual.word]

/-- Where word `i` is. -/
theorem Lead.words {P : PrettyDoc} {id : P.Id} {sp : Textual P} {ind : List (Segment P)} {ids : Nat → P.Id} {t : Nat → Textual P}
    {st : LineSt} {cur : List (Segment P)} (hst : st.eol = false) (hcur : segsWidth cur = st.col) (n : Nat) :
    ∀ k, Trails w 0 k → ∀ i, i ≤ n → ∃ p : Page,
      p = (pageAt w none sp.word (lineW ind) t ([], segsString cur, segsWidth cur) i 0) ∧
      Lead w i (ids i) (.text (t i)) (fun _ => True) id (wordsTree none sp ind ids t n) k st cur
        (p.1.map fun l => ⟨l.1, l.2⟩) ⟨p.2.1, p.2.2⟩ := by
  induction n with
  | zero =>
    intro k hk i hi
    have : i = 0 := by omega
    subst this
    exact ⟨_, rfl, Lead.child hst hcur trivial⟩
  | succ n ih =>
    intro k hk i hi
    have hk' : Trails w 0 (.choice (.text sp) (.newline ind) :: wordTree ids t (n + 1) :: k) := by
      intro st _
      simp [SecondsFit, NTree.seconds]
    by_cases h : i = n + 1
    · subst h
      obtain ⟨T, st1, g1, h1⟩ := words_greedy (w := w) (id := id) (comma := none) (sp := sp) (ind := ind) (ids := ids) (t := t)
        hst hcur n _ _ hk'
      have hfit : SecondsFit w st1 (.text sp :: wordTree ids t (n + 1) :: k) ↔
          st1.col + sp.width + (t (n + 1)).width ≤ w := by
        have := hk ⟨st1.col + sp.width + (t (n + 1)).width, st1.eol⟩ h1.eol
        unfold SecondsFit at this ⊢
        simp only [List.flatMap_cons, NTree.seconds, wordTree, List.cons_append, List.nil_append, lineFits_text, h1.eol,
          true_and] at this ⊢
        simpa using this
      obtain ⟨U, st2, g2, h2⟩ : ∃ U st', Greedy w id (.choice (.text sp) (.newline ind)) (wordTree ids t (n + 1) :: k) st1 st' U ∧
          Writes cur (erase (T ++ U)) st' (pageAt w none sp.word (lineW ind) t ([], segsString cur, segsWidth cur) (n + 1) 0) := by
        have hcol := h1.col
        simp only [pageAt, optWidth, optStr, String.append_empty, Nat.add_zero]
        unfold Page.next
        by_cases hf : st1.col + sp.width + (t (n + 1)).width ≤ w
        · refine ⟨_, _, .choice_first (hfit.2 hf) .text, ?_⟩
          have := h1.text sp
          rw [if_pos (by rw [hcol] at hf; exact hf)]
          rw [hcol] at this ⊢
          simpa [erase, erase_append, Page.put, Textual.word, lineW] using this
        · refine ⟨_, _, .choice_second (fun hf' => hf (hfit.1 hf')) .newline, ?_⟩
          have := h1.newline ind
          rw [if_neg (by rw [hcol] at hf; exact hf)]
          simpa [erase, erase_append, lineW, Textual.word] using this
      obtain ⟨ls, last, hl, hlw, hp⟩ := h2.page
      refine ⟨_, rfl, ?_⟩
      rw [hp]
      have := Lead.right (w := w) (i := n + 1) (c := ids (n + 1)) (t' := .text (t (n + 1))) (F := fun _ => True) (id := id)
        (k := k) (a := .concat (wordsTree none sp ind ids t n) (.choice (.text sp) (.newline ind)))
        (b := wordTree ids t (n + 1)) (ls := []) (y := lineW last) ⟨?_, trivial, trivial⟩ (.concat g1 g2) hl
        (Lead.child h2.eol hlw trivial)
      · rw [List.append_nil] at this
        rw [List.map_map]
        exact this
      · refine iter_noChild (kids := wordTree ids t) (by simp [wordTree, NTree.NoChild]) fun k acc hk ha =>
          ⟨⟨ha, trivial, trivial⟩, ?_⟩
        simp only [wordTree, NTree.NoChild]
        omega
    · obtain ⟨p, hp, hL⟩ := ih _ hk' i (by omega)
      exact ⟨p, hp, hL.left.left⟩

theorem Puts.word {P : PrettyDoc} {c : P.Id} {x : Textual P} {k : List (NTree P)} {st : LineSt} {cur : List (Segment P)} :
    Puts w c (.text x) k st cur [] (.inLine (lineW cur) x.word) := by
  have := Puts.here (w := w) (id := c) (k := k) (st := st) (cur := cur) (t := .text x) .text rfl
  have e : (linesFrom cur (erase [GTok.tok (.text x)])).map lineW = [lineW cur ++ x.word] := by
    simp [erase, linesFrom, lineW_snoc]
  rw [e] at this
  exact this

theorem foc_comment {okString okNumber : String → Prop} {id : Nat} {wordIds : Nat → Nat} {s : String} {t : Tree BasicStyle}
    (hit : (Json.comment id wordIds s).Item okString okNumber)
    (ht : t.setNeedsSeparator = (Json.comment id wordIds s).build.setNeedsSeparator) : Foc sw w (.comment id wordIds s) t := by
  have hfmt := fmt_comment (sw := sw) (w := w) ht
  let words := splitWhitespace [] s.toList
  let cs : List (Tree BasicStyle) := words.mapIdx fun i word => Tree.newText (wordIds i) jsonWordN (String.ofList word)
  obtain ⟨z, rfl⟩ : ∃ z, t = .branch (markSeparators cs).1 id jsonCommentN default [] true z := by
    apply branch_of_set (y := false)
    rw [ht]
    rfl
  have hlen : (markSeparators cs).1.length = words.length := by
    rw [markSeparators_length]; simp [cs]
  have hch : ∀ (i : Nat), i < words.length → ∃ z', (basicDoc sw).childAt
      (.branch (markSeparators cs).1 id jsonCommentN default [] true z) i =
        .ok (.text (String.ofList (words.getD i [])) (wordIds i) jsonWordN default [] false z') := by
    intro i hi
    have hget : cs[i]? = some (Tree.newText (wordIds i) jsonWordN (String.ofList (words.getD i []))) := by
      simp [cs, List.getElem?_mapIdx, List.getElem?_eq_getElem hi]
    have hm := markSeparators_get cs i _ hget
    split at hm
    · exact ⟨true, basic_childAt hm⟩
    · exact ⟨false, basic_childAt hm⟩
  refine .step hit hfmt ?_ ?_
  · intro ind outer nt _ i path pre y h
    simp [Json.leftOf] at h
  · intro ind outer nt hnt k hk i path st cur post K p he hc hK hp h
    have htree := docTree_of (basicLaw sw) (node := .branch (markSeparators cs).1 id jsonCommentN default [] true z)
      (a := jsonCommentN.1) (s := default) rfl rfl false ind outer
    let z : BasicStyle := BasicStyle.combine (enterStyle (P := basicDoc sw) outer default) (BasicStyle.fromLabel "yellow")
    let lit : Textual (basicDoc sw) := commentLit sw z "// "
    have key := comment_body_tree (sw := sw) (words := words) (wordIds := wordIds) rfl hlen z (ind ++ [lit.segment]) hch
    have key := congrArg (fun t => NTree.concat (P := basicDoc sw) (.concat (.text lit) t) .eol) key
    have htree := htree.trans (congrArg Except.ok key)
    rw [hnt] at htree
    cases htree
    clear key hnt
    have hcw : lineW (cur ++ [lit.segment]) = lineW cur ++ piece sw "// " := lineW_snoc cur lit
    have hiw : lineW (ind ++ [lit.segment]) = levelIndent sw k ++ piece sw "// " := by rw [← hk]; exact lineW_snoc ind lit
    cases path with
    | cons j path => simp [Json.place] at h
    | nil =>
    rw [Json.place] at h
    have hwords : (commentWords s).map (piece sw) = asWords sw words := by
      simp [commentWords, asWords, words, piece]
    unfold commentPlace at h
    rw [hwords] at h
    cases hws : words with
    | nil =>
      rw [hws] at h
      simp [asWords] at h
    | cons x ws =>
      have hlw : (asWords sw ws).length = ws.length := by simp [asWords]
      have hget : ∀ j, j ≤ ws.length → (asWords sw (x :: ws))[j]? = some (commentText sw z (x :: ws) j).word := by
        intro j hj
        simp only [asWords, List.getElem?_map]
        rw [List.getElem?_eq_getElem (by simp; omega)]
        simp [commentText, Textual.word, List.getElem?_eq_getElem (show j < (x :: ws).length by simp; omega)]
      obtain ⟨y, ys, hy⟩ : ∃ y ys, asWords sw (x :: ws) = y :: ys := ⟨_, _, rfl⟩
      have hyl : ys.length = ws.length := by
        have := congrArg List.length hy
        simp [asWords] at this
        omega
      rw [hws, hy] at h
      have hi : i ≤ ws.length ∧ Page.spot (pageAt w none (piece sw " ") (lineW (ind ++ [lit.segment])) (commentText sw z (x :: ws))
          ([], segsString (cur ++ [lit.segment]), segsWidth (cur ++ [lit.segment])) i 0) (commentText sw z (x :: ws) i).word = p := by
        rw [hy] at hget
        have hpw := pageAt_words (w := w) (sp := piece sw " ") (ind := lineW (ind ++ [lit.segment]))
          (start := ([], segsString (cur ++ [lit.segment]), segsWidth (cur ++ [lit.segment]))) (y := y) (ys := ys)
          (t := commentText sw z (x :: ws)) (by rw [hyl]; exact hget)
        cases i with
        | zero =>
          have h0 := hget 0 (by omega)
          simp only [List.getElem?_cons_zero, Option.some.injEq] at h0
          simp only [Option.some.injEq] at h
          refine ⟨by omega, ?_⟩
          rw [← h, ← h0]
          simp only [pageAt, Page.spot, List.map_nil, Spot.inLine]
          rw [← hcw]
          rfl
        | succ i =>
          simp only at h
          have hlt : i < ys.length := by
            by_contra hn
            have : ∀ (xs : List Word) (c : Word) (i : Nat), xs.length ≤ i → wordPlace sw w (levelIndent sw k ++ piece sw "// ") c xs i = none := by
              intro xs
              induction xs with
              | nil => intro c i _; rfl
              | cons a xs ih =>
                intro c i hi
                cases i with
                | zero => simp at hi
                | succ i =>
                  simp only [List.length_cons, Nat.add_le_add_iff_right] at hi
                  simp only [wordPlace, ih _ i hi]
                  split <;> rfl
            rw [this ys _ i (by omega)] at h
            cases h
          refine ⟨by omega, ?_⟩
          have hx := hget (i + 1) (by omega)
          simp only [List.getElem?_cons_succ] at hx
          have h3 := wordPlace_write (sw := sw) (w := w) (lineW (ind ++ [lit.segment])) ys
            (Page.put ([], segsString (cur ++ [lit.segment]), segsWidth (cur ++ [lit.segment])) y) i _ hx
          rw [← hpw i (by omega)] at h3
          have h4 : (Spot.below (((Page.put ([], segsString (cur ++ [lit.segment]), segsWidth (cur ++ [lit.segment])) y).1).map
            fun l => (⟨l.1, l.2⟩ : Word))) = _root_.id := rfl
          rw [h4, Option.map_id] at h3
          rw [hiw] at h3 ⊢
          have h5 : (⟨(Page.put ([], segsString (cur ++ [lit.segment]), segsWidth (cur ++ [lit.segment])) y).2.1,
            (Page.put ([], segsString (cur ++ [lit.segment]), segsWidth (cur ++ [lit.segment])) y).2.2⟩ : Word) =
            lineW cur ++ piece sw "// " ++ y := by
            rw [← hcw]
            rfl
          rw [h5] at h3
          have h6 := Option.some.inj (h3.symm.trans h)
          rw [← h6]
          simp [pageAt, optWidth, optStr, Textual.word]
      obtain ⟨hi, rfl⟩ := hi
      have hK' : Trails w 0 (.eol :: K) := by
        intro st hst
        have := hK.2 rfl ⟨st.col, true⟩
        simpa [SecondsFit, NTree.seconds] using this
      have hct : commentTree sw z (ind ++ [lit.segment]) wordIds (x :: ws) =
          wordsTree none (commentLit sw z " ") (ind ++ [lit.segment]) wordIds (commentText sw z (x :: ws)) ws.length := by
        unfold commentTree
        rw [if_neg (by simp)]
        rfl
      rw [hct]
      obtain ⟨q, hq, hL⟩ := Lead.words (w := w) (id := id) (sp := commentLit sw z " ") (ind := ind ++ [lit.segment]) (ids := wordIds)
        (t := commentText sw z (x :: ws)) (st := ⟨st.col + sw "// ", st.eol⟩) (cur := cur ++ [lit.segment]) he
        (by rw [segsWidth_snoc, hc]; rfl) ws.length (.eol :: K) hK' i hi
      have hq' : q = pageAt w none (piece sw " ") (lineW (ind ++ [lit.segment])) (commentText sw z (x :: ws))
          ([], segsString (cur ++ [lit.segment]), segsWidth (cur ++ [lit.segment])) i 0 := hq
      rw [← hq']
      have hL2 := Lead.right (a := NTree.text lit) (T := [.tok (.text lit)]) (l1 := []) (cur := cur) trivial
        (Greedy.text (w := w) (id := id) (st := st) (t := lit)) rfl hL
      have hL3 := hL2.left.puts (path := []) (p := .inLine ⟨q.2.1, q.2.2⟩ (commentText sw z (x :: ws) i).word)
        (fun k' st' cur' a1 a2 a3 a4 => by rw [← a3]; exact Puts.word)
      have he : Spot.below (List.map lineW ([] : List (List (Segment (basicDoc sw)))) ++ q.1.map fun l => (⟨l.1, l.2⟩ : Word))
          (.inLine ⟨q.2.1, q.2.2⟩ (commentText sw z (x :: ws) i).word) = q.spot (commentText sw z (x :: ws) i).word := by
        simp [Spot.below, Spot.inLine, Page.spot]
      rw [he] at hL3
      exact hL3

/-! ### All expressions -/

theorem json_foc {okString okNumber : String → Prop} (e : Json) : e.Item okString okNumber →
    ∀ t : Tree BasicStyle, t.setNeedsSeparator = e.build.setNeedsSeparator → Foc sw w e t := by
  induction e using Json.induct with
  | simple e he =>
    intro hit t ht
    by_cases hc : e.isComment = true
    · cases e with
      | comment id wordIds s => exact foc_comment hit ht
      | _ => cases hc
    refine .leaf hit (json_fmt _ hit t ht) ?_ ?_
    · intro pre i path
      cases e <;> first | exact he.elim | simp [Json.leftOf]
    · intro k pre post i path
      cases e <;> first | exact he.elim | exact absurd rfl hc | simp [Json.place]
  | pair id keyId key v ih =>
    intro hit t ht
    rcases (show _ from hit) with h | h | ⟨_, _, _, _, h, hv⟩
    · cases h
    · cases h
    · cases h
      exact foc_pair hit (value_not_comment hv) (json_fmt v (.inr (.inl hv))) (ih (.inr (.inl hv))) ht
  | group l r es e id hg ih =>
    intro hit t ht
    have hitem : ∀ (k : Nat) x, es[k]? = some x → x.Item okString okNumber := by
      intro k x hk
      have hx := List.mem_of_getElem? hk
      by_cases hc : x.isComment = true
      · exact .inl hc
      · simp only [Bool.not_eq_true] at hc
        cases hg with
        | array h1 h2 =>
          rcases hit with h | h | ⟨_, _, _, _, h, _⟩
          · cases h
          · cases h with
            | array _ h => exact .inr (.inl (h x hx hc))
          · cases h
        | object h1 h2 =>
          rcases hit with h | h | ⟨_, _, _, _, h, _⟩
          · cases h
          · cases h with
            | object _ h1 h2 h3 =>
              have := h1 x hx hc
              cases x with
              | pair pid keyId key v => exact .inr (.inr ⟨_, _, _, _, rfl, h3 _ _ _ _ hx⟩)
              | _ => simp [Json.isPair] at this
          · cases h
    cases hg with
    | array h1 h2 =>
      subst h1 h2
      obtain ⟨z, rfl⟩ : ∃ z, t = .branch (markSeparators (Json.builds es)).1 id jsonArrayN default [] false z := by
        apply branch_of_set (y := false)
        rw [ht]
        simp only [Json.build]
        rfl
      exact foc_group (l := '[') (r := ']') (.array rfl rfl) rfl hit (fun k x hk => json_fmt x (hitem k x hk))
        (fun k x hk => ih k x hk (hitem k x hk)) (json_fmt _ hit _ ht)
    | object h1 h2 =>
      subst h1 h2
      obtain ⟨z, rfl⟩ : ∃ z, t = .branch (markSeparators (Json.builds es)).1 id jsonObjectN default [] false z := by
        apply branch_of_set (y := false)
        rw [ht]
        simp only [Json.build]
        rfl
      exact foc_group (l := '{') (r := '}') (.object rfl rfl) rfl hit (fun k x hk => json_fmt x (hitem k x hk))
        (fun k x hk => ih k x hk (hitem k x hk)) (json_fmt _ hit _ ht)

/-! ### Several values -/

section
variable {P : PrettyDoc}

theorem rows_greedy {id : P.Id} {kids : Nat → NTree P} {com : Nat → Bool} {ind : List (Segment P)} {R : Nat → List Word} {n : Nat}
    (hk : ∀ i, i ≤ n → ∀ K, (∀ st, SecondsFit w st K ↔ st.col ≤ w) →
      Lays w id (kids i) K ⟨segsWidth ind, false⟩ ind (com i) .none (R i)) :
    ∀ K, (∀ st, SecondsFit w st K ↔ st.col ≤ w) → ∃ T st' ls last, Greedy w id
      (iter (kids 0) (fun k acc => .concat (.concat acc (.newline ind)) (kids (k + 1))) n) K ⟨segsWidth ind, false⟩ st' T ∧
      linesFrom ind (erase T) = ls ++ [last] ∧ ls.map lineW ++ [lineW last] = (List.range (n + 1)).flatMap R ∧
      eolRun false (erase T) ≠ none := by
  induction n with
  | zero =>
    intro K hK
    obtain ⟨U, st', ls, last, g, he, _, h, _, h'⟩ := hk 0 (Nat.le_refl _) K hK
    exact ⟨U, st', ls, last, g, h, by simpa using h'.symm, by simp [he]⟩
  | succ n ih =>
    intro K hK
    obtain ⟨T, st', ls, last, g, h, h', he⟩ := ih (fun i hi => hk i (by omega)) (.newline ind :: kids (n + 1) :: K) (by
      intro st
      simp [SecondsFit, NTree.seconds])
    obtain ⟨U, st2, ls2, last2, g2, he2, _, h2, _, h2'⟩ := hk (n + 1) (Nat.le_refl _) K hK
    refine ⟨T ++ [.tok (.nl ind)] ++ U, st2, ls ++ [last] ++ ls2, last2, .concat (.concat g .newline) g2, ?_, ?_, ?_⟩
    · rw [show erase (T ++ [.tok (.nl ind)] ++ U) = erase T ++ .nl ind :: erase U by simp [erase_append, erase]]
      rw [linesFrom_append_nl, h, h2]
      simp
    · rw [List.range_succ, List.flatMap_append, ← h']
      simp [h2']
    · rw [show erase (T ++ [.tok (.nl ind)] ++ U) = erase T ++ .nl ind :: erase U by simp [erase_append, erase], eolRun_append]
      obtain ⟨e, he⟩ := Option.ne_none_iff_exists'.1 he
      simp [he, eolRun, he2]

theorem Lead.rows {id : P.Id} {i : Nat} {c : P.Id} {t' : NTree P} {kids : Nat → NTree P} {com : Nat → Bool}
    {ind : List (Segment P)} {R : Nat → List Word} {n : Nat} (hi : i ≤ n)
    (hk : ∀ i, i ≤ n → ∀ K, (∀ st, SecondsFit w st K ↔ st.col ≤ w) →
      Lays w id (kids i) K ⟨segsWidth ind, false⟩ ind (com i) .none (R i))
    (hki : kids i = .child i (.ok c) t') (hn : ∀ j, j ≤ n → j ≠ i → (kids j).NoChild i) :
    ∀ K, (∀ st, SecondsFit w st K ↔ st.col ≤ w) → Lead w i c t' (fun K => ∀ st, SecondsFit w st K ↔ st.col ≤ w) id
      (iter (kids 0) (fun k acc => .concat (.concat acc (.newline ind)) (kids (k + 1))) n) K ⟨segsWidth ind, false⟩ ind
      ((List.range i).flatMap R) (lineW ind) := by
  induction n with
  | zero =>
    intro K hK
    have : i = 0 := by omega
    subst this
    simp only [iter, hki]
    exact Lead.child rfl rfl hK
  | succ n ih =>
    intro K hK
    have hK' : ∀ st, SecondsFit w st (.newline ind :: kids (n + 1) :: K) ↔ st.col ≤ w := by
      intro st
      simp [SecondsFit, NTree.seconds]
    simp only [iter]
    by_cases h : i = n + 1
    · subst h
      obtain ⟨T, st', ls, last, g, hl, hR, -⟩ := rows_greedy (n := n) (fun i hi => hk i (by omega)) _ hK'
      have h2 : Lead w (n + 1) c t' (fun K => ∀ st, SecondsFit w st K ↔ st.col ≤ w) id (kids (n + 1)) K
          ⟨segsWidth ind, false⟩ ind [] (lineW ind) := by
        rw [hki]
        exact Lead.child rfl rfl hK
      have := Lead.right (a := .concat (iter (kids 0) (fun k acc => .concat (.concat acc (.newline ind)) (kids (k + 1))) n)
        (.newline ind)) (l1 := ls ++ [last])
        ⟨iter_noChild (hn 0 (by omega) (by omega)) fun k acc hk ha => ⟨⟨ha, trivial⟩, hn (k + 1) (by omega) (by omega)⟩, trivial⟩
        (.concat g .newline) (by
          rw [erase_append]
          show linesFrom ind (erase T ++ .nl ind :: []) = _
          rw [linesFrom_append_nl, hl]
          simp [linesFrom]) h2
      rw [← hR]
      simpa using this
    · exact (ih (by omega) (fun j hj => hk j (by omega)) (fun j hj => hn j (by omega)) _ hK').left.left

end

theorem range_lines (es : List Json) (f : Json → List Word) (i : Nat) (hi : i ≤ es.length) :
    (List.range i).flatMap (fun j => ((es[j]?).map f).getD []) = (es.take i).flatMap f := by
  induction i with
  | zero => simp
  | succ i ih =>
    rw [List.range_succ, List.flatMap_append, ih (by omega), List.take_succ, List.flatMap_append]
    simp [List.getElem?_eq_getElem (show i < es.length by omega)]

theorem iter_noFail {P : PrettyDoc} {kids : Nat → NTree P} {ind : List (Segment P)} {n : Nat} (h : ∀ i, i ≤ n → (kids i).NoFail) :
    (iter (kids 0) (fun k acc => .concat (.concat acc (.newline ind)) (kids (k + 1))) n).NoFail := by
  induction n with
  | zero => exact h 0 (Nat.le_refl _)
  | succ n ih => exact ⟨⟨ih fun i hi => h i (by omega), trivial⟩, h (n + 1) (Nat.le_refl _)⟩

/-- A document, and its nodes. -/
theorem document_foc {okString okNumber : String → Prop} {e : Json} (h : e.Document okString okNumber) (outer : Option BasicStyle) :
    ∃ nt, docTree (basicLaw sw) e.build false [] outer = .ok nt ∧ nt.NoFail ∧
      (∃ U st', Greedy w e.rootId nt [] ⟨0, false⟩ st' U ∧ eolRun false (erase U) ≠ none ∧
        (linesOf (erase U)).map lineW = e.docLines sw w) ∧
      ∀ path p, e.docPlace sw w path = some p → Puts (P := basicDoc sw) w e.rootId nt [] ⟨0, false⟩ [] path p := by
  have hK : ∀ st, SecondsFit (P := basicDoc sw) w st [] ↔ st.col ≤ w := by
    intro st
    simp [SecondsFit]
  cases h with
  | value h =>
    have hd : ∀ path, e.docPlace sw w path = e.place sw w 0 .none .none path := by
      intro path
      cases e with
      | roots => cases h
      | _ => cases path <;> rfl
    have hdl : e.docLines sw w = e.lines sw w 0 .none .none := by
      cases e with
      | roots => cases h
      | _ => rfl
    obtain ⟨nt, h1, h2, -, h3⟩ := (json_fmt (sw := sw) (w := w) e (.inr (.inl h)) e.build rfl).good false [] outer
    refine ⟨nt, h1, h2, ?_, fun path p hb => ?_⟩
    · obtain ⟨U, st', ls, last, g, he, -, hl, -, hL⟩ := h3 rfl 0 rfl ⟨0, false⟩ [] .none [] rfl rfl
        ⟨fun st _ => by simpa [Word.none] using hK st, fun _ => hK⟩ (fun _ => rfl)
      refine ⟨U, st', g, by simp [he], ?_⟩
      rw [show linesOf (erase U) = ls ++ [last] from hl, hdl]
      rw [lineW_nil] at hL
      rw [hL]
      simp
    · rw [hd] at hb
      exact (json_foc e (.inr (.inl h)) e.build rfl _ _ _ _ h1).2 rfl 0 rfl path _ _ .none _ _ rfl rfl
        ⟨fun st _ => by simpa [Word.none] using hK st, fun _ => hK⟩ (fun _ => rfl) hb
  | @roots id es hes =>
    have hitem : ∀ x ∈ es, x.Item okString okNumber := by
      intro x hx
      by_cases hc : x.isComment = true
      · exact .inl hc
      · exact .inr (.inl (hes x hx (by simpa using hc)))
    let cs := (markSeparators (Json.builds es)).1
    let node : Tree BasicStyle := .branch cs id jsonRootsN default [] false false
    let c : Ctx (basicDoc sw) := ⟨false, [], enterStyle outer default⟩
    have hlen : cs.length = es.length := by rw [markSeparators_length, builds_eq]; simp
    have hbuild : (Json.roots id es).build = node := by simp only [Json.build]; rfl
    refine ⟨_, by rw [hbuild, docTree_of (basicLaw sw) (node := node) (a := jsonRootsN.1) (s := default) rfl rfl], ?_⟩
    change (jsonRootsN.1.tree (P := basicDoc sw) node (docKid (basicLaw sw) node) none c).NoFail ∧ _
    have hnum : (basicDoc sw).numChildren node = .ok (some es.length) := by
      simp [node, Tree.children?, hlen]
    have hkid : ∀ i, i < es.length → ∃ x ch, es[i]? = some x ∧ (basicDoc sw).childAt node i = .ok ch ∧
        Fmt sw w x ch ∧ Foc sw w x ch := by
      intro i hi
      have hget : (Json.builds es)[i]? = some (es[i].build) := by
        rw [builds_eq, List.getElem?_map, List.getElem?_eq_getElem hi]; rfl
      have hms := markSeparators_get _ i _ hget
      obtain ⟨ch, hch, hset⟩ : ∃ ch, (markSeparators (Json.builds es)).1[i]? = some ch ∧
          ch.setNeedsSeparator = es[i].build.setNeedsSeparator := by
        refine ⟨_, hms, ?_⟩
        split
        · cases es[i].build <;> rfl
        · rfl
      have hit := hitem es[i] (List.getElem_mem hi)
      exact ⟨es[i], ch, List.getElem?_eq_getElem hi, basic_childAt hch, json_fmt _ hit _ hset, json_foc _ hit _ hset⟩
    have htree : 0 < es.length → jsonRootsN.1.tree (P := basicDoc sw) node (docKid (basicLaw sw) node) none c =
        iter (docKid (basicLaw sw) node 0 c) (fun k acc => .concat (.concat acc (.newline []))
          (docKid (basicLaw sw) node (k + 1) c)) (es.length - 1) := by
      intro hi
      match hn : es.length with
      | 0 => omega
      | 1 =>
        rw [hn] at hnum
        have := count_one_tree (P := basicDoc sw) (kid := docKid (basicLaw sw) node) (env := none) (z := .focusMark)
          (o := .child 0) (m := .fold (.child 0) (.left ^^^ .right)) hnum c
        simp only [jsonRootsN]
        rw [this, child_zero_tree (P := basicDoc sw) hnum]
        rfl
      | n + 2 =>
        rw [hn] at hnum
        have hcount := count_many_tree (P := basicDoc sw) (kid := docKid (basicLaw sw) node) (env := none) (z := .focusMark)
          (o := .child 0) (m := .fold (.child 0) (.left ^^^ .right)) hnum c
        have hfold := fold_tree (P := basicDoc sw) (kid := docKid (basicLaw sw) node) (first := .child 0)
          (join := .left ^^^ .right) (env := none) hnum
          (fun i hi => by obtain ⟨_, ch, _, h, _⟩ := hkid i (by omega); exact ⟨ch, h⟩) c
          (fun k acc => .concat (.concat acc (.newline [])) (docKid (basicLaw sw) node (k + 1) c)) (fun acc k _ => rfl)
        rw [child_zero_tree (P := basicDoc sw) (env := none) hnum] at hfold
        simp only [jsonRootsN]
        rw [hcount, hfold]
        rfl
    have hid : (Json.roots id es).rootId = id := rfl
    have hrows : ∀ j, j ≤ es.length - 1 → 0 < es.length → ∀ K, (∀ st, SecondsFit (P := basicDoc sw) w st K ↔ st.col ≤ w) →
        Lays w (id : Nat) (docKid (basicLaw sw) node j c) K ⟨segsWidth ([] : List (Segment (basicDoc sw))), false⟩ [] (((es[j]?).map Json.isComment).getD false) .none
          (((es[j]?).map (Json.lines sw w 0 .none .none)).getD []) := by
      intro j hj h0 K hK
      obtain ⟨b, ch, h1, h2, h3, -⟩ := hkid j (by omega)
      simp only [h1, Option.map_some, Option.getD_some]
      exact (h3.kid h2 c).2.2 rfl 0 rfl _ ⟨segsWidth ([] : List (Segment (basicDoc sw))), false⟩ [] .none K rfl rfl
        ⟨fun st _ => by simpa [Word.none] using hK st, fun _ => hK⟩ (fun _ => rfl)
    have hzero : es = [] → jsonRootsN.1.tree (P := basicDoc sw) node (docKid (basicLaw sw) node) none c = .mark := by
      intro hes
      rw [hes] at hnum
      exact count_zero_tree (P := basicDoc sw) hnum c
    have hfull : ∃ U st', Greedy w (id : Nat) (jsonRootsN.1.tree (P := basicDoc sw) node (docKid (basicLaw sw) node) none c) []
        ⟨0, false⟩ st' U ∧ eolRun false (erase U) ≠ none ∧ (linesOf (erase U)).map lineW = (Json.roots id es).docLines sw w := by
      cases hes : es with
      | nil =>
        rw [hzero hes]
        exact ⟨_, _, .mark, by simp [erase, eolRun], rfl⟩
      | cons e0 es0 =>
        have hpos : 0 < es.length := by rw [hes]; simp
        rw [htree hpos]
        obtain ⟨T, st', ls, last, g, h1, h2, h3⟩ := rows_greedy (P := basicDoc sw) (w := w) (id := (id : Nat)) (n := es.length - 1)
          (ind := []) (kids := fun i => docKid (basicLaw sw) node i c) (fun j hj => hrows j hj hpos) [] hK
        refine ⟨T, st', g, h3, ?_⟩
        rw [Nat.sub_add_cancel hpos, range_lines _ _ _ (Nat.le_refl _), List.take_length] at h2
        rw [show linesOf (erase T) = ls ++ [last] from h1, ← hes]
        have : (Json.roots id es).docLines sw w = es.flatMap (Json.lines sw w 0 .none .none) := by
          rw [hes]
          rfl
        rw [this, ← h2]
        simp
    refine ⟨?_, hfull, fun path p hb => ?_⟩
    · cases hes : es with
      | nil => rw [hzero hes]; trivial
      | cons e0 es0 =>
        have hpos : 0 < es.length := by rw [hes]; simp
        rw [htree hpos]
        refine iter_noFail (kids := fun i => docKid (basicLaw sw) node i c) fun i hi => ?_
        obtain ⟨b, ch, h1, h2, h3, -⟩ := hkid i (by omega)
        exact (h3.kid h2 c).1
    cases path with
    | nil =>
      simp only [Json.docPlace, Option.some.injEq] at hb
      subst hb
      obtain ⟨U, st', g, -, h⟩ := hfull
      exact Puts.here g h
    | cons i path =>
      simp only [Json.docPlace, Option.bind_eq_some_iff, Option.map_eq_some_iff] at hb
      obtain ⟨a, ha, r, hr, rfl⟩ := hb
      have hi : i < es.length := (List.getElem?_eq_some_iff.1 ha).1
      obtain ⟨a', ch, ha', hch, hfm, hfo⟩ := hkid i hi
      rw [ha] at ha'
      cases ha'
      obtain ⟨nt, hnt, hki⟩ := Foc.kid hch hfm c
      rw [htree (by omega)]
      have hL := Lead.rows (P := basicDoc sw) (w := w) (id := (id : Nat)) (i := i) (n := es.length - 1) (ind := [])
        (kids := fun i => docKid (basicLaw sw) node i c) (com := fun i => ((es[i]?).map Json.isComment).getD false)
        (R := fun j => ((es[j]?).map (Json.lines sw w 0 .none .none)).getD []) (by omega)
        (fun j hj => hrows j hj (by omega))
        hki
        (by
          intro j hj hne
          obtain ⟨b, ch, h1, h2, h3, -⟩ := hkid j (by omega)
          obtain ⟨nt', -, hk'⟩ := Foc.kid h2 h3 c
          show NTree.NoChild i (docKid (basicLaw sw) node j c)
          rw [hk']
          exact hne)
        [] hK
      rw [range_lines _ _ _ (by omega)] at hL
      refine hL.puts fun k' st' cur' a1 a2 a3 a4 => ?_
      exact (hfo _ _ _ _ hnt).2 rfl 0 rfl _ _ _ .none _ _ a1 a2
        ⟨fun st _ => by simpa [Word.none] using a4 st, fun _ => a4⟩ (fun _ => rfl) (by rw [a3]; exact hr)

end PPP
