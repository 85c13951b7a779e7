import Verif.Proofs.Stuck
import Verif.Props.Layout
import Verif.Props.Focus
/-
C17, C18, C19, C20: what is printed, in terms of the places of the document (`Spec/Shows.lean`).
-/
namespace PPP
variable {P : PrettyDoc}

/-! ### What a document shows -/

/-- Everything that is printed is shown by the document, according to the rules of `Shows`. -/
theorem layout_shows (law : P.Lawful) {doc : P.Node} {w style id L}
    (h : docLayout law doc w style = .ok (id, L)) :
    ∃ x, RootPlace doc style x ∧ Shows x L.toks := by
  obtain ⟨t, T, h1, h2, h3, _⟩ := docLayout_greedy law h
  have hres := greedy_resolves h2.choose_spec
  unfold rootTree at h1
  simp only [Except.bind_eq] at h1
  split at h1
  · rename_i t' ht
    split at h1
    · rename_i id' hid
      simp only [Except.ok.injEq, Prod.mk.injEq] at h1
      obtain ⟨rfl, rfl⟩ := h1
      obtain ⟨a, s, g1, g2, g3⟩ := docTree_shows law doc ht (Call.toRes_ok hid) hres
        (fun s => enterStyle_combineAll style s)
      exact ⟨_, ⟨a, s, g1, g2, rfl⟩, by rw [← h3]; exact g3⟩
    · simp at h1
  · simp at h1

/-- **C17–C20**, the meaning of notations.  Whatever the width and the focus, the lines that are printed
    are the lines of some tokens that the whole document shows according to the rules of `Opens`,
    `Leaf` and `Shows`. -/
theorem printed_shows (law : P.Lawful) {doc : P.Node} {w path target style o}
    (hfocus : FocusOk P doc target) (h : printAll doc w path target style = Exec.ofRes (.ok o)) :
    ∃ x T, RootPlace doc style x ∧ Shows x T ∧
      o.lines.map styledChars = (linesOf T).map styledChars := by
  obtain ⟨id, L, hL, h1, _⟩ := C02_focus_independent law hfocus h
  obtain ⟨x, h2, h3⟩ := layout_shows law hL
  exact ⟨x, L.toks, h2, h3, h1⟩

theorem to_string_shows (law : P.Lawful) {doc : P.Node} {w s}
    (h : prettyPrintToString doc w = Exec.ofRes (.ok s)) :
    ∃ x T, RootPlace doc none x ∧ Shows x T ∧ s = linesString (linesOf T) := by
  obtain ⟨id, L, hL, h1⟩ := (C01_to_string_iff law doc w s).1 h
  obtain ⟨x, h2, h3⟩ := layout_shows law hL
  exact ⟨x, L.toks, h2, h3, h1⟩

/-! ### C17 -/

/-- **C17.**  The printed lines are those of tokens shown by the document, in which each line break comes
    from a `Newline` in the document, and is followed by exactly the `Indent`s around that `Newline`,
    outermost first (see `Opens.indent` and `Opens.indent_label` for their strings and styles). -/
theorem C17_indentation (law : P.Lawful) {doc : P.Node} {w path target style o}
    (hfocus : FocusOk P doc target) (h : printAll doc w path target style = Exec.ofRes (.ok o)) :
    ∃ x T, RootPlace doc style x ∧ Shows x T ∧
      o.lines.map styledChars = (linesOf T).map styledChars ∧
      ∀ ind, .nl ind ∈ T → ∃ y, x.Around y ∧ y.notn = .newline ∧ y.indents = ind := by
  obtain ⟨x, T, h1, h2, h3⟩ := printed_shows law hfocus h
  refine ⟨x, T, h1, h2, h3, ?_⟩
  intro ind hi
  obtain ⟨y, g1, g2⟩ := shows_around h2 _ hi
  cases g2
  exact ⟨_, g1, rfl, rfl⟩

/-- The segment of a text token. -/
def Tok.segment? : Tok P → Option (Segment P)
  | .text t => some t.segment
  | _ => none

/-- **C17**, lines.  The first line of some tokens has no indentation: it consists of the texts before
    the first line break.  Every other line begins with the indentation of its line break. -/
theorem C17_lines (T : List (Tok P)) :
    (∃ A B, T = A ++ B ∧ (∀ ind, .nl ind ∉ A) ∧ (B = [] ∨ ∃ ind C, B = .nl ind :: C) ∧
      (linesOf T)[0]? = some (A.filterMap Tok.segment?)) ∧
    ∀ A ind C, T = A ++ .nl ind :: C → ∃ rest, (linesOf T)[(linesOf A).length]? = some (ind ++ rest) := by
  constructor
  · refine ⟨firstLine T, T.dropWhile Tok.notNl, (List.takeWhile_append_dropWhile).symm, ?_, ?_, ?_⟩
    · intro ind h
      have hall := List.all_takeWhile (p := Tok.notNl) (l := T)
      rw [List.all_eq_true] at hall
      have := hall _ h
      simp [Tok.notNl] at this
    · have := List.head?_dropWhile_not (p := Tok.notNl) (l := T)
      cases hB : T.dropWhile Tok.notNl with
      | nil => exact .inl rfl
      | cons b B =>
        right
        rw [hB] at this
        simp at this
        cases b with
        | nl ind => exact ⟨ind, B, rfl⟩
        | text t => simp [Tok.notNl] at this
        | eol => simp [Tok.notNl] at this
        | mark i => simp [Tok.notNl] at this
    · have key : ∀ (T : List (Tok P)) cur, (linesFrom cur T)[0]? =
          some (cur ++ (firstLine T).filterMap Tok.segment?) := by
        intro T
        induction T with
        | nil => intro cur; simp [linesFrom, firstLine]
        | cons t T ih =>
          intro cur
          cases t with
          | text x => simp [linesFrom, ih, firstLine, Tok.notNl, List.takeWhile_cons, Tok.segment?]
          | nl ind => simp [linesFrom, firstLine, Tok.notNl]
          | eol => simp [linesFrom, ih, firstLine, Tok.notNl, List.takeWhile_cons, List.filterMap_cons, Tok.segment?]
          | mark i => simp [linesFrom, ih, firstLine, Tok.notNl, List.takeWhile_cons, List.filterMap_cons, Tok.segment?]
      simpa [linesOf] using key T []
  · rintro A ind C rfl
    have hne : linesOf A ≠ [] := linesFrom_ne_nil [] A
    rw [linesOf, linesFrom_append (List.dropLast_concat_getLast hne)]
    obtain ⟨l, ls, _, h⟩ := linesFrom_head ind C
    refine ⟨l, ?_⟩
    have hp := List.length_pos_iff.2 hne
    rw [List.getElem?_append_right (by simp)]
    have : (linesOf A).length - (linesOf A).dropLast.length = 1 := by simp; omega
    rw [this]
    simp [linesFrom, h]

/-! ### C20 -/

/-- **C20.**  The printed lines are those of tokens shown by the document, in which each text comes from
    a `Literal` or `Text` in the document, and its style is the combination, from left to right, of the
    styles around it: the root style, the `node_style` of each node and the style of each label on the
    way from the root (see `RootPlace`, `Place.enter` and `Opens.style`). -/
theorem C20_styles (law : P.Lawful) {doc : P.Node} {w path target style o}
    (hfocus : FocusOk P doc target) (h : printAll doc w path target style = Exec.ofRes (.ok o)) :
    ∃ x T, RootPlace doc style x ∧ Shows x T ∧
      o.lines.map styledChars = (linesOf T).map styledChars ∧
      ∀ t, .text t ∈ T → ∃ y, x.Around y ∧ combineAll y.styles = some t.style ∧
        (y.notn = .literal t.str ∨ (y.notn = .text ∧ P.unwrapText y.node = .ok t.str)) := by
  obtain ⟨x, T, h1, h2, h3⟩ := printed_shows law hfocus h
  refine ⟨x, T, h1, h2, h3, ?_⟩
  intro t ht
  obtain ⟨y, g1, g2⟩ := shows_around h2 _ ht
  cases g2 with
  | literal hS => exact ⟨_, g1, hS, .inl rfl⟩
  | text hn hs hS => exact ⟨_, g1, hS, .inr ⟨rfl, hs⟩⟩

/-- Going inside only adds indentation and styles, on the right. -/
theorem around_extends {x y : Place P} (h : x.Around y) :
    x.indents <+: y.indents ∧ x.styles <+: y.styles ∧ (x.flat = true → y.flat = true) := by
  have step : ∀ {x y : Place P}, Opens x y →
      x.indents <+: y.indents ∧ x.styles <+: y.styles ∧ (x.flat = true → y.flat = true) := by
    intro x y h
    cases h <;> simp [Place.enter]
  induction h with
  | refl => simp
  | opens h _ ih =>
    obtain ⟨a1, a2, a3⟩ := step h
    exact ⟨a1.trans ih.1, a2.trans ih.2.1, fun h => ih.2.2 (a3 h)⟩
  | concat_left _ ih => exact ih
  | concat_right _ ih => exact ih

/-! ### C19 -/

theorem NTree.FailIn.and {Q : Pred P} {Q' : Pred P} {t : NTree P} (h : t.FailIn Q) (h' : t.FailIn Q') :
    t.FailIn { Q with fail := fun f => Q f ∧ Q' f } := by
  induction t with
  | fail f => exact ⟨h, h'⟩
  | text t => exact h
  | newline ind => exact h
  | concat a b iha ihb => exact ⟨iha h.1 h'.1, ihb h.2 h'.2⟩
  | choice a b iha ihb => exact ⟨iha h.1 h'.1, ihb h.2 h'.2⟩
  | child i id t ih => exact ⟨fun f hf => ⟨h.1 f hf, h'.1 f hf⟩, ih h.2 h'.2⟩
  | _ => trivial

/-- Where an error of a print can come from: a text after an end-of-line mark, an error of a method of
    the document, or a place in the document where the notation does not match it. -/
def Explained (doc : P.Node) (style : Option P.Style) (e : PrintingError P.Err) : Prop :=
  e = .textAfterEndOfLine ∨ (∃ e', e = .prettyDoc e' ∧ DocError e') ∨
    ∃ x y, RootPlace doc style x ∧ x.Around y ∧ Stuck y e

theorem print_explained (law : P.Lawful) (doc : P.Node) (w : Nat) (path : List Nat) (target : FocusTarget)
    (style : Option P.Style) :
    Sat (prettyPrint doc w path target style)
      (fun r => Sat (drain Printer.nextUp r.up) (fun _ => True) (fun f => ∀ e, f = .err e → Explained doc style e) ∧
        Sat (drain Printer.nextDown r.down) (fun _ => True) (fun f => ∀ e, f = .err e → Explained doc style e) ∧
        ∀ s, Sat (toStringLoop s r.down) (fun _ => True) (fun f => ∀ e, f = .err e → Explained doc style e))
      (fun f => ∀ e, f = .err e → Explained doc style e ∨ (∃ i, e = .invalidPath i ∧ i ∈ path) ∨
        (e = .missingFocusMark ∧ target = .mark) ∨ (e = .missingText ∧ ∃ pos, target = .text pos)) := by
  have hdoc : ∀ e : DocFail P.Err, (∀ e', e = .err e' → DocError e') →
      ∀ e', e.toFail = .err e' → Explained doc style e' := by
    rintro (e | _) h e' he
    · simp [DocFail.toFail] at he
      subst he
      exact .inr (.inl ⟨e, rfl, h e rfl⟩)
    · simp [DocFail.toFail] at he
  have hf := rootTree_failIn law doc style
  cases hr : rootTree law doc style with
  | error f =>
    rw [print_root_error law hr]
    intro e he
    left
    unfold rootTree at hr
    rw [docTree_eq] at hr
    cases ha : P.notn doc with
    | error e' =>
      rw [ha] at hr
      injection hr with hr
      refine hdoc e' ?_ e (hr.trans he)
      rintro e'' rfl
      exact ⟨doc, by simp [ha]⟩
    | ok a =>
      cases hs : P.nodeStyle doc with
      | error e' =>
        rw [ha, hs] at hr
        injection hr with hr
        refine hdoc e' ?_ e (hr.trans he)
        rintro e'' rfl
        exact ⟨doc, by simp [hs]⟩
      | ok s =>
        cases hid : P.id doc with
        | error e' =>
          rw [ha, hs, hid] at hr
          injection hr with hr
          refine hdoc e' ?_ e (hr.trans he)
          rintro e'' rfl
          exact ⟨doc, by simp [hid]⟩
        | ok i => rw [ha, hs, hid] at hr; cases hr
  | ok r =>
    obtain ⟨id, t⟩ := r
    rw [hr] at hf
    unfold rootTree at hr
    cases ha : P.notn doc with
    | error e' => rw [docTree_eq, ha] at hr; cases hr
    | ok a =>
      cases hs : P.nodeStyle doc with
      | error e' => rw [docTree_eq, ha, hs] at hr; cases hr
      | ok s =>
        have hroot : RootPlace doc style ⟨doc, none, false, [], style.toList ++ [s], a⟩ :=
          ⟨a, s, ha, hs, rfl⟩
        have hst := docTree_stuck law ⟨doc, none, false, [], style.toList ++ [s], a⟩ doc (flat := false)
          (ind := []) (outer := style) (S := style.toList) (fun s => enterStyle_combineAll style s)
          (fun a' s' h1 h2 => by
            rw [ha] at h1; rw [hs] at h2
            injection h1 with h1; injection h2 with h2
            subst h1; subst h2; exact .refl)
        rw [docTree_of law ha hs] at hst hr
        have ht : t = a.tree doc (docKid law doc) none ⟨false, [], enterStyle style s⟩ := by
          cases hid : P.id doc with
          | error e' => rw [hid] at hr; cases hr
          | ok i =>
            rw [hid] at hr
            simp [Except.bind_eq, Call.toRes] at hr
            exact hr.2.symm
        change NTree.FailIn _ _ at hst
        rw [← ht] at hst
        have hall := NTree.FailIn.and hf hst
        have hexp : ∀ f, ((docPred P doc).fail f ∧
            (placePred ⟨doc, none, false, [], style.toList ++ [s], a⟩).fail f) →
            ∀ e, f = .err e → Explained doc style e := by
          rintro f ⟨_, h⟩ e rfl
          rcases h with h | h | h | ⟨e', h1, h2⟩ | ⟨y, e', h1, h2, h3⟩
          · simp at h
          · simp at h
          · injection h with h; exact .inl h
          · injection h1 with h1; exact .inr (.inl ⟨e', h1, h2⟩)
          · injection h1 with h1; subst h1; exact .inr (.inr ⟨_, y, hroot, h2, h3⟩)
        have hr' : rootTree law doc style = .ok (id, t) := by
          unfold rootTree
          rw [docTree_of law ha hs]
          exact hr
        refine (print_terminates law hr' ?_ hall w path target).mono ?_ ?_
        · exact ⟨⟨docPred_ok.1, (placePred_ok _).1⟩, ⟨docPred_ok.2, (placePred_ok _).2⟩⟩
        · rintro r ⟨h1, h2, h3⟩
          exact ⟨h1.mono (fun _ h => h) hexp, h2.mono (fun _ h => h) hexp,
            fun s => (h3 s).mono (fun _ _ => trivial) hexp⟩
        · rintro f (h | ⟨j, rfl, hj⟩ | ⟨rfl, h⟩ | ⟨rfl, h⟩) e he
          · exact .inl (hexp f h e he)
          · injection he with he; exact .inr (.inl ⟨j, he.symm, hj⟩)
          · injection he with he; exact .inr (.inr (.inl ⟨he.symm, h⟩))
          · injection he with he; exact .inr (.inr (.inr ⟨he.symm, h⟩))

/-- **C19**, errors.  Every error of `pretty_print_to_string` is a text after an end-of-line mark, an
    error of a method of the document, or comes from a place in the document whose notation does not
    match it, and is the error documented for that mismatch (see `Stuck`). -/
theorem C19_errors_explained (law : P.Lawful) {doc : P.Node} {w : Nat} {e : PrintingError P.Err}
    (h : prettyPrintToString doc w = Exec.ofRes (.error (.err e))) : Explained doc none e := by
  have hs := print_explained law doc w [] .start none
  unfold prettyPrintToString at h
  rcases hs.exists_res with ⟨r, h1, _, _, h2⟩ | ⟨f, h1, h2⟩
  · rw [h1] at h
    have h3 := h2 r.focused.toString
    rw [show toStringLoop r.focused.toString r.down = _ from h] at h3
    exact h3 e rfl
  · rw [h1] at h
    have := Exec.ofRes_inj h
    simp at this
    subst this
    rcases h2 e rfl with h | ⟨i, _, h⟩ | ⟨_, h⟩ | ⟨_, p, h⟩
    · exact h
    · simp at h
    · simp at h
    · simp at h

/-- **C19**, errors of prints with any focus: the same, or the focus was refused. -/
theorem C19_print_errors_explained (law : P.Lawful) {doc : P.Node} {w path target style}
    {e : PrintingError P.Err} (h : prettyPrint doc w path target style = Exec.ofRes (.error (.err e))) :
    Explained doc style e ∨ (∃ i, e = .invalidPath i ∧ i ∈ path) ∨
      (e = .missingFocusMark ∧ target = .mark) ∨ (e = .missingText ∧ ∃ pos, target = .text pos) := by
  have hs := print_explained law doc w path target style
  rw [h] at hs
  exact hs e rfl

/-- **C19**, errors of the iterators. -/
theorem C19_iterator_errors_explained (law : P.Lawful) {doc : P.Node} {w path target style r}
    (h : prettyPrint doc w path target style = Exec.ofRes (.ok r)) {e : PrintingError P.Err}
    (he : drain Printer.nextUp r.up = Exec.ofRes (.error (.err e)) ∨
      drain Printer.nextDown r.down = Exec.ofRes (.error (.err e))) : Explained doc style e := by
  have hs := print_explained law doc w path target style
  rw [h] at hs
  obtain ⟨h1, h2, _⟩ := hs
  rcases he with he | he
  · rw [he] at h1; exact h1 e rfl
  · rw [he] at h2; exact h2 e rfl

/-! ### C19: what is selected -/

/-- `childIndex` counts from the end for negative indices. -/
theorem C19_childIndex (i : Int) (n j : Nat) :
    childIndex i n = some j ↔ j < n ∧ (i = j ∨ i = (j : Int) - n) := by
  unfold childIndex
  split
  · simp; omega
  · split
    · simp; omega
    · simp; omega

theorem C19_childIndex_none (i : Int) (n : Nat) : childIndex i n = none ↔ i < -(n : Int) ∨ (n : Int) ≤ i := by
  unfold childIndex
  split
  · simp; omega
  · split
    · simp; omega
    · simp; omega

/-- **C19.**  `Child(i)` shows what child `i` shows (from the end if negative). -/
theorem C19_child {n : P.Node} {f fl I S i} {T : List (Tok P)} :
    Shows ⟨n, f, fl, I, S, .child i⟩ T ↔
      ∃ k j c a s, P.numChildren n = .ok (some k) ∧ j < k ∧ (i = j ∨ i = (j : Int) - k) ∧
        P.childAt n j = .ok c ∧ P.notn c = .ok a ∧ P.nodeStyle c = .ok s ∧
        Shows ⟨c, none, fl, I, S ++ [s], a⟩ T := by
  constructor
  · intro h
    cases h with
    | opens h h' =>
      cases h with
      | child h1 h2 h3 h4 h5 =>
        obtain ⟨h6, h7⟩ := (C19_childIndex _ _ _).1 h2
        exact ⟨_, _, _, _, _, h1, h6, h7, h3, h4, h5, h'⟩
    | leaf h => cases h
  · rintro ⟨k, j, c, a, s, h1, h6, h7, h3, h4, h5, h'⟩
    exact .opens (.child h1 ((C19_childIndex _ _ _).2 ⟨h6, h7⟩) h3 h4 h5) h'

/-- **C19.**  `Count` selects by the number of children. -/
theorem C19_count {n : P.Node} {f fl I S z o m k} (hn : P.numChildren n = .ok (some k)) {T : List (Tok P)} :
    Shows ⟨n, f, fl, I, S, .count z o m⟩ T ↔
      Shows ⟨n, f, fl, I, S, if k = 0 then z else if k = 1 then o else m⟩ T := by
  constructor
  · intro h
    cases h with
    | opens h h' =>
      cases h with
      | count_zero h1 => rw [hn] at h1; cases h1; exact h'
      | count_one h1 => rw [hn] at h1; cases h1; exact h'
      | count_many h1 => rw [hn] at h1; cases h1; exact h'
    | leaf h => cases h
  · intro h
    match k, hn with
    | 0, hn => exact .opens (.count_zero hn) h
    | 1, hn => exact .opens (.count_one hn) h
    | k + 2, hn => exact .opens (.count_many hn) h

theorem inspects_unique {n : P.Node} {f pos p q} (h : Inspects n f pos p) (h' : Inspects n f pos q) :
    p = q := by
  cases h with
  | here => cases h'; rfl
  | child h1 h2 h3 =>
    cases h' with
    | child g1 g2 g3 =>
      rw [h1] at g1; cases g1
      rw [h2] at g2; cases g2
      rw [h3] at g3; cases g3; rfl
  | left h1 => cases h' with | left g1 => rw [h1] at g1; cases g1; rfl
  | right h1 => cases h' with | right g1 => rw [h1] at g1; cases g1; rfl

/-- **C19.**  `Check` selects by the condition on the node it inspects: the node itself, its child `i`,
    or the previous or next child of the fold (see `Inspects`). -/
theorem C19_check {n : P.Node} {f fl I S cond pos a b p r} (hp : Inspects n f pos p)
    (hc : P.condition p cond = .ok r) {T : List (Tok P)} :
    Shows ⟨n, f, fl, I, S, .check cond pos a b⟩ T ↔ Shows ⟨n, f, fl, I, S, if r then a else b⟩ T := by
  constructor
  · intro h
    cases h with
    | opens h h' =>
      cases h with
      | check_true h1 h2 =>
        cases inspects_unique hp h1
        rw [hc] at h2; cases h2; exact h'
      | check_false h1 h2 =>
        cases inspects_unique hp h1
        rw [hc] at h2; cases h2; exact h'
    | leaf h => cases h
  · intro h
    cases r with
    | true => exact .opens (.check_true hp hc) h
    | false => exact .opens (.check_false hp hc) h

theorem leaf_not_opens {x y : Place P} {tok} (h : Leaf x tok) (h' : Opens x y) : False := by
  cases h <;> cases h'

theorem shows_surely {x y : Place P} (h : x.Surely y) : ∀ {T}, Shows x T → ∃ T', Shows y T' := by
  induction h with
  | refl => intro T h; exact ⟨T, h⟩
  | opens h hu _ ih =>
    intro T hs
    cases hs with
    | opens h' hs => rw [hu _ h'] at hs; exact ih hs
    | leaf h' => exact (leaf_not_opens h' h).elim
    | empty => cases h
    | concat _ _ => cases h
    | fold_zero h0 =>
      cases h with
      | fold_one h1 => rw [h0] at h1; cases h1
      | fold_more h1 => rw [h0] at h1; cases h1
  | concat_left _ ih =>
    intro T hs
    cases hs with
    | opens h _ => cases h
    | leaf h => cases h
    | concat h1 h2 => exact ih h1
  | concat_right _ ih =>
    intro T hs
    cases hs with
    | opens h _ => cases h
    | leaf h => cases h
    | concat h1 h2 => exact ih h2

theorem stuck_shows_nothing {x : Place P} {e T} (h : Stuck x e) (hs : Shows x T) : False := by
  cases h with
  | text h1 =>
    cases hs with
    | opens h _ => cases h
    | leaf h => cases h with | text h2 => rw [h1] at h2; cases h2
  | child_childless h1 =>
    cases hs with
    | opens h _ => cases h with | child h2 => rw [h1] at h2; cases h2
    | leaf h => cases h
  | child_bounds h1 h2 =>
    cases hs with
    | opens h _ => cases h with | child h3 h4 => rw [h1] at h3; cases h3; rw [h2] at h4; cases h4
    | leaf h => cases h
  | check_childless h1 =>
    cases hs with
    | opens h _ =>
      cases h with
      | check_true h2 => cases h2 with | child h3 => rw [h1] at h3; cases h3
      | check_false h2 => cases h2 with | child h3 => rw [h1] at h3; cases h3
    | leaf h => cases h
  | check_bounds h1 h2 =>
    cases hs with
    | opens h _ =>
      cases h with
      | check_true h3 => cases h3 with | child h4 h5 => rw [h1] at h4; cases h4; rw [h2] at h5; cases h5
      | check_false h3 => cases h3 with | child h4 h5 => rw [h1] at h4; cases h4; rw [h2] at h5; cases h5
    | leaf h => cases h
  | count h1 =>
    cases hs with
    | opens h _ =>
      cases h with
      | count_zero h2 => rw [h1] at h2; cases h2
      | count_one h2 => rw [h1] at h2; cases h2
      | count_many h2 => rw [h1] at h2; cases h2
    | leaf h => cases h
  | fold h1 =>
    cases hs with
    | opens h _ =>
      cases h with
      | fold_one h2 => rw [h1] at h2; cases h2
      | fold_more h2 => rw [h1] at h2; cases h2
    | leaf h => cases h
    | fold_zero h2 => rw [h1] at h2; cases h2

/-- **C19.**  If a place that is shown however the choices are taken does not match the document, then
    printing the whole document fails, at every width and with every focus. -/
theorem C19_mismatch_fails (law : P.Lawful) {doc : P.Node} {style x y e} (hx : RootPlace doc style x)
    (hy : x.Surely y) (he : Stuck y e) (w path target) (hfocus : FocusOk P doc target) :
    ∀ o, printAll doc w path target style ≠ Exec.ofRes (.ok o) := by
  intro o h
  obtain ⟨x', T, h1, h2, _⟩ := printed_shows law hfocus h
  obtain ⟨a, s, g1, g2, rfl⟩ := hx
  obtain ⟨a', s', g1', g2', rfl⟩ := h1
  rw [g1] at g1'; cases g1'
  rw [g2] at g2'; cases g2'
  obtain ⟨T', h3⟩ := shows_surely hy h2
  exact stuck_shows_nothing he h3

/-- If the whole document consists of a mismatch, the error is the documented one. -/
theorem print_fail (law : P.Lawful) {doc : P.Node} {style id f}
    (hr : rootTree law doc style = .ok (id, .fail f)) (w : Nat) (path : List Nat) (target : FocusTarget) :
    prettyPrint doc w path target style = Exec.ofRes (.error f) := by
  obtain ⟨d, hd, hrep⟩ := rootTree_rep law doc style hr
  unfold prettyPrint
  have hnew : Printer.new (P := P) w = Exec.ofRes (.ok ⟨w, [], [⟨[], 0, false, []⟩]⟩) := by
    simp [Printer.new, Block.new, segsWidth, Exec.pure_eq]
  rw [hnew]
  simp only [Exec.ofRes_ok_bind]
  have hc : Chunk.new d = Exec.ofRes (.error f) := by
    rcases (Chunk.new_sat_ok hrep).exists_res with ⟨c, h, hc⟩ | ⟨e, h, hc⟩
    · obtain ⟨_, hc⟩ := hc
      generalize c.notn = x at hc
      cases hc
    · cases hc; exact h
  unfold Printer.seek
  rw [hd]
  simp only [Exec.ofRes_ok_bind]
  rw [hc]
  rfl

/-- **C19.**  A document whose notation is `Child(i)` is refused as documented exactly when there is no
    such child. -/
theorem C19_child_errors (law : P.Lawful) {doc : P.Node} {i : Int} {s id}
    (ha : P.notn doc = .ok (.child i)) (hs : P.nodeStyle doc = .ok s) (hid : P.id doc = .ok id)
    (w : Nat) (path : List Nat) (target : FocusTarget) (style : Option P.Style) :
    (P.numChildren doc = .ok none →
      prettyPrint doc w path target style = Exec.ofRes (.error (.err .childNotationOnChildlessDoc))) ∧
    (∀ n, P.numChildren doc = .ok (some n) → (i < -(n : Int) ∨ (n : Int) ≤ i) →
      prettyPrint doc w path target style = Exec.ofRes (.error (.err (.childIndexOutOfBounds i n)))) := by
  have hr : ∀ f, (Notation.child i).tree doc (docKid law doc) none ⟨false, [], enterStyle style s⟩ = .fail f →
      rootTree law doc style = .ok (id, .fail f) := by
    intro f h
    unfold rootTree
    rw [docTree_of law ha hs, h, hid]
    rfl
  constructor
  · intro hn
    refine print_fail law (hr _ ?_) w path target
    simp only [Notation.tree, hn, NTree.orFail]
  · intro n hn hi
    refine print_fail law (hr _ ?_) w path target
    simp only [Notation.tree, hn, NTree.orFail, (C19_childIndex_none i n).2 hi]

/-! ### An example with indentation and styles -/

namespace Ex

/-- Trees whose styles are lists of labels, combined by appending. -/
abbrev styP : PrettyDoc := treeDoc (List String) (· ++ ·) (fun l => [l]) String.length

abbrev styLaw : styP.Lawful := treeDoc_lawful _ _ _

/-- `lit("f") + indent(">>", "ind", style("body", nl + child(-1)))`. -/
def styN : TreeNotation :=
  ⟨.literal "f" + .indent ">>" (some "ind") (.style "body" (.newline + .child (-1))), by decide⟩

/-- A node with one child. -/
def styDoc : Tree (List String) :=
  Tree.withStyle ["root"] (Tree.newBranch 3 styN [Tree.withStyle ["kid"] (Tree.newText 1 leafN "aa")])

/-- Its tree. -/
def styTree : NTree styP :=
  .concat (.text ⟨"f", 1, ["root"], false⟩)
    (.concat (.newline [⟨">>", 2, ["root", "ind"]⟩])
      (.child 0 (.ok (1 : Nat)) (.text ⟨"aa", 2, ["root", "body", "kid"], true⟩)))

theorem styTree_eq : rootTree styLaw styDoc none = .ok ((3 : Nat), styTree) := by
  have h0 : ∀ st ind fl, docKid styLaw styDoc 0 ⟨fl, ind, st⟩ =
      .child 0 (.ok (1 : Nat)) (.text ⟨"aa", 2, st ++ ["kid"], true⟩) := fun _ _ _ =>
    docKid_of styLaw (child := Tree.withStyle ["kid"] (Tree.newText 1 leafN "aa")) rfl
      (docTree_of styLaw rfl rfl _ _ _)
  have ht : ∀ kid, styN.1.tree (P := styP) styDoc kid none ⟨false, [], ["root"]⟩ =
    .concat (.text ⟨"f", 1, ["root"], false⟩)
      (.concat (.newline [⟨">>", 2, ["root", "ind"]⟩])
        (kid 0 ⟨false, [⟨">>", 2, ["root", "ind"]⟩], ["root", "body"]⟩)) := fun _ => rfl
  unfold rootTree
  rw [docTree_of styLaw (a := styN.1) (s := ["root"]) rfl rfl]
  change Except.ok ((3 : Nat), styN.1.tree (P := styP) styDoc (docKid styLaw styDoc) none ⟨false, [], ["root"]⟩) = _
  rw [ht]
  simp only [styTree, h0]
  rfl

/-- The document can be printed, so that the hypotheses of C17 and C20 are met, and this is what is
    printed. -/
theorem styPrint : ∃ o, printAll (P := styP) styDoc 5 [] .start none = Exec.ofRes (.ok o) ∧
    o.lines.map styledChars =
      [[('f', ["root"])], [('>', ["root", "ind"]), ('>', ["root", "ind"]),
        ('a', ["root", "body", "kid"]), ('a', ["root", "body", "kid"])]] := by
  have hL : docLayout styLaw styDoc 5 none = .ok ((3 : Nat),
      .concat (.text ⟨"f", 1, ["root"], false⟩)
        (.concat (.newline [⟨">>", 2, ["root", "ind"]⟩])
          (.child (3 : Nat) 0 (1 : Nat) (.text ⟨"aa", 2, ["root", "body", "kid"], true⟩)))) := by
    unfold docLayout; rw [styTree_eq]; rfl
  obtain ⟨t, hr, hl⟩ := docLayout_ok styLaw hL
  rcases print_ok (I := False) styLaw hr hl [] (focusOk_start _) (fun h => h.elim) with
      ⟨r, ups, downs, _, _, _, _, _, _, g1, g2, g3, _⟩ | ⟨j, g, hj, _⟩ | ⟨e, g, h, _⟩
  · refine ⟨_, printAll_of g1 g2 g3, ?_⟩
    obtain ⟨id, L, hL', h1, _⟩ := C02_focus_independent styLaw (focusOk_start _) (printAll_of g1 g2 g3)
    rw [hL] at hL'
    simp only [Except.ok.injEq, Prod.mk.injEq] at hL'
    obtain ⟨rfl, rfl⟩ := hL'
    rw [h1]
    rfl
  · simp at hj
  · rcases h with ⟨h, _⟩ | ⟨⟨_, h⟩, _⟩ <;> simp at h

/-- `(lit("x") | nl) + child(2)`, on a node with one child. -/
def badN : TreeNotation := ⟨.choice (.literal "x") .newline + .child 2, by decide⟩

@[inherit_doc badN]
def badDoc : Tree (List String) := Tree.newBranch 3 badN [Tree.newText 1 leafN "aa"]

/-- C19 on it: it cannot be printed. -/
example (w : Nat) (path : List Nat) (o) :
    printAll (P := styP) badDoc w path .start none ≠ Exec.ofRes (.ok o) :=
  C19_mismatch_fails styLaw ⟨badN.1, [], rfl, rfl, rfl⟩ (.concat_right .refl)
    (.child_bounds (P := styP) (n := badDoc) (k := 1) rfl rfl) w path .start (focusOk_start _) o

end Ex

end PPP
