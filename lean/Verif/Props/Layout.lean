import Verif.Props.Printing
import Verif.Proofs.ErrKind
import Verif.Props.Example
/-
C10, C11, C12, C15, C36: the decisions of the printer, in terms of the declarative greedy layout of
`Spec/Greedy.lean`.
-/
namespace PPP
variable {P : PrettyDoc}

/-! ### Layouts that exist have no defects -/

theorem layout_no_defect (w : Nat) (t : NTree P) : ∀ {id k st st' L}, t.layout w id k st = .ok (st', L) →
    defect st L.toks = none ∧ lineAfter st L.toks = st' := by
  induction t with
  | fail f => intro id k st st' L h; simp [NTree.layout] at h
  | empty =>
    intro id k st st' L h
    simp only [NTree.layout, Except.ok.injEq, Prod.mk.injEq] at h
    obtain ⟨rfl, rfl⟩ := h
    exact ⟨rfl, rfl⟩
  | mark =>
    intro id k st st' L h
    simp only [NTree.layout, Except.ok.injEq, Prod.mk.injEq] at h
    obtain ⟨rfl, rfl⟩ := h
    exact ⟨rfl, rfl⟩
  | eol =>
    intro id k st st' L h
    simp only [NTree.layout, Except.ok.injEq, Prod.mk.injEq] at h
    obtain ⟨rfl, rfl⟩ := h
    exact ⟨rfl, rfl⟩
  | newline ind =>
    intro id k st st' L h
    simp only [NTree.layout] at h
    split at h
    · rename_i hw
      simp only [Except.ok.injEq, Prod.mk.injEq] at h
      obtain ⟨rfl, rfl⟩ := h
      exact ⟨by simp [LTree.toks, defect, hw], rfl⟩
    · simp at h
  | text x =>
    intro id k st st' L h
    simp only [NTree.layout] at h
    split at h
    · simp at h
    · rename_i he
      split at h
      · rename_i hw
        simp only [Except.ok.injEq, Prod.mk.injEq] at h
        obtain ⟨rfl, rfl⟩ := h
        exact ⟨by simp [LTree.toks, defect, hw, he], by simp [LTree.toks, lineAfter] at he ⊢; exact he⟩
      · simp at h
  | child i cid t ih =>
    intro id k st st' L h
    simp only [NTree.layout, Except.bind_eq] at h
    split at h
    · split at h
      · rename_i r h'
        simp only [Except.ok.injEq, Prod.mk.injEq] at h
        obtain ⟨rfl, rfl⟩ := h
        exact ih (st' := r.1) (L := r.2) h'
      · simp at h
    · simp at h
  | concat a b iha ihb =>
    intro id k st st' L h
    simp only [NTree.layout, Except.bind_eq] at h
    split at h
    · rename_i h1
      split at h
      · rename_i h2
        simp only [Except.ok.injEq, Prod.mk.injEq] at h
        obtain ⟨rfl, rfl⟩ := h
        obtain ⟨d1, e1⟩ := iha h1
        obtain ⟨d2, e2⟩ := ihb h2
        refine ⟨?_, ?_⟩
        · rw [LTree.toks, defect_append, d1]
          simp only
          rw [e1, d2]
        · rw [LTree.toks, lineAfter_append, e1, e2]
      · simp at h
    · simp at h
  | choice a b iha ihb =>
    intro id k st st' L h
    simp only [NTree.layout, Except.bind_eq] at h
    split at h
    · split at h
      · split at h
        · exact iha h
        · exact ihb h
      · simp at h
    · simp at h

theorem docLayout_greedy (law : P.Lawful) {doc : P.Node} {w style id L}
    (h : docLayout law doc w style = .ok (id, L)) :
    ∃ t T, rootTree law doc style = .ok (id, t) ∧ GreedyDoc w id t T ∧ erase T = L.toks ∧
      Printable (erase T) := by
  obtain ⟨t, h1, h2⟩ := docLayout_ok law h
  unfold NTree.layoutDoc at h2
  simp only [Except.bind_eq] at h2
  split at h2
  · rename_i r hl
    obtain ⟨st, L'⟩ := r
    simp only [Except.ok.injEq] at h2
    subst h2
    obtain ⟨T, h3, h4⟩ := layout_greedy w t hl
    refine ⟨t, T, h1, ⟨st, h3⟩, h4, ?_⟩
    rw [printable_iff, h4]
    exact (layout_no_defect w t hl).1
  · simp at h2

theorem docLayout_of_greedy (law : P.Lawful) {doc : P.Node} {w : Nat} {style id t T}
    (hr : rootTree law doc style = .ok (id, t)) (hn : t.NoFail) (hg : GreedyDoc w id t T) :
    match defect ⟨0, false⟩ (erase T) with
    | some f => docLayout law doc w style = .error f
    | none => ∃ L, docLayout law doc w style = .ok (id, L) ∧ L.toks = erase T := by
  obtain ⟨st, hg⟩ := hg
  have h := layout_of_greedy hg hn (by simp)
  unfold docLayout NTree.layoutDoc
  rw [hr]
  cases hd : defect ⟨0, false⟩ (erase T) with
  | some f =>
    rw [hd] at h
    simp only at h ⊢
    simp [Except.bind_eq, h]
  | none =>
    rw [hd] at h
    obtain ⟨L, h1, h2⟩ := h
    exact ⟨L, by simp [Except.bind_eq, h1], h2⟩

/-! ### C10 -/

/-- **C10.**  What is printed is the greedy layout, in which (rules `choice_first` and `choice_second`
    of `Greedy`) a choice shows its first option if and only if the rest of the line fits with it. -/
theorem C10_printed_is_greedy (law : P.Lawful) {doc : P.Node} {w : Nat} {s : String}
    (h : prettyPrintToString doc w = Exec.ofRes (.ok s)) :
    ∃ id t T, rootTree law doc none = .ok (id, t) ∧ GreedyDoc w id t T ∧
      s = linesString (linesOf (erase T)) := by
  obtain ⟨id, L, hL, hs⟩ := (C01_to_string_iff law doc w s).1 h
  obtain ⟨t, T, h1, h2, h3, _⟩ := docLayout_greedy law hL
  exact ⟨id, t, T, h1, h2, by rw [h3]; exact hs⟩

/-- **C10**, for prints with any focus. -/
theorem C10_focused_print_is_greedy (law : P.Lawful) {doc : P.Node} {w path target style o}
    (hfocus : FocusOk P doc target)
    (h : printAll doc w path target style = Exec.ofRes (.ok o)) :
    ∃ id t T, rootTree law doc style = .ok (id, t) ∧ GreedyDoc w id t T ∧
      o.lines.map styledChars = (linesOf (erase T)).map styledChars ∧
      o.lines.map segsWidth = (linesOf (erase T)).map segsWidth := by
  obtain ⟨id, L, hL, h1, h2, _⟩ := C02_focus_independent law hfocus h
  obtain ⟨t, T, g1, g2, g3, _⟩ := docLayout_greedy law hL
  exact ⟨id, t, T, g1, g2, by rw [g3]; exact h1, by rw [g3]; exact h2⟩

/-- There is exactly one greedy layout. -/
theorem C10_greedy_exists_unique {w : Nat} {id : P.Id} {t : NTree P} (hn : t.NoFail) :
    ∃ T, GreedyDoc w id t T ∧ ∀ T', GreedyDoc w id t T' → T' = T := by
  obtain ⟨st, T, h⟩ := greedy_total (w := w) hn id [] ⟨0, false⟩
  exact ⟨T, ⟨st, h⟩, fun T' ⟨st', h'⟩ => (greedy_unique h' h).2⟩

/-- **C10**, as an equivalence: a document that matches its notations prints as `s` exactly when its
    greedy layout has no defect and its lines are `s`. -/
theorem C10_iff (law : P.Lawful) {doc : P.Node} {w : Nat} {id t} (s : String)
    (hr : rootTree law doc none = .ok (id, t)) (hn : t.NoFail) :
    prettyPrintToString doc w = Exec.ofRes (.ok s) ↔
      ∃ T, GreedyDoc w id t T ∧ Printable (erase T) ∧ s = linesString (linesOf (erase T)) := by
  rw [C01_to_string_iff law]
  constructor
  · rintro ⟨id', L, hL, hs⟩
    obtain ⟨t', T, h1, h2, h3, h4⟩ := docLayout_greedy law hL
    rw [hr] at h1
    simp only [Except.ok.injEq, Prod.mk.injEq] at h1
    obtain ⟨rfl, rfl⟩ := h1
    exact ⟨T, h2, h4, by rw [h3]; exact hs⟩
  · rintro ⟨T, h1, h2, h3⟩
    have h := docLayout_of_greedy law hr hn h1
    rw [(printable_iff _).1 h2] at h
    obtain ⟨L, h4, h5⟩ := h
    exact ⟨id, L, h4, by rw [h5]; exact h3⟩

/-! ### C11 -/

theorem line_at_split (B A : List (Tok P)) :
    ∃ line, (linesOf (B ++ A))[(linesOf B).length - 1]? = some line ∧
      segsWidth line = (lineAfter ⟨0, false⟩ B).col + toksWidth (firstLine A) := by
  have hne : linesOf B ≠ [] := linesFrom_ne_nil [] B
  have hB : (linesOf B).dropLast ++ [(linesOf B).getLast hne] = linesFrom [] B :=
    List.dropLast_concat_getLast hne
  refine ⟨(linesFrom ((linesOf B).getLast hne) A).head (linesFrom_ne_nil _ A), ?_, ?_⟩
  · rw [linesOf, linesFrom_append hB]
    rw [List.getElem?_append_right (by simp [linesOf])]
    simp only [List.length_dropLast, Nat.sub_self]
    obtain ⟨l, ls, _, h⟩ := linesFrom_head ((linesOf B).getLast hne) A
    simp [h]
  · rw [lineAfter_col, ← firstLine_width]

/-- **C11.**  In the greedy layout of a document, if a choice shows its first option, then the whole
    line that the choice starts on is within the width, and on that line no text comes both after the
    choice and after an end-of-line mark. -/
theorem C11_first_option_keeps_line {w : Nat} {id : P.Id} {t : NTree P} {T B A : List (GTok P)}
    (hg : GreedyDoc w id t T) (hT : T = B ++ .first :: A) :
    (∃ line, (linesOf (erase T))[(linesOf (erase B)).length - 1]? = some line ∧ segsWidth line ≤ w) ∧
      (.eol ∈ lastLine (erase B) → ∀ x, .text x ∉ firstLine (erase A)) ∧
      (∀ X Y x, firstLine (erase A) = X ++ .text x :: Y → .eol ∉ X) := by
  obtain ⟨st, hg⟩ := hg
  have h := greedy_first_fits hg hT
  simp only [List.flatMap_nil, List.append_nil] at h
  refine ⟨?_, ?_, ?_⟩
  · obtain ⟨line, h1, h2⟩ := line_at_split (erase B) (erase A)
    refine ⟨line, ?_, by rw [h2]; exact h.1⟩
    rw [hT, erase_append]
    exact h1
  · intro he x hx
    obtain ⟨X, Y, hXY⟩ := List.mem_iff_append.1 hx
    exact h.2 ⟨X, x, Y, hXY, .inl ((lineAfter_eol_iff _ _).2 (.inl he))⟩
  · intro X Y x hXY he
    exact h.2 ⟨X, x, Y, hXY, .inr he⟩

/-- **C11**, for a printed document: it is the lines of tokens `T`, recording the decisions taken at
    choices, such that wherever a first option was taken, the whole line that the choice starts on is
    within the width and no text on it follows both the choice and an end-of-line mark. -/
theorem C11_printed (law : P.Lawful) {doc : P.Node} {w : Nat} {s : String}
    (h : prettyPrintToString doc w = Exec.ofRes (.ok s)) :
    ∃ id t T, rootTree law doc none = .ok (id, t) ∧ Resolves id t T ∧
      s = linesString (linesOf (erase T)) ∧
      ∀ B A, T = B ++ .first :: A →
        (∃ line, (linesOf (erase T))[(linesOf (erase B)).length - 1]? = some line ∧ segsWidth line ≤ w) ∧
        (.eol ∈ lastLine (erase B) → ∀ x, .text x ∉ firstLine (erase A)) ∧
        (∀ X Y x, firstLine (erase A) = X ++ .text x :: Y → .eol ∉ X) := by
  obtain ⟨id, t, T, h1, h2, h3⟩ := C10_printed_is_greedy law h
  exact ⟨id, t, T, h1, greedy_resolves h2.choose_spec, h3,
    fun B A hT => C11_first_option_keeps_line h2 hT⟩

/-! ### C12 -/

/-- **C12.**  Suppose choices obey the documented requirement.  Take any line after the first of the
    greedy layout.  If with some other way of taking the choices from the start of that line on
    (`T'`) the line would fit, then it does in the greedy layout. -/
theorem C12_overflow_only_if_unavoidable {w : Nat} {id : P.Id} {t : NTree P} {T T' B A A' : List (GTok P)}
    {ind : List (Segment P)} (hc : t.GoodChoices w) (hg : GreedyDoc w id t T) (hr : Resolves id t T')
    (hT : T = B ++ .tok (.nl ind) :: A) (hT' : T' = B ++ .tok (.nl ind) :: A')
    (hfit : LineFits w ⟨segsWidth ind, false⟩ (erase A')) :
    LineFits w ⟨segsWidth ind, false⟩ (erase A) ∧
      ∃ line, (linesOf (erase T))[(linesOf (erase B)).length]? = some line ∧ segsWidth line ≤ w := by
  obtain ⟨st, hg⟩ := hg
  have h := greedy_line_fits hg hc hr hT hT' (by simpa using hfit)
  simp only [List.flatMap_nil, List.append_nil] at h
  refine ⟨h, ?_⟩
  obtain ⟨line, h1, h2⟩ := line_at_split (erase B ++ [.nl ind]) (erase A)
  refine ⟨line, ?_, ?_⟩
  · have hlen : (linesOf (erase B ++ [.nl ind])).length - 1 = (linesOf (erase B)).length := by
      have hne : linesOf (erase B) ≠ [] := linesFrom_ne_nil [] _
      rw [linesOf, linesFrom_append (List.dropLast_concat_getLast hne)]
      simp [linesFrom]
      have := List.length_pos_iff.2 hne
      omega
    rw [hlen] at h1
    rw [hT, erase_append]
    simpa [erase] using h1
  · rw [h2, lineAfter_append]
    exact h.1

/-- **C12**, for the first line. -/
theorem C12_first_line {w : Nat} {id : P.Id} {t : NTree P} {T T' : List (GTok P)}
    (hc : t.GoodChoices w) (hg : GreedyDoc w id t T) (hr : Resolves id t T')
    (hfit : LineFits w ⟨0, false⟩ (erase T')) :
    LineFits w ⟨0, false⟩ (erase T) ∧
      ∃ line, (linesOf (erase T))[0]? = some line ∧ segsWidth line ≤ w := by
  obtain ⟨st, hg⟩ := hg
  have h := greedy_first_line_fits hg hc hr (by simpa using hfit)
  simp only [List.flatMap_nil, List.append_nil] at h
  refine ⟨h, ?_⟩
  obtain ⟨line, h1, h2⟩ := line_at_split [] (erase T)
  exact ⟨line, by simpa [linesOf, linesFrom] using h1, by rw [h2]; exact h.1⟩

/-- **C12**, for a printed document whose choices obey the documented requirement: it is the lines of
    tokens `T` such that each line (the one that begins with the newline after `B`, or the first one)
    is within the width if some other way `T'` of taking the choices from there on would keep it within
    the width (without text after an end-of-line mark). -/
theorem C12_printed (law : P.Lawful) {doc : P.Node} {w : Nat} {s : String}
    (h : prettyPrintToString doc w = Exec.ofRes (.ok s))
    (hc : ∀ id t, rootTree law doc none = .ok (id, t) → t.GoodChoices w) :
    ∃ id t T, rootTree law doc none = .ok (id, t) ∧ Resolves id t T ∧
      s = linesString (linesOf (erase T)) ∧
      (∀ T', Resolves id t T' → LineFits w ⟨0, false⟩ (erase T') →
        ∃ line, (linesOf (erase T))[0]? = some line ∧ segsWidth line ≤ w) ∧
      (∀ T' B ind A A', Resolves id t T' → T = B ++ .tok (.nl ind) :: A → T' = B ++ .tok (.nl ind) :: A' →
        LineFits w ⟨segsWidth ind, false⟩ (erase A') →
        ∃ line, (linesOf (erase T))[(linesOf (erase B)).length]? = some line ∧ segsWidth line ≤ w) := by
  obtain ⟨id, t, T, h1, h2, h3⟩ := C10_printed_is_greedy law h
  exact ⟨id, t, T, h1, greedy_resolves h2.choose_spec, h3,
    fun T' hr hf => (C12_first_line (hc id t h1) h2 hr hf).2,
    fun T' B ind A A' hr hT hT' hf => (C12_overflow_only_if_unavoidable (hc id t h1) h2 hr hT hT' hf).2⟩

/-! ### C15 and C36 -/

/-- **C15**, first half: what is printed never has a text after an end-of-line mark on the same line. -/
theorem C15_printed_has_no_text_after_eol (law : P.Lawful) {doc : P.Node} {w : Nat} {s : String} {id t T}
    (hr : rootTree law doc none = .ok (id, t)) (hn : t.NoFail) (hg : GreedyDoc w id t T)
    (h : prettyPrintToString doc w = Exec.ofRes (.ok s)) : ¬ EolDefect (erase T) := by
  obtain ⟨T', h1, h2, _⟩ := (C10_iff law s hr hn).1 h
  obtain ⟨T0, _, hu⟩ := C10_greedy_exists_unique (w := w) (id := id) hn
  rw [hu T hg, ← hu T' h1]
  exact h2.2

/-- All the ways in which printing a whole document that matches its notations can end. -/
theorem C15_outcomes (law : P.Lawful) {doc : P.Node} {w : Nat} {id t T}
    (hr : rootTree law doc none = .ok (id, t)) (hn : t.NoFail) (hg : GreedyDoc w id t T) :
    (prettyPrintToString doc w = Exec.ofRes (.ok (linesString (linesOf (erase T)))) ∧
        ¬ TooWide (erase T) ∧ ¬ EolDefect (erase T)) ∨
      (prettyPrintToString doc w = Exec.ofRes (.error (.err .textAfterEndOfLine)) ∧
        EolDefect (erase T)) ∨
      (prettyPrintToString doc w = Exec.ofRes (.error .overflow) ∧ TooWide (erase T)) := by
  rcases (toString_err law w hr hn hg).exists_res with ⟨s, hx, _⟩ | ⟨e, hx, he⟩
  · obtain ⟨T', h1, h2, h3⟩ := (C10_iff law s hr hn).1 hx
    obtain ⟨T0, _, hu⟩ := C10_greedy_exists_unique (w := w) (id := id) hn
    have : T' = T := by rw [hu T' h1, hu T hg]
    subst this
    exact .inl ⟨by rw [hx, h3], h2.1, h2.2⟩
  · rcases hasDefect_kinds he with rfl | rfl
    · exact .inr (.inr ⟨hx, hasDefect_overflow he⟩)
    · exact .inr (.inl ⟨hx, hasDefect_eol he⟩)

/-- **C15.**  Printing a whole document that matches its notations, no line of which is wider than
    65535 columns, fails with `TextAfterEndOfLine` if and only if the greedy layout has a text after an
    end-of-line mark on the same line. -/
theorem C15_text_after_eol_iff (law : P.Lawful) {doc : P.Node} {w : Nat} {id t T}
    (hr : rootTree law doc none = .ok (id, t)) (hn : t.NoFail) (hg : GreedyDoc w id t T)
    (hw : ¬ TooWide (erase T)) :
    prettyPrintToString doc w = Exec.ofRes (.error (.err .textAfterEndOfLine)) ↔ EolDefect (erase T) := by
  constructor
  · intro h
    rcases C15_outcomes law hr hn hg with ⟨h1, _⟩ | ⟨_, h2⟩ | ⟨_, h2⟩
    · rw [h1] at h
      exact absurd (Exec.ofRes_inj h) (by simp)
    · exact h2
    · exact absurd h2 hw
  · intro h
    rcases C15_outcomes law hr hn hg with ⟨_, _, h2⟩ | ⟨h1, _⟩ | ⟨_, h2⟩
    · exact absurd h h2
    · exact h1
    · exact absurd h2 hw

/-- **C36.**  If no line of the greedy layout is wider than 65535 columns, then printing the document
    does not overflow. -/
theorem C36_no_overflow (law : P.Lawful) {doc : P.Node} {w : Nat} {id t T}
    (hr : rootTree law doc none = .ok (id, t)) (hn : t.NoFail) (hg : GreedyDoc w id t T)
    (hw : ¬ TooWide (erase T)) : prettyPrintToString doc w ≠ Exec.ofRes (.error .overflow) := by
  intro h
  rcases C15_outcomes law hr hn hg with ⟨h1, _⟩ | ⟨h1, _⟩ | ⟨_, h2⟩
  · rw [h1] at h
    exact absurd (Exec.ofRes_inj h) (by simp)
  · rw [h1] at h
    exact absurd (Exec.ofRes_inj h) (by simp)
  · exact hw h2

/-- **C36**, the other direction: if a line is wider than 65535 columns, then there is an error (it may
    be reported as `TextAfterEndOfLine` if there is such a text, too). -/
theorem C36_overflow_if_too_wide (law : P.Lawful) {doc : P.Node} {w : Nat} {id t T}
    (hr : rootTree law doc none = .ok (id, t)) (hn : t.NoFail) (hg : GreedyDoc w id t T)
    (hw : TooWide (erase T)) (he : ¬ EolDefect (erase T)) :
    prettyPrintToString doc w = Exec.ofRes (.error .overflow) := by
  rcases C15_outcomes law hr hn hg with ⟨_, h2, _⟩ | ⟨_, h2⟩ | ⟨h1, _⟩
  · exact absurd hw h2
  · exact absurd h2 he
  · exact h1

/-- **C36**, for prints with any focus and any number of lines from the iterators, of a document that
    has a layout. -/
theorem C36_focused_no_overflow (law : P.Lawful) {doc : P.Node} {w : Nat} {style id t T}
    (hr : rootTree law doc style = .ok (id, t)) (hn : t.NoFail) (hg : GreedyDoc w id t T)
    (hp : Printable (erase T)) (path : List Nat) {target : FocusTarget} (hfocus : FocusOk P doc target) :
    prettyPrint doc w path target style ≠ Exec.ofRes (.error .overflow) ∧
    ∀ r, prettyPrint doc w path target style = Exec.ofRes (.ok r) → ∀ m n,
      takeLines Printer.nextUp m r.up ≠ Exec.ofRes (.error .overflow) ∧
      takeLines Printer.nextDown n r.down ≠ Exec.ofRes (.error .overflow) := by
  have h := docLayout_of_greedy law hr hn hg
  rw [(printable_iff _).1 hp] at h
  obtain ⟨L, hL, _⟩ := h
  have no : ∀ {α : Type} {x y : Res P.Err α}, x ≠ y → (Exec.ofRes x : Exec P.Err α) ≠ Exec.ofRes y :=
    fun hxy h => hxy (Exec.ofRes_inj h)
  rcases C40_partial_print_no_errors law hL path hfocus with ⟨r, h1, h2⟩ | ⟨e, h1, _⟩
  · rw [h1]
    refine ⟨no (by simp), ?_⟩
    intro r' h' m n
    have := Exec.ofRes_inj h'
    simp at this
    subst this
    obtain ⟨⟨x, hx⟩, ⟨y, hy⟩⟩ := h2 m n
    rw [hx, hy]
    exact ⟨no (by simp), no (by simp)⟩
  · rw [h1]
    exact ⟨no (by simp), fun r h' => absurd h' (no (by simp))⟩

/-! ### Examples -/

section
open Ex

theorem exTree_noFail : exTree.NoFail := by
  simp [exTree, listTree, NTree.NoFail]

/-- The greedy layout of the example at width 8: the only choice shows its second option. -/
def exToks8 : List (GTok exP) :=
  [.tok (.text (lit "[" 1)), .tok (.text (txt "aa" 2)), .tok (.text (lit "," 1)), .second,
    .tok (.nl []), .tok (.text (txt "bbb" 3)), .tok (.mark (nid 3)), .tok (.text (lit "]" 1))]

/-- The greedy layout of the example at width 9: the choice shows its first option. -/
def exToks9 : List (GTok exP) :=
  [.tok (.text (lit "[" 1)), .tok (.text (txt "aa" 2)), .tok (.text (lit "," 1)), .first,
    .tok (.text (lit " " 1)), .tok (.text (txt "bbb" 3)), .tok (.mark (nid 3)), .tok (.text (lit "]" 1))]

/-- What comes after the choice of the example. -/
def exRest : List (NTree exP) :=
  [.child 1 (.ok (nid 2)) (.text (txt "bbb" 3)), .mark, .text (lit "]" 1)]

theorem exGreedy8 : GreedyDoc 8 (nid 3) exTree exToks8 := by
  have hf : fitsLine 8 ⟨4, false⟩ (.text (lit " " 1) :: exRest) = .ok false := rfl
  have h := Greedy.concat (w := 8) (id := nid 3) (k := []) (st := ⟨0, false⟩)
    (.concat (.concat (.text (t := lit "[" 1))
    (.concat (.concat (.concat (.child (c := nid 1) (i := 0) (.text (t := txt "aa" 2))) (.text (t := lit "," 1)))
      (.choice_second (a := .text (lit " " 1)) (fun h => by have := (fitsLine_spec hf).1 h; cases this)
        (.newline (ind := []))))
      (.child (c := nid 2) (i := 1) (.text (t := txt "bbb" 3)))))
      .mark) (.text (t := lit "]" 1))
  exact ⟨_, h⟩

theorem exGreedy9 : GreedyDoc 9 (nid 3) exTree exToks9 := by
  have hf : fitsLine 9 ⟨4, false⟩ (.text (lit " " 1) :: exRest) = .ok true := rfl
  have h := Greedy.concat (w := 9) (id := nid 3) (k := []) (st := ⟨0, false⟩)
    (.concat (.concat (.text (t := lit "[" 1))
    (.concat (.concat (.concat (.child (c := nid 1) (i := 0) (.text (t := txt "aa" 2))) (.text (t := lit "," 1)))
      (.choice_first (b := .newline []) ((fitsLine_spec hf).2 rfl) (.text (t := lit " " 1))))
      (.child (c := nid 2) (i := 1) (.text (t := txt "bbb" 3)))))
      .mark) (.text (t := lit "]" 1))
  exact ⟨_, h⟩

/-- C10: at width 8 the example prints on two lines, at width 9 on one. -/
example : prettyPrintToString (P := exP) exDoc 8 = Exec.ofRes (.ok "[aa,\nbbb]") :=
  (C10_iff exLaw _ exTree_eq exTree_noFail).2 ⟨_, exGreedy8, (printable_iff _).2 rfl, rfl⟩

example : prettyPrintToString (P := exP) exDoc 9 = Exec.ofRes (.ok "[aa, bbb]") :=
  (C10_iff exLaw _ exTree_eq exTree_noFail).2 ⟨_, exGreedy9, (printable_iff _).2 rfl, rfl⟩

/-- C11: at width 9 the choice shows its first option, and the line is within the width. -/
example : ∃ line, (linesOf (erase exToks9))[0]? = some line ∧ segsWidth line ≤ 9 :=
  (C11_first_option_keeps_line (B := exToks9.take 3) exGreedy9 rfl).1

/-- C12: the choice of the example obeys the requirement on choices: a newline fits whenever the line
    so far does. -/
theorem exGoodChoices (w : Nat) : exTree.GoodChoices w := by
  simp only [exTree, listTree, NTree.GoodChoices, and_true, true_and]
  intro k st h
  have h1 := h.1
  refine ⟨?_, ?_⟩
  · simp [NTree.seconds, firstLine, Tok.notNl, toksWidth] at h1 ⊢
    omega
  · rintro ⟨A, x, C, hA, _⟩
    simp [NTree.seconds, firstLine, Tok.notNl] at hA

/-- C12: at width 8, the second line of the example (which begins with the newline) fits. -/
example : ∃ line, (linesOf (erase exToks8))[1]? = some line ∧ segsWidth line ≤ 8 := by
  have hr := greedy_resolves exGreedy8.choose_spec
  refine (C12_overflow_only_if_unavoidable (B := exToks8.take 4) (exGoodChoices 8) exGreedy8 hr rfl rfl ?_).2
  refine ⟨by decide, ?_⟩
  rintro ⟨A, x, C, hA, h | h⟩
  · simp at h
  · have : (.eol : Tok exP) ∈ firstLine (erase (exToks8.drop 5)) := by
      change _ ∈ firstLine (erase _)
      rw [show firstLine (erase (exToks8.drop 5)) = _ from hA]
      simp [h]
    simp [exToks8, erase, firstLine, Tok.notNl, List.takeWhile_cons] at this

/-- C36: no line of the example is too wide. -/
example : ¬ TooWide (erase exToks8) := ((printable_iff _).2 rfl : Printable (erase exToks8)).1

end

/-! C15: a document for which `TextAfterEndOfLine` is reported: `eol` before the first of two children.
The notations are valid, because validation looks at one node at a time. -/

namespace Ex

/-- `lit("//") + eol + child(0)`. -/
def eolN : TreeNotation := ⟨.literal "//" + .endOfLine + .child 0, by decide⟩

/-- A comment that continues on the same line. -/
def eolDoc : Tree Unit := Tree.newBranch 3 eolN [Tree.newText 1 leafN "aa"]

/-- Its tree. -/
def eolTree : NTree exP :=
  .concat (.concat (.text (lit "//" 2)) .eol) (.child 0 (.ok (nid 1)) (.text (txt "aa" 2)))

theorem eolTree_eq : rootTree exLaw eolDoc none = .ok (nid 3, eolTree) := by
  have h0 : ∀ c, docKid exLaw eolDoc 0 c = .child 0 (.ok (nid 1)) (.text (txt "aa" 2)) := fun c =>
    docKid_of exLaw (child := Tree.newText 1 leafN "aa") rfl (docTree_of exLaw rfl rfl _ _ _)
  have ht : ∀ kid, eolN.1.tree (P := exP) eolDoc kid none ⟨false, [], ()⟩ =
    .concat (.concat (.text (lit "//" 2)) .eol) (kid 0 ⟨false, [], ()⟩) := fun _ => rfl
  unfold rootTree
  rw [docTree_of exLaw (a := eolN.1) (s := ()) rfl rfl]
  change Except.ok (nid 3, eolN.1.tree (P := exP) eolDoc (docKid exLaw eolDoc) none ⟨false, [], ()⟩) = _
  rw [ht]
  simp only [eolTree, h0]

theorem eolGreedy (w : Nat) : GreedyDoc w (nid 3) eolTree
    [.tok (.text (lit "//" 2)), .tok .eol, .tok (.text (txt "aa" 2))] :=
  ⟨_, Greedy.concat (w := w) (id := nid 3) (k := []) (st := ⟨0, false⟩) (.concat .text .eol)
    (.child (c := nid 1) (i := 0) .text)⟩

example (w : Nat) : prettyPrintToString (P := exP) eolDoc w = Exec.ofRes (.error (.err .textAfterEndOfLine)) := by
  refine (C15_text_after_eol_iff exLaw eolTree_eq (by simp [eolTree, NTree.NoFail]) (eolGreedy w) ?_).2
    ⟨[.text (lit "//" 2)], [], txt "aa" 2, [], rfl, by simp⟩
  rintro ⟨l, hl, hw⟩
  simp [linesOf, linesFrom, erase] at hl
  subst hl
  revert hw
  decide

end Ex

end PPP
