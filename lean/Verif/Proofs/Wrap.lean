import Verif.Spec.Wrap
import Verif.Proofs.GreedyLines
import Verif.Proofs.JsonTree
import Verif.Proofs.OraclePp
/-
Filling lines with words.
-/
namespace PPP
variable {P : PrettyDoc}

/-! ### The greedy layout of words -/

/-- What follows on the line takes `e` columns. -/
def Trails (w e : Nat) (k : List (NTree P)) : Prop :=
  ∀ st : LineSt, st.eol = false → (SecondsFit w st k ↔ st.col + e ≤ w)

/-- A word that is a child. -/
def wordTree (ids : Nat → P.Id) (t : Nat → Textual P) (i : Nat) : NTree P := .child i (.ok (ids i)) (.text (t i))

/-- A tree, perhaps followed by a text. -/
def followed : Option (Textual P) → NTree P → NTree P
  | none, a => a
  | some c, a => .concat a (.text c)

/-- Words, separated by a text and then a space or a newline. -/
def wordsTree (comma : Option (Textual P)) (sp : Textual P) (ind : List (Segment P)) (ids : Nat → P.Id)
    (t : Nat → Textual P) (n : Nat) : NTree P :=
  iter (wordTree ids t 0)
    (fun k acc => .concat (.concat (followed comma acc) (.choice (.text sp) (.newline ind))) (wordTree ids t (k + 1))) n

/-- The string of a text, if there is one. -/
def optStr : Option (Textual P) → String
  | none => ""
  | some c => c.str

/-- The columns of a text, if there is one. -/
def optWidth : Option (Textual P) → Nat
  | none => 0
  | some c => c.width

/-- Lines that are done, and the current line; each with its width. -/
abbrev Page := List (String × Nat) × String × Nat

/-- Write on the current line. -/
def Page.put (p : Page) (x : Word) : Page := (p.1, p.2.1 ++ x.str, p.2.2 + x.width)

/-- Go on to a word of `n` columns: write a space, or start a new line. -/
def Page.next (w : Nat) (sp ind : Word) (p : Page) (n : Nat) : Page :=
  if p.2.2 + sp.width + n ≤ w then (p.1, p.2.1 ++ sp.str, p.2.2 + sp.width)
  else (p.1 ++ [(p.2.1, p.2.2)], ind.str, ind.width)

/-- A text as a word. -/
def Textual.word (t : Textual P) : Word := ⟨t.str, t.width⟩

/-- The lines of some segments, as a page. -/
def lineOf (l : List (Segment P)) : String × Nat := (segsString l, segsWidth l)

/-- The page just before word `n` is written, when what follows that word takes `e` columns. -/
def pageAt (w : Nat) (comma : Option (Textual P)) (sp ind : Word) (t : Nat → Textual P) (start : Page) : Nat → Nat → Page
  | 0, _ => start
  | n + 1, e => Page.next w sp ind
      ((pageAt w comma sp ind t start n (optWidth comma)).put ⟨(t n).str ++ optStr comma, (t n).width + optWidth comma⟩)
      ((t (n + 1)).width + e)

theorem segsString_snoc (l : List (Segment P)) (t : Textual P) : segsString (l ++ [t.segment]) = segsString l ++ t.str := by
  rw [segsString_append, segsString_singleton]
  rfl

theorem segsWidth_snoc (l : List (Segment P)) (t : Textual P) : segsWidth (l ++ [t.segment]) = segsWidth l + t.width := by
  simp [segsWidth, Textual.segment]

/-- The tokens take the current line `cur` to the page `p`. -/
structure Writes (cur : List (Segment P)) (T : List (Tok P)) (st : LineSt) (p : Page) : Prop where
  eol : st.eol = false
  noEol : .eol ∉ T
  page : ∃ ls last, linesFrom cur T = ls ++ [last] ∧ segsWidth last = st.col ∧ p = (ls.map lineOf, segsString last, segsWidth last)

theorem Writes.text {cur : List (Segment P)} {T st p} (h : Writes cur T st p) (t : Textual P) :
    Writes cur (T ++ [.text t]) ⟨st.col + t.width, st.eol⟩ (p.put t.word) := by
  obtain ⟨ls, last, h1, h2, rfl⟩ := h.page
  refine ⟨h.eol, by simp [h.noEol], ls, last ++ [t.segment], ?_, ?_, ?_⟩
  · rw [linesFrom_append h1.symm]
    simp [linesFrom]
  · rw [segsWidth_snoc, h2]
  · simp [Page.put, Textual.word, segsString_snoc, segsWidth_snoc]

theorem Writes.newline {cur : List (Segment P)} {T st p} (h : Writes cur T st p) (ind : List (Segment P)) :
    Writes cur (T ++ [.nl ind]) ⟨segsWidth ind, false⟩ (p.1 ++ [(p.2.1, p.2.2)], segsString ind, segsWidth ind) := by
  obtain ⟨ls, last, h1, h2, rfl⟩ := h.page
  refine ⟨rfl, by simp [h.noEol], ls ++ [last], ind, ?_, rfl, ?_⟩
  · rw [linesFrom_append h1.symm]
    simp [linesFrom]
  · simp [lineOf]

theorem Writes.col {cur : List (Segment P)} {T st p} (h : Writes cur T st p) : st.col = p.2.2 := by
  obtain ⟨ls, last, h1, h2, rfl⟩ := h.page
  exact h2.symm

theorem words_greedy {w : Nat} {id : P.Id} {comma : Option (Textual P)} {sp : Textual P} {ind : List (Segment P)}
    {ids : Nat → P.Id} {t : Nat → Textual P} {st : LineSt} {cur : List (Segment P)} (hst : st.eol = false)
    (hcur : segsWidth cur = st.col) (n : Nat) : ∀ k e, Trails w e k →
      ∃ T st', Greedy w id (wordsTree comma sp ind ids t n) k st st' T ∧
        Writes cur (erase T) st' ((pageAt w comma sp.word ⟨segsString ind, segsWidth ind⟩ t
          ([], segsString cur, segsWidth cur) n e).put (t n).word) := by
  have h0 : Writes cur [] st ([], segsString cur, segsWidth cur) :=
    ⟨hst, by simp, [], cur, by simp [linesFrom], hcur, by simp⟩
  induction n with
  | zero =>
    intro k e _
    exact ⟨_, _, .child .text, h0.text (t 0)⟩
  | succ n ih =>
    intro k e hk
    have last : ∀ {T : List (GTok P)} {st1 : LineSt} {p : Page}, Writes cur (erase T) st1 p →
        ∃ U st', Greedy w id (.choice (.text sp) (.newline ind)) (wordTree ids t (n + 1) :: k) st1 st' U ∧
          Writes cur (erase (T ++ U)) st' (Page.next w sp.word ⟨segsString ind, segsWidth ind⟩ p ((t (n + 1)).width + e)) := by
      intro T st1 p h
      have hfit : SecondsFit w st1 (.text sp :: wordTree ids t (n + 1) :: k) ↔
          st1.col + sp.width + ((t (n + 1)).width + e) ≤ w := by
        have := hk ⟨st1.col + sp.width + (t (n + 1)).width, st1.eol⟩ h.eol
        unfold SecondsFit at this ⊢
        simp only [List.flatMap_cons, NTree.seconds, wordTree, List.cons_append, List.nil_append, lineFits_text, h.eol,
          true_and] at this ⊢
        rw [this]
        simp only [Nat.add_assoc]
      unfold Page.next
      rw [← h.col]
      by_cases hf : st1.col + sp.width + ((t (n + 1)).width + e) ≤ w
      · refine ⟨_, _, .choice_first (hfit.2 hf) .text, ?_⟩
        have := h.text sp
        rw [if_pos (by simpa [Textual.word] using hf)]
        simpa [erase, erase_append, Page.put, Textual.word, h.col] using this
      · refine ⟨_, _, .choice_second (fun hf' => hf (hfit.1 hf')) .newline, ?_⟩
        have := h.newline ind
        rw [if_neg (by simpa [Textual.word] using hf)]
        simpa [erase, erase_append, h.col] using this
    cases comma with
    | none =>
      obtain ⟨T, st1, g1, h1⟩ := ih (.choice (.text sp) (.newline ind) :: wordTree ids t (n + 1) :: k) 0 (by
        intro st _
        simp [SecondsFit, NTree.seconds])
      obtain ⟨U, st2, g2, h2⟩ := last h1
      refine ⟨T ++ U ++ [.tok (.text (t (n + 1)))], _, .concat (.concat g1 g2) (.child .text), ?_⟩
      have := h2.text (t (n + 1))
      simpa [pageAt, optWidth, optStr, erase_append, erase, Textual.word] using this
    | some c =>
      obtain ⟨T, st1, g1, h1⟩ := ih (.text c :: .choice (.text sp) (.newline ind) :: wordTree ids t (n + 1) :: k) c.width (by
        intro st hst
        simp [SecondsFit, NTree.seconds, lineFits_text, hst])
      have h1' := h1.text c
      rw [show erase T ++ [.text c] = erase (T ++ [.tok (.text c)]) by simp [erase_append, erase]] at h1'
      obtain ⟨U, st2, g2, h2⟩ := last h1'
      refine ⟨(T ++ [.tok (.text c)]) ++ U ++ [.tok (.text (t (n + 1)))], _,
        .concat (.concat (.concat g1 .text) g2) (.child .text), ?_⟩
      have := h2.text (t (n + 1))
      rw [show pageAt w (some c) sp.word ⟨segsString ind, segsWidth ind⟩ t ([], segsString cur, segsWidth cur) (n + 1) e =
        Page.next w sp.word ⟨segsString ind, segsWidth ind⟩
          (((pageAt w (some c) sp.word ⟨segsString ind, segsWidth ind⟩ t ([], segsString cur, segsWidth cur) n c.width).put
            (t n).word).put c.word) ((t (n + 1)).width + e) by
          simp [pageAt, optWidth, optStr, Page.put, Textual.word, String.append_assoc, Nat.add_assoc]]
      simpa [erase_append, erase] using this

/-! ### Pages and lines of words -/

/-- Writing words on a page. -/
def Page.write (w : Nat) (sp ind : Word) (p : Page) (xs : List Word) : Page :=
  xs.foldl (fun p x => (p.next w sp ind x.width).put x) p

theorem Page.write_snoc (w : Nat) (sp ind : Word) (p : Page) (xs : List Word) (x : Word) :
    p.write w sp ind (xs ++ [x]) = ((p.write w sp ind xs).next w sp ind x.width).put x := by
  simp [Page.write]

/-- The words, with what sticks to them. -/
def fullWords (comma : Option (Textual P)) (t : Nat → Textual P) (n : Nat) : List Word :=
  (List.range n).map fun i => ⟨(t i).str ++ optStr comma, (t i).width + optWidth comma⟩

theorem pageAt_write {w : Nat} {comma : Option (Textual P)} {sp ind : Word} {t : Nat → Textual P} {start : Page}
    (es : String) (n : Nat) : ∀ e x xs, fullWords comma t n ++ [⟨(t n).str ++ es, (t n).width + e⟩] = x :: xs →
      (pageAt w comma sp ind t start n e).put ⟨(t n).str ++ es, (t n).width + e⟩ = (start.put x).write w sp ind xs := by
  induction n generalizing es with
  | zero =>
    intro e x xs h
    simp only [fullWords, List.range_zero, List.map_nil, List.nil_append, List.cons.injEq] at h
    obtain ⟨rfl, rfl⟩ := h
    rfl
  | succ n ih =>
    intro e x xs h
    obtain ⟨y, ys, hy⟩ := List.exists_cons_of_ne_nil (l := fullWords comma t (n + 1)) (by simp [fullWords, List.range_succ])
    rw [hy] at h
    simp only [List.cons_append, List.cons.injEq] at h
    obtain ⟨rfl, rfl⟩ := h
    have hy' : fullWords comma t n ++ [⟨(t n).str ++ optStr comma, (t n).width + optWidth comma⟩] = y :: ys := by
      rw [← hy]
      simp [fullWords, List.range_succ]
    rw [Page.write_snoc, ← ih (optStr comma) (optWidth comma) y ys hy']
    rfl

theorem intercalate_cons_cons (sep a b : String) (l : List String) :
    sep.intercalate (a :: b :: l) = a ++ sep ++ sep.intercalate (b :: l) := by
  rw [String.intercalate_cons_of_ne_nil (by simp)]

theorem intercalate_snoc (sep : String) {l : List String} (h : l ≠ []) (x : String) :
    sep.intercalate (l ++ [x]) = sep.intercalate l ++ sep ++ x := by
  induction l with
  | nil => exact absurd rfl h
  | cons a l ih =>
    cases l with
    | nil => rfl
    | cons b l =>
      rw [List.cons_append, List.cons_append, intercalate_cons_cons, ← List.cons_append, ih (by simp),
        intercalate_cons_cons]
      simp only [String.append_assoc]

/-- All the lines of a page. -/
def Page.lines (p : Page) : List (String × Nat) := p.1 ++ [(p.2.1, p.2.2)]

/-- A line of words as a string, with its width. -/
def wordLine (pre : Word) (sp : Nat) (l : List Word) : String × Nat :=
  (pre.str ++ " ".intercalate (l.map Word.str), wordCols pre.width sp l)

/-- Lines of words. -/
def wordsLines (pre ind : Word) (sp : Nat) : List (List Word) → List (String × Nat)
  | [] => []
  | l :: ls => wordLine pre sp l :: ls.map (wordLine ind sp)

theorem fillFrom_cons (w start space : Nat) (xs : List Word) : ∀ col line,
    ∃ l ls, fillFrom w start space col line xs = l :: ls := by
  induction xs with
  | nil => intro col line; exact ⟨_, _, rfl⟩
  | cons x xs ih =>
    intro col line
    simp only [fillFrom]
    split
    · exact ih _ _
    · exact ⟨_, _, rfl⟩

theorem wordLine_one (pre : Word) (sp : Nat) (x : Word) : wordLine pre sp [x] = (pre.str ++ x.str, pre.width + x.width) := by
  simp [wordLine, wordCols]

theorem wordLine_snoc (pre : Word) (sp : Nat) {l : List Word} (h : l ≠ []) (x : Word) :
    wordLine pre sp (l ++ [x]) = ((wordLine pre sp l).1 ++ " " ++ x.str, (wordLine pre sp l).2 + sp + x.width) := by
  unfold wordLine wordCols
  rw [List.map_append, List.map_singleton, intercalate_snoc _ (by simpa using h)]
  have : 0 < l.length := List.length_pos_iff.2 h
  obtain ⟨n, hn⟩ : ∃ n, l.length = n + 1 := ⟨l.length - 1, by omega⟩
  simp only [List.map_append, List.map_singleton, List.sum_append, List.sum_singleton, List.length_append,
    List.length_singleton, hn, String.append_assoc, Prod.mk.injEq, true_and, Nat.add_sub_cancel, Nat.mul_succ]
  omega

theorem write_fill {w sp : Nat} {ind : Word} (xs : List Word) : ∀ {done : List (String × Nat)} {pre : Word} {line : List Word},
    line ≠ [] →
      Page.lines (Page.write w ⟨" ", sp⟩ ind (done, wordLine pre sp line) xs) =
        done ++ wordsLines pre ind sp (fillFrom w ind.width sp (wordLine pre sp line).2 line xs) := by
  induction xs with
  | nil => intro done pre line _; rfl
  | cons x xs ih =>
    intro done pre line hl
    simp only [fillFrom]
    show Page.lines (Page.write w ⟨" ", sp⟩ ind ((Page.next w ⟨" ", sp⟩ ind (done, wordLine pre sp line) x.width).put x) xs) = _
    unfold Page.next
    by_cases hf : (wordLine pre sp line).2 + sp + x.width ≤ w
    · rw [if_pos hf, if_pos hf]
      have e := wordLine_snoc pre sp hl x
      have := ih (done := done) (pre := pre) (line := line ++ [x]) (by simp)
      rw [e] at this
      exact this
    · rw [if_neg hf, if_neg hf]
      have e := wordLine_one ind sp x
      have := ih (done := done ++ [wordLine pre sp line]) (pre := ind) (line := [x]) (by simp)
      rw [e] at this
      refine this.trans ?_
      obtain ⟨l, ls, hls⟩ := fillFrom_cons w ind.width sp xs (ind.width + x.width) [x]
      rw [hls]
      simp [wordsLines]

theorem page_fill {w sp : Nat} {pre ind : Word} {x : Word} {xs : List Word} :
    Page.lines (Page.write w ⟨" ", sp⟩ ind (Page.put ([], pre.str, pre.width) x) xs) =
      wordsLines pre ind sp (fill w pre.width ind.width sp (x :: xs)) := by
  have e := wordLine_one pre sp x
  have := write_fill (w := w) (sp := sp) (ind := ind) xs (done := []) (pre := pre) (line := [x]) (by simp)
  rw [e] at this
  exact this

theorem wordsLines_strs (pre ind : Word) (sp : Nat) (ls : List (List Word)) :
    (wordsLines pre ind sp ls).map Prod.fst = wordLines pre.str ind.str ls := by
  cases ls with
  | nil => rfl
  | cons l ls => simp [wordsLines, wordLines, wordLine]

theorem wordsLines_cols (pre ind : Word) (sp : Nat) (ls : List (List Word)) :
    (wordsLines pre ind sp ls).map Prod.snd = linesCols pre.width ind.width sp ls := by
  cases ls with
  | nil => rfl
  | cons l ls => simp [wordsLines, linesCols, wordLine]

end PPP
