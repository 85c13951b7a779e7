import Verif.Proofs.CommentWrap
import Verif.Proofs.Fill
/-
C68: words are wrapped first come, first served, and this uses as few lines as possible.
-/
namespace PPP

section
variable (sw : String → Nat) (w : Nat)

/-- C68: how a paragraph is printed.  The words, each with the comma or the `端` that follows it, fill lines of at
    most `w` columns; the first line starts with `始    `.  Printing succeeds with this text, unless a line is
    wider than the printer can count. -/
theorem C68_paragraph (next : Nat) (ws : List String) (hws : ws ≠ []) (s : String) :
    let lines := fill w (sw "始" + sw "    ") 0 (sw " ") (paragraphWords sw "端" ws)
    prettyPrintToString (P := flowDoc sw) (FlowWrap.mkParagraph next ws) w = Exec.ofRes (.ok s) ↔
      s = "\n".intercalate (wordLines "始    " "" lines) ∧
        ∀ n ∈ linesCols (sw "始" + sw "    ") 0 (sw " ") lines, n ≤ maxWidth := by
  intro lines
  obtain ⟨x, xs, rfl⟩ := List.exists_cons_of_ne_nil hws
  obtain ⟨T, hg, he, hl⟩ := flow_greedy (sw := sw) next x xs w
  have := print_of_greedy (flowLaw sw) (flow_tree next (x :: xs))
    ⟨⟨trivial, ⟨_, rfl⟩, flowBody_noFail next (x :: xs)⟩, trivial⟩ hg (no_eolDefect he) hl s
  rw [wordsLines_strs, wordsLines_cols] at this
  exact this

/-- C68: how a JSON comment is printed.  Its words fill lines of at most `w` columns, each of which starts with `// `.
    Printing succeeds with this text, unless a line is wider than the printer can count. -/
theorem C68_comment (id : Nat) (wordIds : Nat → Nat) (text : String) (s : String) :
    let words := (splitWhitespace [] text.toList).map String.ofList
    let lines := fill w (sw "// ") (sw "// ") (sw " ") (words.map fun x => ⟨x, sw x⟩)
    words ≠ [] →
    (prettyPrintToString (P := basicDoc sw) (jsonComment id wordIds text) w = Exec.ofRes (.ok s) ↔
      s = "\n".intercalate (wordLines "// " "// " lines) ∧
        ∀ n ∈ linesCols (sw "// ") (sw "// ") (sw " ") lines, n ≤ maxWidth) := by
  intro words lines hw
  obtain ⟨x, xs, hx⟩ := List.exists_cons_of_ne_nil (l := splitWhitespace [] text.toList) (by
    intro e; simp [words, e] at hw)
  obtain ⟨T, hg, he, hl⟩ := comment_greedy (sw := sw) id wordIds commentStyle x xs w
  have htree := comment_tree (sw := sw) id wordIds text
  rw [hx] at htree
  have hlines : lines = fill w (sw "// ") (sw "// ") (sw " ") (asWords sw (x :: xs)) := by
    simp only [lines, words, hx, asWords, List.map_map]
    rfl
  have := print_of_greedy (basicLaw sw) htree ⟨⟨trivial, commentTree_noFail ..⟩, trivial⟩ hg
    (by rw [erase_append]; exact no_eolDefect_end he) hl s
  rw [wordsLines_strs, wordsLines_cols, ← hlines] at this
  exact this

/-- C68: a comment without words. -/
theorem C68_empty_comment (id : Nat) (wordIds : Nat → Nat) (text : String) (s : String)
    (h : splitWhitespace [] text.toList = []) :
    prettyPrintToString (P := basicDoc sw) (jsonComment id wordIds text) w = Exec.ofRes (.ok s) ↔
      s = "// " ∧ sw "// " ≤ maxWidth := by
  have htree := comment_tree (sw := sw) id wordIds text
  rw [h] at htree
  have hg : GreedyDoc w id (.concat (.concat (.text (commentLit sw commentStyle "// "))
      (commentTree sw commentStyle [(commentLit sw commentStyle "// ").segment] wordIds [])) .eol)
      ([.tok (.text (commentLit sw commentStyle "// "))] ++ [.tok (.mark id)] ++ [.tok .eol]) :=
    ⟨_, .concat (.concat .text .mark) .eol⟩
  have := print_of_greedy (basicLaw sw) htree ⟨⟨trivial, commentTree_noFail ..⟩, trivial⟩ hg
    (by
      rw [erase_append]
      exact no_eolDefect_end (by simp [erase]))
    (L := [("// ", sw "// ")])
    (by
      show [lineOf [(commentLit sw commentStyle "// ").segment]] = _
      rw [lineOf, segsString_singleton]
      simp [segsWidth, commentLit, Textual.segment])
    s
  simpa using this

/-- C68: a paragraph without words. -/
theorem C68_empty_paragraph (next : Nat) (s : String) :
    prettyPrintToString (P := flowDoc sw) (FlowWrap.mkParagraph next []) w = Exec.ofRes (.ok s) ↔
      s = "始端" ∧ sw "始" + sw "" + sw "端" ≤ maxWidth := by
  have htree := flow_tree (sw := sw) next []
  have hg : GreedyDoc w (next + 0 + 1) (.concat (.concat (.text (flowLit sw "始"))
      (.child 0 (.ok (next + 0)) (flowBody sw next []))) (.text (flowLit sw "端")))
      ([.tok (.text (flowLit sw "始"))] ++ [.tok (.text (flowLit sw ""))] ++ [.tok (.text (flowLit sw "端"))]) :=
    ⟨_, .concat (.concat .text (.child (by unfold flowBody; rw [if_pos rfl]; exact .text))) .text⟩
  have := print_of_greedy (flowLaw sw) htree ⟨⟨trivial, ⟨_, rfl⟩, flowBody_noFail next []⟩, trivial⟩ hg
    (no_eolDefect (by simp [erase]))
    (L := [("始端", sw "始" + sw "" + sw "端")])
    (by
      show [lineOf ([] ++ [(flowLit sw "始").segment] ++ [(flowLit sw "").segment] ++ [(flowLit sw "端").segment])] = _
      rw [lineOf, segsString_snoc, segsString_snoc, segsString_snoc, segsWidth_snoc, segsWidth_snoc, segsWidth_snoc]
      simp [flowLit, segsString, segsWidth])
    s
  simpa using this

end

section
variable {w first start space : Nat}

/-- C68: filling puts all the words in order on nonempty lines that are full, and this is the only way to do so. -/
theorem C68_fill_iff (xs : List Word) (ls : List (List Word)) :
    fill w first start space xs = ls ↔ ls.flatten = xs ∧ (∀ l ∈ ls, l ≠ []) ∧ Full w first start space ls := by
  constructor
  · rintro rfl
    refine ⟨?_, ?_, full_fill xs⟩
    · cases xs with
      | nil => rfl
      | cons x xs => exact fillFrom_flatten xs _ _
    · cases xs with
      | nil => simp [fill]
      | cons x xs => exact fillFrom_ne xs _ _ (by simp)
  · rintro ⟨rfl, h1, h2⟩
    exact full_unique ls h1 h2

/-- C68: filling uses as few lines as possible: no way of putting the words on lines that fit, or have just one word,
    uses fewer lines. -/
theorem C68_fewest_lines (xs : List Word) (ls : List (List Word)) (h : ls.flatten = xs)
    (hls : ∀ (i : Nat) l, ls[i]? = some l → wordCols (if i = 0 then first else start) space l ≤ w ∨ l.length ≤ 1) :
    (fill w first start space xs).length ≤ ls.length :=
  fill_le h hls

/-- C68: if the words can be put on lines that fit at all, then the lines that filling makes fit. -/
theorem C68_fits (xs : List Word) (ls : List (List Word)) (h : ls.flatten = xs) (hne : ∀ l ∈ ls, l ≠ [])
    (hls : ∀ n ∈ linesCols first start space ls, n ≤ w) :
    ∀ n ∈ linesCols first start space (fill w first start space xs), n ≤ w := by
  subst h
  cases ls with
  | nil => simp [fill, linesCols]
  | cons l ls =>
    obtain ⟨x, m, rfl⟩ := List.exists_cons_of_ne_nil (hne l (List.mem_cons_self ..))
    have h0 : wordCols first space (x :: m) ≤ w := hls _ (List.mem_cons_self ..)
    have h1 : ∀ l ∈ ls, wordCols start space l ≤ w := fun l hl =>
      hls _ (List.mem_cons_of_mem _ (List.mem_map_of_mem hl))
    have h2 : ∀ y ∈ ls.flatten, start + y.width ≤ w := by
      intro y hy
      obtain ⟨l, hl, hyl⟩ := List.mem_flatten.1 hy
      exact Nat.le_trans (wordCols_mem start space hyl) (h1 l hl)
    simp only [List.flatten_cons, List.cons_append, fill]
    rw [← wordCols_one first space x, fillFrom_take (line := [x]) m (by simp) (by simpa using h0)]
    exact fillFrom_fits _ (by simp) (by simpa using h0) h2

end

/-- C68: the words of a comment are those between the blanks.  -/
theorem C68_words (ps : List (List Char × List Char)) (tail : List Char)
    (hgap : ∀ p ∈ ps, ∀ c ∈ p.1, isWhitespace c = true) (htail : ∀ c ∈ tail, isWhitespace c = true)
    (hne : ∀ p ∈ ps.tail, p.1 ≠ [])
    (hword : ∀ p ∈ ps, p.2 ≠ [] ∧ ∀ c ∈ p.2, isWhitespace c = false) :
    splitWhitespace [] (spaced ps tail) = ps.map Prod.snd := by
  have skip : ∀ (g l : List Char), (∀ c ∈ g, isWhitespace c = true) → splitWhitespace [] (g ++ l) = splitWhitespace [] l := by
    intro g l hg
    induction g with
    | nil => rfl
    | cons c g ih =>
      simp only [List.cons_append, splitWhitespace, hg c (List.mem_cons_self ..), if_pos]
      exact ih fun c hc => hg c (List.mem_cons_of_mem _ hc)
  have read : ∀ (x l cur : List Char), (∀ c ∈ x, isWhitespace c = false) →
      splitWhitespace cur (x ++ l) = splitWhitespace (cur ++ x) l := by
    intro x l
    induction x with
    | nil => intro cur _; simp
    | cons c x ih =>
      intro cur hx
      simp only [List.cons_append, splitWhitespace, hx c (List.mem_cons_self ..), Bool.false_eq_true, if_false]
      rw [ih _ fun c hc => hx c (List.mem_cons_of_mem _ hc)]
      simp
  have stop : ∀ (x g l : List Char), x ≠ [] → g ≠ [] → (∀ c ∈ g, isWhitespace c = true) →
      splitWhitespace x (g ++ l) = x :: splitWhitespace [] l := by
    intro x g l hx hg hc
    obtain ⟨c, g, rfl⟩ := List.exists_cons_of_ne_nil hg
    simp only [List.cons_append, splitWhitespace, hc c (List.mem_cons_self ..), if_pos, if_neg hx]
    rw [skip g l fun c h => hc c (List.mem_cons_of_mem _ h)]
  induction ps with
  | nil =>
    have := skip tail [] htail
    simpa [spaced, splitWhitespace] using this
  | cons p ps ih =>
    obtain ⟨g, x⟩ := p
    have hx := hword _ (List.mem_cons_self ..)
    have ih' := ih (fun p h => hgap p (List.mem_cons_of_mem _ h))
      (fun p h => hne p (List.mem_of_mem_tail h)) (fun p h => hword p (List.mem_cons_of_mem _ h))
    simp only [spaced, List.map_cons, List.append_assoc]
    rw [skip g _ (hgap _ (List.mem_cons_self ..)), read x _ [] hx.2, List.nil_append, ← ih']
    cases ps with
    | nil =>
      simp only [spaced]
      cases htl : tail with
      | nil => simp [splitWhitespace, hx.1]
      | cons c t =>
        have := stop x (c :: t) [] hx.1 (by simp) (by rw [← htl]; exact htail)
        have h2 := skip (c :: t) [] (by rw [← htl]; exact htail)
        simp only [List.append_nil] at this h2
        rw [this, h2]
    | cons q ps =>
      obtain ⟨g', x'⟩ := q
      simp only [spaced, List.append_assoc]
      rw [stop x g' _ hx.1 (hne (g', x') (by simp)) (hgap (g', x') (by simp)), skip g' _ (hgap (g', x') (by simp))]

/-- C68: each text consists of words and of the gaps around them. -/
theorem C68_words_exist (l : List Char) : ∃ ps tail, l = spaced ps tail ∧
    (∀ p ∈ ps, ∀ c ∈ p.1, isWhitespace c = true) ∧ (∀ c ∈ tail, isWhitespace c = true) ∧
    (∀ p ∈ ps.tail, p.1 ≠ []) ∧ (∀ p ∈ ps, p.2 ≠ [] ∧ ∀ c ∈ p.2, isWhitespace c = false) := by
  induction l with
  | nil => exact ⟨[], [], rfl, by simp⟩
  | cons c cs ih =>
    obtain ⟨ps, tail, rfl, h1, h2, h3, h4⟩ := ih
    cases hc : isWhitespace c with
    | true =>
      cases ps with
      | nil => exact ⟨[], c :: tail, rfl, by simp, by simpa [hc] using h2, by simp, by simp⟩
      | cons p ps =>
        refine ⟨(c :: p.1, p.2) :: ps, tail, rfl, ?_, h2, h3, ?_⟩
        · simpa [hc] using h1
        · simpa using h4
    | false =>
      cases ps with
      | nil => exact ⟨[([], [c])], tail, rfl, by simp, h2, by simp, by simpa using hc⟩
      | cons p ps =>
        obtain ⟨g, x⟩ := p
        cases g with
        | nil =>
          refine ⟨([], c :: x) :: ps, tail, rfl, ?_, h2, h3, ?_⟩
          · simpa using h1
          · have := h4
            simp only [List.forall_mem_cons] at this ⊢
            exact ⟨⟨by simp, hc, this.1.2⟩, this.2⟩
        | cons g gs =>
          refine ⟨([], [c]) :: (g :: gs, x) :: ps, tail, rfl, ?_, h2, ?_, ?_⟩
          · simpa using h1
          · intro p hp
            rcases List.mem_cons.1 hp with rfl | hp
            · simp
            · exact h3 p hp
          · have := h4
            simp only [List.forall_mem_cons] at this ⊢
            exact ⟨by simpa using hc, this⟩

namespace Ex

/-- A paragraph of five words in 14 columns (`sw` counts characters): two lines, as few as possible. -/
example : fill 14 5 0 1 (paragraphWords (fun s => s.toList.length) "端" ["Oh", "woe", "is", "the", "moth"]) =
    [[⟨"Oh,", 3⟩, ⟨"woe,", 4⟩], [⟨"is,", 3⟩, ⟨"the,", 4⟩, ⟨"moth端", 5⟩]] := by decide

/-- That paragraph, printed. -/
example : prettyPrintToString (P := flowDoc fun s => s.toList.length)
    (FlowWrap.mkParagraph 0 ["Oh", "woe", "is", "the", "moth"]) 14 =
      Exec.ofRes (.ok "始    Oh, woe,\nis, the, moth端") := by
  refine (C68_paragraph _ _ _ _ (by simp) _).2 ?_
  have e : fill 14 ((fun s : String => s.toList.length) "始" + (fun s : String => s.toList.length) "    ") 0
      ((fun s : String => s.toList.length) " ") (paragraphWords (fun s => s.toList.length) "端" ["Oh", "woe", "is", "the", "moth"]) =
    [[⟨"Oh,", 3⟩, ⟨"woe,", 4⟩], [⟨"is,", 3⟩, ⟨"the,", 4⟩, ⟨"moth端", 5⟩]] := by decide
  rw [e]
  exact ⟨by decide, by decide⟩

/-- A comment of four words in 12 columns. -/
example : prettyPrintToString (P := basicDoc fun s => s.toList.length)
    (jsonComment 9 (fun i => i) " Oh   woe is moths ") 12 = Exec.ofRes (.ok "// Oh woe is\n// moths") := by
  have h := C68_comment (fun s => s.toList.length) 12 9 (fun i => i) " Oh   woe is moths "
    "// Oh woe is\n// moths"
  have e : (splitWhitespace [] (" Oh   woe is moths ").toList).map String.ofList = ["Oh", "woe", "is", "moths"] := by decide
  simp only [e] at h
  rw [h (by simp)]
  have e : fill 12 ("// ").toList.length ("// ").toList.length (" ").toList.length
      (["Oh", "woe", "is", "moths"].map fun x => ⟨x, x.toList.length⟩) =
    [[⟨"Oh", 2⟩, ⟨"woe", 3⟩, ⟨"is", 2⟩], [⟨"moths", 5⟩]] := by decide
  rw [e]
  exact ⟨by decide, by decide⟩

end Ex
end PPP
