import Verif.Proofs.OnePass
import Verif.Props.Layout
import Verif.Props.ProgramFormat
/-
C82: printing in one pass, and what an edit can change.
-/
namespace PPP
variable {P : PrettyDoc}

/-- **C82**: a document that matches its notations is printed exactly as a function of one pass says (Spec/OnePass.lean), unless
    that writes a text after an end-of-line mark, or a line that is wider than the printer can count. -/
theorem C82_one_pass (law : P.Lawful) {doc : P.Node} {w : Nat} {id t} (s : String)
    (hr : rootTree law doc none = .ok (id, t)) (hn : t.NoFail) :
    prettyPrintToString doc w = Exec.ofRes (.ok s) ↔
      (t.page w).bad = false ∧ (∀ l ∈ (t.page w).lines, l.width ≤ maxWidth) ∧
        s = "\n".intercalate ((t.page w).lines.map Word.str) := by
  obtain ⟨T, hg, hu⟩ := C10_greedy_exists_unique (w := w) (id := id) hn
  obtain ⟨h1, h2⟩ := page_of_greedy hg
  have hb : (t.page w).bad = false ↔ ¬ EolDefect (erase T) := by rw [← h2]; simp
  rw [C10_iff law s hr hn, h1, hb]
  constructor
  · rintro ⟨T', hg', hp, rfl⟩
    cases hu T' hg'
    refine ⟨hp.2, ?_, linesString_eq _⟩
    have := hp.1
    rw [tooWide_iff] at this
    exact Decidable.byContradiction this
  · rintro ⟨he, hw, rfl⟩
    exact ⟨T, hg, ⟨fun h => (tooWide_iff _).1 h hw, he⟩, (linesString_eq _).symm⟩

/-- **C82**: if no line is too wide, then printing fails exactly if a text is written after an end-of-line mark. -/
theorem C82_error (law : P.Lawful) {doc : P.Node} {w : Nat} {id t}
    (hr : rootTree law doc none = .ok (id, t)) (hn : t.NoFail) (hw : ∀ l ∈ (t.page w).lines, l.width ≤ maxWidth) :
    prettyPrintToString doc w = Exec.ofRes (.error (.err .textAfterEndOfLine)) ↔ (t.page w).bad = true := by
  obtain ⟨T, hg, hu⟩ := C10_greedy_exists_unique (w := w) (id := id) hn
  obtain ⟨h1, h2⟩ := page_of_greedy hg
  rw [h2]
  rw [h1] at hw
  exact C15_text_after_eol_iff law hr hn hg fun h => (tooWide_iff _).1 h hw

/-- **C82**, with any focus and any style of the root: the lines above, at and below the focus are those of the function of one pass. -/
theorem C82_focused (law : P.Lawful) {doc : P.Node} {w path target style o} {id t} (hfocus : FocusOk P doc target)
    (hr : rootTree law doc style = .ok (id, t)) (h : printAll doc w path target style = Exec.ofRes (.ok o)) :
    o.lines.map (fun l => Word.mk (segsString l) (segsWidth l)) = (t.page w).lines := by
  obtain ⟨id', t', T, h1, hg, h3, h4⟩ := C10_focused_print_is_greedy law hfocus h
  rw [hr] at h1
  simp only [Except.ok.injEq, Prod.mk.injEq] at h1
  obtain ⟨rfl, rfl⟩ := h1
  rw [(page_of_greedy hg).1]
  have key : ∀ A B : List (List (Segment P)), A.map styledChars = B.map styledChars → A.map segsWidth = B.map segsWidth →
      A.map (fun l => Word.mk (segsString l) (segsWidth l)) = B.map lineW := by
    intro A
    induction A with
    | nil => intro B h _; cases B with
      | nil => rfl
      | cons => simp at h
    | cons a A ih => intro B h h'; cases B with
      | nil => simp at h
      | cons b B =>
        simp only [List.map_cons, List.cons.injEq] at h h' ⊢
        exact ⟨by rw [lineW, segsString_eq, segsString_eq, h.1, h'.1], ih B h.2 h'.2⟩
  exact key _ _ h3 h4

/-- **C82**, what comes before: when a tree is written, all that matters of what has been written before is the number of columns of the
    current line, and whether there is an end-of-line mark on it: from two drafts that agree on these, the rest of the line and all lines
    after it are the same. -/
theorem C82_before (t : NTree P) (w : Nat) (after : Ahead) {d e : Draft} (hc : d.cur.width = e.cur.width) (he : d.eol = e.eol) :
    ∃ x L, (t.write w after d).lines.map Word.str = (d.done.map Word.str) ++ (d.cur.str ++ x) :: L ∧
      (t.write w after e).lines.map Word.str = (e.done.map Word.str) ++ (e.cur.str ++ x) :: L := by
  obtain ⟨_, _, _, ⟨x, h1, h2, h3, h4⟩ | ⟨x, L, h1, h2, h3⟩⟩ := write_rest (w := w) t after hc he
  · exact ⟨x.str, [], by simp [Draft.lines, h1, h3], by simp [Draft.lines, h2, h4]⟩
  · exact ⟨x.str, L.map Word.str ++ [(t.write w after d).cur.str], by simp [Draft.lines, h1], by simp [Draft.lines, h2, h3]⟩

/-- **C82**, an edit of the first part of a document: let two documents differ in their first part only.  If these parts end in the same
    column (and both or none of them with an end-of-line mark), then everything that is printed after them is the same. -/
theorem C82_edit_first (law : P.Lawful) {doc doc' : P.Node} {w : Nat} {id id'} {a a' b : NTree P} {s s' : String}
    (hr : rootTree law doc none = .ok (id, .concat a b)) (hn : (NTree.concat a b).NoFail)
    (hr' : rootTree law doc' none = .ok (id', .concat a' b)) (hn' : (NTree.concat a' b).NoFail)
    (hs : prettyPrintToString doc w = Exec.ofRes (.ok s)) (hs' : prettyPrintToString doc' w = Exec.ofRes (.ok s'))
    (hc : (a.write w (b.ahead .nothing) .blank).cur.width = (a'.write w (b.ahead .nothing) .blank).cur.width)
    (he : (a.write w (b.ahead .nothing) .blank).eol = (a'.write w (b.ahead .nothing) .blank).eol) :
    ∃ rest, s = "\n".intercalate ((a.write w (b.ahead .nothing) .blank).lines.map Word.str) ++ rest ∧
      s' = "\n".intercalate ((a'.write w (b.ahead .nothing) .blank).lines.map Word.str) ++ rest := by
  obtain ⟨_, _, rfl⟩ := (C82_one_pass law s hr hn).1 hs
  obtain ⟨_, _, rfl⟩ := (C82_one_pass law s' hr' hn').1 hs'
  obtain ⟨x, L, h1, h2⟩ := C82_before b w .nothing hc he
  refine ⟨x ++ tailString L, ?_, ?_⟩
  · show "\n".intercalate ((b.write w .nothing _).lines.map Word.str) = _
    rw [h1, Draft.lines, List.map_append, List.map_singleton, intercalate_extend]
  · show "\n".intercalate ((b.write w .nothing _).lines.map Word.str) = _
    rw [h2, Draft.lines, List.map_append, List.map_singleton, intercalate_extend]

/-- **C82**, an edit of the second part of a document: if the first line of the two second parts is of the same width when the second
    option of every choice is taken (and no end-of-line mark makes a difference), then what is printed before them is the same. -/
theorem C82_edit_second (law : P.Lawful) {doc doc' : P.Node} {w : Nat} {id id'} {a b b' : NTree P} {s s' : String}
    (hr : rootTree law doc none = .ok (id, .concat a b)) (hn : (NTree.concat a b).NoFail)
    (hr' : rootTree law doc' none = .ok (id', .concat a b')) (hn' : (NTree.concat a b').NoFail)
    (hs : prettyPrintToString doc w = Exec.ofRes (.ok s)) (hs' : prettyPrintToString doc' w = Exec.ofRes (.ok s'))
    (ha : b.ahead .nothing = b'.ahead .nothing) :
    ∃ rest rest', s = "\n".intercalate ((a.write w (b.ahead .nothing) .blank).lines.map Word.str) ++ rest ∧
      s' = "\n".intercalate ((a.write w (b.ahead .nothing) .blank).lines.map Word.str) ++ rest' := by
  obtain ⟨_, _, rfl⟩ := (C82_one_pass law s hr hn).1 hs
  obtain ⟨_, _, rfl⟩ := (C82_one_pass law s' hr' hn').1 hs'
  obtain ⟨x, L, h1, _⟩ := C82_before b w .nothing (d := a.write w (b.ahead .nothing) .blank) rfl rfl
  obtain ⟨x', L', h1', _⟩ := C82_before b' w .nothing (d := a.write w (b'.ahead .nothing) .blank) rfl rfl
  refine ⟨x ++ tailString L, x' ++ tailString L', ?_, ?_⟩
  · show "\n".intercalate ((b.write w .nothing _).lines.map Word.str) = _
    rw [h1, Draft.lines, List.map_append, List.map_singleton, intercalate_extend]
  · show "\n".intercalate ((b'.write w .nothing _).lines.map Word.str) = _
    rw [h1', ha, Draft.lines, List.map_append, List.map_singleton, intercalate_extend]

/-! ### Concrete cases -/

namespace Ex

/-- A comment that continues on the same line is not printed. -/
example (w : Nat) : prettyPrintToString (P := exP) eolDoc w = Exec.ofRes (.error (.err .textAfterEndOfLine)) :=
  (C82_error exLaw eolTree_eq (by simp [eolTree, NTree.NoFail]) (by
    simp [eolTree, NTree.page, NTree.write, Draft.blank, Draft.lines, lit, txt, Word.append_mk, Word.none]; decide)).2 rfl

/-- The tree of a method chain. -/
theorem chain_root (sw : String → Nat) (e : ChainExpr) (next : Nat) : rootTree (chainLaw sw) (e.build next).1 none =
    .ok ((e.build next).1.id, e.ntree sw next ⟨false, [], ()⟩) := by
  unfold rootTree; rw [chain_ntree]; rfl

/-- It matches its notations. -/
theorem chain_noFail (sw : String → Nat) (e : ChainExpr) (next : Nat) : (e.ntree sw next ⟨false, [], ()⟩).NoFail :=
  (chain_inks (w := 0) e next [] 0 rfl).noFail

/-- What the function of one pass writes for it. -/
example : ((someVec.ntree String.length 7 ⟨false, [], ()⟩).page 30).lines.map Word.str =
      ["some_vec.iter()", "    .map(", "        |elem| { elem * elem }", "    ).collect()"] ∧
    ((someVec.ntree String.length 7 ⟨false, [], ()⟩).page 40).lines.map Word.str =
      ["some_vec.iter()", "    .map(|elem| { elem * elem })", "    .collect()"] := by
  constructor <;> decide +kernel

/-- It is printed. -/
example : prettyPrintToString (P := chainDoc String.length) (someVec.build 7).1 40 =
    Exec.ofRes (.ok "some_vec.iter()\n    .map(|elem| { elem * elem })\n    .collect()") :=
  (C82_one_pass (chainLaw _) _ (chain_root _ _ _) (chain_noFail _ _ _)).2 (by decide +kernel)

/-- Two programs whose first parts end in the same column. -/
def productAB : ChainExpr := .times (.var "ab") someVec
def productCD : ChainExpr := .times (.var "cd") someVec

/-- They are printed. -/
theorem productAB_printed : prettyPrintToString (P := chainDoc String.length) (productAB.build 7).1 40 =
    Exec.ofRes (.ok "ab * some_vec.iter()\n    .map(|elem| { elem * elem })\n    .collect()") :=
  (C82_one_pass (chainLaw _) _ (chain_root _ _ _) (chain_noFail _ _ _)).2 (by decide +kernel)
theorem productCD_printed : prettyPrintToString (P := chainDoc String.length) (productCD.build 7).1 40 =
    Exec.ofRes (.ok "cd * some_vec.iter()\n    .map(|elem| { elem * elem })\n    .collect()") :=
  (C82_one_pass (chainLaw _) _ (chain_root _ _ _) (chain_noFail _ _ _)).2 (by decide +kernel)

/-- So they are with a focus, here before the first factor. -/
example {w o} (h : printAll (P := chainDoc String.length) (productAB.build 7).1 w [0] .start none = Exec.ofRes (.ok o)) :
    o.lines.map (fun l => Word.mk (segsString l) (segsWidth l)) = ((productAB.ntree String.length 7 ⟨false, [], ()⟩).page w).lines :=
  C82_focused (chainLaw _) (.inl fun _ => FocusTarget.noConfusion) (chain_root _ productAB 7) h

/-- What comes after them is the same. -/
example : ∃ rest, "ab * some_vec.iter()\n    .map(|elem| { elem * elem })\n    .collect()" = "ab * " ++ rest ∧
    "cd * some_vec.iter()\n    .map(|elem| { elem * elem })\n    .collect()" = "cd * " ++ rest :=
  C82_edit_first (chainLaw String.length) (chain_root _ productAB 7) (chain_noFail _ productAB 7) (chain_root _ productCD 7)
    (chain_noFail _ productCD 7) productAB_printed productCD_printed (by decide +kernel) (by decide +kernel)

/-- A program whose second part needs as many columns on the current line as `someVec` does. -/
def productAName : ChainExpr := .times (.var "ab") (.var "all_vecs")

theorem productAName_printed : prettyPrintToString (P := chainDoc String.length) (productAName.build 7).1 40 =
    Exec.ofRes (.ok "ab * all_vecs") :=
  (C82_one_pass (chainLaw _) _ (chain_root _ _ _) (chain_noFail _ _ _)).2 (by decide +kernel)

/-- What comes before the second parts is the same. -/
example : ∃ rest rest', "ab * some_vec.iter()\n    .map(|elem| { elem * elem })\n    .collect()" = "ab * " ++ rest ∧
    "ab * all_vecs" = "ab * " ++ rest' :=
  C82_edit_second (chainLaw String.length) (chain_root _ productAB 7) (chain_noFail _ productAB 7) (chain_root _ productAName 7)
    (chain_noFail _ productAName 7) productAB_printed productAName_printed (by decide +kernel)

end Ex
end PPP
