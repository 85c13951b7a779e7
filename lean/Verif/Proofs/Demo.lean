import Verif.Spec.Terminal
import Verif.Props.JsonRead
import Verif.Props.Origin
/-
The demo program.
-/
namespace PPP
open Lean.Order

/-! ### `pretty_print_json` -/

section
variable {P : PrettyDoc}

theorem drain_of_toStringLoop_error {e : Fail P.Err} (s : String) (p : Printer P) :
    toStringLoop s p = Exec.ofRes (.error e) → drain Printer.nextDown p = Exec.ofRes (.error e) := by
  revert s p
  apply toStringLoop.fixpoint_induct (P := P) (motive := fun f => ∀ s (p : Printer P),
    f s p = Exec.ofRes (.error e) → drain Printer.nextDown p = Exec.ofRes (.error e))
  · refine admissible_pi_apply (fun s (f : Printer P → Exec P.Err String) => ∀ p, f p = Exec.ofRes (.error e) →
      drain Printer.nextDown p = Exec.ofRes (.error e)) fun s => ?_
    refine admissible_pi_apply (fun p (x : Exec P.Err String) => x = Exec.ofRes (.error e) →
      drain Printer.nextDown p = Exec.ofRes (.error e)) fun p => ?_
    exact Option.admissible_eq_some _ _
  intro f ih s p h
  rw [drain_eq]
  match hx : p.nextDown with
  | none =>
    change (p.nextDown >>= _) = _ at h
    rw [hx] at h
    exact absurd h (by simp [bind, ExceptT.bind, Exec.ofRes, ExceptT.mk])
  | some (.error e') =>
    change (p.nextDown >>= _) = _ at h
    rw [hx] at h
    cases (Exec.ofRes_inj h : Except.error e' = Except.error e)
    rfl
  | some (.ok (none, q)) =>
    change (p.nextDown >>= _) = _ at h
    rw [hx] at h
    exact absurd (Exec.ofRes_inj h) (by simp)
  | some (.ok (some l, q)) =>
    change (p.nextDown >>= _) = _ at h
    rw [hx] at h
    have h' : f (s ++ "\n" ++ l.toString) q = Exec.ofRes (.error e) := h
    have := ih _ _ h'
    change (drain Printer.nextDown q >>= _) = _
    rw [this]
    rfl

theorem prettyPrintJson_layout (law : P.Lawful) (doc : P.Node) (w : Nat) :
    match docLayout law doc w none with
    | .ok (_, L) => ∃ lines, prettyPrintJson doc w = Exec.ofRes (.ok lines) ∧
        lines.map (·.segments) = linesOf L.toks ∧
        ∃ o, printAll doc w [] .start none = Exec.ofRes (.ok o) ∧ o.lines = linesOf L.toks
    | .error _ => ∃ e, prettyPrintJson doc w = Exec.ofRes (.error e) ∧
        prettyPrintToString doc w = Exec.ofRes (.error e) := by
  rcases docLayout_cases law doc w none with ⟨f, hr, h2⟩ | ⟨id, t, hr, ⟨L, hl, h2⟩ | ⟨f, hl, h2⟩⟩
  · rw [h2]
    refine ⟨f, ?_, ?_⟩
    · unfold prettyPrintJson
      rw [print_root_error law hr]; rfl
    · unfold prettyPrintToString
      rw [print_root_error law hr]; rfl
  · rw [h2]
    rcases print_ok (I := False) law hr hl [] (focusOk_start doc) (fun h => h.elim) with
      ⟨r, ups, downs, T0, id', nodeT, afterT, B, A, h1, hu, hd, h4, h5, h6, h7, _⟩ |
      ⟨j, _, hj, _⟩ | ⟨e, _, ⟨⟨⟩, _⟩ | ⟨⟨_, ⟨⟩⟩, _⟩, _⟩
    · have hcore : ups = [] ∧ r.focused.leftSegments = [] := by
        obtain ⟨this, hl'⟩ := prettyPrint_start_nothing_before law hr h1
        rw [hu] at this
        have := Exec.ofRes_inj this
        simp at this
        exact ⟨this, hl'⟩
      obtain ⟨rfl, hleft⟩ := hcore
      simp only [List.reverse_nil, List.map_nil, List.nil_append, hleft, List.singleton_append] at h7
      have hT : linesOf (T0 ++ B ++ A) = linesOf L.toks := by
        rw [h4]
        exact (focusToks_lines h5 T0).2.1 (by simp)
      rw [hT] at h7
      refine ⟨r.focused.toLine :: downs, ?_, ?_, _, printAll_of h1 hu hd, ?_⟩
      · unfold prettyPrintJson
        rw [h1, Exec.ofRes_ok_bind, hd, Exec.ofRes_ok_bind]
        rfl
      · rw [← h7]
        simp [FocusedLine.toLine, hleft]
      · rw [← h7]
        simp [Output.lines, hleft]
    · simp at hj
  · rw [h2]
    simp only
    have hterm : Sat (prettyPrintToString doc w)
        (fun _ => ∃ r lines, prettyPrint doc w [] .start none = Exec.ofRes (.ok r) ∧
          drain Printer.nextDown r.down = Exec.ofRes (.ok lines)) (fun _ => True) := by
      have hf := rootTree_failIn law doc none
      rw [hr] at hf
      have hs := print_terminates law hr docPred_ok hf w [] .start
      unfold prettyPrintToString
      rcases hs.exists_res with ⟨r, h1, h3, h4, h5⟩ | ⟨e, h1, _⟩
      · rw [h1, Exec.ofRes_ok_bind]
        exact (h5 _).mono (fun _ ⟨lines, h⟩ => ⟨r, lines, rfl, h⟩) (fun _ _ => trivial)
      · rw [h1]; trivial
    rcases hterm.exists_res with ⟨s, _, r, lines, h1, h3⟩ | ⟨e, h1, _⟩
    · exfalso
      obtain ⟨hu, _⟩ := prettyPrint_start_nothing_before law hr h1
      exact print_error law hr hl [] (focusOk_start doc) h1 hu h3
    · refine ⟨e, ?_, h1⟩
      unfold prettyPrintToString at h1
      unfold prettyPrintJson
      match hx : prettyPrint doc w [] .start none with
      | none =>
        rw [hx] at h1
        exact absurd h1 (by simp [bind, ExceptT.bind, Exec.ofRes, ExceptT.mk])
      | some (.error e') =>
        rw [hx] at h1
        cases (Exec.ofRes_inj h1 : Except.error e' = Except.error e)
        rfl
      | some (.ok r) =>
        rw [hx] at h1
        have h' : toStringLoop r.focused.toString r.down = Exec.ofRes (.error e) := h1
        have := drain_of_toStringLoop_error _ _ h'
        change (drain Printer.nextDown r.down >>= _) = _
        rw [this]
        rfl

end

/-! ### `json_to_doc` -/

mutual
/-- The calls of the `json_*` functions that `json_to_doc` makes. -/
def Serde.expr : Serde → (next : Nat) → Json × Nat
  | .null, next => (.null next, next + 1)
  | .bool b, next => (.bool next b, next + 1)
  | .number text, next => (.number next text, next + 1)
  | .string s, next => (.string next s, next + 1)
  | .array vs, next => (.array (Serde.exprs vs next).2 (Serde.exprs vs next).1, (Serde.exprs vs next).2 + 1)
  | .object es, next => (.object (Serde.pairs es next).2 (Serde.pairs es next).1, (Serde.pairs es next).2 + 1)
@[inherit_doc Serde.expr]
def Serde.exprs : List Serde → (next : Nat) → List Json × Nat
  | [], next => ([], next)
  | v :: vs, next => ((v.expr next).1 :: (Serde.exprs vs (v.expr next).2).1, (Serde.exprs vs (v.expr next).2).2)
@[inherit_doc Serde.expr]
def Serde.pairs : List (String × Serde) → (next : Nat) → List Json × Nat
  | [], next => ([], next)
  | (key, v) :: es, next =>
    (.pair ((v.expr next).2 + 1) (v.expr next).2 key (v.expr next).1 :: (Serde.pairs es ((v.expr next).2 + 2)).1,
      (Serde.pairs es ((v.expr next).2 + 2)).2)
end

mutual
theorem jsonToDoc_expr : ∀ (v : Serde) next, jsonToDoc v next = ((v.expr next).1.build, (v.expr next).2)
  | .null, _ => by simp [jsonToDoc, Serde.expr, Json.build]
  | .bool _, _ => by simp [jsonToDoc, Serde.expr, Json.build]
  | .number _, _ => by simp [jsonToDoc, Serde.expr, Json.build]
  | .string _, _ => by simp [jsonToDoc, Serde.expr, Json.build]
  | .array vs, next => by simp [jsonToDoc, Serde.expr, Json.build, jsonToDocs_exprs vs next]
  | .object es, next => by simp [jsonToDoc, Serde.expr, Json.build, jsonToPairs_pairs es next]
theorem jsonToDocs_exprs : ∀ (vs : List Serde) next,
    jsonToDocs vs next = (Json.builds (Serde.exprs vs next).1, (Serde.exprs vs next).2)
  | [], _ => by simp [jsonToDocs, Serde.exprs, Json.builds]
  | v :: vs, next => by
    simp [jsonToDocs, Serde.exprs, Json.builds, jsonToDoc_expr v next, jsonToDocs_exprs vs]
theorem jsonToPairs_pairs : ∀ (es : List (String × Serde)) next,
    jsonToPairs es next = (Json.builds (Serde.pairs es next).1, (Serde.pairs es next).2)
  | [], _ => by simp [jsonToPairs, Serde.pairs, Json.builds]
  | (key, v) :: es, next => by
    simp [jsonToPairs, Serde.pairs, Json.builds, Json.build, jsonToDoc_expr v next, jsonToPairs_pairs es]
end

mutual
theorem expr_isComment : ∀ (v : Serde) next, (v.expr next).1.isComment = false
  | .null, _ | .bool _, _ | .number _, _ | .string _, _ | .array _, _ | .object _, _ => by
    simp [Serde.expr, Json.isComment]
end

mutual
theorem expr_val : ∀ (v : Serde) next, (v.expr next).1.val = v.val
  | .null, _ | .bool _, _ | .number _, _ | .string _, _ => by simp [Serde.expr, Json.val, Serde.val]
  | .array vs, next => by simp [Serde.expr, Json.val, Serde.val, exprs_vals vs next]
  | .object es, next => by simp [Serde.expr, Json.val, Serde.val, pairs_entries es next]
theorem exprs_vals : ∀ (vs : List Serde) next, Json.vals (Serde.exprs vs next).1 = Serde.vals vs
  | [], _ => by simp [Serde.exprs, Json.vals, Serde.vals]
  | v :: vs, next => by
    simp [Serde.exprs, Json.vals, Serde.vals, expr_isComment, expr_val v next, exprs_vals vs]
theorem pairs_entries : ∀ (es : List (String × Serde)) next,
    Json.entries (Serde.pairs es next).1 = Serde.entries es
  | [], _ => by simp [Serde.pairs, Json.entries, Serde.entries]
  | (key, v) :: es, next => by
    simp [Serde.pairs, Json.entries, Serde.entries, expr_val v next, pairs_entries es]
end

mutual
theorem expr_value {A B : String → Prop} : ∀ (v : Serde) next, v.Texts A B → (v.expr next).1.Value A B
  | .null, _, _ => by simp only [Serde.expr]; exact .null _
  | .bool _, _, _ => by simp only [Serde.expr]; exact .bool _ _
  | .number _, _, .number h => by simp only [Serde.expr]; exact .number _ h
  | .string _, _, .string h => by simp only [Serde.expr]; exact .string _ h
  | .array vs, next, .array h => by
    simp only [Serde.expr]
    exact .array _ fun e he _ => exprs_value vs next h e he
  | .object es, next, .object hk h => by
    simp only [Serde.expr]
    have := pairs_value es next hk h
    refine .object _ ?_ ?_ ?_
    · intro e he _; obtain ⟨_, _, _, _, rfl, _⟩ := this e he; rfl
    · intro a b c d he; obtain ⟨_, _, _, _, e, h, _⟩ := this _ he; cases e; exact h
    · intro a b c d he; obtain ⟨_, _, _, _, e, _, h⟩ := this _ he; cases e; exact h
theorem exprs_value {A B : String → Prop} : ∀ (vs : List Serde) next, (∀ v ∈ vs, v.Texts A B) →
    ∀ e ∈ (Serde.exprs vs next).1, e.Value A B
  | [], _, _, e, he => by simp [Serde.exprs] at he
  | v :: vs, next, h, e, he => by
    simp only [Serde.exprs, List.mem_cons] at he
    rcases he with rfl | he
    · exact expr_value v next (h v (by simp))
    · exact exprs_value vs _ (fun v hv => h v (by simp [hv])) e he
theorem pairs_value {A B : String → Prop} : ∀ (es : List (String × Serde)) next, (∀ e ∈ es, A e.1) →
    (∀ e ∈ es, e.2.Texts A B) → ∀ e ∈ (Serde.pairs es next).1, ∃ pid kid key v, e = .pair pid kid key v ∧ A key ∧
      v.Value A B
  | [], _, _, _, e, he => by simp [Serde.pairs] at he
  | (key, v) :: es, next, hk, h, e, he => by
    simp only [Serde.pairs, List.mem_cons] at he
    rcases he with rfl | he
    · exact ⟨_, _, _, _, rfl, hk _ List.mem_cons_self, expr_value v next (h _ List.mem_cons_self)⟩
    · exact pairs_value es _ (fun e he => hk e (by simp [he])) (fun e he => h e (by simp [he])) e he
end

mutual
/-- Every value satisfies the trivial conditions. -/
theorem Serde.texts_any : ∀ v : Serde, v.Texts (fun _ => True) (fun _ => True)
  | .null => .null
  | .bool b => .bool b
  | .number _ => .number trivial
  | .string _ => .string trivial
  | .array vs => .array (Serde.texts_any_elems vs)
  | .object es => .object (fun _ _ => trivial) (Serde.texts_any_entries es)
theorem Serde.texts_any_elems : ∀ vs : List Serde, ∀ v ∈ vs, v.Texts (fun _ => True) (fun _ => True)
  | [], _, h => by simp at h
  | v :: vs, w, h => by
    rcases List.mem_cons.1 h with he | h
    · exact he ▸ Serde.texts_any v
    · exact Serde.texts_any_elems vs w h
theorem Serde.texts_any_entries : ∀ es : List (String × Serde), ∀ e ∈ es, e.2.Texts (fun _ => True) (fun _ => True)
  | [], _, h => by simp at h
  | (_, v) :: es, e, h => by
    rcases List.mem_cons.1 h with rfl | h
    · exact Serde.texts_any v
    · exact Serde.texts_any_entries es e h
end

theorem Serde.Texts.mono {A B A' B' : String → Prop} (hA : ∀ s, A s → A' s) (hB : ∀ s, B s → B' s) {v : Serde}
    (h : v.Texts A B) : v.Texts A' B' := by
  induction h with
  | null => exact .null
  | bool b => exact .bool b
  | number h => exact .number (hB _ h)
  | string h => exact .string (hA _ h)
  | array _ ih => exact .array ih
  | object hk _ ih => exact .object (fun e he => hA _ (hk e he)) ih

/-! ### No escape characters -/

/-- The strings of the tree have no escape characters. -/
inductive TreeNoEsc : Tree BasicStyle → Prop where
  | text {s id n st o c y} : NoEsc s → (∀ s ∈ n.1.strings, NoEsc s) → TreeNoEsc (.text s id n st o c y)
  | branch {cs id n st o c y} : (∀ s ∈ n.1.strings, NoEsc s) → (∀ c ∈ cs, TreeNoEsc c) →
      TreeNoEsc (.branch cs id n st o c y)

theorem treeNoEsc_ok {sw : String → Nat} : StringsOk (P := basicDoc sw) NoEsc TreeNoEsc where
  notn n a hn ha s hs := by
    cases ha
    cases hn with
    | text _ h => exact h s hs
    | branch h _ => exact h s hs
  text n s hn hs := by
    cases hn with
    | text h _ => cases hs; exact h
    | branch _ _ => cases hs
  child n i c hn hc := by
    cases hn with
    | text => simp [PrettyDoc.childAt, Tree.children?] at hc
    | @branch cs id n st o cm y _ hcs =>
      by_cases hi : i < cs.length
      · rw [basic_childAt (List.getElem?_eq_getElem hi)] at hc
        simp only [Except.ok.injEq] at hc
        subst hc
        exact hcs _ (List.getElem_mem hi)
      · simp [PrettyDoc.childAt, Tree.children?, hi] at hc

theorem TreeNoEsc.set {t : Tree BasicStyle} (h : TreeNoEsc t) : TreeNoEsc t.setNeedsSeparator := by
  cases h with
  | text h1 h2 => exact .text h1 h2
  | branch h1 h2 => exact .branch h1 h2

theorem markSeparators_mem {Q : Tree BasicStyle → Prop} (hQ : ∀ t, Q t → Q t.setNeedsSeparator)
    (cs : List (Tree BasicStyle)) (h : ∀ c ∈ cs, Q c) : ∀ c ∈ (markSeparators cs).1, Q c := by
  induction cs with
  | nil => simpa [markSeparators] using h
  | cons c cs ih =>
    have ih := ih fun c hc => h c (by simp [hc])
    have hc := h c (by simp)
    simp only [markSeparators]
    intro d hd
    split at hd
    · simp only [List.mem_cons] at hd
      rcases hd with rfl | hd
      · exact hc
      · exact ih d hd
    · split at hd
      · simp only [List.mem_cons] at hd
        rcases hd with rfl | hd
        · exact hQ _ hc
        · exact ih d hd
      · simp only [List.mem_cons] at hd
        rcases hd with rfl | hd
        · exact hc
        · exact ih d hd

theorem newBranch_noEsc {id n cs} (hn : ∀ s ∈ n.1.strings, NoEsc s) (h : ∀ c ∈ cs, TreeNoEsc c) :
    TreeNoEsc (Tree.newBranch id n cs) :=
  .branch hn (markSeparators_mem (fun _ h => h.set) cs h)

instance (s : String) : Decidable (NoEsc s) := by unfold NoEsc; infer_instance

mutual
theorem jsonToDoc_noEsc : ∀ (v : Serde) next, v.Texts NoEsc NoEsc → TreeNoEsc (jsonToDoc v next).1
  | .null, _, _ => by simp only [jsonToDoc]; exact newBranch_noEsc (by decide) (by simp)
  | .bool b, _, _ => by
    simp only [jsonToDoc]
    cases b <;> exact newBranch_noEsc (by decide) (by simp)
  | .number _, _, .number h => by simp only [jsonToDoc]; exact .text h (by decide)
  | .string _, _, .string h => by simp only [jsonToDoc]; exact .text h (by decide)
  | .array vs, next, .array h => by
    simp only [jsonToDoc]
    exact newBranch_noEsc (by decide) (jsonToDocs_noEsc vs next h)
  | .object es, next, .object hk h => by
    simp only [jsonToDoc]
    exact newBranch_noEsc (by decide) (jsonToPairs_noEsc es next hk h)
theorem jsonToDocs_noEsc : ∀ (vs : List Serde) next, (∀ v ∈ vs, v.Texts NoEsc NoEsc) →
    ∀ t ∈ (jsonToDocs vs next).1, TreeNoEsc t
  | [], _, _, t, ht => by simp [jsonToDocs] at ht
  | v :: vs, next, h, t, ht => by
    simp only [jsonToDocs, List.mem_cons] at ht
    rcases ht with rfl | ht
    · exact jsonToDoc_noEsc v next (h v (by simp))
    · exact jsonToDocs_noEsc vs _ (fun v hv => h v (by simp [hv])) t ht
theorem jsonToPairs_noEsc : ∀ (es : List (String × Serde)) next, (∀ e ∈ es, NoEsc e.1) →
    (∀ e ∈ es, e.2.Texts NoEsc NoEsc) → ∀ t ∈ (jsonToPairs es next).1, TreeNoEsc t
  | [], _, _, _, t, ht => by simp [jsonToPairs] at ht
  | (key, v) :: es, next, hk, h, t, ht => by
    simp only [jsonToPairs, List.mem_cons] at ht
    rcases ht with rfl | ht
    · refine newBranch_noEsc (by decide) ?_
      intro c hc
      simp only [List.mem_cons, List.not_mem_nil, or_false] at hc
      rcases hc with rfl | rfl
      · exact .text (hk _ List.mem_cons_self) (by decide)
      · exact jsonToDoc_noEsc v next (h _ List.mem_cons_self)
    · exact jsonToPairs_noEsc es _ (fun e he => hk e (by simp [he])) (fun e he => h e (by simp [he])) t ht
end

/-! ### The terminal -/

theorem terminal_fg (c : Color) (color : Option Color) (rest : List Char) :
    terminal .text color ((termionFg c).toList ++ rest) = terminal .text (some c) rest := by
  cases c <;> rfl

theorem terminal_reset (color : Option Color) (rest : List Char) :
    terminal .text color (termionReset.toList ++ rest) = terminal .text none rest := rfl

theorem terminal_text (color : Option Color) (rest : List Char) : ∀ s : List Char, '\x1b' ∉ s →
    terminal .text color (s ++ rest) =
      (s.map (TermCell.of color) ++ (terminal .text color rest).1, (terminal .text color rest).2)
  | [], _ => rfl
  | c :: s, h => by
    simp only [List.mem_cons, not_or] at h
    simp [terminal, Ne.symm h.1, terminal_text color rest s h.2]

theorem terminal_segments {sw : String → Nat} (rest : List Char) : ∀ (segs : List (Segment (basicDoc sw))) color,
    (∀ s ∈ segs, NoEsc s.str) → ∃ color',
    terminal .text color ((segmentsToString segs).toList ++ rest) =
      (((styledChars segs).map fun (c, style) => .of (some (BasicStyle.color style)) c) ++
        (terminal .text color' rest).1, (terminal .text color' rest).2)
  | [], color, _ => ⟨color, rfl⟩
  | s :: segs, color, h => by
    obtain ⟨color', ih⟩ := terminal_segments rest segs (some (BasicStyle.color s.style)) fun s hs => h s (by simp [hs])
    refine ⟨color', ?_⟩
    simp only [segmentsToString, String.toList_append, List.append_assoc]
    rw [terminal_fg, terminal_text _ _ _ (h s (by simp)), ih]
    simp [styledChars, Function.comp_def]

theorem terminal_lines {sw : String → Nat} (rest : List Char) : ∀ (lines : List (Line (basicDoc sw))) color,
    (∀ l ∈ lines, ∀ s ∈ l.segments, NoEsc s.str) → ∃ color',
    terminal .text color ((linesToStringLoop lines).toList ++ rest) =
      (onScreen (lines.map (·.segments)) ++ (terminal .text color' rest).1, (terminal .text color' rest).2)
  | [], color, _ => ⟨color, rfl⟩
  | l :: lines, color, h => by
    simp only [linesToStringLoop, String.toList_append, List.append_assoc]
    obtain ⟨c1, h1⟩ := terminal_segments ("\n".toList ++ ((linesToStringLoop lines).toList ++ rest)) l.segments color
      (h l (by simp))
    obtain ⟨c2, h2⟩ := terminal_lines rest lines c1 fun l hl => h l (by simp [hl])
    refine ⟨c2, ?_⟩
    rw [h1, terminal_text _ _ _ (by decide), h2]
    have : "\n".toList.map (TermCell.of c1) = [.of none '\n'] := rfl
    rw [this]
    simp [onScreen]

end PPP
