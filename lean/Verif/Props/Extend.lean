import Verif.Proofs.Extend
import Verif.Proofs.ExtendPane
import Verif.Proofs.Pane
/-
C41: printing only depends on what it looks at.
-/
namespace PPP
variable {P : PrettyDoc} {M : Methods P.Node P.Id P.Style P.Label P.Cond P.Err}

theorem Segment.view_re (s : Segment P) : (s.re M).view = s.view := rfl

theorem segments_view_re (l : List (Segment P)) :
    (l.map (Segment.re M)).map Segment.view = l.map Segment.view := by
  rw [List.map_map]; rfl

theorem Line.view_re (l : Line P) : (l.re M).view = l.view := segments_view_re _

/-- C41.  Suppose that printing part of a document succeeds although some of its nodes are unavailable
    (their methods return errors).  Then printing it with these nodes available — whatever they turn out to
    contain — also succeeds, with the same focused line and the same lines above and below. No assumption
    about the document is made: not even that it is finite or that its notations are valid. -/
theorem C41_unavailable_nodes (h : M.Extends) {doc : P.Node} {w : Nat} {path : List Nat} {target : FocusTarget}
    {rootStyle : Option P.Style} {r : Printed P}
    (hr : prettyPrint doc w path target rootStyle = Exec.ofRes (.ok r)) :
    ∃ r', prettyPrint (P := P.withMethods M) doc w path target rootStyle = Exec.ofRes (.ok r') ∧
      r'.focused.view = r.focused.view ∧
      (∀ k lines p, takeLines Printer.nextUp k r.up = Exec.ofRes (.ok (lines, p)) →
        ∃ lines' p', takeLines Printer.nextUp k r'.up = Exec.ofRes (.ok (lines', p')) ∧
          lines'.map (Option.map Line.view) = lines.map (Option.map Line.view)) ∧
      (∀ k lines p, takeLines Printer.nextDown k r.down = Exec.ofRes (.ok (lines, p)) →
        ∃ lines' p', takeLines Printer.nextDown k r'.down = Exec.ofRes (.ok (lines', p')) ∧
          lines'.map (Option.map Line.view) = lines.map (Option.map Line.view)) := by
  have hl : ∀ lines : List (Option (Line P)),
      (lines.map (Option.map (Line.re M))).map (Option.map Line.view) = lines.map (Option.map Line.view) := by
    intro lines
    rw [List.map_map]
    congr 1
    funext l
    cases l with
    | none => rfl
    | some l => exact congrArg some (Line.view_re l)
  refine ⟨r.re M, (prettyPrint_le h.keeping doc w path target rootStyle).1 r hr, ?_, fun k lines p hk => ?_,
    fun k lines p hk => ?_⟩
  · exact Prod.ext (segments_view_re _) (segments_view_re _)
  · exact ⟨_, _, (takeLines_up_le h.keeping k r.up).1 _ hk, hl lines⟩
  · exact ⟨_, _, (takeLines_down_le h.keeping k r.down).1 _ hk, hl lines⟩

/-- C41, for printing everything. -/
theorem C41_to_string (h : M.Extends) {doc : P.Node} {w : Nat} {s : String}
    (hs : prettyPrintToString doc w = Exec.ofRes (.ok s)) :
    prettyPrintToString (P := P.withMethods M) doc w = Exec.ofRes (.ok s) :=
  (prettyPrintToString_le h.keeping doc w).1 s hs

/-- C41, for failures: an error that the printer itself reports (it is not an error of a method) does not go away when
    unavailable nodes become available. -/
theorem C41_same_failure (h : M.Extends) {doc : P.Node} {w : Nat} {path : List Nat} {target : FocusTarget}
    {rootStyle : Option P.Style} {f : Fail P.Err} (hf : f.NotFromDoc)
    (hr : prettyPrint doc w path target rootStyle = Exec.ofRes (.error f)) :
    prettyPrint (P := P.withMethods M) doc w path target rootStyle = Exec.ofRes (.error f) :=
  (prettyPrint_le h.keeping doc w path target rootStyle).2 f hf.keptBy hr

theorem C41_to_string_same_failure (h : M.Extends) {doc : P.Node} {w : Nat} {f : Fail P.Err} (hf : f.NotFromDoc)
    (hs : prettyPrintToString doc w = Exec.ofRes (.error f)) :
    prettyPrintToString (P := P.withMethods M) doc w = Exec.ofRes (.error f) :=
  (prettyPrintToString_le h.keeping doc w).2 f hf.keptBy hs

/-- C41, for displaying: if a window can be filled although some nodes are unavailable, then it is filled in
    the same way — the same calls are made on the window, in the same order — when they are available. -/
theorem C41_display (h : M.Extends) {L : Type} {content : L → Option (P.Node × PrintingOptions)}
    {isFull : Char → Bool} {note : PaneNotation L P.Style} {style : P.Style} {width height : Nat}
    {calls : List (WCall P.Style)}
    (hd : (displayPane (P := P) ⟨content, isFull⟩ note style width height).run = some (calls, .ok ())) :
    (displayPane (P := P.withMethods M) ⟨content, isFull⟩ note style width height).run =
      some (calls, .ok ()) :=
  (displayPaneRec_le (B := False) h.keeping False.elim ⟨content, isFull⟩ note style _).1 calls () hd

/-- C41, for failures of displaying: an error that is not an error of a method of the document does not go away when
    unavailable nodes become available, and what has been drawn before it is the same. -/
theorem C41_display_same_failure (h : M.Extends) {L : Type} {content : L → Option (P.Node × PrintingOptions)}
    {isFull : Char → Bool} {note : PaneNotation L P.Style} {style : P.Style} {width height : Nat}
    {calls : List (WCall P.Style)} {f : PaneFail P.Err} (hp : f ≠ .panic) (he : ∀ e, f ≠ .printing (.prettyDoc e))
    (hd : (displayPane (P := P) ⟨content, isFull⟩ note style width height).run = some (calls, .error f)) :
    (displayPane (P := P.withMethods M) ⟨content, isFull⟩ note style width height).run =
      some (calls, .error f) :=
  (displayPaneRec_le (B := False) h.keeping False.elim ⟨content, isFull⟩ note style _).2 calls f
    ⟨fun h => hp h, fun e h => he e h⟩ hd

namespace Ex

/-- The nodes of a document with two lines. -/
inductive LazyNode where
  | root | line1 | line2

/-- A document with two lines, which are texts; that of the second one is unavailable. -/
@[reducible] def lazyP : PrettyDoc where
  Node := LazyNode
  Id := Nat
  Style := Unit
  Label := Unit
  Cond := Unit
  Err := Unit
  decId := inferInstance
  combine _ _ := ()
  strWidth := String.length
  id
    | .root => .ok 0
    | .line1 => .ok 1
    | .line2 => .ok 2
  notn
    | .root => .ok (.concat (.concat (.child 0) .newline) (.child 1))
    | _ => .ok .text
  condition _ _ := .ok true
  lookupStyle _ _ := .ok ()
  nodeStyle _ := .ok ()
  numChildren
    | .root => .ok (some 2)
    | _ => .ok none
  unwrapText
    | .line1 => .ok "aa"
    | _ => .error (.err ())
  unwrapChild _ i := .ok (if i = 0 then .line1 else .line2)
  unwrapLastChild _ := .ok .line2
  unwrapPrevSibling _ _ i := .ok (if i = 0 then .line1 else .line2)

/-- The same document, with the second text available. -/
def loaded (s : String) : Methods LazyNode Nat Unit Unit Unit Unit :=
  { lazyP.methods with
    unwrapText := fun
      | .line1 => .ok "aa"
      | _ => .ok s }

theorem loaded_extends (s : String) : (loaded s).Extends (P := lazyP) where
  id _ _ h := h
  notn _ _ h := h
  condition _ _ _ h := h
  lookupStyle _ _ _ h := h
  nodeStyle _ _ h := h
  numChildren _ _ h := h
  unwrapText
    | .root, _, h => nomatch h
    | .line1, _, h => h
    | .line2, _, h => nomatch h
  unwrapChild _ _ _ h := h
  unwrapLastChild _ _ h := h
  unwrapPrevSibling _ _ _ _ h := h

theorem lazy_eval_child (i : Int) (j : Nat) (hj : normalizeChildIndex i 2 = some j) :
    DCN.eval (P := lazyP) ⟨.child i, .root, false, [], (), none⟩ =
      Exec.ofRes (.ok (.child j ⟨.text, if j = 0 then .line1 else .line2, false, [], (), none⟩)) := by
  rw [DCN.eval.eq_def]
  simp only [call, Call.toRes, hj, Exec.pure_eq, Exec.ofRes_ok_bind]
  by_cases h : j = 0 <;> simp [h]

theorem lazy_eval_nl :
    DCN.eval (P := lazyP) ⟨.newline, .root, false, [], (), none⟩ = Exec.ofRes (.ok (.newline [])) := by
  rw [DCN.eval.eq_def]; rfl

theorem lazy_eval_concat (a b : Notation lazyP.Label lazyP.Cond) :
    DCN.eval (P := lazyP) ⟨.concat a b, .root, false, [], (), none⟩ = Exec.ofRes (.ok
      (.concat ⟨a, .root, false, [], (), none⟩ ⟨b, .root, false, [], (), none⟩)) := by
  rw [DCN.eval.eq_def]; rfl

theorem lazy_eval_text :
    DCN.eval (P := lazyP) ⟨.text, .line1, false, [], (), none⟩ =
      Exec.ofRes (.ok (.textual ⟨"aa", 2, (), true⟩)) := by
  rw [DCN.eval.eq_def]; rfl

/-- Printing the first line succeeds without the second one. -/
theorem lazy_print (style : Option Unit) : ∃ r, prettyPrint (P := lazyP) .root 8 [] .start style = Exec.ofRes (.ok r) ∧
    r.focused.view = ([], [("aa", 2, ())]) := by
  have e0 := lazy_eval_child 0 0 rfl
  have e1 := lazy_eval_child 1 1 rfl
  simp [prettyPrint, Printer.new, Block.new, Printer.seek, DCN.withOptionalStyle, Printer.seekPath,
    Printer.seekStart, expandFirst, segsWidth, Chunk.new, call, Call.toRes, maxWidth, Exec.pure_eq,
    lazy_eval_concat]
  erw [lazy_eval_concat]
  simp only [Exec.ofRes_ok_bind]
  rw [expandFirstLoop.eq_def]
  simp only [Chunk.new, call, Call.toRes, Exec.ofRes_ok_bind, Exec.pure_eq]
  erw [lazy_eval_concat, e1]
  simp only [Exec.ofRes_ok_bind, Exec.pure_eq]
  rw [expandFirstLoop.eq_def]
  simp only []
  rw [expandFirstLoop.eq_def]
  simp only [Chunk.new, call, Call.toRes, Exec.ofRes_ok_bind, Exec.pure_eq]
  erw [lazy_eval_nl, e0]
  simp only [Exec.ofRes_ok_bind, Exec.pure_eq]
  rw [expandFirstLoop.eq_def]
  simp [Block.new, segsWidth, maxWidth, Exec.pure_eq]
  rw [expandFirstLoop.eq_def]
  simp only []
  rw [expandFirstLoop.eq_def]
  simp only [Exec.ofRes_ok_bind, Exec.pure_eq]
  simp only [Printer.printNextLine]
  rw [printNextLoop.eq_def]
  simp [Chunk.new, call, Call.toRes, expandFirst, Exec.pure_eq]
  erw [lazy_eval_text]
  simp only [Exec.ofRes_ok_bind, Exec.pure_eq]
  rw [expandFirstLoop.eq_def]
  simp only []
  rw [expandFirstLoop.eq_def]
  simp only [Exec.ofRes_ok_bind, Exec.pure_eq]
  rw [printNextLoop.eq_def]
  simp [Block.pushText, maxWidth, Exec.pure_eq]
  rw [printNextLoop.eq_def]
  simp [Block.print, Exec.pure_eq]
  exact ⟨_, rfl, rfl⟩

/-- So it also succeeds, with the same result, once the second line is available, whatever that is. -/
example (s : String) : ∃ r, prettyPrint (P := lazyP.withMethods (loaded s)) .root 8 [] .start none =
    Exec.ofRes (.ok r) ∧ r.focused.view = ([], [("aa", 2, ())]) := by
  obtain ⟨r, h1, h2⟩ := lazy_print none
  obtain ⟨r', h3, h4, _⟩ := C41_unavailable_nodes (loaded_extends s) h1
  exact ⟨r', h3, h4.trans h2⟩

/-- Display the first line only. -/
def lazyOptions : PrintingOptions := ⟨[], .start, some 0, .full, true⟩

/-- One row of the document, without the second line. -/
theorem lazy_printed : ∃ up down, prettyPrint (P := lazyP) .root 8 [] .start (some ()) =
      Exec.ofRes (.ok ⟨up, ⟨[], [⟨"aa", 2, ()⟩]⟩, down⟩) ∧
    (lazyOptions.chooseFocusLineRow 1 : PaneM Unit Unit Nat) = some ([], .ok 0) ∧
    PrintedDoc.new (P := lazyP) .root lazyOptions 8 1 () =
      some ([], .ok ⟨[⟨[⟨"aa", 2, ()⟩]⟩], 0, 0, some (0, 0), ()⟩) := by
  obtain ⟨r, h1, h2⟩ := lazy_print (some ())
  obtain ⟨up, ⟨left, right⟩, down⟩ := r
  have hl : left = [] := List.map_eq_nil_iff.1 (Prod.mk.inj h2).1
  have hr : right = [⟨"aa", 2, ()⟩] := by
    have h := (Prod.mk.inj h2).2
    match right, h with
    | [⟨s, w, u⟩], h =>
      injection h with h _
      injection h with h1 h2
      injection h2 with h2 _
      subst h1; subst h2; rfl
  subst hl; subst hr
  have hrow : roundToRow (roundF32 (roundF32 ((1 - 1 : Nat) : ℚ) * 0)) = 0 := by decide +kernel
  have hf : (lazyOptions.chooseFocusLineRow 1 : PaneM Unit Unit Nat) = some ([], .ok 0) := by
    simp only [PrintingOptions.chooseFocusLineRow, lazyOptions, subU]
    rw [if_neg (by norm_num), if_neg (by norm_num)]
    refine (PaneM.bind_ok_nil (a := 0) rfl).trans ?_
    exact congrArg (fun n => (pure n : PaneM Unit Unit Nat)) hrow
  refine ⟨up, down, h1, hf, ?_⟩
  unfold PrintedDoc.new
  rw [if_neg (by decide)]
  refine (PaneM.bind_ok_nil hf).trans ?_
  refine (PaneM.bind_ok_nil (m := PaneM.lift _) (a := ⟨up, ⟨[], [⟨"aa", 2, ()⟩]⟩, down⟩) ?_).trans ?_
  · exact congrArg PaneM.lift h1
  rfl

/-- A window with one row can be filled without the second line. -/
theorem lazy_display :
    (displayPane (P := lazyP) ⟨fun _ : Unit => some (.root, lazyOptions), fun _ => false⟩ (.doc ()) () 8 1).run =
      some ([.setFocus 0 0, .displayChar 'a' 0 0 () false, .displayChar 'a' 0 1 () false] ++
        (List.range 6).map (fun i => .displayChar ' ' 0 (i + 2) () false), .ok ()) := by
  obtain ⟨_, _, _, _, e⟩ := lazy_printed
  rw [displayPane, displayPaneRec]
  refine (PaneM.bind_ok_nil e).trans ?_
  rfl

/-- So it is filled in the same way once the second line is available. -/
example (s : String) :
    (displayPane (P := lazyP.withMethods (loaded s)) ⟨fun _ : Unit => some (.root, lazyOptions), fun _ => false⟩
      (.doc ()) () 8 1).run =
      some ([.setFocus 0 0, .displayChar 'a' 0 0 () false, .displayChar 'a' 0 1 () false] ++
        (List.range 6).map (fun i => .displayChar ' ' 0 (i + 2) () false), .ok ()) :=
  C41_display (loaded_extends s) lazy_display

end Ex
end PPP
