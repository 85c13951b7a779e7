import Verif.Proofs.Extend
import Verif.Model.Pane
import Verif.Props.Safety
/-
Displaying documents of which more is available gives the same result.
-/
namespace PPP
variable {P : PrettyDoc} {M : Methods P.Node P.Id P.Style P.Label P.Cond P.Err} {K : P.Err → Prop}

/-- The failure is neither a panic (unless panics are kept, `B`) nor an error of the document (unless it is kept). -/
def PaneFail.KeptBy {E : Type} (K : E → Prop) (B : Prop) (f : PaneFail E) : Prop :=
  (f = .panic → B) ∧ ∀ e, f = .printing (.prettyDoc e) → K e

variable {S E α β γ δ : Type}

/-- If `x` succeeds, so does `y`, with the same calls and the corresponding value.  If `x` fails with a failure that
    is kept, then `y` fails in the same way, after the same calls. -/
def PLe (K : E → Prop) (B : Prop) (c : α → β) (x : PaneM S E α) (y : PaneM S E β) : Prop :=
  (∀ calls a, x = some (calls, .ok a) → y = some (calls, .ok (c a))) ∧
  ∀ calls f, f.KeptBy K B → x = some (calls, .error f) → y = some (calls, .error f)

section
variable {K : E → Prop} {B : Prop}

theorem PLe.pure {c : α → β} {a : α} {b : β} (h : b = c a) :
    PLe K B c (Pure.pure a : PaneM S E α) (Pure.pure b : PaneM S E β) := by
  subst h
  refine ⟨fun calls a' h' => ?_, fun calls f _ h' => ?_⟩
  · cases h'; rfl
  · cases h'

theorem PLe.fail {c : α → β} (f : PaneFail E) : PLe K B c (PaneM.fail f : PaneM S E α) (PaneM.fail f) := by
  refine ⟨fun calls a' h' => ?_, fun calls f _ h' => ?_⟩
  · cases h'
  · cases h'; rfl

/-- Binding, when it is known what is returned. -/
theorem PLe.bind' {c : α → β} {d : γ → δ} {x : PaneM S E α} {y : PaneM S E β}
    {f : α → PaneM S E γ} {g : β → PaneM S E δ} (h : PLe K B c x y)
    (hf : ∀ a, (∃ calls, x = some (calls, .ok a)) → PLe K B d (f a) (g (c a))) :
    PLe K B d (x >>= f) (y >>= g) := by
  match x, h, hf with
  | none, h, _ => exact ⟨fun _ _ h' => (nomatch h'), fun _ _ _ h' => (nomatch h')⟩
  | some (cs, .error e), h, _ =>
    refine ⟨fun _ _ h' => (nomatch h'), fun calls f hk h' => ?_⟩
    cases h'
    have hy := h.2 cs e hk rfl
    subst hy
    rfl
  | some (cs, .ok a), h, hf =>
    have hy := h.1 cs a rfl
    subst hy
    have hf := hf a ⟨cs, rfl⟩
    refine ⟨fun calls r hr => ?_, fun calls e hk hr => ?_⟩
    · have hr : (match f a with
        | none => none
        | some (cs', r) => some (cs ++ cs', r) : Option (List (WCall S) × Except (PaneFail E) γ)) =
          some (calls, .ok r) := hr
      change (match g (c a) with
        | none => none
        | some (cs', r) => some (cs ++ cs', r) : Option (List (WCall S) × Except (PaneFail E) δ)) = _
      match hf' : f a with
      | none => rw [hf'] at hr; cases hr
      | some (cs', .error e) => rw [hf'] at hr; cases hr
      | some (cs', .ok v) =>
        rw [hf'] at hr
        cases hr
        rw [hf.1 cs' _ hf']
    · have hr : (match f a with
        | none => none
        | some (cs', r) => some (cs ++ cs', r) : Option (List (WCall S) × Except (PaneFail E) γ)) =
          some (calls, .error e) := hr
      change (match g (c a) with
        | none => none
        | some (cs', r) => some (cs ++ cs', r) : Option (List (WCall S) × Except (PaneFail E) δ)) = _
      match hf' : f a with
      | none => rw [hf'] at hr; cases hr
      | some (cs', .error e') =>
        rw [hf'] at hr
        cases hr
        rw [hf.2 cs' _ hk hf']
      | some (cs', .ok v) => rw [hf'] at hr; cases hr

theorem PLe.bind {c : α → β} {d : γ → δ} {x : PaneM S E α} {y : PaneM S E β}
    {f : α → PaneM S E γ} {g : β → PaneM S E δ} (h : PLe K B c x y) (hf : ∀ a, PLe K B d (f a) (g (c a))) :
    PLe K B d (x >>= f) (y >>= g) := .bind' h fun a _ => hf a

theorem PLe.call (c : WCall S) : PLe K B (fun u : Unit => u) (PaneM.call c : PaneM S E Unit) (PaneM.call c) := by
  refine ⟨fun calls a h => ?_, fun calls f _ h => ?_⟩
  · exact h
  · exact h

theorem PLe.lift {c : α → β} {x : Exec E α} {y : Exec E β} (h : Le K c x y)
    (hp : B → x.run ≠ some (.error .panic)) : PLe (S := S) K B c (PaneM.lift x) (PaneM.lift y) := by
  match hr : x.run with
  | none =>
    refine ⟨fun calls a hx => ?_, fun calls f hk hx => ?_⟩ <;>
    · simp only [PaneM.lift, hr] at hx; cases hx
  | some (.ok v) =>
    refine ⟨fun calls a hx => ?_, fun calls f hk hx => ?_⟩
    · simp only [PaneM.lift, hr] at hx
      cases hx
      simp only [PaneM.lift, h.1 v hr]
      rfl
    · simp only [PaneM.lift, hr] at hx; cases hx
  | some (.error (.err e)) =>
    refine ⟨fun calls a hx => ?_, fun calls f hk hx => ?_⟩
    · simp only [PaneM.lift, hr] at hx; cases hx
    · simp only [PaneM.lift, hr] at hx
      cases hx
      have := h.2 (.err e) ⟨by simp, fun e' he => hk.2 e' (by cases he; rfl)⟩ hr
      simp only [PaneM.lift, this]
      rfl
  | some (.error .panic) =>
    refine ⟨fun calls a hx => ?_, fun calls f hk hx => ?_⟩
    · simp only [PaneM.lift, hr] at hx; cases hx
    · simp only [PaneM.lift, hr] at hx
      cases hx
      exact absurd hr (hp (hk.1 rfl))
  | some (.error .overflow) =>
    refine ⟨fun calls a hx => ?_, fun calls f hk hx => ?_⟩
    · simp only [PaneM.lift, hr] at hx; cases hx
    · simp only [PaneM.lift, hr] at hx
      cases hx
      have := h.2 .overflow ⟨by simp, by simp⟩ hr
      simp only [PaneM.lift, this]
      rfl

theorem PLe.addUpTo (m a b : Nat) :
    PLe K B (fun n : Nat => n) (addUpTo m a b : PaneM S E Nat) (addUpTo m a b : PaneM S E Nat) := by
  unfold PPP.addUpTo
  split
  · exact .pure rfl
  · exact .fail _

theorem PLe.subU (a b : Nat) :
    PLe K B (fun n : Nat => n) (subU a b : PaneM S E Nat) (subU a b : PaneM S E Nat) := by
  unfold PPP.subU
  split
  · exact .pure rfl
  · exact .fail _

theorem PLe.eachM {X Y : Type} {f : X → PaneM S E Unit} {g : Y → PaneM S E Unit} (c : X → Y)
    (h : ∀ x, PLe K B (fun u : Unit => u) (f x) (g (c x))) (xs : List X) :
    PLe K B (fun u : Unit => u) (eachM f xs) (eachM g (xs.map c)) := by
  induction xs with
  | nil => exact .pure rfl
  | cons x xs ih => exact .bind (h x) fun _ => ih

end

variable {B : Prop}

/-- Corresponding printed documents. -/
def PrintedDoc.re (M : Methods P.Node P.Id P.Style P.Label P.Cond P.Err) (d : PrintedDoc P) :
    PrintedDoc (P.withMethods M) :=
  ⟨d.lines.map (Line.re M), d.focusLineIndex, d.focusLineRow, d.focusPoint, d.blankStyle⟩

theorem chooseFocusLineRow_le {K : E → Prop} (o : PrintingOptions) (h : Nat) :
    PLe K B (fun n : Nat => n) (o.chooseFocusLineRow h : PaneM S E Nat) (o.chooseFocusLineRow h : PaneM S E Nat) := by
  unfold PrintingOptions.chooseFocusLineRow
  cases o.focusHeight with
  | none => exact .fail _
  | some q =>
    dsimp only
    split
    · exact .fail _
    split
    · exact .fail _
    exact .bind (.subU _ _) fun n => .pure rfl

theorem filterMap_re (l : List (Option (Line P))) :
    (l.map (Option.map (Line.re M))).filterMap id = (l.filterMap id).map (Line.re M) := by
  induction l with
  | nil => rfl
  | cons a l ih =>
    cases a with
    | none => exact ih
    | some a => exact congrArg (Line.re M a :: ·) ih

theorem segsWidth_re' (segs : List (Segment P)) : segsWidth (segs.map (Segment.re M)) = segsWidth segs := by
  unfold segsWidth
  rw [List.map_map]; rfl

theorem lift_ok_inv {α : Type} {x : Exec P.Err α} {a : α}
    (h : ∃ calls, (PaneM.lift x : PaneM S P.Err α) = some (calls, .ok a)) : x = Exec.ofRes (.ok a) := by
  obtain ⟨calls, h⟩ := h
  match hr : x.run with
  | none => simp only [PaneM.lift, hr] at h; cases h
  | some (.ok v) => simp only [PaneM.lift, hr] at h; cases h; exact hr
  | some (.error (.err e)) => simp only [PaneM.lift, hr] at h; cases h
  | some (.error .panic) => simp only [PaneM.lift, hr] at h; cases h
  | some (.error .overflow) => simp only [PaneM.lift, hr] at h; cases h

theorem printedDocNew_le (h : M.ExtendsKeeping K) (hlaw : B → P.Lawful) (doc : P.Node) (o : PrintingOptions) (w ht : Nat) (rs : P.Style) :
    PLe K B (PrintedDoc.re M) (PrintedDoc.new doc o w ht rs)
      (PrintedDoc.new (P := P.withMethods M) doc o w ht rs) := by
  unfold PrintedDoc.new
  split
  · exact .pure rfl
  refine .bind (chooseFocusLineRow_le o ht) fun row => ?_
  refine .bind' (.lift (prettyPrint_le h doc _ _ _ (some rs)) fun hb hr => ?_) fun r hr => ?_
  · obtain ⟨res, h1, h2⟩ := C13_pretty_print_returns (hlaw hb) doc (o.chooseWidth w) o.focusPath o.focusTarget (some rs)
    rw [h1] at hr
    have hr : some res = some (.error .panic) := hr
    cases hr
    exact h2 rfl
  have hr := lift_ok_inv hr
  refine .bind (.lift (takeLines_up_le h row r.up) fun hb hd => ?_) fun above => ?_
  · obtain ⟨res, h1, h2⟩ := (C13_iterators_return (hlaw hb) hr).1 row
    rw [h1] at hd
    have hd : some res = some (.error .panic) := hd
    cases hd
    exact h2 rfl
  refine .bind (.addUpTo _ _ _) fun b => ?_
  refine .bind (.lift (takeLines_down_le h _ r.down) fun hb hd => ?_) fun below => ?_
  · obtain ⟨res, h1, h2⟩ := (C13_iterators_return (hlaw hb) hr).2.1 (ht - b)
    rw [h1] at hd
    have hd : some res = some (.error .panic) := hd
    cases hd
    exact h2 rfl
  refine .pure ?_
  have hw : (r.focused.re M).leftWidth = r.focused.leftWidth := segsWidth_re' _
  simp only [Printed.re, filterMap_re, PrintedDoc.re, hw]
  simp only [List.map_append, List.map_reverse, List.map_cons, List.map_nil, List.length_reverse,
    List.length_map, FocusedLine.toLine, FocusedLine.re, Line.re]

theorem displayBlankLine_le (r : Nat) (rect : Rectangle) (s : P.Style) :
    PLe K B (fun u : Unit => u) (displayBlankLine (P := P) r rect s)
      (displayBlankLine (P := P.withMethods M) r rect s) := by
  unfold displayBlankLine
  dsimp only
  split
  · exact .pure rfl
  · have := PLe.eachM (S := P.Style) (E := P.Err) (K := K) (B := B) (fun c : Nat => c)
      (fun c => PLe.call (WCall.displayChar ' ' (rect.minRow + r) c s false)) (rangeFrom rect.minCol rect.maxCol)
    rw [List.map_id'] at this
    exact this

theorem displayChars_le {K : E → Prop} (isFull : Char → Bool) (row maxCol : Nat) (s : S) (cs : List Char) (col : Nat) :
    PLe K B (fun r : Nat × Bool => r) (displayChars isFull row maxCol s cs col : PaneM S E _)
      (displayChars isFull row maxCol s cs col : PaneM S E _) := by
  induction cs generalizing col with
  | nil => exact .pure rfl
  | cons c cs ih =>
    refine .bind (.addUpTo _ _ _) fun col' => ?_
    split
    · exact .pure rfl
    · exact .bind (.call _) fun _ => ih _

theorem displaySegments_le (isFull : Char → Bool) (row maxCol : Nat) (segs : List (Segment P)) (col : Nat) :
    PLe K B (fun n : Nat => n) (displaySegments isFull row maxCol segs col)
      (displaySegments (P := P.withMethods M) isFull row maxCol (segs.map (Segment.re M)) col) := by
  induction segs generalizing col with
  | nil => exact .pure rfl
  | cons s segs ih =>
    refine .bind (displayChars_le isFull row maxCol s.style s.str.toList col) fun r => ?_
    rcases r with ⟨c, _ | _⟩
    · exact .pure rfl
    · exact ih _

theorem displayLine_le (isFull : Char → Bool) (l : Line P) (r : Nat) (rect : Rectangle) (s : P.Style) :
    PLe K B (fun u : Unit => u) (displayLine isFull l r rect s)
      (displayLine (P := P.withMethods M) isFull (l.re M) r rect s) := by
  unfold displayLine
  dsimp only
  split
  · exact .pure rfl
  · refine .bind (displaySegments_le isFull _ _ l.segments _) fun col => ?_
    have := PLe.eachM (S := P.Style) (E := P.Err) (K := K) (B := B) (fun c : Nat => c)
      (fun c => PLe.call (WCall.displayChar ' ' (rect.minRow + r) c s false)) (rangeFrom col rect.maxCol)
    rw [List.map_id'] at this
    exact this

theorem display_le (isFull : Char → Bool) (d : PrintedDoc P) (rect : Rectangle) :
    PLe K B (fun u : Unit => u) (d.display isFull rect) (PrintedDoc.display (P := P.withMethods M) isFull (d.re M) rect) := by
  unfold PrintedDoc.display
  have hrest : PLe K B (fun u : Unit => u)
      (do
        let firstRow ← subU d.focusLineRow d.focusLineIndex
        let lastRow ← addUpTo maxHeight firstRow d.lines.length
        eachM (d.displayRow isFull rect firstRow lastRow) (rangeFrom 0 rect.height) : PaneM P.Style P.Err Unit)
      (do
        let firstRow ← subU d.focusLineRow d.focusLineIndex
        let lastRow ← addUpTo maxHeight firstRow (d.lines.map (Line.re M)).length
        eachM (PrintedDoc.displayRow (P := P.withMethods M) isFull (d.re M) rect firstRow lastRow) (rangeFrom 0 rect.height) :
          PaneM P.Style P.Err Unit) := by
    rw [List.length_map]
    refine .bind (.subU _ _) fun first => .bind (.addUpTo _ _ _) fun last => ?_
    have := PLe.eachM (S := P.Style) (E := P.Err) (K := K) (B := B)
      (f := d.displayRow isFull rect first last) (g := PrintedDoc.displayRow (P := P.withMethods M) isFull (d.re M) rect first last)
      (fun c : Nat => c) (fun r => ?_) (rangeFrom 0 rect.height)
    · rw [List.map_id'] at this
      exact this
    · unfold PrintedDoc.displayRow
      split
      · simp only [PrintedDoc.re, List.getElem?_map]
        cases d.lines[r - first]? with
        | none => exact .fail _
        | some l => exact displayLine_le isFull l _ _ _
      · exact displayBlankLine_le _ _ _
  rcases d with ⟨lines, i, row, _ | ⟨fr, fc⟩, s⟩
  · exact hrest
  · exact .bind (.addUpTo _ _ _) fun _ => .bind (.addUpTo _ _ _) fun _ => .bind (.call _) fun _ => hrest

theorem fillRow_le {K : E → Prop} (isFull : Char → Bool) (ch : Char) (s : S) (row maxCol col : Nat) :
    PLe K B (fun u : Unit => u) (fillRow isFull ch s row maxCol col : PaneM S E Unit)
      (fillRow isFull ch s row maxCol col : PaneM S E Unit) := by
  induction hn : maxCol - col using Nat.strong_induction_on generalizing col with
  | _ n ih =>
    rw [fillRow.eq_def]
    dsimp only
    have h1 : 1 ≤ (if isFull ch then 2 else 1) := by split <;> omega
    generalize (if isFull ch then 2 else 1) = k at h1 ⊢
    split
    · exact .fail _
    split
    · exact .bind (.call _) fun _ => ih (maxCol - (col + k)) (by omega) _ rfl
    split
    · exact .call _
    · exact .pure rfl

/-- The same documents, when more is available. -/
def PaneEnv.re {L : Type} (M : Methods P.Node P.Id P.Style P.Label P.Cond P.Err) (env : PaneEnv P L) :
    PaneEnv (P.withMethods M) L := ⟨env.getContent, env.isFull⟩

variable {L : Type}

theorem extractDoc_le (n : PaneNotation L P.Style) (s : P.Style) :
    PLe K B (fun r : L × P.Style => r) (extractDoc (P := P) n s) (extractDoc (P := P.withMethods M) n s) := by
  match n with
  | .style i n => exact extractDoc_le n _
  | .doc l => exact .pure rfl
  | .horz _ => exact .fail _
  | .vert _ => exact .fail _
  | .fill _ => exact .fail _

theorem printDynamic_le (h : M.ExtendsKeeping K) (hlaw : B → P.Lawful) (env : PaneEnv P L) (n : PaneNotation L P.Style) (s : P.Style) (w ht : Nat) :
    PLe K B (PrintedDoc.re M) (printDynamic env n s w ht) (printDynamic (P := P.withMethods M) (env.re M) n s w ht) := by
  refine .bind (extractDoc_le n s) fun r => ?_
  simp only [PaneEnv.re]
  cases env.getContent r.1 with
  | none => exact .pure rfl
  | some d => exact printedDocNew_le h hlaw _ _ _ _ _

/-- Corresponding documents with their sizes. -/
def reDocs (M : Methods P.Node P.Id P.Style P.Label P.Cond P.Err) (ds : List (PrintedDoc P × Nat)) :
    List (PrintedDoc (P.withMethods M) × Nat) := ds.map fun d => (d.1.re M, d.2)

theorem printedDoc_width_re (d : PrintedDoc P) : (d.re M).width = d.width := by
  unfold PrintedDoc.width PrintedDoc.re
  rw [List.map_map]
  congr 1
  apply List.map_congr_left
  intro l _
  exact segsWidth_re' _

theorem printedDoc_height_re (d : PrintedDoc P) : (d.re M).height = d.height := List.length_map _

theorem horzDynamic_le (h : M.ExtendsKeeping K) (hlaw : B → P.Lawful) (env : PaneEnv P L) (s : P.Style) (ht : Nat) (ps : Panes L P.Style)
    (av : Nat) :
    PLe K B (reDocs M) (horzDynamic env s ht ps av) (horzDynamic (P := P.withMethods M) (env.re M) s ht ps av) := by
  match ps with
  | .nil => exact .pure rfl
  | .cons size n rest =>
    simp only [horzDynamic]
    split
    · exact horzDynamic_le h hlaw env s ht rest av
    · refine .bind (printDynamic_le h hlaw env n s av ht) fun d => ?_
      rw [printedDoc_width_re]
      exact .bind (horzDynamic_le h hlaw env s ht rest _) fun ds => .pure rfl

theorem vertDynamic_le (h : M.ExtendsKeeping K) (hlaw : B → P.Lawful) (env : PaneEnv P L) (s : P.Style) (w : Nat) (ps : Panes L P.Style)
    (av : Nat) :
    PLe K B (reDocs M) (vertDynamic env s w ps av) (vertDynamic (P := P.withMethods M) (env.re M) s w ps av) := by
  match ps with
  | .nil => exact .pure rfl
  | .cons size n rest =>
    simp only [vertDynamic]
    split
    · exact vertDynamic_le h hlaw env s w rest av
    · refine .bind (printDynamic_le h hlaw env n s w av) fun d => ?_
      rw [printedDoc_height_re]
      exact .bind (.subU _ _) fun _ => .bind (vertDynamic_le h hlaw env s w rest _) fun ds => .pure rfl

theorem finishDivvy_le {K : E → Prop} (d : Divvier) (sizes : List Nat) :
    PLe K B (fun l : List Nat => l) (finishDivvy d sizes : PaneM S E _) (finishDivvy d sizes : PaneM S E _) := by
  unfold finishDivvy
  cases d.finish sizes with
  | none => exact .fail _
  | some out => exact .pure rfl

theorem reDocs_sizes (ds : List (PrintedDoc P × Nat)) : (reDocs M ds).map (·.2) = ds.map (·.2) := by
  unfold reDocs; rw [List.map_map]; rfl

theorem reDocs_docs (ds : List (PrintedDoc P × Nat)) :
    (reDocs M ds).map (·.1) = (ds.map (·.1)).map (PrintedDoc.re M) := by
  unfold reDocs; rw [List.map_map, List.map_map]; rfl

mutual
theorem displayPaneRec_le (h : M.ExtendsKeeping K) (hlaw : B → P.Lawful) (env : PaneEnv P L) (n : PaneNotation L P.Style) (s : P.Style)
    (rect : Rectangle) :
    PLe K B (fun u : Unit => u) (displayPaneRec env n s rect) (displayPaneRec (P := P.withMethods M) (env.re M) n s rect) := by
  match n with
  | .fill ch =>
    unfold displayPaneRec
    have := PLe.eachM (S := P.Style) (E := P.Err) (K := K) (B := B) (fun c : Nat => c)
      (fun r => fillRow_le env.isFull ch s r rect.maxCol rect.minCol) (rangeFrom rect.minRow rect.maxRow)
    rw [List.map_id'] at this
    exact this
  | .doc l =>
    unfold displayPaneRec
    simp only [PaneEnv.re]
    cases env.getContent l with
    | none => exact .pure rfl
    | some d => exact .bind (printedDocNew_le h hlaw _ _ _ _ _) fun p => display_le _ _ _
  | .style i n =>
    unfold displayPaneRec
    exact displayPaneRec_le h hlaw env n _ rect
  | .horz ps =>
    unfold displayPaneRec
    refine .bind (horzDynamic_le h hlaw env s _ ps _) fun ds => ?_
    rw [reDocs_sizes, reDocs_docs]
    exact .bind (finishDivvy_le _ _) fun ws => displayHorz_le h hlaw env ps s rect ws _ _
  | .vert ps =>
    unfold displayPaneRec
    refine .bind (vertDynamic_le h hlaw env s _ ps _) fun ds => ?_
    rw [reDocs_sizes, reDocs_docs]
    exact .bind (finishDivvy_le _ _) fun ws => displayVert_le h hlaw env ps s rect ws _ _

theorem displayHorz_le (h : M.ExtendsKeeping K) (hlaw : B → P.Lawful) (env : PaneEnv P L) (ps : Panes L P.Style) (s : P.Style)
    (rect : Rectangle) (ws : List Nat) (docs : List (PrintedDoc P)) (col : Nat) :
    PLe K B (fun u : Unit => u) (displayHorz env ps s rect ws docs col)
      (displayHorz (P := P.withMethods M) (env.re M) ps s rect ws (docs.map (PrintedDoc.re M)) col) := by
  match ps, ws with
  | .nil, _ => unfold displayHorz; exact .pure rfl
  | .cons _ _ _, [] => unfold displayHorz; exact .pure rfl
  | .cons size n rest, w :: ws =>
    unfold displayHorz
    refine .bind (.addUpTo _ _ _) fun col' => ?_
    split
    · match docs with
      | [] => exact .fail _
      | d :: docs => exact .bind (display_le _ _ _) fun _ => displayHorz_le h hlaw env rest s rect ws docs _
    · exact .bind (displayPaneRec_le h hlaw env n s _) fun _ => displayHorz_le h hlaw env rest s rect ws docs _

theorem displayVert_le (h : M.ExtendsKeeping K) (hlaw : B → P.Lawful) (env : PaneEnv P L) (ps : Panes L P.Style) (s : P.Style)
    (rect : Rectangle) (ws : List Nat) (docs : List (PrintedDoc P)) (row : Nat) :
    PLe K B (fun u : Unit => u) (displayVert env ps s rect ws docs row)
      (displayVert (P := P.withMethods M) (env.re M) ps s rect ws (docs.map (PrintedDoc.re M)) row) := by
  match ps, ws with
  | .nil, _ => unfold displayVert; exact .pure rfl
  | .cons _ _ _, [] => unfold displayVert; exact .pure rfl
  | .cons size n rest, w :: ws =>
    unfold displayVert
    refine .bind (.addUpTo _ _ _) fun row' => ?_
    split
    · match docs with
      | [] => exact .fail _
      | d :: docs => exact .bind (display_le _ _ _) fun _ => displayVert_le h hlaw env rest s rect ws docs _
    · exact .bind (displayPaneRec_le h hlaw env n s _) fun _ => displayVert_le h hlaw env rest s rect ws docs _
end

end PPP
