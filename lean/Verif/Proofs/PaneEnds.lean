import Verif.Proofs.PaneFails
import Verif.Props.Safety
/-
Displaying panes always ends.
-/
namespace PPP
variable {S E L α β : Type} {P : PrettyDoc}

/-- `m` returns, in one way or another. -/
def Ends (m : PaneM S E α) : Prop := ∃ r, m.run = some r

theorem Ends.pure (a : α) : Ends (pure a : PaneM S E α) := ⟨_, rfl⟩
theorem Ends.fail (e : PaneFail E) : Ends (PaneM.fail e : PaneM S E α) := ⟨_, rfl⟩
theorem Ends.call (c : WCall S) : Ends (PaneM.call c : PaneM S E Unit) := ⟨_, rfl⟩

theorem Ends.bind {m : PaneM S E α} {f : α → PaneM S E β} (h : Ends m) (h' : ∀ c a, m = some (c, .ok a) → Ends (f a)) :
    Ends (m >>= f) := by
  obtain ⟨⟨c, r⟩, hr⟩ := h
  unfold PaneM.run at hr
  cases r with
  | error e => exact ⟨_, PaneM.bind_error hr⟩
  | ok a =>
    obtain ⟨⟨c', r'⟩, hr'⟩ := h' c a hr
    unfold PaneM.run at hr'
    exact ⟨_, (PaneM.bind_ok hr).trans (by rw [hr'])⟩

theorem Ends.bind' {m : PaneM S E α} {f : α → PaneM S E β} (h : Ends m) (h' : ∀ a, Ends (f a)) : Ends (m >>= f) :=
  h.bind fun _ a _ => h' a

theorem Ends.eachM {f : α → PaneM S E Unit} (h : ∀ x, Ends (f x)) : ∀ xs : List α, Ends (eachM f xs)
  | [] => .pure _
  | x :: xs => .bind' (h x) fun _ => eachM h xs

theorem Ends.addUpTo (max a b : Nat) : Ends (addUpTo max a b : PaneM S E Nat) := by
  unfold PPP.addUpTo
  split
  · exact .pure _
  · exact .fail _

theorem Ends.subU (a b : Nat) : Ends (subU a b : PaneM S E Nat) := by
  unfold PPP.subU
  split
  · exact .pure _
  · exact .fail _

theorem Ends.lift {x : Exec E α} (h : Returns x) : Ends (PaneM.lift x : PaneM S E α) := by
  obtain ⟨r, rfl, _⟩ := h
  match r with
  | .ok a => exact ⟨_, rfl⟩
  | .error (.err e) => exact ⟨_, rfl⟩
  | .error .panic => exact ⟨_, rfl⟩
  | .error .overflow => exact ⟨_, rfl⟩

theorem Ends.displayChars (isFull : Char → Bool) (row maxCol : Nat) (style : S) : ∀ (chs : List Char) (col : Nat),
    Ends (displayChars (E := E) isFull row maxCol style chs col)
  | [], _ => .pure _
  | ch :: chs, col => by
    unfold PPP.displayChars
    refine .bind' (.addUpTo ..) fun _ => ?_
    split
    · exact .pure _
    · exact .bind' (.call _) fun _ => displayChars isFull row maxCol style chs _

theorem Ends.displaySegments (isFull : Char → Bool) (row maxCol : Nat) : ∀ (segs : List (Segment P)) (col : Nat),
    Ends (displaySegments isFull row maxCol segs col)
  | [], _ => .pure _
  | seg :: segs, col => by
    unfold PPP.displaySegments
    refine .bind' (.displayChars ..) fun _ => ?_
    dsimp only
    split
    · exact displaySegments isFull row maxCol segs _
    · exact .pure _

theorem Ends.displayRow (isFull : Char → Bool) (d : PrintedDoc P) (rect : Rectangle) (a b row : Nat) :
    Ends (d.displayRow isFull rect a b row) := by
  unfold PrintedDoc.displayRow
  split
  · split
    · unfold displayLine
      dsimp only
      split
      · exact .pure _
      · exact .bind' (.displaySegments ..) fun _ => .eachM (fun _ => .call _) _
    · exact .fail _
  · unfold displayBlankLine
    dsimp only
    split
    · exact .pure _
    · exact .eachM (fun _ => .call _) _

theorem Ends.display (isFull : Char → Bool) (d : PrintedDoc P) (rect : Rectangle) : Ends (d.display isFull rect) := by
  have hrows : Ends (do
      let firstRow ← PPP.subU d.focusLineRow d.focusLineIndex
      let lastRow ← PPP.addUpTo maxHeight firstRow d.lines.length
      PPP.eachM (d.displayRow isFull rect firstRow lastRow) (rangeFrom 0 rect.height)) :=
    .bind' (.subU ..) fun _ => .bind' (.addUpTo ..) fun _ => .eachM (fun _ => .displayRow ..) _
  unfold PrintedDoc.display
  split
  · exact .bind' (.addUpTo ..) fun _ => .bind' (.addUpTo ..) fun _ => .bind' (.call _) fun _ => hrows
  · exact hrows

theorem Ends.fillRow (isFull : Char → Bool) (ch : Char) (style : S) (row maxCol : Nat) : ∀ (n col : Nat),
    maxCol - col ≤ n → Ends (fillRow (E := E) isFull ch style row maxCol col) := by
  intro n
  have hp := charCols_pos isFull ch
  have hw : (if isFull ch then 2 else 1) = charCols isFull ch := rfl
  induction n with
  | zero =>
    intro col h
    unfold PPP.fillRow
    simp only [hw]
    split
    · exact .fail _
    · rw [if_neg (by omega), if_neg (by omega)]
      exact .pure _
  | succ n ih =>
    intro col h
    unfold PPP.fillRow
    simp only [hw]
    split
    · exact .fail _
    · split
      · exact .bind' (.call _) fun _ => ih _ (by omega)
      · split
        · exact .call _
        · exact .pure _

theorem Ends.chooseFocusLineRow (o : PrintingOptions) (h : Nat) : Ends (o.chooseFocusLineRow h : PaneM S E Nat) := by
  unfold PrintingOptions.chooseFocusLineRow
  split
  · exact .fail _
  · split
    · exact .fail _
    · split
      · exact .fail _
      · exact .bind' (.subU ..) fun _ => .pure _

theorem Ends.printedDoc (law : P.Lawful) (doc : P.Node) (o : PrintingOptions) (w h : Nat) (style : P.Style) :
    Ends (PrintedDoc.new doc o w h style) := by
  unfold PrintedDoc.new
  split
  · exact .pure _
  · refine .bind' (.chooseFocusLineRow ..) fun _ => ?_
    refine .bind (.lift (C13_pretty_print_returns law ..)) fun c r hr => ?_
    obtain ⟨_, hr⟩ := lift_val hr
    obtain ⟨h1, h2, _⟩ := C13_iterators_return law hr
    exact .bind' (.lift (h1 _)) fun _ => .bind' (.addUpTo ..) fun _ => .bind' (.lift (h2 _)) fun _ => .pure _

theorem Ends.extractDoc : ∀ (n : PaneNotation L P.Style) (s : P.Style), Ends (extractDoc n s)
  | .horz _, _ => .fail _
  | .vert _, _ => .fail _
  | .fill _, _ => .fail _
  | .doc _, _ => .pure _
  | .style _ n, _ => extractDoc n _

theorem Ends.printDynamic (law : P.Lawful) (env : PaneEnv P L) (n : PaneNotation L P.Style) (style : P.Style) (w h : Nat) :
    Ends (printDynamic env n style w h) := by
  unfold PPP.printDynamic
  refine .bind' (.extractDoc ..) fun _ => ?_
  dsimp only
  split
  · exact .printedDoc law ..
  · exact .pure _

theorem Ends.horzDynamic (law : P.Lawful) (env : PaneEnv P L) (style : P.Style) (h : Nat) : ∀ (panes : Panes L P.Style)
    (avail : Nat), Ends (horzDynamic env style h panes avail)
  | .nil, _ => .pure _
  | .cons size note rest, avail => by
    unfold PPP.horzDynamic
    split
    · exact horzDynamic law env style h rest avail
    · exact .bind' (.printDynamic law ..) fun _ => .bind' (horzDynamic law env style h rest _) fun _ => .pure _

theorem Ends.vertDynamic (law : P.Lawful) (env : PaneEnv P L) (style : P.Style) (h : Nat) : ∀ (panes : Panes L P.Style)
    (avail : Nat), Ends (vertDynamic env style h panes avail)
  | .nil, _ => .pure _
  | .cons size note rest, avail => by
    unfold PPP.vertDynamic
    split
    · exact vertDynamic law env style h rest avail
    · exact .bind' (.printDynamic law ..) fun _ => .bind' (.subU ..) fun _ =>
        .bind' (vertDynamic law env style h rest _) fun _ => .pure _

theorem Ends.finishDivvy (d : Divvier) (sizes : List Nat) : Ends (finishDivvy d sizes : PaneM S E _) := by
  unfold PPP.finishDivvy
  split
  · exact .pure _
  · exact .fail _

mutual
theorem displayPaneRec_ends (law : P.Lawful) (env : PaneEnv P L) : ∀ (note : PaneNotation L P.Style) (style : P.Style)
    (rect : Rectangle), Ends (displayPaneRec env note style rect)
  | .fill ch, style, rect => by
    rw [displayPaneRec]
    exact .eachM (fun row => .fillRow _ _ _ _ _ _ _ (Nat.le_refl _)) _
  | .doc label, style, rect => by
    rw [displayPaneRec]
    split
    · exact .bind' (.printedDoc law ..) fun _ => .display ..
    · exact .pure _
  | .style inner n, style, rect => by
    rw [displayPaneRec]
    exact displayPaneRec_ends law env n _ rect
  | .horz panes, style, rect => by
    rw [displayPaneRec]
    exact .bind' (.horzDynamic law ..) fun _ => .bind' (.finishDivvy ..) fun _ => displayHorz_ends law env panes ..
  | .vert panes, style, rect => by
    rw [displayPaneRec]
    exact .bind' (.vertDynamic law ..) fun _ => .bind' (.finishDivvy ..) fun _ => displayVert_ends law env panes ..

theorem displayHorz_ends (law : P.Lawful) (env : PaneEnv P L) : ∀ (panes : Panes L P.Style) (style : P.Style)
    (rect : Rectangle) (widths : List Nat) (docs : List (PrintedDoc P)) (col : Nat),
    Ends (displayHorz env panes style rect widths docs col)
  | .nil, style, rect, widths, docs, col => by
    rw [displayHorz]
    · exact .pure _
    · intros; rename_i h _; cases h
  | .cons size note rest, style, rect, [], docs, col => by
    rw [displayHorz]
    · exact .pure _
    · intros; rename_i h; cases h
  | .cons size note rest, style, rect, w :: ws, docs, col => by
    rw [displayHorz]
    refine .bind' (.addUpTo ..) fun _ => ?_
    split
    · cases docs with
      | nil => exact .fail _
      | cons d docs => exact .bind' (.display ..) fun _ => displayHorz_ends law env rest ..
    · exact .bind' (displayPaneRec_ends law env note ..) fun _ => displayHorz_ends law env rest ..

theorem displayVert_ends (law : P.Lawful) (env : PaneEnv P L) : ∀ (panes : Panes L P.Style) (style : P.Style)
    (rect : Rectangle) (heights : List Nat) (docs : List (PrintedDoc P)) (row : Nat),
    Ends (displayVert env panes style rect heights docs row)
  | .nil, style, rect, heights, docs, row => by
    rw [displayVert]
    · exact .pure _
    · intros; rename_i h _; cases h
  | .cons size note rest, style, rect, [], docs, row => by
    rw [displayVert]
    · exact .pure _
    · intros; rename_i h; cases h
  | .cons size note rest, style, rect, w :: ws, docs, row => by
    rw [displayVert]
    refine .bind' (.addUpTo ..) fun _ => ?_
    split
    · cases docs with
      | nil => exact .fail _
      | cons d docs => exact .bind' (.display ..) fun _ => displayVert_ends law env rest ..
    · exact .bind' (displayPaneRec_ends law env note ..) fun _ => displayVert_ends law env rest ..
end

theorem printAround_returns (law : P.Lawful) (doc : P.Node) (w : Nat) (path : List Nat) (target : FocusTarget)
    (style : Option P.Style) (k j : Nat) : Returns (printAround doc w path target style k j) := by
  unfold printAround
  obtain ⟨r, h1, h2⟩ := C13_pretty_print_returns law doc w path target style
  rw [h1]
  cases r with
  | error e => exact ⟨.error e, rfl, by simpa using h2⟩
  | ok r =>
    obtain ⟨g1, g2, _⟩ := C13_iterators_return law h1
    rw [Exec.ofRes_ok_bind]
    obtain ⟨up, h3, h4⟩ := g1 k
    rw [h3]
    cases up with
    | error e => exact ⟨.error e, rfl, by simpa using h4⟩
    | ok up =>
      rw [Exec.ofRes_ok_bind]
      obtain ⟨down, h5, h6⟩ := g2 j
      obtain ⟨up, _⟩ := up
      dsimp only
      rw [h5]
      cases down with
      | error e => exact ⟨.error e, rfl, by simpa using h6⟩
      | ok down => exact ⟨.ok _, rfl, by simp⟩

end PPP
