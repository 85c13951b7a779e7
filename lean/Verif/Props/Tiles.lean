import Verif.Proofs.PaneEnds
import Verif.Proofs.TilesUnique
import Verif.Props.PaneDoc
import Verif.Props.Extend
/-
C44, C45: what is shown in the whole window, and why displaying fails.
-/
namespace PPP
variable {L : Type} {P : PrettyDoc}

/-- **C44.**  If displaying the panes succeeds, then they divide the window into tiles (see `Tiles`), and the calls made
    are those that display these tiles, one after the other. -/
theorem C44_tiles (env : PaneEnv P L) (note : PaneNotation L P.Style) (style : P.Style) (width height : Nat)
    {calls} (h : (displayPane env note style width height).run = some (calls, .ok ())) :
    ∃ T, Tiles env note style { minRow := 0, maxRow := height, minCol := 0, maxCol := width } T ∧
      calls = T.flatMap (Tile.calls env.isFull) :=
  displayPaneRec_tiles env note style { minRow := 0, maxRow := height, minCol := 0, maxCol := width } (Nat.zero_le _)
    calls h

/-- **C44.**  The tiles are determined by the panes, the documents and the size of the window. -/
theorem C44_tiles_unique (env : PaneEnv P L) (note : PaneNotation L P.Style) (style : P.Style) (rect : Rectangle) {T T'}
    (h : Tiles env note style rect T) (h' : Tiles env note style rect T') : T = T' := h.unique h'

/-- **C44.**  So, whatever tiles the specification gives, they are what is displayed. -/
theorem C44_displays (env : PaneEnv P L) (note : PaneNotation L P.Style) (style : P.Style) (width height : Nat)
    {calls T} (h : (displayPane env note style width height).run = some (calls, .ok ()))
    (hT : Tiles env note style { minRow := 0, maxRow := height, minCol := 0, maxCol := width } T) :
    calls = T.flatMap (Tile.calls env.isFull) := by
  obtain ⟨T', h1, h2⟩ := C44_tiles env note style width height h
  rw [hT.unique h1, h2]

/-- **C44.**  If the whole document can be printed, then an excerpt of it consists of the lines around the focused one:
    the focused line itself, the nearest `row` lines above it, and the nearest lines below it that fit. -/
theorem C44_excerpt {doc : P.Node} {o : PrintingOptions} {style : P.Style} {w h : Nat} {e : Excerpt P}
    (he : IsExcerpt doc o style w h e) {out}
    (hprint : printAll doc (o.widthUsed w) o.focusPath o.focusTarget (some style) = Exec.ofRes (.ok out)) :
    e.focused = out.focused ∧ e.above = out.above.drop (out.above.length - e.row) ∧
      e.below = out.below.take (h - (e.row + 1)) := by
  obtain ⟨r, ups, downs, h1, h2, h3, rfl⟩ := printAll_inv hprint
  obtain ⟨p1, e1, _⟩ := takeLines_of_drain nextUp_none e.row h2
  obtain ⟨p2, e2, _⟩ := takeLines_of_drain nextDown_none (h - (e.row + 1)) h3
  obtain ⟨up, down, g, g1, g2⟩ := he.print
  unfold printAround at g
  rw [h1, Exec.ofRes_ok_bind, e1, Exec.ofRes_ok_bind] at g
  dsimp only at g
  rw [e2, Exec.ofRes_ok_bind] at g
  have := Exec.ofRes_inj g
  simp only [Except.ok.injEq, Prod.mk.injEq] at this
  obtain ⟨rfl, g3, rfl⟩ := this
  refine ⟨g3.symm, ?_, ?_⟩
  · rw [g1, filterMap_take, List.reverse_take, List.length_reverse]
  · rw [g2, filterMap_take]

/-- **C45.**  Displaying panes always returns, whatever the panes and the size of the window. -/
theorem C45_returns (law : P.Lawful) (env : PaneEnv P L) (note : PaneNotation L P.Style) (style : P.Style)
    (width height : Nat) : ∃ calls res, (displayPane env note style width height).run = some (calls, res) := by
  obtain ⟨⟨calls, res⟩, h⟩ := displayPaneRec_ends law env note style
    { minRow := 0, maxRow := height, minCol := 0, maxCol := width }
  exact ⟨calls, res, h⟩

/-- **C45.**  Displaying panes only fails for a reason (see `FailsBecause`), in a window with at most `65533` columns and
    `2^24` rows. -/
theorem C45_failures_explained (env : PaneEnv P L) (note : PaneNotation L P.Style) (style : P.Style) (width height : Nat)
    (hwidth : width + 2 ≤ maxWidth) (hheight : height ≤ 2 ^ 24) {calls f}
    (h : (displayPane env note style width height).run = some (calls, .error f)) : FailsBecause env width note f := by
  have := displayPaneRec_outcome (env := env) hwidth note style
    { minRow := 0, maxRow := height, minCol := 0, maxCol := width } (Nat.zero_le _) (Nat.zero_le _)
    (Nat.le_refl _) hheight calls _ h
  cases f <;> exact this

/-- **C45.**  Documents do not panic, and panes only panic if there is a bad weight or focus height. -/
theorem C45_no_panic (law : P.Lawful) (env : PaneEnv P L) (note : PaneNotation L P.Style) (style : P.Style)
    (width height : Nat) (hwidth : width + 2 ≤ maxWidth) (hheight : height ≤ 2 ^ 24) (hw : GoodWeights note)
    (hf : ¬ BadFocusHeight env) {calls} : (displayPane env note style width height).run ≠ some (calls, .error .panic) := by
  intro h
  rcases C45_failures_explained env note style width height hwidth hheight h with h | h | h
  · exact h hw
  · exact hf h
  · obtain ⟨label, doc, o, style, w, k, j, _, h⟩ := h
    obtain ⟨r, h1, h2⟩ := printAround_returns law doc (o.widthUsed w) o.focusPath o.focusTarget (some style) k j
    rw [h] at h1
    cases Exec.ofRes_inj h1
    exact h2 rfl

theorem DocOf.isDoc : ∀ {n : PaneNotation L P.Style} {s l s'}, DocOf n s l s' → n.IsDoc
  | _, _, _, _, .doc => trivial
  | .style _ _, _, _, _, .style h => by rw [PaneNotation.IsDoc]; exact h.isDoc

mutual
theorem Tiles.dynamicsAreDocs {env : PaneEnv P L} : ∀ {note : PaneNotation L P.Style} {style rect T},
    Tiles env note style rect T → DynamicsAreDocs note
  | _, _, _, _, .fill => trivial
  | _, _, _, _, .doc .. => trivial
  | _, _, _, _, .nothing _ => trivial
  | .style s n, _, _, _, .style h => by rw [DynamicsAreDocs]; exact h.dynamicsAreDocs
  | .horz panes, _, _, _, .horz _ h => by rw [DynamicsAreDocs]; exact h.dynamicsAreDocs
  | .vert panes, _, _, _, .vert _ h => by rw [DynamicsAreDocs]; exact h.dynamicsAreDocs

theorem HTiles.dynamicsAreDocs {env : PaneEnv P L} {style : P.Style} {rect : Rectangle} : ∀ {panes : Panes L P.Style}
    {avail col ws T}, HTiles env style rect panes avail col ws T → DynamicsAreDocsIn panes
  | .nil, _, _, _, _, _ => trivial
  | .cons size n rest, _, _, _, _, .pane hs h h' => ⟨fun e => absurd e hs, fun _ => h.dynamicsAreDocs, h'.dynamicsAreDocs⟩
  | .cons _ n rest, _, _, _, _, .dynamic hd _ _ _ _ h' =>
    ⟨fun _ => hd.isDoc, fun e => absurd rfl e, h'.dynamicsAreDocs⟩
  | .cons _ n rest, _, _, _, _, .nothing hd _ h' => ⟨fun _ => hd.isDoc, fun e => absurd rfl e, h'.dynamicsAreDocs⟩

theorem VTiles.dynamicsAreDocs {env : PaneEnv P L} {style : P.Style} {rect : Rectangle} : ∀ {panes : Panes L P.Style}
    {avail row hs T}, VTiles env style rect panes avail row hs T → DynamicsAreDocsIn panes
  | .nil, _, _, _, _, _ => trivial
  | .cons size n rest, _, _, _, _, .pane hs h h' => ⟨fun e => absurd e hs, fun _ => h.dynamicsAreDocs, h'.dynamicsAreDocs⟩
  | .cons _ n rest, _, _, _, _, .dynamic hd _ _ _ _ _ h' =>
    ⟨fun _ => hd.isDoc, fun e => absurd rfl e, h'.dynamicsAreDocs⟩
  | .cons _ n rest, _, _, _, _, .nothing hd _ h' => ⟨fun _ => hd.isDoc, fun e => absurd rfl e, h'.dynamicsAreDocs⟩
end

/-- **C45.**  A `Dynamic` pane that is not a document is never displayed: displaying fails, wherever it is. -/
theorem C45_dynamic_docs (env : PaneEnv P L) (note : PaneNotation L P.Style) (style : P.Style) (width height : Nat)
    {calls} (h : (displayPane env note style width height).run = some (calls, .ok ())) : DynamicsAreDocs note := by
  obtain ⟨T, h1, _⟩ := C44_tiles env note style width height h
  exact h1.dynamicsAreDocs

namespace Ex

/-- The panes of `exPanes` divide the window into tiles. -/
example : ∃ calls T, (displayPane exEnv exPanes () 10 6).run = some (calls, .ok ()) ∧
    Tiles exEnv exPanes () ⟨0, 6, 0, 10⟩ T ∧ calls = T.flatMap (Tile.calls exEnv.isFull) := by
  obtain ⟨calls, h⟩ := C28_succeeds exEnv exPanes () 10 6 (by decide) (by norm_num) exWellSized exAllPrint
  obtain ⟨T, h1, h2⟩ := C44_tiles exEnv exPanes () 10 6 h
  exact ⟨calls, T, h, h1, h2⟩

/-- Styles are combined from the outside to the inside. -/
example (env : PaneEnv P L) (s a b : P.Style) (ch : Char) {T}
    (h : Tiles env (.style a (.style b (.fill ch))) s ⟨0, 1, 0, 2⟩ T) :
    T = [.fill ⟨0, 1, 0, 2⟩ ch (P.combine (P.combine s a) b)] :=
  h.unique (.style (.style .fill))

/-- The first line of a document. -/
def lazyExcerpt : Excerpt lazyP := ⟨[], ⟨[], [⟨"aa", 2, ()⟩]⟩, [], 0⟩

theorem lazy_excerpt : IsExcerpt (P := lazyP) .root lazyOptions () 8 1 lazyExcerpt := by
  obtain ⟨up, down, h1, h2, _⟩ := lazy_printed
  refine ⟨h2, [], [], ?_, rfl, rfl⟩
  unfold printAround
  refine (congrArg (· >>= _) h1).trans ?_
  rfl

/-- A document as a `Dynamic` pane next to a filled pane. -/
def lazyPanes : PaneNotation Unit Unit :=
  .horz (.cons .dynamic (.style () (.doc ())) (.cons (.proportional 1) (.fill 'x') .nil))

/-- It is as wide as the line of it that is visible, and the filled pane gets the rest. -/
theorem lazy_tiles (isFull : Char → Bool) :
    Tiles (P := lazyP) ⟨fun _ => some (.root, lazyOptions), isFull⟩ lazyPanes () ⟨0, 1, 0, 8⟩
      [.doc ⟨0, 1, 0, 2⟩ () true lazyExcerpt, .fill ⟨0, 1, 2, 8⟩ 'x' ()] :=
  by
  refine .horz (widths := [2, 6]) (finish_division (dyn := [2]) (by decide)).1 ?_
  have h : HTiles (P := lazyP) (L := Unit) ⟨fun _ => some (.root, lazyOptions), isFull⟩ () ⟨0, 1, 0, 8⟩
      (.cons (.proportional 1) (.fill 'x') .nil) 6 2 [6] [.fill ⟨0, 1, 2, 8⟩ 'x' ()] := .pane (by decide) .fill .nil
  exact .dynamic (e := lazyExcerpt) (avail := 8) (rect := ⟨0, 1, 0, 8⟩) (.style .doc) rfl (by decide) (by decide)
    lazy_excerpt h

example :
    (displayPane (P := lazyP) ⟨fun _ : Unit => some (.root, lazyOptions), fun _ => false⟩ lazyPanes () 8 1).run =
      some ([.setFocus 0 0, .displayChar 'a' 0 0 () false, .displayChar 'a' 0 1 () false] ++
        (List.range 6).map (fun i => .displayChar 'x' 0 (i + 2) () false), .ok ()) := by
  obtain ⟨_, _, _, _, e⟩ := lazy_printed
  have hd : horzDynamic (P := lazyP) ⟨fun _ : Unit => some (.root, lazyOptions), fun _ => false⟩ () 1
      (.cons .dynamic (.style () (.doc ())) (.cons (.proportional 1) (.fill 'x') .nil)) 8 =
      some ([], .ok [(⟨[⟨[⟨"aa", 2, ()⟩]⟩], 0, 0, some (0, 0), ()⟩, 2)]) := by
    rw [horzDynamic, if_neg (by decide)]
    refine (PaneM.bind_ok_nil (a := ⟨[⟨[⟨"aa", 2, ()⟩]⟩], 0, 0, some (0, 0), ()⟩) ?_).trans ?_
    · unfold printDynamic
      exact (PaneM.bind_ok_nil (a := ((), ())) rfl).trans e
    rfl
  obtain ⟨calls, h⟩ : ∃ calls,
      (displayPane (P := lazyP) ⟨fun _ : Unit => some (.root, lazyOptions), fun _ => false⟩ lazyPanes () 8 1).run =
      some (calls, .ok ()) := by
    have hs : Succeeds (displayHorz (P := lazyP) ⟨fun _ : Unit => some (.root, lazyOptions), fun _ => false⟩
        (.cons .dynamic (.style () (.doc ())) (.cons (.proportional 1) (.fill 'x') .nil)) () ⟨0, 1, 0, 8⟩ [2, 6]
        [⟨[⟨[⟨"aa", 2, ()⟩]⟩], 0, 0, some (0, 0), ()⟩] 0) fun _ => True := by
      rw [displayHorz]
      refine .bind (.addUpTo (by decide)) ?_
      rintro _ rfl
      rw [if_pos rfl]
      refine .bind (p := fun _ => True) ⟨_, _, rfl, trivial⟩ fun _ _ => ?_
      rw [displayHorz]
      refine .bind (.addUpTo (by decide)) ?_
      rintro _ rfl
      rw [if_neg (by decide), displayPaneRec]
      refine .bind (.eachM fun row _ => fillRow_ok _ 'x' () row 8 (by decide) _ _ (Nat.le_refl _) (by decide)) fun _ _ => ?_
      rw [displayHorz]
      · exact .pure trivial
      · intros; rename_i h _; cases h
    obtain ⟨c, _, hc, _⟩ := hs
    rw [displayPane, lazyPanes, displayPaneRec]
    exact ⟨c, (PaneM.bind_ok_nil hd).trans ((PaneM.bind_ok_nil (a := [2, 6]) rfl).trans hc)⟩
  rw [h, C44_displays _ _ _ _ _ h (lazy_tiles _)]
  rfl

/-- Displaying a `Dynamic` pane that is not a document fails. -/
example : (displayPane exEnv (.horz (.cons .dynamic (.fill 'x') .nil)) () 10 2).run =
    some ([], .error .invalidUseOfDynamic) := rfl

end Ex
end PPP
