import Verif.Proofs.Morph
import Verif.Props.Peephole
/-
C49: nodes, ids, styles, labels, conditions and errors are opaque to the printer.
-/
namespace PPP
variable {P Q : PrettyDoc} {m : Renaming P Q}

theorem printAround_rn (h : m.Respects) (doc : P.Node) (w : Nat) (path : List Nat) (target : FocusTarget)
    (hk : m.KeepsIds path target) (style : Option P.Style) (k j : Nat) :
    Rn m (renameLines m) (printAround doc w path target style k j)
      (printAround (m.node doc) w path target (style.map m.style) k j) := by
  unfold printAround
  exact .bind (prettyPrint_rn h doc w path target hk style) fun r => .bind (takeLines_up_rn h k r.up) fun a =>
    .bind (takeLines_down_rn h j r.down) fun b => .pure rfl

theorem Rn.res {α β : Type} {c : α → β} {x : Exec P.Err α} {y : Exec Q.Err β} (h : Rn m c x y) {r}
    (hx : x = Exec.ofRes r) : y = Exec.ofRes (r.rename m c) := by
  subst hx
  cases r with
  | ok a => exact h.1 a rfl
  | error f => exact h.2 f rfl

/-- C49.  Printing a renamed document gives the renamed result: whatever the printer returns for a
    document, lines or an error, it returns for every renaming of the document, with styles and the
    document's own errors renamed. -/
theorem C49_renaming (law : P.Lawful) (h : m.Respected) (doc : P.Node) (w : Nat) (path : List Nat)
    (target : FocusTarget) (style : Option P.Style) (k j : Nat) :
    ∃ r, printAround doc w path target style k j = Exec.ofRes r ∧
      printAround (m.node doc) w path target (style.map m.style) k j = Exec.ofRes (r.rename m (renameLines m)) := by
  obtain ⟨r, h1, _⟩ := printAround_returns law doc w path target style k j
  exact ⟨r, h1, (printAround_rn h.toRespects doc w path target (.inr h.id_injective) style k j).res h1⟩

/-- C49, for the whole document: when the focus is the start, the end, or a place in the text of the root,
    ids need not even be renamed one-to-one. -/
theorem C49_renaming_root (law : P.Lawful) (h : m.Respects) (doc : P.Node) (w : Nat)
    {target : FocusTarget} (ht : target ≠ .mark) (style : Option P.Style) (k j : Nat) :
    ∃ r, printAround doc w [] target style k j = Exec.ofRes r ∧
      printAround (m.node doc) w [] target (style.map m.style) k j = Exec.ofRes (r.rename m (renameLines m)) := by
  obtain ⟨r, h1, _⟩ := printAround_returns law doc w [] target style k j
  exact ⟨r, h1, (printAround_rn h doc w [] target (.inl ⟨rfl, ht⟩) style k j).res h1⟩

/-- C49, for `pretty_print_to_string`: the text is the same. -/
theorem C49_to_string (law : P.Lawful) (h : m.Respects) (doc : P.Node) (w : Nat) :
    ∃ r, prettyPrintToString doc w = Exec.ofRes r ∧
      prettyPrintToString (m.node doc) w = Exec.ofRes (r.rename m fun s => s) := by
  obtain ⟨r, h1, _⟩ := C13_to_string_returns law doc w
  exact ⟨r, h1, (prettyPrintToString_rn h doc w).res h1⟩

/-! ### Styles -/

/-- No styles. -/
@[reducible] def noStyles (P : PrettyDoc) : Styling P where
  Style := Unit
  combine := fun _ _ => ()
  lookupStyle := fun n l => (P.lookupStyle n l).rename (fun e => e) fun _ => ()
  nodeStyle := fun n => (P.nodeStyle n).rename (fun e => e) fun _ => ()

theorem call_rename_unit {E α β : Type} {x : Call E α} {y : Call E β} (h : y.failure = x.failure) :
    (x.rename (fun e => e) fun _ => ()) = y.rename (fun e => e) fun _ => () := by
  match x, y with
  | .ok a, .ok b => rfl
  | .error (.err e), .ok b => simp [Call.failure] at h
  | .error .panic, .ok b => simp [Call.failure] at h
  | .ok a, .error e => simp [Call.failure] at h
  | .error (.err e), .error (.err f) => simp [Call.failure] at h; subst h; rfl
  | .error (.err e), .error .panic => simp [Call.failure] at h
  | .error .panic, .error (.err e) => simp [Call.failure] at h
  | .error .panic, .error .panic => rfl

theorem Call.rename_id {E α : Type} (x : Call E α) : x.rename (fun e => e) (fun a => a) = x := by
  match x with
  | .ok a => rfl
  | .error (.err e) => rfl
  | .error .panic => rfl

theorem Notation.rename_id {L C : Type} (n : Notation L C) : n.rename (fun l => l) (fun c => c) = n := by
  induction n <;> simp_all [Notation.rename]

theorem Fail.rename_id {E : Type} (f : Fail E) : f.rename (fun e => e) = f := by
  cases f with
  | err e => cases e <;> rfl
  | _ => rfl

/-- Forget the styles. -/
def forget {S : Styling P} : Renaming (P.restyled S) (P.restyled (noStyles P)) where
  node n := n
  id i := i
  style _ := ()
  label l := l
  cond c := c
  err e := e

theorem forget_respected {S : Styling P} (hS : S.FailsAlike) : (forget (S := S)).Respected where
  id_injective _ _ h := h
  combine _ _ := rfl
  strWidth _ := rfl
  id _ := (Call.rename_id _).symm
  notn n := by
    show P.notn n = (P.notn n).rename (fun e => e) (Notation.rename (fun l => l) fun c => c)
    rw [funext (f := Notation.rename (fun l : P.Label => l) fun c : P.Cond => c) Notation.rename_id]
    exact (Call.rename_id _).symm
  condition _ _ := (Call.rename_id _).symm
  lookupStyle n l := call_rename_unit (hS.2 n l)
  nodeStyle n := call_rename_unit (hS.1 n)
  numChildren _ := (Call.rename_id _).symm
  unwrapText _ := (Call.rename_id _).symm
  unwrapChild _ _ := (Call.rename_id _).symm
  unwrapLastChild _ := (Call.rename_id _).symm
  unwrapPrevSibling _ _ _ := (Call.rename_id _).symm

/-- The document's own styles. -/
@[reducible] def ownStyles (P : PrettyDoc) : Styling P := ⟨P.Style, P.combine, P.lookupStyle, P.nodeStyle⟩

theorem restyled_childOf (S : Styling P) : (P.restyled S).ChildOf = P.ChildOf := by
  have hc : ∀ (p : P.Node) i, (P.restyled S).childAt p i = P.childAt p i := by
    intro p i
    unfold PrettyDoc.childAt
    cases hn : P.numChildren p with
    | error e => rfl
    | ok n => cases n <;> rfl
  funext c p
  exact congrArg (fun f : Nat → Call P.Err P.Node => ∃ i, f i = .ok c) (funext (hc p))

theorem restyled_lawful (law : P.Lawful) {S : Styling P} (hS : S.FailsAlike) : (P.restyled S).Lawful where
  wf := by rw [restyled_childOf]; exact law.wf
  valid := law.valid
  last := law.last
  prev := law.prev
  id_no_panic := law.id_no_panic
  notn_no_panic := law.notn_no_panic
  condition_no_panic := by
    rintro p c ⟨q, a, h1, h2, h3⟩
    rw [restyled_childOf] at h3
    exact law.condition_no_panic p c ⟨q, a, h1, h2, h3⟩
  lookupStyle_no_panic p l hu h := by
    have := hS.2 p l
    have h : S.lookupStyle p l = _ := h
    rw [h] at this
    have hp := law.lookupStyle_no_panic p l hu
    cases hl : P.lookupStyle p l with
    | ok a => rw [hl] at this; simp [Call.failure] at this
    | error e => rw [hl] at this hp; simp [Call.failure] at this; subst this; exact hp rfl
  nodeStyle_no_panic p h := by
    have := hS.1 p
    have h : S.nodeStyle p = _ := h
    rw [h] at this
    have hp := law.nodeStyle_no_panic p
    cases hl : P.nodeStyle p with
    | ok a => rw [hl] at this; simp [Call.failure] at this
    | error e => rw [hl] at this hp; simp [Call.failure] at this; subst this; exact hp rfl
  numChildren_no_panic := law.numChildren_no_panic
  unwrapText_no_panic := law.unwrapText_no_panic
  unwrapChild_no_panic := law.unwrapChild_no_panic

theorem plainLines_forget {S : Styling P} (r) : plainLines (renameLines (forget (S := S)) r) = plainLines r := by
  unfold plainLines renameLines
  have hseg : ∀ segs : List (Segment (P.restyled S)), (segs.map (Segment.rename forget)).map
      (fun s => (s.str, s.width)) = segs.map fun s => (s.str, s.width) := by
    intro segs; rw [List.map_map]; rfl
  have hopt : ∀ ls : List (Option (Line (P.restyled S))), (ls.map (Option.map (Line.rename forget))).map
      (Option.map fun l => l.segments.map fun s => (s.str, s.width)) =
      ls.map (Option.map fun l => l.segments.map fun s => (s.str, s.width)) := by
    intro ls
    rw [List.map_map]
    congr 1
    funext l
    cases l with
    | none => rfl
    | some l => exact congrArg some (hseg l.segments)
  dsimp only
  rw [hopt, hopt]
  simp only [FocusedLine.rename]
  rw [hseg, hseg]

theorem rootStyle_forgotten (doc : P.Node) (w : Nat) (path : List Nat) (target : FocusTarget)
    (a b : Option Unit) (k j : Nat) :
    printAround (P := P.restyled (noStyles P)) doc w path target a k j =
      printAround (P := P.restyled (noStyles P)) doc w path target b k j := by
  have h : ∀ a : Option Unit, DCN.withOptionalStyle (P := P.restyled (noStyles P)) doc a =
      DCN.withOptionalStyle (P := P.restyled (noStyles P)) doc none := by
    intro a; cases a <;> rfl
  unfold printAround prettyPrint Printer.seek
  rw [h a, h b]

/-- C49.  Styles do not affect the text, nor where lines are broken, nor errors: with other styles, the
    printer returns the same lines apart from their styles, or the same error. -/
theorem C49_styles (law : P.Lawful) {S : Styling P} (hS : S.FailsAlike) (doc : P.Node) (w : Nat) (path : List Nat)
    (target : FocusTarget) (style : Option P.Style) (style' : Option S.Style) (k j : Nat) :
    plainLines <$> printAround (P := P.restyled S) doc w path target style' k j =
      plainLines <$> printAround doc w path target style k j := by
  have h1 := C49_renaming (restyled_lawful law hS) (forget_respected hS) doc w path target style' k j
  have h2 := C49_renaming law (forget_respected (S := ownStyles P) ⟨fun _ => rfl, fun _ _ => rfl⟩) doc w path
    target style k j
  obtain ⟨r1, h1, g1⟩ := h1
  obtain ⟨r2, h2, g2⟩ := h2
  have h2 : printAround (P := P) doc w path target style k j = Exec.ofRes r2 := h2
  rw [h1, h2]
  have hg := g1.symm.trans ((rootStyle_forgotten doc w path target _ _ k j).trans g2)
  have hg := Exec.ofRes_inj hg
  match r1, r2, hg with
  | .ok a, .ok b, hg =>
    have hg : renameLines (forget (S := S)) a = renameLines (forget (S := ownStyles P)) b := by
      simpa [Res.rename] using hg
    have := congrArg plainLines hg
    rw [plainLines_forget a, plainLines_forget (S := ownStyles P) b] at this
    exact congrArg (fun x => Exec.ofRes (.ok x)) this
  | .error e, .error f, hg =>
    have hg : Fail.rename (fun e => e) e = Fail.rename (fun e => e) f := by
      have : Except.error _ = Except.error _ := hg
      injection this
    rw [Fail.rename_id, Fail.rename_id] at hg
    subst hg
    rfl
  | .ok a, .error f, hg => simp [Res.rename] at hg
  | .error e, .ok b, hg => simp [Res.rename] at hg

/-- C49, for `pretty_print_to_string`. -/
theorem C49_styles_to_string (law : P.Lawful) {S : Styling P} (hS : S.FailsAlike) (doc : P.Node) (w : Nat) :
    prettyPrintToString (P := P.restyled S) doc w = prettyPrintToString doc w := by
  obtain ⟨r1, h1, g1⟩ := C49_to_string (restyled_lawful law hS) (forget_respected hS).toRespects doc w
  obtain ⟨r2, h2, g2⟩ := C49_to_string law (forget_respected (S := ownStyles P) ⟨fun _ => rfl, fun _ _ => rfl⟩).toRespects doc w
  have h2 : prettyPrintToString (P := P) doc w = Exec.ofRes r2 := h2
  rw [h1, h2]
  have hg := Exec.ofRes_inj (g1.symm.trans g2)
  match r1, r2, hg with
  | .ok a, .ok b, hg =>
    have hg : a = b := by simpa [Res.rename] using hg
    rw [hg]
  | .error e, .error f, hg =>
    have hg : Fail.rename (fun e => e) e = Fail.rename (fun e => e) f := by
      have : Except.error _ = Except.error _ := hg
      injection this
    rw [Fail.rename_id, Fail.rename_id] at hg
    rw [hg]
  | .ok a, .error f, hg => simp [Res.rename] at hg
  | .error e, .ok b, hg => simp [Res.rename] at hg

/-! ### Ids -/

/-- Other ids for the nodes of `P`. -/
@[reducible] def PrettyDoc.withIds (P : PrettyDoc) {Id : Type} [dec : DecidableEq Id] (f : P.Id → Id) : PrettyDoc where
  Node := P.Node
  Id := Id
  Style := P.Style
  Label := P.Label
  Cond := P.Cond
  Err := P.Err
  decId := dec
  combine := P.combine
  strWidth := P.strWidth
  id := fun n => (P.id n).rename (fun e => e) f
  notn := P.notn
  condition := P.condition
  lookupStyle := P.lookupStyle
  nodeStyle := P.nodeStyle
  numChildren := P.numChildren
  unwrapText := P.unwrapText
  unwrapChild := P.unwrapChild
  unwrapLastChild := P.unwrapLastChild
  unwrapPrevSibling := P.unwrapPrevSibling

/-- Only rename the ids. -/
def renameIds {Id : Type} [DecidableEq Id] (f : P.Id → Id) : Renaming P (P.withIds f) where
  node n := n
  id := f
  style s := s
  label l := l
  cond c := c
  err e := e

theorem renameIds_respects {Id : Type} [DecidableEq Id] (f : P.Id → Id) : (renameIds f).Respects where
  combine _ _ := rfl
  strWidth _ := rfl
  id _ := rfl
  notn n := by
    show P.notn n = (P.notn n).rename (fun e => e) (Notation.rename (fun l => l) fun c => c)
    rw [funext (f := Notation.rename (fun l : P.Label => l) fun c : P.Cond => c) Notation.rename_id]
    exact (Call.rename_id _).symm
  condition _ _ := (Call.rename_id _).symm
  lookupStyle n l := (Call.rename_id _).symm
  nodeStyle n := (Call.rename_id _).symm
  numChildren _ := (Call.rename_id _).symm
  unwrapText _ := (Call.rename_id _).symm
  unwrapChild _ _ := (Call.rename_id _).symm
  unwrapLastChild _ := (Call.rename_id _).symm
  unwrapPrevSibling _ _ _ := (Call.rename_id _).symm

theorem plainLines_ids {Id : Type} [DecidableEq Id] {f : P.Id → Id} (r) :
    plainLines (renameLines (renameIds f) r) = plainLines r := by
  unfold plainLines renameLines
  have hseg : ∀ segs : List (Segment P), (segs.map (Segment.rename (renameIds f))).map
      (fun s => (s.str, s.width)) = segs.map fun s => (s.str, s.width) := by
    intro segs; rw [List.map_map]; rfl
  have hopt : ∀ ls : List (Option (Line P)), (ls.map (Option.map (Line.rename (renameIds f)))).map
      (Option.map fun l => l.segments.map fun s => (s.str, s.width)) =
      ls.map (Option.map fun l => l.segments.map fun s => (s.str, s.width)) := by
    intro ls
    rw [List.map_map]
    congr 1
    funext l
    cases l with
    | none => rfl
    | some l => exact congrArg some (hseg l.segments)
  dsimp only
  rw [hopt, hopt]
  simp only [FocusedLine.rename]
  rw [hseg, hseg]

/-- C49.  What ids the nodes have does not matter for the text of the document, not even which nodes have
    the same id. -/
theorem C49_ids_to_string (law : P.Lawful) {Id : Type} [DecidableEq Id] (f : P.Id → Id) (doc : P.Node) (w : Nat) :
    prettyPrintToString (P := P.withIds f) doc w = prettyPrintToString doc w := by
  obtain ⟨r, h, g⟩ := C49_to_string law (renameIds_respects f) doc w
  have g : prettyPrintToString (P := P.withIds f) doc w = _ := g
  rw [h, g]
  cases r with
  | ok s => rfl
  | error e => exact congrArg (fun e => Exec.ofRes (.error e)) (Fail.rename_id e)

/-- C49.  When a path is followed or a mark is looked for, it matters which nodes have the same id, but
    nothing else does: with other ids, the printer returns the same lines, or the same error. -/
theorem C49_ids (law : P.Lawful) {Id : Type} [DecidableEq Id] {f : P.Id → Id} (hf : ∀ i j, f i = f j → i = j)
    (doc : P.Node) (w : Nat) (path : List Nat) (target : FocusTarget) (style : Option P.Style) (k j : Nat) :
    plainLines <$> printAround (P := P.withIds f) doc w path target style k j =
      plainLines <$> printAround doc w path target style k j := by
  obtain ⟨r, h, g⟩ := C49_renaming law ⟨renameIds_respects f, hf⟩ doc w path target style k j
  have hs : style.map (renameIds f).style = style := by cases style <;> rfl
  rw [hs] at g
  have g : printAround (P := P.withIds f) doc w path target style k j = _ := g
  rw [h, g]
  cases r with
  | ok r => exact congrArg (fun x => Exec.ofRes (.ok x)) (plainLines_ids r)
  | error e => exact congrArg (fun e => Exec.ofRes (.error e)) (Fail.rename_id e)

namespace Ex

/-- Other styles for the example: lists of names. -/
abbrev names : Styling exP where
  Style := List String
  combine := fun a b => a ++ b
  lookupStyle := fun _ l => .ok [l]
  nodeStyle := fun n => .ok ["node", toString (repr n.id)]

/-- C49 on the example. -/
example : prettyPrintToString (P := exP.restyled names) exDoc 8 = Exec.ofRes (.ok "[aa,\nbbb]") := by
  rw [C49_styles_to_string exLaw ⟨fun _ => rfl, fun _ _ => rfl⟩]
  exact (C01_to_string_iff exLaw exDoc 8 _).2 ⟨_, _, exLayout_narrow, rfl⟩

/-- C49 on the example, with other ids. -/
example : prettyPrintToString (P := exP.withIds fun i : Nat => 7 - (i : Int)) exDoc 8 =
    Exec.ofRes (.ok "[aa,\nbbb]") := by
  rw [C49_ids_to_string exLaw (f := fun i : Nat => 7 - (i : Int))]
  exact (C01_to_string_iff exLaw exDoc 8 _).2 ⟨_, _, exLayout_narrow, rfl⟩

/-- C49 on the example, with the same id for all nodes. -/
example : prettyPrintToString (P := exP.withIds fun _ => ()) exDoc 8 = Exec.ofRes (.ok "[aa,\nbbb]") := by
  rw [C49_ids_to_string exLaw (fun _ => ())]
  exact (C01_to_string_iff exLaw exDoc 8 _).2 ⟨_, _, exLayout_narrow, rfl⟩

end Ex
end PPP
