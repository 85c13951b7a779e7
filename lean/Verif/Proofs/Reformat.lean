import Verif.Spec.Reformat
import Verif.Props.Morph
import Verif.Props.Demo
/-
Documents that only differ in the ids of their nodes; JSON without comments.
-/
namespace PPP
variable {S : Type}

theorem mapIdsList_eq (f : Nat → Nat) (ts : List (Tree S)) : Tree.mapIdsList f ts = ts.map (Tree.mapIds f) := by
  induction ts with
  | nil => rfl
  | cons t ts ih => simp [Tree.mapIdsList, ih]

/-- Only the ids are renamed. -/
def treeIds (combine : S → S → S) (fromLabel : String → S) (sw : String → Nat) (f : Nat → Nat) :
    Renaming (treeDoc S combine fromLabel sw) (treeDoc S combine fromLabel sw) where
  node := Tree.mapIds f
  id := f
  style s := s
  label l := l
  cond c := c
  err e := e

theorem mapIds_children (f : Nat → Nat) (t : Tree S) :
    (t.mapIds f).children? = t.children?.map (List.map (Tree.mapIds f)) := by
  cases t <;> simp [Tree.mapIds, Tree.children?, mapIdsList_eq]

theorem mapIds_unwrapChild (f : Nat → Nat) (t : Tree S) (i : Nat) :
    (t.mapIds f).unwrapChild i = (t.unwrapChild i).rename (fun e => e) (Tree.mapIds f) := by
  unfold Tree.unwrapChild
  rw [mapIds_children]
  cases t.children? with
  | none => rfl
  | some cs =>
    simp only [Option.map_some, List.getElem?_map]
    cases cs[i]? <;> rfl

theorem treeIds_respects (combine : S → S → S) (fromLabel : String → S) (sw : String → Nat) (f : Nat → Nat) :
    (treeIds combine fromLabel sw f).Respects where
  combine _ _ := rfl
  strWidth _ := rfl
  id t := by cases t <;> simp [treeIds, Call.rename, Tree.mapIds, Tree.id]
  notn t := by
    cases t <;> simp [treeIds, Call.rename, Tree.mapIds, Tree.notn, Notation.rename_id]
  condition t c := by
    cases t <;> cases c <;> simp [treeIds, Call.rename, Tree.mapIds, Tree.condition, Tree.needsSeparator, Tree.isComment]
  lookupStyle t l := by
    cases t <;> simp [treeIds, Call.rename, Tree.mapIds, Tree.lookupStyle, Tree.styleOverrides] <;> rfl
  nodeStyle t := by cases t <;> simp [treeIds, Call.rename, Tree.mapIds, Tree.nodeStyle]
  numChildren t := by
    cases t <;> simp [treeIds, Call.rename, Tree.mapIds, Tree.children?, mapIdsList_eq]
  unwrapText t := by cases t <;> simp [treeIds, Call.rename, Tree.mapIds, Tree.unwrapText]
  unwrapChild t i := mapIds_unwrapChild f t i
  unwrapLastChild t := by
    show (match (t.mapIds f).children?.map List.length with
      | none => Except.error DocFail.panic
      | some 0 => Except.error DocFail.panic
      | some (n + 1) => (t.mapIds f).unwrapChild n) = Call.rename (fun e => e) (Tree.mapIds f)
      (match t.children?.map List.length with
      | none => Except.error DocFail.panic
      | some 0 => Except.error DocFail.panic
      | some (n + 1) => t.unwrapChild n)
    have h : (t.mapIds f).children?.map List.length = t.children?.map List.length := by
      rw [mapIds_children]; cases t.children? <;> simp
    rw [h]
    rcases t.children?.map List.length with _ | _ | n
    · rfl
    · rfl
    · exact mapIds_unwrapChild f t n
  unwrapPrevSibling t p i := mapIds_unwrapChild f p i

/-! ### JSON -/

theorem mapIds_setNeedsSeparator (f : Nat → Nat) (t : Tree S) :
    t.setNeedsSeparator.mapIds f = (t.mapIds f).setNeedsSeparator := by cases t <;> rfl

theorem mapIds_isComment (f : Nat → Nat) (t : Tree S) : (t.mapIds f).isComment = t.isComment := by
  cases t <;> rfl

theorem mapIds_markSeparators (f : Nat → Nat) (ts : List (Tree S)) :
    markSeparators (ts.map (Tree.mapIds f)) =
      ((markSeparators ts).1.map (Tree.mapIds f), (markSeparators ts).2) := by
  induction ts with
  | nil => rfl
  | cons t ts ih =>
    simp only [List.map_cons, markSeparators, ih, mapIds_isComment]
    split
    · rfl
    · split
      · simp [mapIds_setNeedsSeparator]
      · rfl

theorem mapIds_newBranch [Inhabited S] (f : Nat → Nat) (id : Nat) (n : TreeNotation) (ts : List (Tree S)) :
    (Tree.newBranch id n ts).mapIds f = Tree.newBranch (f id) n (ts.map (Tree.mapIds f)) := by
  unfold Tree.newBranch Tree.mapIds
  rw [mapIdsList_eq, mapIds_markSeparators]

theorem newBranch_same [Inhabited S] {i j : Nat} {n : TreeNotation} {ts us : List (Tree S)}
    (h : ts.map (Tree.mapIds fun _ => 0) = us.map (Tree.mapIds fun _ => 0)) :
    (Tree.newBranch i n ts).SameButIds (Tree.newBranch j n us) := by
  unfold Tree.SameButIds
  rw [mapIds_newBranch, mapIds_newBranch, h]

theorem intoComment_same {t u : Tree S} (h : t.SameButIds u) : t.intoComment.SameButIds u.intoComment := by
  have e : ∀ v : Tree S, v.intoComment.mapIds (fun _ => 0) = (v.mapIds fun _ => 0).intoComment := by
    intro v; cases v <;> rfl
  unfold Tree.SameButIds at *
  rw [e, e, h]

mutual
theorem build_same : ∀ {e e' : Json}, e.SameCalls e' → e.build.SameButIds e'.build
  | _, _, .null .. => by simp only [Json.build]; exact newBranch_same rfl
  | _, _, .bool _ _ b => by
    simp only [Json.build, jsonBool]
    split <;> exact newBranch_same rfl
  | _, _, .string .. => by simp only [Json.build]; rfl
  | _, _, .number .. => by simp only [Json.build]; rfl
  | _, _, .array _ _ h => by simp only [Json.build]; exact newBranch_same (builds_same h)
  | _, _, .pair _ _ _ _ _ h => by
    have h := build_same h
    simp only [Json.build]
    refine newBranch_same ?_
    simp only [List.map_cons, List.map_nil]
    rw [show Tree.mapIds _ _ = _ from h]
    rfl
  | _, _, .object _ _ h => by simp only [Json.build]; exact newBranch_same (builds_same h)
  | _, _, .comment .. => by
    simp only [Json.build]
    refine intoComment_same (newBranch_same ?_)
    apply List.ext_getElem?
    intro i
    simp only [List.getElem?_map, List.getElem?_mapIdx, Option.map_map]
    rfl
  | _, _, .roots _ _ h => by simp only [Json.build]; exact newBranch_same (builds_same h)
theorem builds_same : ∀ {es es' : List Json}, Json.AllSameCalls es es' →
    (Json.builds es).map (Tree.mapIds fun _ => 0) = (Json.builds es').map (Tree.mapIds fun _ => 0)
  | _, _, .nil => rfl
  | _, _, .cons h hs => by
    have h := build_same h
    simp only [Json.builds, List.map_cons, builds_same hs]
    rw [show Tree.mapIds _ _ = _ from h]
end

/-! ### Without comments, the value says which calls were made -/

theorem CommentFree.isComment {e : Json} (h : e.CommentFree) : e.isComment = false := by
  cases e <;> simp_all [Json.CommentFree, Json.isComment]

mutual
theorem sameCalls_of_val {A B A' B' : String → Prop} : ∀ (e e' : Json), e.Value A B → e'.Value A' B' → e.CommentFree →
    e'.CommentFree → e.val = e'.val → e.SameCalls e'
  | .null _, e', h, h', c, c', hv => by cases h' <;> simp [Json.val] at hv; exact .null ..
  | .bool _ _, e', h, h', c, c', hv => by cases h' <;> simp [Json.val] at hv; subst hv; exact .bool ..
  | .string _ _, e', h, h', c, c', hv => by cases h' <;> simp [Json.val] at hv; subst hv; exact .string ..
  | .number _ _, e', h, h', c, c', hv => by cases h' <;> simp [Json.val] at hv; subst hv; exact .number ..
  | .array _ es, e', h, h', c, c', hv => by
    cases h with
    | array _ h =>
      cases h' with
      | array _ h' =>
        simp only [Json.val, JVal.arr.injEq] at hv
        exact .array _ _ (sameCalls_of_vals es _ h h' c c' hv)
      | _ => simp [Json.val] at hv
  | .pair _ _ _ _, e', h, h', c, c', hv => nomatch h
  | .object _ es, e', h, h', c, c', hv => by
    cases h with
    | object _ h1 h2 h3 =>
      cases h' with
      | object _ h1' h2' h3' =>
        simp only [Json.val, JVal.obj.injEq] at hv
        exact .object _ _ (sameCalls_of_entries es _ h1 h3 h1' h3' c c' hv)
      | _ => simp [Json.val] at hv
  | .comment _ _ _, e', h, h', c, c', hv => c.elim
  | .roots _ _, e', h, h', c, c', hv => nomatch h
theorem sameCalls_of_vals {A B A' B' : String → Prop} : ∀ (es es' : List Json),
    (∀ e ∈ es, e.isComment = false → e.Value A B) → (∀ e ∈ es', e.isComment = false → e.Value A' B') →
    Json.AllCommentFree es → Json.AllCommentFree es' → Json.vals es = Json.vals es' → Json.AllSameCalls es es'
  | [], [], _, _, _, _, _ => .nil
  | [], e' :: es', _, _, _, c', hv => by
    simp [Json.vals, CommentFree.isComment c'.1] at hv
  | e :: es, [], _, _, c, _, hv => by
    simp [Json.vals, CommentFree.isComment c.1] at hv
  | e :: es, e' :: es', h, h', c, c', hv => by
    simp only [Json.vals, CommentFree.isComment c.1, CommentFree.isComment c'.1, Bool.false_eq_true, if_false,
      List.cons.injEq] at hv
    exact .cons
      (sameCalls_of_val e e' (h e (by simp) (CommentFree.isComment c.1)) (h' e' (by simp) (CommentFree.isComment c'.1))
        c.1 c'.1 hv.1)
      (sameCalls_of_vals es es' (fun x hx => h x (by simp [hx])) (fun x hx => h' x (by simp [hx])) c.2 c'.2 hv.2)
theorem sameCalls_of_entries {A B A' B' : String → Prop} : ∀ (es es' : List Json),
    (∀ e ∈ es, e.isComment = false → e.isPair = true) →
    (∀ pid keyId key v, Json.pair pid keyId key v ∈ es → v.Value A B) →
    (∀ e ∈ es', e.isComment = false → e.isPair = true) →
    (∀ pid keyId key v, Json.pair pid keyId key v ∈ es' → v.Value A' B') →
    Json.AllCommentFree es → Json.AllCommentFree es' → Json.entries es = Json.entries es' → Json.AllSameCalls es es'
  | [], [], _, _, _, _, _, _, _ => .nil
  | [], e' :: es', _, _, h1', _, _, c', hv => by
    have := h1' e' (by simp) (CommentFree.isComment c'.1)
    cases e' <;> simp [Json.isPair] at this
    simp [Json.entries] at hv
  | e :: es, [], h1, _, _, _, c, _, hv => by
    have := h1 e (by simp) (CommentFree.isComment c.1)
    cases e <;> simp [Json.isPair] at this
    simp [Json.entries] at hv
  | e :: es, e' :: es', h1, h2, h1', h2', c, c', hv => by
    match e, h1 e (by simp) (CommentFree.isComment c.1) with
    | .pair i ki key v, _ =>
      match e', h1' e' (by simp) (CommentFree.isComment c'.1) with
      | .pair j kj key' v', _ =>
        simp only [Json.entries, List.cons.injEq, Prod.mk.injEq] at hv
        obtain ⟨⟨rfl, hv1⟩, hv2⟩ := hv
        refine .cons (.pair _ _ _ _ _ (sameCalls_of_val v v' (h2 _ _ _ _ (List.mem_cons_self ..))
          (h2' _ _ _ _ (List.mem_cons_self ..)) c.1 c'.1 hv1))
          (sameCalls_of_entries es es' (fun x hx => h1 x (by simp [hx])) (fun _ _ _ _ hx => h2 _ _ _ _ (by simp; exact .inr hx))
            (fun x hx => h1' x (by simp [hx])) (fun _ _ _ _ hx => h2' _ _ _ _ (by simp; exact .inr hx)) c.2 c'.2 hv2)
end

mutual
theorem expr_commentFree : ∀ (v : Serde) next, (v.expr next).1.CommentFree
  | .null, _ | .bool _, _ | .number _, _ | .string _, _ => by simp [Serde.expr, Json.CommentFree]
  | .array vs, next => by simp only [Serde.expr, Json.CommentFree]; exact exprs_commentFree vs next
  | .object es, next => by simp only [Serde.expr, Json.CommentFree]; exact pairs_commentFree es next
theorem exprs_commentFree : ∀ (vs : List Serde) next, Json.AllCommentFree (Serde.exprs vs next).1
  | [], _ => trivial
  | v :: vs, next => ⟨expr_commentFree v next, exprs_commentFree vs _⟩
theorem pairs_commentFree : ∀ (es : List (String × Serde)) next, Json.AllCommentFree (Serde.pairs es next).1
  | [], _ => trivial
  | (_, v) :: es, next => ⟨expr_commentFree v next, pairs_commentFree es _⟩
end

mutual
theorem serde_of_val : ∀ j : JVal, ∃ v : Serde, v.val = j
  | .null => ⟨.null, rfl⟩
  | .bool b => ⟨.bool b, rfl⟩
  | .str s => ⟨.string s, rfl⟩
  | .num s => ⟨.number s, rfl⟩
  | .arr js => by
    obtain ⟨vs, h⟩ := serde_of_vals js
    exact ⟨.array vs, by simp [Serde.val, h]⟩
  | .obj es => by
    obtain ⟨vs, h⟩ := serde_of_entries es
    exact ⟨.object vs, by simp [Serde.val, h]⟩
theorem serde_of_vals : ∀ js : List JVal, ∃ vs : List Serde, Serde.vals vs = js
  | [] => ⟨[], rfl⟩
  | j :: js => by
    obtain ⟨v, h⟩ := serde_of_val j
    obtain ⟨vs, h'⟩ := serde_of_vals js
    exact ⟨v :: vs, by simp [Serde.vals, h, h']⟩
theorem serde_of_entries : ∀ es : List (String × JVal), ∃ vs : List (String × Serde), Serde.entries vs = es
  | [] => ⟨[], rfl⟩
  | (k, j) :: es => by
    obtain ⟨v, h⟩ := serde_of_val j
    obtain ⟨vs, h'⟩ := serde_of_entries es
    exact ⟨(k, v) :: vs, by simp [Serde.entries, h, h']⟩
end

/-! ### The texts of a value -/

mutual
theorem texts_of_val {A B : String → Prop} : ∀ (v : Serde) (e : Json), e.Value A B → v.val = e.val → v.Texts A B
  | .null, _, _, _ => .null
  | .bool _, _, _, _ => .bool _
  | .number _, e, h, hv => by
    cases h <;> simp [Json.val, Serde.val] at hv
    subst hv
    exact .number (by assumption)
  | .string _, e, h, hv => by
    cases h <;> simp [Json.val, Serde.val] at hv
    subst hv
    exact .string (by assumption)
  | .array vs, e, h, hv => by
    cases h with
    | array _ h =>
      simp only [Json.val, Serde.val, JVal.arr.injEq] at hv
      exact .array (texts_of_vals vs _ h hv)
    | _ => simp [Json.val, Serde.val] at hv
  | .object es, e, h, hv => by
    cases h with
    | object _ h1 h2 h3 =>
      simp only [Json.val, Serde.val, JVal.obj.injEq] at hv
      have := texts_of_entries es _ h2 h3 hv
      exact .object (fun p hp => (this p hp).1) (fun p hp => (this p hp).2)
    | _ => simp [Json.val, Serde.val] at hv
theorem texts_of_vals {A B : String → Prop} : ∀ (vs : List Serde) (es : List Json),
    (∀ e ∈ es, e.isComment = false → e.Value A B) → Serde.vals vs = Json.vals es → ∀ v ∈ vs, v.Texts A B
  | [], _, _, _ => nofun
  | v :: vs, [], _, hv => by simp [Serde.vals, Json.vals] at hv
  | v :: vs, e :: es, h, hv => by
    cases hc : e.isComment with
    | true =>
      simp only [Json.vals, hc, if_true] at hv
      exact texts_of_vals (v :: vs) es (fun x hx => h x (List.mem_cons_of_mem _ hx)) hv
    | false =>
      simp only [Json.vals, Serde.vals, hc, Bool.false_eq_true, if_false, List.cons.injEq] at hv
      have h0 := texts_of_val v e (h e (List.mem_cons_self ..) hc) hv.1
      intro x hx
      rcases List.mem_cons.1 hx with rfl | hx
      · exact h0
      · exact texts_of_vals vs es (fun x hx => h x (List.mem_cons_of_mem _ hx)) hv.2 x hx
theorem texts_of_entries {A B : String → Prop} : ∀ (vs : List (String × Serde)) (es : List Json),
    (∀ pid keyId key v, Json.pair pid keyId key v ∈ es → A key) →
    (∀ pid keyId key v, Json.pair pid keyId key v ∈ es → v.Value A B) →
    Serde.entries vs = Json.entries es → ∀ p ∈ vs, A p.1 ∧ p.2.Texts A B
  | [], _, _, _, _ => nofun
  | v :: vs, [], _, _, hv => by simp [Serde.entries, Json.entries] at hv
  | (key, v) :: vs, e :: es, h1, h2, hv => by
    have h1' : ∀ pid keyId key v, Json.pair pid keyId key v ∈ es → A key :=
      fun _ _ _ _ hx => h1 _ _ _ _ (List.mem_cons_of_mem _ hx)
    have h2' : ∀ pid keyId key v, Json.pair pid keyId key v ∈ es → v.Value A B :=
      fun _ _ _ _ hx => h2 _ _ _ _ (List.mem_cons_of_mem _ hx)
    by_cases hp : ∃ i ki key' v', e = .pair i ki key' v'
    · obtain ⟨i, ki, key', v', rfl⟩ := hp
      simp only [Json.entries, Serde.entries, List.cons.injEq, Prod.mk.injEq] at hv
      have h0 := texts_of_val v v' (h2 _ _ _ _ (List.mem_cons_self ..)) hv.1.2
      intro x hx
      rcases List.mem_cons.1 hx with rfl | hx
      · exact ⟨hv.1.1 ▸ h1 _ _ _ _ (List.mem_cons_self ..), h0⟩
      · exact texts_of_entries vs es h1' h2' hv.2 x hx
    · have : Json.entries (e :: es) = Json.entries es := by
        cases e with
        | pair i ki k v => exact absurd ⟨_, _, _, _, rfl⟩ hp
        | _ => rfl
      rw [this] at hv
      exact texts_of_entries ((key, v) :: vs) es h1' h2' hv
end

/-! ### The demo -/

theorem drain_rn {P Q : PrettyDoc} {m : Renaming P Q} (h : m.Respects) (p : Printer P) :
    Rn m (List.map (Line.rename m)) (drain Printer.nextDown p) (drain Printer.nextDown (p.rename m)) := by
  revert p
  apply drain.fixpoint_induct (P := P) (next := Printer.nextDown)
    (motive := fun f => ∀ p : Printer P, Rn m (List.map (Line.rename m)) (f p) (drain Printer.nextDown (p.rename m)))
  · exact Rn.adm1 _ _
  intro f ih p
  rw [drain.eq_def]
  refine .bind (printNextLine_rn h p) fun r => ?_
  rcases r with ⟨_ | l, p⟩
  · exact .pure rfl
  · exact .bind (ih p) fun ls => .pure rfl

theorem prettyPrintJson_rn {P Q : PrettyDoc} {m : Renaming P Q} (h : m.Respects) (doc : P.Node) (w : Nat) :
    Rn m (List.map (Line.rename m)) (prettyPrintJson doc w) (prettyPrintJson (P := Q) (m.node doc) w) := by
  unfold prettyPrintJson
  refine .bind (prettyPrint_rn h doc w [] .start (.inl ⟨rfl, nofun⟩) none) fun r => ?_
  refine .bind (drain_rn h r.down) fun ls => .pure ?_
  simp [Printed.rename, FocusedLine.rename, FocusedLine.toLine, Line.rename]

end PPP
