import Verif.Proofs.DimTree
import Verif.Proofs.JsonWork
import Verif.Proofs.JsonPlan
/-
The work of printing a JSON document some of whose nodes are dark.
-/
namespace PPP

section
variable {P : PrettyDoc} {o : P.Node → Bool}
local notation "Dm" => PrettyDoc.dimmed P o

theorem orLeaf_rename {E E' α : Type} (r : E → E') (x : Call E α) (f : α → Shape) :
    Shape.orLeaf (x.rename r fun a => a) f = Shape.orLeaf x f := by
  match x with
  | .ok a => rfl
  | .error (.err e) => rfl
  | .error .panic => rfl

theorem inspectedNode_dimmed (node : P.Node) (env : Option ShapeEnv) (pos : CheckPos) :
    inspectedNode (P := Dm) node env pos = inspectedNode node env pos := by
  have child : ∀ i, (PrettyDoc.childAt Dm node i).toOption = (P.childAt node i).toOption := by
    intro i
    rw [dimmed_childAt]
    match P.childAt node i with
    | .ok p => rfl
    | .error (.err e) => rfl
    | .error .panic => rfl
  cases pos with
  | here => rfl
  | child i =>
    have hn : PrettyDoc.numChildren Dm node = (P.numChildren node).rename some fun a => a := rfl
    unfold inspectedNode
    rw [hn]
    match P.numChildren node with
    | .ok none => rfl
    | .ok (some n) =>
      dsimp only [Call.rename]
      cases h : childIndex i n with
      | none => rfl
      | some j => exact child j
    | .error (.err e) => rfl
    | .error .panic => rfl
  | leftChild => cases env with
    | none => rfl
    | some e => exact child _
  | rightChild => cases env with
    | none => rfl
    | some e => exact child _

/-- The shape of a notation of an open node. -/
theorem shape_rename (node : P.Node) (kid : Nat → Bool → Nat → Shape) (a : Notation P.Label P.Cond) :
    ∀ (env : Option ShapeEnv) (fl : Bool) (m : Nat),
    ((a.rename .inl fun c => c : Notation (P.dimmed o).Label (P.dimmed o).Cond).shape (P := Dm) node kid env fl m) =
      a.shape node kid env fl m := by
  induction a with
  | text =>
    intro env fl m
    simp only [Notation.rename, Notation.shape]
    rw [orLeaf_rename]
    congr 1
    funext x
    cases x with
    | some n => rfl
    | none => exact orLeaf_rename _ _ _
  | flat a ih => intro env fl m; simp only [Notation.rename, Notation.shape, ih]
  | indent pre l a ih =>
    intro env fl m
    cases l with
    | none => simp only [Notation.rename, Option.map_none, Notation.shape, ih]
    | some l =>
      simp only [Notation.rename, Option.map_some, Notation.shape, ih]
      exact orLeaf_rename _ _ _
  | concat a b iha ihb => intro env fl m; simp only [Notation.rename, Notation.shape, iha, ihb]
  | choice a b iha ihb => intro env fl m; simp only [Notation.rename, Notation.shape, iha, ihb]
  | check cond pos a b iha ihb =>
    intro env fl m
    simp only [Notation.rename, Notation.shape, iha, ihb]
    rw [inspectedNode_dimmed]
    match inspectedNode node env pos with
    | none => rfl
    | some p => exact orLeaf_rename _ _ _
  | child i =>
    intro env fl m
    simp only [Notation.rename, Notation.shape]
    exact orLeaf_rename _ _ _
  | style l a ih =>
    intro env fl m
    simp only [Notation.rename, Notation.shape, ih]
    exact orLeaf_rename _ _ _
  | count a b c iha ihb ihc =>
    intro env fl m
    simp only [Notation.rename, Notation.shape, iha, ihb, ihc]
    exact orLeaf_rename _ _ _
  | fold first join ihf ihj =>
    intro env fl m
    simp only [Notation.rename, Notation.shape, ihf, ihj]
    rw [orLeaf_rename]
    congr 1
    funext x
    match x with
    | none => rfl
    | some 0 => rfl
    | some (n + 1) =>
      dsimp only
      congr 1
      have key : ∀ n, (Nat.rec (motive := fun _ => Bool → Nat → Shape)
          (fun fl m => first.shape node kid none fl m)
          (fun k acc fl m => .orLeaf (PrettyDoc.childAt Dm node (k + 1)) fun _ =>
            join.shape node kid (some ⟨acc, k + 1⟩) fl m) n : Bool → Nat → Shape) =
          (Nat.rec (motive := fun _ => Bool → Nat → Shape)
          (fun fl m => first.shape node kid none fl m)
          (fun k acc fl m => .orLeaf (P.childAt node (k + 1)) fun _ =>
            join.shape node kid (some ⟨acc, k + 1⟩) fl m) n : Bool → Nat → Shape) := by
        intro n
        induction n with
        | zero => rfl
        | succ n ih =>
          dsimp only
          funext fl m
          rw [ih, dimmed_childAt]
          exact orLeaf_rename _ _ _
      rw [key]
  | left => intro env fl m; cases env <;> rfl
  | right => intro env fl m; cases env <;> rfl
  | _ => intros; rfl

theorem dimmed_shape_open (law : P.Lawful) {node : P.Node} {a s} (ho : o node = true) (ha : P.notn node = .ok a)
    (hs : P.nodeStyle node = .ok s) (fl : Bool) (m : Nat) :
    docShape (dimmed_lawful law o) node fl m = a.shape node (kidShape (dimmed_lawful law o) node) none fl m := by
  have h1 : PrettyDoc.notn Dm node = .ok (a.rename .inl fun c => c) := by
    show (P.notn node).rename _ _ = _
    rw [ha]
    simp [Call.rename, ho]
  have h2 : PrettyDoc.nodeStyle Dm node = .ok s := by
    show (P.nodeStyle node).rename _ _ = _
    rw [hs]
    rfl
  rw [docShape_of (dimmed_lawful law o) h1 h2, shape_rename]

theorem dimmed_shape_dark (law : P.Lawful) {node : P.Node} {a s} (ho : o node = false) (ha : P.notn node = .ok a)
    (hs : P.nodeStyle node = .ok s) (fl : Bool) (m : Nat) :
    docShape (dimmed_lawful law o) node fl m = .leaf := by
  have h1 : PrettyDoc.notn Dm node = .ok (.style (.inr node) .empty) := by
    show (P.notn node).rename _ _ = _
    rw [ha]
    simp [Call.rename, ho]
  have h2 : PrettyDoc.nodeStyle Dm node = .ok s := by
    show (P.nodeStyle node).rename _ _ = _
    rw [hs]
    rfl
  rw [docShape_of (dimmed_lawful law o) h1 h2]
  rfl

end

variable {sw : String → Nat} {oi : Nat → Bool}

local notation "JD" => docShape (dimmed_lawful (basicLaw sw) (openBy (P := basicDoc sw) oi))
local notation "JK" => kidShape (dimmed_lawful (basicLaw sw) (openBy (P := basicDoc sw) oi))

variable (oi) in
mutual
/-- The number of nodes that can be seen: the open nodes and those right inside of an open node. -/
def Json.lit : Json → Nat
  | .array id es => if oi id then 1 + Json.lits es else 1
  | .pair id _ _ v => if oi id then 2 + v.lit else 1
  | .object id es => if oi id then 1 + Json.lits es else 1
  | _ => 1
@[inherit_doc Json.lit]
def Json.lits : List Json → Nat
  | [] => 0
  | e :: es => e.lit + Json.lits es
end

theorem Json.IsGroup.lit {l r es e id} (hg : Json.IsGroup l r es e id) : e.lit oi = if oi id then 1 + Json.lits oi es else 1 := by
  cases hg <;> simp only [Json.lit]

theorem tree_dark {t : Tree BasicStyle} (h : oi t.id = false) : JD t = fun _ _ => .leaf := by
  funext fl m
  exact dimmed_shape_dark (basicLaw sw) (o := openBy (P := basicDoc sw) oi) (a := t.notn.1) (s := t.nodeStyle) h rfl rfl fl m

theorem tree_open {t : Tree BasicStyle} (h : oi t.id = true) : JD t = fun fl m =>
    t.notn.1.shape (P := basicDoc sw) t (JK t) none fl m := by
  funext fl m
  exact dimmed_shape_open (basicLaw sw) (o := openBy (P := basicDoc sw) oi) (a := t.notn.1) (s := t.nodeStyle) h rfl rfl fl m

theorem tree_kid {node ch : Tree BasicStyle} {i : Nat} (hc : (basicDoc sw).childAt node i = .ok ch) :
    JK node i = fun fl m => .child (JD ch fl m) := by
  funext fl m
  unfold kidShape
  rw [dimmed_childAt, hc]
  rfl

theorem leaf_cheap {d : Nat} : Cheap 10 (fun _ _ => .leaf) 1 d :=
  Cheap.straight fun _ _ => ⟨trivial, Nat.le_of_ble_eq_true rfl⟩

theorem upto_lits (es : List Json) : ∀ n, es.length = n + 1 →
    upto (fun i => (es[i]?.map (Json.lit oi)).getD 0) n = Json.lits oi es := by
  induction es with
  | nil => intro n h; simp at h
  | cons e es ih =>
    intro n h
    cases n with
    | zero =>
      have : es = [] := by simpa using h
      subst this
      simp [upto, iter, Json.lits]
    | succ n =>
      rw [upto_cons]
      have := ih n (by simpa using h)
      simp only [List.getElem?_cons_zero, Option.map_some, Option.getD_some, List.getElem?_cons_succ, Json.lits, this]

theorem group_dim {l r : Char} {notn : TreeNotation} (hnotn : notn.1 = bracketN l r) {es : List Json} {id : Nat} {y : Bool}
    (ho : oi id = true)
    (h : ∀ (k : Nat) x, es[k]? = some x → ∀ t : Tree BasicStyle, t.setNeedsSeparator = x.build.setNeedsSeparator →
      Cheap 10 (JD t) (x.lit oi) x.depth) :
    Cheap 10 (JD (.branch (markSeparators (Json.builds es)).1 id notn default [] false y))
      (1 + Json.lits oi es) (1 + Json.depths es) := by
  rw [tree_open (by exact ho)]
  simp only [Tree.notn, hnotn]
  cases hes : es with
  | nil =>
    refine Cheap.straight fun fl m => ?_
    exact ⟨⟨⟨trivial, trivial⟩, trivial⟩, Nat.le_of_ble_eq_true rfl⟩
  | cons e0 es0 =>
    have hlen : es.length = es0.length + 1 := by rw [hes]; rfl
    have hget : ∀ i, i ≤ es0.length → ∃ (hi : i < es.length) (ch : Tree BasicStyle),
        ch.setNeedsSeparator = es[i].build.setNeedsSeparator ∧
        (basicDoc sw).childAt (.branch (markSeparators (Json.builds es)).1 id notn default [] false y) i = .ok ch := by
      intro i hi
      have hlt : i < es.length := by omega
      have hget : (Json.builds es)[i]? = some (es[i].build) := by
        rw [builds_eq, List.getElem?_map, List.getElem?_eq_getElem hlt]; rfl
      have hm := markSeparators_get _ i _ hget
      refine ⟨hlt, _, ?_, basic_childAt hm⟩
      split
      · cases es[i].build <;> rfl
      · rfl
    have h1 : (basicDoc sw).numChildren (.branch (markSeparators (Json.builds es)).1 id notn default [] false y) =
        .ok (some (es0.length + 1)) := by
      simp [Tree.children?, markSeparators_length, builds_eq, hlen]
    rw [← hes, ← upto_lits es _ hlen]
    have hb := bracketBody_shape (sw := sw) (l := l) (r := r) (d := Json.depths es)
      (s := fun i => (es[i]?.map (Json.lit oi)).getD 0)
      (kid := JK (.branch (markSeparators (Json.builds es)).1 id notn default [] false y)) h1
      (fun i hi => by obtain ⟨_, ch, _, h2⟩ := hget i hi; exact ⟨ch, h2⟩)
      (fun i hi => by
        obtain ⟨hlt, ch, h1, h2⟩ := hget i hi
        rw [tree_kid h2]
        rw [List.getElem?_eq_getElem hlt]
        exact ((h i es[i] (List.getElem?_eq_getElem hlt) ch h1).mono (depth_le (List.getElem_mem hlt))).child)
    convert hb using 3 with fl m
    exact count_shape (P := basicDoc sw) h1

theorem pair_dim {id keyId : Nat} {key : String} {v : Json} (ho : oi id = true)
    (hv : ∀ t : Tree BasicStyle, t.setNeedsSeparator = v.build.setNeedsSeparator → Cheap 10 (JD t) (v.lit oi) v.depth)
    {t : Tree BasicStyle} (ht : t.setNeedsSeparator = (Json.pair id keyId key v).build.setNeedsSeparator) :
    Cheap 10 (JD t) (2 + v.lit oi) v.depth := by
  let cs : List (Tree BasicStyle) := [jsonString keyId key, v.build]
  obtain ⟨z, rfl⟩ : ∃ z, t = .branch (markSeparators cs).1 id jsonPairN default [] false z := by
    apply branch_of_set (y := false)
    rw [ht]
    simp only [Json.build]
    rfl
  let node : Tree BasicStyle := .branch (markSeparators cs).1 id jsonPairN default [] false z
  obtain ⟨z0, h0⟩ : ∃ z', (basicDoc sw).childAt node 0 = .ok (.text key keyId jsonStringN default [] false z') := by
    have hm := markSeparators_get cs 0 (jsonString keyId key) rfl
    split at hm
    · exact ⟨true, basic_childAt hm⟩
    · exact ⟨false, basic_childAt hm⟩
  obtain ⟨v', hv', h1⟩ : ∃ v', v'.setNeedsSeparator = v.build.setNeedsSeparator ∧
      (basicDoc sw).childAt node 1 = .ok v' := by
    have hm := markSeparators_get cs 1 v.build rfl
    refine ⟨_, ?_, basic_childAt hm⟩
    split
    · cases v.build <;> rfl
    · rfl
  have hnum : (basicDoc sw).numChildren node = .ok (some 2) := by
    simp [node, Tree.children?, markSeparators_length, cs]
  have hk : ∀ fl m, (JK node 0 fl m).Straight 0 ∧ (JK node 0 fl m).nodes ≤ 7 := by
    intro fl m
    rw [tree_kid h0]
    cases hk : oi keyId with
    | true =>
      rw [tree_open (by exact hk)]
      exact ⟨⟨⟨trivial, trivial⟩, trivial⟩, Nat.le_of_ble_eq_true rfl⟩
    | false =>
      rw [tree_dark (by exact hk)]
      exact ⟨trivial, Nat.le_of_ble_eq_true rfl⟩
  have hc := (hv v' hv').child
  rw [← tree_kid h1] at hc
  change Cheap 10 (JD node) _ _
  have hN : JD node = fun fl m => .concat (.concat (JK node 0 fl m) (.text (sw ": "))) (JK node 1 fl m) := by
    rw [tree_open (by exact ho)]
    funext fl m
    rw [← child_zero_shape (P := basicDoc sw) (env := none) (kid := JK node) hnum fl m,
      ← child_one_shape (P := basicDoc sw) (env := none) (kid := JK node) hnum fl m]
    rfl
  rw [hN]
  constructor
  · intro m
    obtain ⟨a1, a2⟩ := hk true m
    obtain ⟨b1, b2⟩ := hc.flat m
    exact ⟨⟨⟨a1.mono, trivial⟩, b1⟩, by simp only [Shape.nodes]; omega⟩
  · intro m w h hh
    have b := hc.work m w h hh
    obtain ⟨a1, a2⟩ := hk false m
    have a3 := a1.work w (Shape.ahead (.text (sw ": ")) (Shape.ahead (JK node 1 false m) h))
    simp only [Shape.work]
    have : (2 + v.lit oi) * (1 + 2 * v.depth + m) = 2 * (1 + 2 * v.depth + m) + v.lit oi * (1 + 2 * v.depth + m) :=
      Nat.add_mul _ _ _
    omega

/-- The work of printing the dimmed document is linear in the number of nodes that can be seen. -/
theorem json_dim (e : Json) : e.NoComments → ∀ t : Tree BasicStyle, t.setNeedsSeparator = e.build.setNeedsSeparator →
    Cheap 10 (JD t) (e.lit oi) e.depth := by
  induction e using Json.induct with
  | simple e he =>
    intro hnc t ht
    have h1 : e.lit oi = 1 := by cases e <;> first | exact he.elim | simp only [Json.lit]
    rw [h1]
    cases hid : oi t.id with
    | false => rw [tree_dark hid]; exact leaf_cheap
    | true =>
      rw [tree_open hid]
      cases e with
      | null id =>
        obtain ⟨z, rfl⟩ := branch_of_set (y := false) (cs := []) (id := id) (n := jsonNullN) (st := default) (o := []) (c := false) ht
        exact Cheap.straight fun fl m => ⟨trivial, Nat.le_of_ble_eq_true rfl⟩
      | bool id b =>
        cases b with
        | true =>
          obtain ⟨z, rfl⟩ := branch_of_set (y := false) (cs := []) (id := id) (n := jsonTrueN) (st := default) (o := []) (c := false) ht
          exact Cheap.straight fun fl m => ⟨trivial, Nat.le_of_ble_eq_true rfl⟩
        | false =>
          obtain ⟨z, rfl⟩ := branch_of_set (y := false) (cs := []) (id := id) (n := jsonFalseN) (st := default) (o := []) (c := false) ht
          exact Cheap.straight fun fl m => ⟨trivial, Nat.le_of_ble_eq_true rfl⟩
      | string id s =>
        obtain ⟨z, rfl⟩ := text_of_set (y := false) (s := s) (id := id) (n := jsonStringN) (st := default) (o := []) (c := false) ht
        exact Cheap.straight fun fl m => ⟨⟨⟨trivial, trivial⟩, trivial⟩, Nat.le_of_ble_eq_true rfl⟩
      | number id s =>
        obtain ⟨z, rfl⟩ := text_of_set (y := false) (s := s) (id := id) (n := jsonNumberN) (st := default) (o := []) (c := false) ht
        exact Cheap.straight fun fl m => ⟨trivial, Nat.le_of_ble_eq_true rfl⟩
      | comment => simp only [Json.NoComments] at hnc
      | roots => simp only [Json.NoComments] at hnc
      | _ => exact he.elim
  | pair id keyId key v ih =>
    intro hnc t ht
    simp only [Json.NoComments] at hnc
    simp only [Json.lit, Json.depth]
    cases ho : oi id with
    | true => simpa using pair_dim ho (ih hnc) ht
    | false =>
      have : t.id = id := by
        obtain ⟨z, rfl⟩ : ∃ z, t = .branch (markSeparators [jsonString keyId key, v.build]).1 id jsonPairN default [] false z := by
          apply branch_of_set (y := false)
          rw [ht]
          simp only [Json.build]
          rfl
        rfl
      rw [tree_dark (by rw [this]; exact ho)]
      exact leaf_cheap
  | group l r es e id hg ih =>
    intro hnc t ht
    have hin : ∀ es : List Json, Json.NoCommentsIn es → ∀ x ∈ es, x.NoComments := by
      intro es
      induction es with
      | nil => intro _ x hx; simp at hx
      | cons a es ih =>
        intro h x hx
        simp only [Json.NoCommentsIn] at h
        rcases List.mem_cons.1 hx with rfl | hx
        · exact h.1
        · exact ih h.2 x hx
    have hall : ∀ (k : Nat) x, es[k]? = some x → ∀ t : Tree BasicStyle, t.setNeedsSeparator = x.build.setNeedsSeparator →
        Cheap 10 (JD t) (x.lit oi) x.depth := by
      intro k x hk
      refine ih k x hk (hin es ?_ x (List.mem_of_getElem? hk))
      cases hg <;> simpa only [Json.NoComments] using hnc
    rw [hg.lit]
    cases hg with
    | array h1 h2 =>
      obtain ⟨z, rfl⟩ : ∃ z, t = .branch (markSeparators (Json.builds es)).1 id jsonArrayN default [] false z := by
        apply branch_of_set (y := false)
        rw [ht]
        simp only [Json.build]
        rfl
      simp only [Json.depth]
      cases ho : oi id with
      | true => exact group_dim (l := '[') (r := ']') rfl ho hall
      | false => rw [tree_dark (by exact ho)]; exact leaf_cheap
    | object h1 h2 =>
      obtain ⟨z, rfl⟩ : ∃ z, t = .branch (markSeparators (Json.builds es)).1 id jsonObjectN default [] false z := by
        apply branch_of_set (y := false)
        rw [ht]
        simp only [Json.build]
        rfl
      simp only [Json.depth]
      cases ho : oi id with
      | true => exact group_dim (l := '{') (r := '}') rfl ho hall
      | false => rw [tree_dark (by exact ho)]; exact leaf_cheap

end PPP
