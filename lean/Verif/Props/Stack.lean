import Verif.Proofs.Stack
import Verif.Spec.Stack
import Verif.Props.Depth
import Verif.Proofs.PaneEnds
import Verif.Proofs.JsonDoc
/-
C74: printing with a limited stack.
-/
namespace PPP
variable {P : PrettyDoc}

theorem St.eq_of_returns {E α : Type} {G : α → Prop} {x y : Exec E α} (h : St G x y) (hx : Returns x) : y = x := by
  obtain ⟨r, rfl, _⟩ := hx
  cases r with
  | ok a => exact (h.1 a rfl).1
  | error f => exact h.2 f rfl

theorem printAround_st {K : Nat} {doc : P.Node} {style : Option P.Style} (h : Enough (Reached doc style) K) (w : Nat)
    (path : List Nat) (target : FocusTarget) (k j : Nat) :
    St (fun _ => True) (printAround doc w path target style k j) (printAroundS K doc w path target style k j) :=
  .bind (prettyPrint_st h doc w path target style fun _ hd => .root hd) fun _ hr =>
    .bind (takeLines_up_st h k hr.1) fun _ _ => .bind (takeLines_down_st h j hr.2) fun _ _ => .pure trivial

/-- **C74.**  Printing the focused line, and any number of lines above and below it, does not run out of stack if
    there is room for `max 1 m * H` invocations of `eval` (the only function of the printer that calls itself),
    the notation of each node has at most height `H`, and each node has at most `m` children.  The result is
    then the same as with an unlimited stack. -/
theorem C74_printing (law : P.Lawful) {doc : P.Node} {m H K : Nat} (hH : P.HeightsWithin doc H)
    (hm : P.KidsWithin doc m) (hK : max 1 m * H ≤ K) (w : Nat) (path : List Nat) (target : FocusTarget)
    (style : Option P.Style) (k j : Nat) :
    printAroundS K doc w path target style k j = printAround doc w path target style k j := by
  refine (printAround_st (enough_of_nests fun d hd => ?_) w path target k j).eq_of_returns
    (printAround_returns law doc w path target style k j)
  obtain ⟨n, h1, h2⟩ := C74_depth law hH hm hd
  exact ⟨n, h1, Nat.le_trans h2 hK⟩

/-- **C74.**  Room for `2 * H` invocations is enough if the `Left` in a `join` is always part of a concatenation
    (or the second option of a choice). -/
theorem C74_printing_guarded (law : P.Lawful) {doc : P.Node} {H K : Nat} (hH : P.HeightsWithin doc H)
    (hg : P.Guarded doc) (hK : 2 * H ≤ K) (w : Nat) (path : List Nat)
    (target : FocusTarget) (style : Option P.Style) (k j : Nat) :
    printAroundS K doc w path target style k j = printAround doc w path target style k j := by
  refine (printAround_st (enough_of_nests fun d hd => ?_) w path target k j).eq_of_returns
    (printAround_returns law doc w path target style k j)
  obtain ⟨n, h1, h2⟩ := C74_depth_guarded law hH hg hd
  exact ⟨n, h1, Nat.le_trans h2 hK⟩

/-- **C74.**  `pretty_print_to_string` does not run out of stack either. -/
theorem C74_to_string (law : P.Lawful) {doc : P.Node} {m H K : Nat} (hH : P.HeightsWithin doc H)
    (hm : P.KidsWithin doc m) (hK : max 1 m * H ≤ K) (w : Nat) :
    prettyPrintToStringS K doc w = prettyPrintToString doc w := by
  refine (prettyPrintToString_st (good := Reached doc none) (enough_of_nests fun d hd => ?_) doc w
    fun _ hd => .root hd).eq_of_returns (C13_to_string_returns law doc w)
  obtain ⟨n, h1, h2⟩ := C74_depth law hH hm hd
  exact ⟨n, h1, Nat.le_trans h2 hK⟩

/-- **C74.**  The same with room for `2 * H` invocations, if each `Left` is guarded. -/
theorem C74_to_string_guarded (law : P.Lawful) {doc : P.Node} {H K : Nat} (hH : P.HeightsWithin doc H)
    (hg : P.Guarded doc) (hK : 2 * H ≤ K) (w : Nat) :
    prettyPrintToStringS K doc w = prettyPrintToString doc w := by
  refine (prettyPrintToString_st (good := Reached doc none) (enough_of_nests fun d hd => ?_) doc w
    fun _ hd => .root hd).eq_of_returns (C13_to_string_returns law doc w)
  obtain ⟨n, h1, h2⟩ := C74_depth_guarded law hH hg hd
  exact ⟨n, h1, Nat.le_trans h2 hK⟩

/-! ### JSON -/

section
variable {S : Type}

/-- The notations of all nodes of a tree satisfy `Q`. -/
inductive AllNotns (Q : TreeNotation → Prop) : Tree S → Prop where
  | text {s id n st o c x} : Q n → AllNotns Q (.text s id n st o c x)
  | branch {cs id n st o c x} : Q n → (∀ t ∈ cs, AllNotns Q t) → AllNotns Q (.branch cs id n st o c x)

variable {Q : TreeNotation → Prop}

theorem AllNotns.setNeedsSeparator {t : Tree S} (h : AllNotns Q t) : AllNotns Q t.setNeedsSeparator := by
  cases h with
  | text h => exact .text h
  | branch h hs => exact .branch h hs

theorem AllNotns.intoComment {t : Tree S} (h : AllNotns Q t) : AllNotns Q t.intoComment := by
  cases h with
  | text h => exact .text h
  | branch h hs => exact .branch h hs

theorem AllNotns.notn {t : Tree S} (h : AllNotns Q t) : Q t.notn := by
  cases h <;> assumption

theorem AllNotns.markSeparators {ts : List (Tree S)} (h : ∀ t ∈ ts, AllNotns Q t) :
    ∀ t ∈ (markSeparators ts).1, AllNotns Q t := by
  induction ts with
  | nil => exact h
  | cons c cs ih =>
    have hc := h c (List.mem_cons_self ..)
    have ih := ih fun t ht => h t (List.mem_cons_of_mem _ ht)
    rw [PPP.markSeparators]
    dsimp only
    split
    · exact List.forall_mem_cons.2 ⟨hc, ih⟩
    · split
      · exact List.forall_mem_cons.2 ⟨hc.setNeedsSeparator, ih⟩
      · exact List.forall_mem_cons.2 ⟨hc, ih⟩

theorem AllNotns.newBranch [Inhabited S] {id : Nat} {n : TreeNotation} {ts : List (Tree S)} (hn : Q n)
    (h : ∀ t ∈ ts, AllNotns Q t) : AllNotns Q (Tree.newBranch id n ts) := .branch hn (.markSeparators h)

theorem AllNotns.within {combine : S → S → S} {fromLabel : String → S} {strWidth : String → Nat} {t p : Tree S}
    (h : AllNotns Q t) (hp : (treeDoc S combine fromLabel strWidth).Within t p) : Q p.notn := by
  have : AllNotns Q p := by
    refine PrettyDoc.Within.induct (P := treeDoc S combine fromLabel strWidth) (Φ := AllNotns Q) h ?_ hp
    rintro p q hp ⟨i, hi⟩
    obtain ⟨cs, h1, h2⟩ := treeDoc_childAt hi
    cases hp with
    | text h => cases h1
    | branch h hs => cases h1; exact hs _ (List.mem_of_getElem? h2)
  exact this.notn

end

/-- A notation with little need for stack. -/
def SmallN (n : TreeNotation) : Prop := n.1.height ≤ 13 ∧ n.1.JoinsGuarded

mutual
theorem json_small : ∀ e : Json, AllNotns SmallN e.build
  | .null id => .newBranch ⟨by decide, trivial⟩ nofun
  | .bool id true => .newBranch ⟨by decide, trivial⟩ nofun
  | .bool id false => .newBranch ⟨by decide, trivial⟩ nofun
  | .string id s => .text ⟨by decide, ⟨⟨trivial, trivial⟩, trivial⟩⟩
  | .number id s => .text ⟨by decide, trivial⟩
  | .array id es => by
    rw [Json.build]
    refine .newBranch ⟨by decide, ⟨⟨trivial, trivial⟩, trivial⟩, ?_, ?_⟩ (json_smalls es) <;>
      exact ⟨⟨⟨trivial, rfl⟩, trivial⟩, ⟨⟨trivial, trivial, rfl⟩, trivial⟩, trivial⟩
  | .object id es => by
    rw [Json.build]
    refine .newBranch ⟨by decide, ⟨⟨trivial, trivial⟩, trivial⟩, ?_, ?_⟩ (json_smalls es) <;>
      exact ⟨⟨⟨trivial, rfl⟩, trivial⟩, ⟨⟨trivial, trivial, rfl⟩, trivial⟩, trivial⟩
  | .pair id keyId key v => by
    rw [Json.build]
    refine .newBranch ⟨by decide, ⟨⟨trivial, trivial⟩, trivial⟩⟩ fun t ht => ?_
    simp only [List.mem_cons, List.not_mem_nil, or_false] at ht
    rcases ht with rfl | rfl
    · exact .text ⟨by decide, ⟨⟨trivial, trivial⟩, trivial⟩⟩
    · exact json_small v
  | .comment id ids s => by
    rw [Json.build]
    refine .intoComment (.newBranch ⟨by decide, ⟨trivial, trivial, trivial, rfl⟩, trivial⟩ fun t ht => ?_)
    obtain ⟨i, hi, rfl⟩ := List.mem_mapIdx.1 ht
    exact .text ⟨by decide, trivial⟩
  | .roots id es => by
    rw [Json.build]
    exact .newBranch ⟨by decide, trivial, trivial, rfl⟩ (json_smalls es)
theorem json_smalls : ∀ (es : List Json), ∀ t ∈ Json.builds es, AllNotns SmallN t
  | [], t, h => by simp [Json.builds] at h
  | e :: es, t, h => by
    rw [Json.builds] at h
    rcases List.mem_cons.1 h with rfl | h
    · exact json_small e
    · exact json_smalls es t h
end

/-- **C74.**  JSON documents of any size, however deeply nested, are printed with room for 26 invocations of
    `eval`. -/
theorem C74_json {sw : String → Nat} (e : Json) {K : Nat} (hK : 26 ≤ K) (w : Nat) (path : List Nat)
    (target : FocusTarget) (style : Option BasicStyle) (k j : Nat) :
    printAroundS (P := basicDoc sw) K e.build w path target style k j =
      printAround (P := basicDoc sw) e.build w path target style k j := by
  refine C74_printing_guarded (basicLaw sw) (H := 13) ?_ ?_ hK ..
  · intro p a hp ha
    cases ha
    exact ((json_small e).within hp).1
  · intro p a hp ha
    cases ha
    exact ((json_small e).within hp).2

/-! ### Running out of stack -/

theorem prettyPrintS_runs_out {K : Nat} {doc : P.Node} {style : Option P.Style} {d : DCN P} {k : Nat}
    (hd : (DCN.withOptionalStyle doc style).run = some (.ok d)) {id : P.Id} (hid : P.id d.doc = .ok id)
    (h : d.Nests k) (hk : K < k) (w : Nat) (path : List Nat) (target : FocusTarget) :
    prettyPrintS K doc w path target style = panicking := by
  have h1 := evalS_runs_out h hk
  have h2 : DCN.withOptionalStyle doc style = Exec.ofRes (.ok d) := hd
  have h3 : d.evalS K = Exec.ofRes (.error .panic) := h1
  have h4 : (Printer.new w : Exec P.Err (Printer P)) = Exec.ofRes (.ok ⟨w, [], [⟨[], 0, false, []⟩]⟩) := rfl
  unfold prettyPrintS Printer.seekS Chunk.newS
  rw [h2, h4, Exec.ofRes_ok_bind, Exec.ofRes_ok_bind, h3, hid]
  rfl

section
variable {S : Type} [Inhabited S] (combine : S → S → S) (fromLabel : String → S) (strWidth : String → Nat)

/-- **C74 (a finding).**  Printing `n ≥ 2` comments with the notation that skips them does run out of stack if
    there is room for less than `2 * n` invocations. -/
theorem C74_runs_out (n K : Nat) (hK : K < 2 * (n + 2)) (w : Nat) (path : List Nat) (target : FocusTarget)
    (style : Option S) :
    prettyPrintS (P := treeDoc S combine fromLabel strWidth) K (comments S (n + 2)) w path target style =
      panicking := by
  obtain ⟨s, hs⟩ : ∃ s : S, (DCN.withOptionalStyle (P := treeDoc S combine fromLabel strWidth) (comments S (n + 2))
      style).run = some (.ok ⟨skipComments.1, comments S (n + 2), false, [], s, none⟩) := by
    rw [comments_eq]
    cases style <;> exact ⟨_, rfl⟩
  refine prettyPrintS_runs_out hs (id := 0) ?_ (comments_nests combine fromLabel strWidth n s) hK w path target
  show PrettyDoc.id (treeDoc S combine fromLabel strWidth) (comments S (n + 2)) = _
  rw [comments_eq]
  rfl

end

namespace Ex

/-- The example document is printed in full with room for 16 invocations of `eval`. -/
example (path : List Nat) (target : FocusTarget) (k j w : Nat) :
    printAroundS (P := exP) 16 exDoc w path target none k j = printAround (P := exP) exDoc w path target none k j := by
  refine C74_printing_guarded exLaw (H := 8) ?_ ?_ (by decide) ..
  · intro p a hp ha
    rcases exWithin hp with rfl | rfl | rfl <;> cases ha <;> decide
  · intro p a hp ha
    rcases exWithin hp with rfl | rfl | rfl <;> cases ha
    · exact ⟨⟨⟨trivial, rfl⟩, trivial⟩, trivial⟩
    · trivial
    · trivial

end Ex
end PPP
