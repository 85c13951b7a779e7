import Verif.Spec.Origin
import Verif.Proofs.Equiv
import Verif.Props.Choices
import Verif.Props.Layout
/-
Where the printed strings come from.
-/
namespace PPP
variable {P : PrettyDoc}

/-- The string of the segment satisfies `p`, and the segment is as wide as its string. -/
def SegOk (p : String → Prop) (s : Segment P) : Prop := p s.str ∧ s.width = P.strWidth s.str

/-- All segments in the tree are `SegOk`. -/
def NTree.SegsOk (p : String → Prop) : NTree P → Prop
  | .newline ind => ∀ s ∈ ind, SegOk p s
  | .text t => SegOk p t.segment
  | .concat a b => a.SegsOk p ∧ b.SegsOk p
  | .choice a b => a.SegsOk p ∧ b.SegsOk p
  | .child _ _ t => t.SegsOk p
  | _ => True

theorem orFail_segsOk {p : String → Prop} {α : Type} {c : Call P.Err α} {f : α → NTree P}
    (h : ∀ a, c = .ok a → (f a).SegsOk p) : (NTree.orFail c f).SegsOk p := by
  cases c with
  | error e => trivial
  | ok a => exact h a rfl

theorem tree_segsOk {p : String → Prop} {node : P.Node} {kid : Nat → Ctx P → NTree P}
    (hkid : ∀ i (c : Ctx P), (∀ s ∈ c.indent, SegOk p s) → (kid i c).SegsOk p)
    (htext : ∀ s, P.unwrapText node = .ok s → p s) (a : Notation P.Label P.Cond) :
    (∀ s ∈ a.strings, p s) → ∀ {env : Option (FoldEnv P)} {c : Ctx P},
      (∀ e, env = some e → ∀ c : Ctx P, (∀ s ∈ c.indent, SegOk p s) → (e.acc c).SegsOk p) →
      (∀ s ∈ c.indent, SegOk p s) → (a.tree node kid env c).SegsOk p := by
  have hind : ∀ {c : Ctx P} {pre : String} {st : P.Style}, p pre → (∀ s ∈ c.indent, SegOk p s) →
      ∀ s ∈ c.indent ++ [⟨pre, P.strWidth pre, st⟩], SegOk p s := by
    intro c pre st hp hc s hs
    simp only [List.mem_append, List.mem_singleton] at hs
    rcases hs with hs | rfl
    · exact hc s hs
    · exact ⟨hp, rfl⟩
  induction a with
  | empty => intros; trivial
  | endOfLine => intros; trivial
  | focusMark => intros; trivial
  | newline => intro _ env c _ hc; exact hc
  | literal s => intro hs env c _ _; exact ⟨hs s (by simp [Notation.strings]), rfl⟩
  | text =>
    intro _ env c _ _
    refine orFail_segsOk ?_
    rintro (_ | n) _
    · exact orFail_segsOk (fun s hs => ⟨htext s hs, rfl⟩)
    · trivial
  | flat a ih => intro hs env c he hc; exact ih hs he hc
  | indent pre l a ih =>
    intro hs env c he hc
    have h1 : p pre := hs pre (by simp [Notation.strings])
    have h2 : ∀ s ∈ a.strings, p s := fun s h => hs s (by simp [Notation.strings, h])
    cases l with
    | none => exact ih h2 he (hind h1 hc)
    | some l => exact orFail_segsOk (fun s _ => ih h2 he (hind h1 hc))
  | concat a b iha ihb =>
    intro hs env c he hc
    simp only [Notation.strings, List.mem_append] at hs
    exact ⟨iha (fun s h => hs s (.inl h)) he hc, ihb (fun s h => hs s (.inr h)) he hc⟩
  | choice a b iha ihb =>
    intro hs env c he hc
    simp only [Notation.strings, List.mem_append] at hs
    have h1 := iha (fun s h => hs s (.inl h)) he hc
    have h2 := ihb (fun s h => hs s (.inr h)) he hc
    simp only [Notation.tree]
    split
    · exact h1
    · exact ⟨h1, h2⟩
  | check cond pos a b iha ihb =>
    intro hs env c he hc
    simp only [Notation.strings, List.mem_append] at hs
    have h1 := iha (fun s h => hs s (.inl h)) he hc
    have h2 := ihb (fun s h => hs s (.inr h)) he hc
    simp only [Notation.tree]
    cases inspected node env pos with
    | error e => trivial
    | ok q =>
      refine orFail_segsOk ?_
      rintro (_ | _) _
      · exact h2
      · exact h1
  | child i =>
    intro _ env c _ hc
    refine orFail_segsOk ?_
    rintro (_ | n) _
    · trivial
    · simp only
      cases childIndex i n with
      | none => trivial
      | some j => exact hkid j c hc
  | style l a ih =>
    intro hs env c he hc
    exact orFail_segsOk (fun s _ => ih hs he hc)
  | count z o m ihz iho ihm =>
    intro hs env c he hc
    simp only [Notation.strings, List.mem_append] at hs
    refine orFail_segsOk ?_
    intro n _
    match n with
    | none => trivial
    | some 0 => exact ihz (fun s h => hs s (.inl (.inl h))) he hc
    | some 1 => exact iho (fun s h => hs s (.inl (.inr h))) he hc
    | some (k + 2) => exact ihm (fun s h => hs s (.inr h)) he hc
  | fold f j ihf ihj =>
    intro hs env c he hc
    simp only [Notation.strings, List.mem_append] at hs
    refine orFail_segsOk ?_
    intro n _
    match n with
    | none => trivial
    | some 0 => trivial
    | some (n + 1) =>
      have key : ∀ k (c : Ctx P), (∀ s ∈ c.indent, SegOk p s) → (foldTree node kid f j k c).SegsOk p := by
        intro k
        induction k with
        | zero => intro c hc; exact ihf (fun s h => hs s (.inl h)) (by simp) hc
        | succ k ih =>
          intro c hc
          refine orFail_segsOk (fun _ _ => ihj (fun s h => hs s (.inr h)) ?_ hc)
          rintro e he c hc
          cases he
          exact ih c hc
      exact key n c hc
  | left =>
    intro _ env c he hc
    cases env with
    | none => trivial
    | some e => exact he e rfl c hc
  | right =>
    intro _ env c he hc
    cases env with
    | none => trivial
    | some e => exact hkid _ c hc

/-- A property of nodes that says that their strings satisfy `p`, and that is passed on to children. -/
structure StringsOk (p : String → Prop) (Q : P.Node → Prop) : Prop where
  notn : ∀ n a, Q n → P.notn n = .ok a → ∀ s ∈ a.strings, p s
  text : ∀ n s, Q n → P.unwrapText n = .ok s → p s
  child : ∀ n i c, Q n → P.childAt n i = .ok c → Q c

theorem docTree_segsOk (law : P.Lawful) {p : String → Prop} {Q : P.Node → Prop} (hQ : StringsOk p Q) (n : P.Node) :
    Q n → ∀ {flat indent outer t}, (∀ s ∈ indent, SegOk p s) → docTree law n flat indent outer = .ok t →
      t.SegsOk p := by
  induction n using law.wf.induction with
  | h n ih =>
    intro hn flat indent outer t hi ht
    rw [docTree_eq] at ht
    cases ha : P.notn n with
    | error e => rw [ha] at ht; cases ht
    | ok a =>
      cases hs : P.nodeStyle n with
      | error e => rw [ha, hs] at ht; cases ht
      | ok s =>
        rw [ha, hs] at ht
        cases ht
        refine tree_segsOk ?_ (hQ.text n · hn) a (hQ.notn n a hn ha) (by simp) hi
        intro i c hc
        refine orFail_segsOk ?_
        intro child hchild
        cases ht : docTree law child c.flat c.indent (some c.style) with
        | error f => trivial
        | ok t =>
          exact (ih child ⟨i, hchild⟩ (hQ.child n i child hn hchild) hc ht : t.SegsOk p)

theorem greedy_segsOk {p : String → Prop} {w id} {t : NTree P} {k st st' G} (h : Greedy w id t k st st' G) :
    t.SegsOk p → (∀ x, .text x ∈ erase G → SegOk p x.segment) ∧ ∀ ind, .nl ind ∈ erase G → ∀ s ∈ ind, SegOk p s := by
  induction h with
  | empty => simp [erase]
  | mark => simp [erase]
  | eol => simp [erase]
  | newline => intro h; simp [erase]; exact h
  | text => intro h; simp [erase]; exact h
  | child _ ih => exact ih
  | concat _ _ iha ihb =>
    intro h
    obtain ⟨a1, a2⟩ := iha h.1
    obtain ⟨b1, b2⟩ := ihb h.2
    simp only [erase_append, List.mem_append]
    exact ⟨fun x hx => hx.elim (a1 x) (b1 x), fun i hi => hi.elim (a2 i) (b2 i)⟩
  | choice_first _ _ ih => intro h; exact ih h.1
  | choice_second _ _ ih => intro h; exact ih h.2

theorem lines_segsOk {p : String → Prop} (T : List (Tok P)) : ∀ {cur : List (Segment P)}, (∀ s ∈ cur, SegOk p s) →
    (∀ x, .text x ∈ T → SegOk p x.segment) → (∀ ind, .nl ind ∈ T → ∀ s ∈ ind, SegOk p s) →
    ∀ l ∈ linesFrom cur T, ∀ s ∈ l, SegOk p s := by
  induction T with
  | nil => intro cur hc _ _ l hl; simp [linesFrom] at hl; exact hl ▸ hc
  | cons t T ih =>
    intro cur hc h1 h2
    have h1' : ∀ x, .text x ∈ T → SegOk p x.segment := fun x h => h1 x (by simp [h])
    have h2' : ∀ ind, .nl ind ∈ T → ∀ s ∈ ind, SegOk p s := fun x h => h2 x (by simp [h])
    cases t with
    | text x =>
      refine ih ?_ h1' h2'
      intro s hs
      simp only [List.mem_append, List.mem_singleton] at hs
      rcases hs with hs | rfl
      · exact hc s hs
      · exact h1 x (by simp)
    | nl ind =>
      intro l hl
      simp only [linesFrom, List.mem_cons] at hl
      rcases hl with rfl | hl
      · exact hc
      · exact ih (h2 ind (by simp)) h1' h2' l hl
    | eol => exact ih hc h1' h2'
    | mark i => exact ih hc h1' h2'

/-- The strings of a layout. -/
theorem layout_segsOk (law : P.Lawful) {p : String → Prop} {Q : P.Node → Prop} (hQ : StringsOk p Q)
    {doc : P.Node} (hdoc : Q doc) {w style id L} (h : docLayout law doc w style = .ok (id, L)) :
    ∀ l ∈ linesOf L.toks, ∀ s ∈ l, SegOk p s := by
  obtain ⟨t, T, h1, ⟨st, h2⟩, h3, _⟩ := docLayout_greedy law h
  have ht := docTree_segsOk law hQ doc hdoc (indent := []) (by simp) (rootTree_inv law h1).1
  obtain ⟨g1, g2⟩ := greedy_segsOk h2 ht
  rw [← h3]
  exact lines_segsOk _ (by simp) g1 g2

theorem inDoc_ok (doc : P.Node) : StringsOk (InDoc P doc) (P.Within doc) where
  notn n a hn ha s hs := ⟨n, hn, .inl ⟨a, ha, hs⟩⟩
  text n s hn hs := ⟨n, hn, .inr hs⟩
  child n i c hn hc := by
    right
    rcases hn with rfl | hn
    · exact .single ⟨i, hc⟩
    · exact .head ⟨i, hc⟩ hn

end PPP
