import Verif.Spec.Reworded
import Verif.Proofs.Denote
import Verif.Proofs.Modular
import Verif.Props.Focus
/-
C83: documents that differ in texts of the same width.
-/
namespace PPP
variable {P : PrettyDoc} {Q : String → String → Prop}

/-! ### Trees -/

/-- Textual pieces that differ in their strings only. -/
def Textual.Alike (Q : String → String → Prop) (t u : Textual P) : Prop :=
  t.width = u.width ∧ t.style = u.style ∧ t.isFromText = u.isFromText ∧ (t.str = u.str ∨ Q t.str u.str)

theorem Textual.Alike.refl (t : Textual P) : t.Alike Q t := ⟨rfl, rfl, rfl, .inl rfl⟩

inductive NTree.Alike (Q : String → String → Prop) : NTree P → NTree P → Prop where
  | fail (f) : Alike Q (.fail f) (.fail f)
  | empty : Alike Q .empty .empty
  | mark : Alike Q .mark .mark
  | eol : Alike Q .eol .eol
  | newline (ind) : Alike Q (.newline ind) (.newline ind)
  | text {t u} : t.Alike Q u → Alike Q (.text t) (.text u)
  | concat {a b a' b'} : Alike Q a a' → Alike Q b b' → Alike Q (.concat a b) (.concat a' b')
  | choice {a b a' b'} : Alike Q a a' → Alike Q b b' → Alike Q (.choice a b) (.choice a' b')
  | child (i id) {t u} : Alike Q t u → Alike Q (.child i id t) (.child i id u)

theorem NTree.orFail_reworded {α : Type} (c : Call P.Err α) {f g : α → NTree P} (h : ∀ a, c = .ok a → (f a).Alike Q (g a)) :
    (NTree.orFail c f).Alike Q (NTree.orFail c g) := by
  cases c with
  | error e => exact .fail _
  | ok a => exact h a rfl

/-- What `Left` and `Right` are. -/
def EnvAlike (Q : String → String → Prop) : Option (FoldEnv P) → Option (FoldEnv P) → Prop
  | none, none => True
  | some e, some e' => e.next = e'.next ∧ ∀ c, (e.acc c).Alike Q (e'.acc c)
  | _, _ => False

variable {R : P.Node → P.Node → Prop}

theorem Rewording.childAt (h : Rewording P Q R) {p q} (hR : R p q) (i : Nat) : SameChild R (P.childAt p i) (P.childAt q i) := by
  unfold PrettyDoc.childAt
  rw [h.numChildren hR]
  match hn : P.numChildren p with
  | .error e => exact rfl
  | .ok none => exact rfl
  | .ok (some n) =>
    dsimp only
    by_cases hi : i < n
    · rw [if_pos hi, if_pos hi]; exact h.child hR n i hn hi
    · rw [if_neg hi, if_neg hi]; exact rfl

/-- The same failure, or related nodes. -/
def SameLook (R : P.Node → P.Node → Prop) : Res P.Err P.Node → Res P.Err P.Node → Prop
  | .ok c, .ok d => R c d
  | .error e, .error e' => e = e'
  | _, _ => False

theorem SameChild.toRes {x y : Call P.Err P.Node} (h : SameChild R x y) : SameLook R (Call.toRes x) (Call.toRes y) := by
  match x, y, h with
  | .ok c, .ok d, h => exact h
  | .error e, .error e', h => cases h; exact rfl

theorem inspected_reworded (h : Rewording P Q R) {p q} (hR : R p q) {env env'} (he : EnvAlike Q env env') (pos : CheckPos) :
    SameLook R (inspected p env pos) (inspected q env' pos) := by
  cases pos with
  | here => exact hR
  | child i =>
    unfold inspected
    rw [h.numChildren hR]
    match P.numChildren p with
    | .error e => exact rfl
    | .ok none => exact rfl
    | .ok (some n) =>
      show SameLook R (match childIndex i n with | none => _ | some j => _) (match childIndex i n with | none => _ | some j => _)
      cases childIndex i n with
      | none => exact rfl
      | some j => exact (h.childAt hR j).toRes
  | leftChild =>
    match env, env', he with
    | none, none, _ => exact rfl
    | some e, some e', he =>
      show SameLook R (Call.toRes (P.childAt p (e.next - 1))) (Call.toRes (P.childAt q (e'.next - 1)))
      rw [he.1]; exact (h.childAt hR _).toRes
  | rightChild =>
    match env, env', he with
    | none, none, _ => exact rfl
    | some e, some e', he =>
      show SameLook R (Call.toRes (P.childAt p e.next)) (Call.toRes (P.childAt q e'.next))
      rw [he.1]; exact (h.childAt hR _).toRes

theorem tree_reworded (h : Rewording P Q R) {p q} (hR : R p q) {kid kid' : Nat → Ctx P → NTree P} (hk : ∀ i c, (kid i c).Alike Q (kid' i c))
    (a : Notation P.Label P.Cond) : ∀ {env env'} (c : Ctx P), EnvAlike Q env env' → (a.tree p kid env c).Alike Q (a.tree q kid' env' c) := by
  induction a with
  | empty => intro env env' c he; exact .empty
  | endOfLine => intro env env' c he; exact .eol
  | newline => intro env env' c he; exact .newline _
  | literal s => intro env env' c he; exact .text (.refl _)
  | text =>
    intro env env' c he
    unfold Notation.tree
    rw [h.numChildren hR]
    refine NTree.orFail_reworded _ fun n hn => ?_
    cases n with
    | some n => exact .fail _
    | none =>
      have := h.text hR hn
      dsimp only
      match P.unwrapText p, P.unwrapText q, this with
      | .ok s, .ok s', h1 => exact .text ⟨h1.1, rfl, rfl, .inr h1.2⟩
      | .error e, .error e', h1 => cases h1; exact .fail _
  | flat a ih => intro env env' c he; exact ih _ he
  | indent pre l a ih =>
    intro env env' c he
    cases l with
    | none => exact ih _ he
    | some l =>
      unfold Notation.tree
      rw [h.lookupStyle hR]
      exact NTree.orFail_reworded _ fun s _ => ih _ he
  | concat a b iha ihb => intro env env' c he; exact .concat (iha _ he) (ihb _ he)
  | choice a b iha ihb =>
    intro env env' c he
    unfold Notation.tree
    split
    · exact iha _ he
    · exact .choice (iha _ he) (ihb _ he)
  | check cond pos a b iha ihb =>
    intro env env' c he
    unfold Notation.tree
    have := inspected_reworded h hR he pos
    match inspected p env pos, inspected q env' pos, this with
    | .error e, .error e', h1 => cases h1; exact .fail _
    | .ok p', .ok q', h1 =>
      dsimp only
      rw [h.condition h1]
      refine NTree.orFail_reworded _ fun r _ => ?_
      cases r
      · exact ihb _ he
      · exact iha _ he
  | child i =>
    intro env env' c he
    unfold Notation.tree
    rw [h.numChildren hR]
    refine NTree.orFail_reworded _ fun n _ => ?_
    cases n with
    | none => exact .fail _
    | some n =>
      dsimp only
      cases childIndex i n with
      | none => exact .fail _
      | some j => exact hk _ _
  | style l a ih =>
    intro env env' c he
    unfold Notation.tree
    rw [h.lookupStyle hR]
    exact NTree.orFail_reworded _ fun s _ => ih _ he
  | focusMark => intro env env' c he; exact .mark
  | count z o m ihz iho ihm =>
    intro env env' c he
    unfold Notation.tree
    rw [h.numChildren hR]
    refine NTree.orFail_reworded _ fun n _ => ?_
    match n with
    | none => exact .fail _
    | some 0 => exact ihz _ he
    | some 1 => exact iho _ he
    | some (n + 2) => exact ihm _ he
  | fold f j ihf ihj =>
    intro env env' c he
    unfold Notation.tree
    rw [h.numChildren hR]
    refine NTree.orFail_reworded _ fun n hn => ?_
    clear hn
    match n with
    | none => exact .fail _
    | some 0 => exact .empty
    | some (n + 1) =>
      dsimp only
      clear he
      induction n generalizing c with
      | zero => exact ihf _ trivial
      | succ n ih =>
        dsimp only
        have := h.childAt hR (n + 1)
        match P.childAt p (n + 1), P.childAt q (n + 1), this with
        | .error e, .error e', h1 => cases h1; exact .fail _
        | .ok p', .ok q', h1 => exact ihj _ ⟨rfl, fun c => ih c⟩
  | left =>
    intro env env' c he
    match env, env', he with
    | none, none, _ => exact .fail _
    | some e, some e', he => exact he.2 c
  | right =>
    intro env env' c he
    match env, env', he with
    | none, none, _ => exact .fail _
    | some e, some e', he => unfold Notation.tree; rw [he.1]; exact hk _ _

/-- The same failure, or alike trees. -/
def SameTree (Q : String → String → Prop) : Res P.Err (NTree P) → Res P.Err (NTree P) → Prop
  | .ok t, .ok u => t.Alike Q u
  | .error e, .error e' => e = e'
  | _, _ => False

theorem docTree_reworded (law : P.Lawful) (h : Rewording P Q R) (p : P.Node) : ∀ {q}, R p q → ∀ flat ind outer,
    SameTree Q (docTree law p flat ind outer) (docTree law q flat ind outer) := by
  induction p using law.wf.induction with
  | _ p ih =>
  intro q hR flat ind outer
  rw [docTree_eq, docTree_eq, h.notn hR, h.nodeStyle hR]
  match P.notn p, P.nodeStyle p with
  | .error e, _ => exact rfl
  | .ok a, .error e => exact rfl
  | .ok a, .ok s =>
    refine tree_reworded h hR (fun i c => ?_) a _ trivial
    have hc := h.childAt hR i
    unfold docKid
    match hf : P.childAt p i, hg : P.childAt q i, hc with
    | .error e, .error e', hc => cases hc; exact .fail _
    | .ok c1, .ok d, hc =>
      have := ih c1 ⟨i, hf⟩ hc c.flat c.indent (some c.style)
      simp only [NTree.orFail]
      rw [h.id hc]
      match docTree law c1 c.flat c.indent (some c.style), docTree law d c.flat c.indent (some c.style), this with
      | .ok t, .ok u, h1 => exact .child _ _ h1
      | .error e, .error e', h1 => cases h1; exact .fail _

theorem rootTree_reworded (law : P.Lawful) (h : Rewording P Q R) {p q} (hR : R p q) (style) :
    (∃ f, rootTree law p style = .error f ∧ rootTree law q style = .error f) ∨
    ∃ id t u, rootTree law p style = .ok (id, t) ∧ rootTree law q style = .ok (id, u) ∧ t.Alike Q u := by
  have := docTree_reworded law h p hR false [] style
  unfold rootTree
  rw [h.id hR]
  match docTree law p false [] style, docTree law q false [] style, this with
  | .error e, .error e', h1 => cases h1; exact .inl ⟨e, rfl, rfl⟩
  | .ok t, .ok u, h1 =>
    match P.id p with
    | .error e => exact .inl ⟨_, rfl, rfl⟩
    | .ok id => exact .inr ⟨id, t, u, rfl, rfl, h1⟩

/-! ### Layouts -/

theorem NTree.Alike.check {t u : NTree P} (h : t.Alike Q u) : u.check = t.check := by cases h <;> rfl

theorem NTree.Alike.fit {t u : NTree P} (h : t.Alike Q u) : ∀ r e, u.fit r e = t.fit r e := by
  induction h with
  | text h => intro r e; unfold NTree.fit; rw [h.1]
  | concat ha hb iha ihb =>
    intro r e
    unfold NTree.fit
    rw [ha.check, hb.check, iha]
    simp only [ihb]
  | choice ha hb iha ihb => intro r e; exact ihb r e
  | child i id h ih => intro r e; exact ih r e
  | _ => intro r e; rfl

theorem fitK_reworded {k k' : List (NTree P)} (h : List.Forall₂ (NTree.Alike Q) k k') : ∀ r e, fitK k' r e = fitK k r e := by
  induction h with
  | nil => intro r e; rfl
  | cons h _ ih => intro r e; unfold fitK; rw [h.fit]; simp only [ih]

inductive LTree.Alike (Q : String → String → Prop) : LTree P → LTree P → Prop where
  | empty : Alike Q .empty .empty
  | mark (id) : Alike Q (.mark id) (.mark id)
  | eol : Alike Q .eol .eol
  | newline (ind) : Alike Q (.newline ind) (.newline ind)
  | text {t u} : t.Alike Q u → Alike Q (.text t) (.text u)
  | concat {a b a' b'} : Alike Q a a' → Alike Q b b' → Alike Q (.concat a b) (.concat a' b')
  | child (p i id) {t u} : Alike Q t u → Alike Q (.child p i id t) (.child p i id u)

/-- The same failure, or alike layouts that end in the same column. -/
def SameLayout (Q : String → String → Prop) : Res P.Err (LineSt × LTree P) → Res P.Err (LineSt × LTree P) → Prop
  | .ok (st, L), .ok (st', L') => st = st' ∧ L.Alike Q L'
  | .error e, .error e' => e = e'
  | _, _ => False

theorem NTree.Alike.layout {w : Nat} {t u : NTree P} (h : t.Alike Q u) : ∀ {id k k'} (st : LineSt), List.Forall₂ (NTree.Alike Q) k k' →
    SameLayout Q (t.layout w id k st) (u.layout w id k' st) := by
  induction h with
  | fail f => intro id k k' st hk; exact rfl
  | empty => intro id k k' st hk; exact ⟨rfl, .empty⟩
  | mark => intro id k k' st hk; exact ⟨rfl, .mark _⟩
  | eol => intro id k k' st hk; exact ⟨rfl, .eol⟩
  | newline ind =>
    intro id k k' st hk
    unfold NTree.layout
    split
    · exact ⟨rfl, .newline _⟩
    · exact rfl
  | text h =>
    intro id k k' st hk
    unfold NTree.layout
    rw [h.1]
    split
    · exact rfl
    split
    · exact ⟨rfl, .text h⟩
    · exact rfl
  | @concat a b a' b' ha hb iha ihb =>
    intro id k k' st hk
    have h1 := iha (id := id) st (List.Forall₂.cons hb hk)
    unfold NTree.layout
    match a.layout w id (b :: k) st, a'.layout w id (b' :: k') st, h1 with
    | .error e, .error e', h1 => cases h1; exact rfl
    | .ok (st1, L), .ok (st2, L'), h1 =>
      obtain ⟨rfl, h1⟩ := h1
      have h2 := ihb (id := id) st1 hk
      simp only [Except.bind_eq]
      match b.layout w id k st1, b'.layout w id k' st1, h2 with
      | .error e, .error e', h2 => cases h2; exact rfl
      | .ok (st3, M), .ok (st4, M'), h2 =>
        obtain ⟨rfl, h2⟩ := h2
        exact ⟨rfl, .concat h1 h2⟩
  | @choice a b a' b' ha hb iha ihb =>
    intro id k k' st hk
    have hf : fitsLine w st (a' :: k') = fitsLine w st (a :: k) := by
      unfold fitsLine
      rw [fitK_reworded (List.Forall₂.cons ha hk)]
    unfold NTree.layout
    rw [hf, ha.check]
    match a.check, fitsLine w st (a :: k) with
    | .error e, _ => exact rfl
    | .ok (), .error e => exact rfl
    | .ok (), .ok true => exact iha st hk
    | .ok (), .ok false => exact ihb st hk
  | @child i id' t u h ih =>
    intro id k k' st hk
    unfold NTree.layout
    match id' with
    | .error e => exact rfl
    | .ok c =>
      have h1 := ih (id := c) st hk
      simp only [Except.bind_eq]
      match t.layout w c k st, u.layout w c k' st, h1 with
      | .error e, .error e', h1 => cases h1; exact rfl
      | .ok (st1, L), .ok (st2, L'), h1 =>
        obtain ⟨rfl, h1⟩ := h1
        exact ⟨rfl, .child _ _ _ h1⟩

theorem docLayout_reworded (law : P.Lawful) (h : Rewording P Q R) {p q} (hR : R p q) (w style) :
    (∃ f, docLayout law p w style = .error f ∧ docLayout law q w style = .error f) ∨
    ∃ id L M, docLayout law p w style = .ok (id, L) ∧ docLayout law q w style = .ok (id, M) ∧ L.Alike Q M := by
  unfold docLayout
  rcases rootTree_reworded law h hR style with ⟨f, h1, h2⟩ | ⟨id, t, u, h1, h2, h3⟩
  · exact .inl ⟨f, by rw [h1]; rfl, by rw [h2]; rfl⟩
  · rw [h1, h2]
    have h4 := h3.layout (w := w) (id := id) ⟨0, false⟩ .nil
    unfold NTree.layoutDoc
    simp only [Except.bind_eq]
    match t.layout w id [] ⟨0, false⟩, u.layout w id [] ⟨0, false⟩, h4 with
    | .error e, .error e', h1 => cases h1; exact .inl ⟨e, rfl, rfl⟩
    | .ok (_, L), .ok (_, M), h1 => exact .inr ⟨id, L, M, rfl, rfl, h1.2⟩

/-! ### Lines -/

inductive Tok.Alike (Q : String → String → Prop) : Tok P → Tok P → Prop where
  | text {t u} : t.Alike Q u → Alike Q (.text t) (.text u)
  | nl (ind) : Alike Q (.nl ind) (.nl ind)
  | eol : Alike Q .eol .eol
  | mark (id) : Alike Q (.mark id) (.mark id)

abbrev ToksAlike (Q : String → String → Prop) : List (Tok P) → List (Tok P) → Prop := List.Forall₂ (Tok.Alike Q)

theorem forall2_append {α : Type} {S : α → α → Prop} {a b c d : List α} (h : List.Forall₂ S a b) (h' : List.Forall₂ S c d) :
    List.Forall₂ S (a ++ c) (b ++ d) := by
  induction h with
  | nil => exact h'
  | cons h _ ih => exact .cons h ih

theorem LTree.Alike.toks {L M : LTree P} (h : L.Alike Q M) : ToksAlike Q L.toks M.toks := by
  induction h with
  | empty => exact .nil
  | mark id => exact .cons (.mark id) .nil
  | eol => exact .cons .eol .nil
  | newline ind => exact .cons (.nl ind) .nil
  | text h => exact .cons (.text h) .nil
  | concat _ _ iha ihb => exact forall2_append iha ihb
  | child _ _ _ _ ih => exact ih

theorem linesFrom_alike {T U : List (Tok P)} (h : ToksAlike Q T U) : ∀ {c d : List (Segment P)}, List.Forall₂ (SameSegment Q) c d →
    SameLines Q (linesFrom c T) (linesFrom d U) := by
  induction h with
  | nil => intro c d hc; exact .cons hc .nil
  | cons h _ ih =>
    intro c d hc
    cases h with
    | text h => exact ih (forall2_append hc (.cons ⟨h.1, h.2.1, h.2.2.2⟩ .nil))
    | nl ind =>
      refine .cons hc (ih ?_)
      induction ind with
      | nil => exact .nil
      | cons x _ ih => exact .cons ⟨rfl, rfl, .inl rfl⟩ ih
    | eol => exact ih hc
    | mark => exact ih hc

theorem linesOf_alike {T U : List (Tok P)} (h : ToksAlike Q T U) : SameLines Q (linesOf T) (linesOf U) :=
  linesFrom_alike h .nil

/-! ### Places -/

/-- The same place. -/
structure Located.Alike (Q : String → String → Prop) (l m : Located P) : Prop where
  before : ToksAlike Q l.before m.before
  id : l.id = m.id
  node : l.node.Alike Q m.node
  after : ToksAlike Q l.after m.after

theorem findChild_reworded {L M : LTree P} (h : L.Alike Q M) (i : Nat) :
    (L.findChild i = none ∧ M.findChild i = none) ∨ ∃ l m, L.findChild i = some l ∧ M.findChild i = some m ∧ l.Alike Q m := by
  induction h with
  | empty => exact .inl ⟨rfl, rfl⟩
  | mark => exact .inl ⟨rfl, rfl⟩
  | eol => exact .inl ⟨rfl, rfl⟩
  | newline => exact .inl ⟨rfl, rfl⟩
  | text => exact .inl ⟨rfl, rfl⟩
  | concat ha hb iha ihb =>
    unfold LTree.findChild
    rcases iha with ⟨h1, h2⟩ | ⟨l, m, h1, h2, h3⟩
    · rw [h1, h2]
      rcases ihb with ⟨i1, i2⟩ | ⟨l, m, i1, i2, i3⟩
      · rw [i1, i2]; exact .inl ⟨rfl, rfl⟩
      · rw [i1, i2]; exact .inr ⟨_, _, rfl, rfl, forall2_append ha.toks i3.before, i3.id, i3.node, i3.after⟩
    · rw [h1, h2]; exact .inr ⟨_, _, rfl, rfl, h3.before, h3.id, h3.node, forall2_append h3.after hb.toks⟩
  | child p j id h ih =>
    unfold LTree.findChild
    by_cases hj : j = i
    · rw [if_pos hj, if_pos hj]; exact .inr ⟨_, _, rfl, rfl, .nil, rfl, h, .nil⟩
    · rw [if_neg hj, if_neg hj]; exact .inl ⟨rfl, rfl⟩

theorem locate_reworded (path : List Nat) : ∀ {L M : LTree P} (id : P.Id), L.Alike Q M →
    (∃ j, L.locate id path = .error j ∧ M.locate id path = .error j) ∨
      ∃ l m, L.locate id path = .ok l ∧ M.locate id path = .ok m ∧ l.Alike Q m := by
  induction path with
  | nil => intro L M id h; exact .inr ⟨_, _, rfl, rfl, .nil, rfl, h, .nil⟩
  | cons i path ih =>
    intro L M id h
    unfold LTree.locate
    rcases findChild_reworded h i with ⟨h1, h2⟩ | ⟨l, m, h1, h2, h3⟩
    · rw [h1, h2]; exact .inl ⟨_, rfl, rfl⟩
    · rw [h1, h2]
      dsimp only
      rw [← h3.id]
      rcases ih l.id h3.node with ⟨j, i1, i2⟩ | ⟨l', m', i1, i2, i3⟩
      · rw [i1, i2]; exact .inl ⟨_, rfl, rfl⟩
      · rw [i1, i2]
        exact .inr ⟨_, _, rfl, rfl, forall2_append h3.before i3.before, i3.id, i3.node, forall2_append i3.after h3.after⟩

theorem splitAtMark_reworded (id : P.Id) {T U : List (Tok P)} (h : ToksAlike Q T U) :
    (splitAtTok (Tok.isMark id) T = none ∧ splitAtTok (Tok.isMark id) U = none) ∨
      ∃ b x a b' x' a', splitAtTok (Tok.isMark id) T = some (b, x, a) ∧ splitAtTok (Tok.isMark id) U = some (b', x', a') ∧
        ToksAlike Q b b' ∧ ToksAlike Q a a' := by
  induction h with
  | nil => exact .inl ⟨rfl, rfl⟩
  | @cons x y T U hx hTU ih =>
    have hm : Tok.isMark id y = Tok.isMark id x := by cases hx <;> rfl
    unfold splitAtTok
    rw [hm]
    cases Tok.isMark id x with
    | true => exact .inr ⟨_, _, _, _, _, _, rfl, rfl, .nil, hTU⟩
    | false =>
      rcases ih with ⟨h1, h2⟩ | ⟨b, x, a, b', x', a', h1, h2, h3, h4⟩
      · rw [h1, h2]; exact .inl ⟨rfl, rfl⟩
      · rw [h1, h2]; exact .inr ⟨_, _, _, _, _, _, rfl, rfl, .cons hx h3, h4⟩

theorem splitAtText_reworded {T U : List (Tok P)} (h : ToksAlike Q T U) :
    (splitAtTok Tok.isDocText T = none ∧ splitAtTok Tok.isDocText U = none) ∨
      ∃ b t a b' t' a', splitAtTok Tok.isDocText T = some (b, .text t, a) ∧ splitAtTok Tok.isDocText U = some (b', .text t', a') ∧
        t.Alike Q t' ∧ ToksAlike Q b b' ∧ ToksAlike Q a a' := by
  induction h with
  | nil => exact .inl ⟨rfl, rfl⟩
  | @cons x y T U hx hTU ih =>
    have hm : Tok.isDocText y = Tok.isDocText x := by
      cases hx with
      | text h => exact h.2.2.1.symm
      | _ => rfl
    unfold splitAtTok
    rw [hm]
    cases hc : Tok.isDocText x with
    | true =>
      cases hx with
      | text h => exact .inr ⟨_, _, _, _, _, _, rfl, rfl, h, .nil, hTU⟩
      | nl => cases hc
      | eol => cases hc
      | mark => cases hc
    | false =>
      rcases ih with ⟨h1, h2⟩ | ⟨b, t, a, b', t', a', h1, h2, h3, h4, h5⟩
      · rw [h1, h2]; exact .inl ⟨rfl, rfl⟩
      · rw [h1, h2]; exact .inr ⟨_, _, _, _, _, _, rfl, rfl, h3, .cons hx h4, h5⟩

theorem splitAt_reworded (hQ : CutAlike P.strWidth Q) {t u : Textual P} (h : t.Alike Q u) (n : Nat) :
    (t.splitAt n).1.Alike Q (u.splitAt n).1 ∧ (t.splitAt n).2.Alike Q (u.splitAt n).2 := by
  rcases h.2.2.2 with hs | hs
  · refine ⟨⟨?_, h.2.1, h.2.2.1, .inl ?_⟩, ?_, h.2.1, h.2.2.1, .inl ?_⟩ <;> simp [Textual.splitAt, hs]
  · obtain ⟨⟨h1, h2⟩, h3, h4⟩ := hQ _ _ hs n
    exact ⟨⟨h1, h.2.1, h.2.2.1, .inr h2⟩, h3, h.2.1, h.2.2.1, .inr h4⟩

theorem focusToks_reworded {target : FocusTarget} (ht : (∀ pos, target ≠ .text pos) ∨ CutAlike P.strWidth Q) (id : P.Id)
    {N A N' A' : List (Tok P)} (hN : ToksAlike Q N N') (hA : ToksAlike Q A A') :
    (∃ e, focusToks target id N A = .error e ∧ focusToks target id N' A' = .error e) ∨
      ∃ b a b' a', focusToks target id N A = .ok (b, a) ∧ focusToks target id N' A' = .ok (b', a') ∧ ToksAlike Q b b' ∧ ToksAlike Q a a' := by
  cases target with
  | text pos =>
    have hQ : CutAlike P.strWidth Q := ht.resolve_left fun h => h pos rfl
    unfold focusToks
    rcases splitAtText_reworded (forall2_append hN hA) with ⟨h1, h2⟩ | ⟨b, t, a, b', t', a', h1, h2, h3, h4, h5⟩
    · dsimp only; rw [h1, h2]; exact .inl ⟨_, rfl, rfl⟩
    · dsimp only; rw [h1, h2]
      obtain ⟨g1, g2⟩ := splitAt_reworded hQ h3 pos
      exact .inr ⟨_, _, _, _, rfl, rfl, forall2_append h4 (.cons (.text g1) .nil), .cons (.text g2) h5⟩
  | start => exact .inr ⟨_, _, _, _, rfl, rfl, .nil, forall2_append hN hA⟩
  | «end» => exact .inr ⟨_, _, _, _, rfl, rfl, hN, hA⟩
  | mark =>
    unfold focusToks
    rcases splitAtMark_reworded id (forall2_append hN hA) with ⟨h1, h2⟩ | ⟨b, x, a, b', x', a', h1, h2, h3, h4⟩
    · dsimp only; rw [h1, h2]; exact .inl ⟨_, rfl, rfl⟩
    · dsimp only; rw [h1, h2]; exact .inr ⟨_, _, _, _, rfl, rfl, h3, h4⟩

end PPP
