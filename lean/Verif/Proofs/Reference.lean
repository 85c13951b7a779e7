import Verif.Spec.Reference
import Verif.Proofs.Ideal
import Verif.Props.OracleTest
/-
The reference implementations and the reference layout.
-/
namespace PPP
namespace Ref

/-! ### The two implementations -/

/-- Resolving a tree of layouts that starts on line `n` and is followed by `k`. -/
def Layouts.resolveIn (w n : Nat) (k : Layout → Layout) : Layouts → Layout
  | .leaf l => k l
  | .branch m x y => pick w (n + m) (x.resolveIn w n k) (y.resolveIn w n k)

theorem resolveIn_id (w : Nat) (x : Layouts) : x.resolveIn w 0 id = x.resolve w := by
  induction x with
  | leaf l => rfl
  | branch m x y ih1 ih2 => simp [Layouts.resolveIn, Layouts.resolve, ih1, ih2]

theorem resolveIn_flatten (w n : Nat) (k) (x : Layouts) :
    x.flatten.resolveIn w n k = x.resolveIn w n fun l => k l.flatten := by
  induction x with
  | leaf l => rfl
  | branch m x y ih1 ih2 => simp [Layouts.resolveIn, Layouts.flatten, ih1, ih2]

theorem resolveIn_indent (w n i : Nat) (k) (x : Layouts) :
    (x.indent i).resolveIn w n k = x.resolveIn w n fun l => k (l.indent i) := by
  induction x with
  | leaf l => rfl
  | branch m x y ih1 ih2 => simp [Layouts.resolveIn, Layouts.indent, ih1, ih2]

theorem resolveIn_appendLeaf (w n : Nat) (k) (l : Layout) (y : Layouts) :
    (y.appendLeaf l).resolveIn w n k = y.resolveIn w (n + l.numNewlines) fun l2 => k (l.append l2) := by
  induction y with
  | leaf l => rfl
  | branch m x y ih1 ih2 =>
    simp only [Layouts.resolveIn, Layouts.appendLeaf, ih1, ih2]
    congr 1
    omega

theorem resolveIn_append (w n : Nat) (k) (x y : Layouts) :
    (x.append y).resolveIn w n k =
      x.resolveIn w n fun l => y.resolveIn w (n + l.numNewlines) fun l2 => k (l.append l2) := by
  induction x with
  | leaf l => exact resolveIn_appendLeaf ..
  | branch m x y ih1 ih2 => simp [Layouts.resolveIn, Layouts.append, ih1, ih2]

theorem ppCont_eq (w : Nat) (d : Doc) : ∀ n k, ppCont w d n k = (ppTree d).resolveIn w n k := by
  induction d with
  | err | empty | text | newline => intro n k; rfl
  | indent i x ih => intro n k; simp only [ppCont, ppTree, ih, resolveIn_indent]
  | flat x ih => intro n k; simp only [ppCont, ppTree, ih, resolveIn_flatten]
  | concat x y ih1 ih2 => intro n k; simp only [ppCont, ppTree, ih1, ih2, resolveIn_append]
  | choice x y ih1 ih2 => intro n k; simp [ppCont, ppTree, ih1, ih2, Layouts.resolveIn]

/-! ### Lines as strings -/

variable {P : PrettyDoc}

/-- The strings of the lines of some tokens. -/
def strs (T : List (GTok P)) : List String := (linesOf (erase T)).map segsString

theorem strs_ne_nil (T : List (GTok P)) : strs T ≠ [] := by
  simp [strs, linesOf, linesFrom_ne_nil]

theorem linesFrom_strs (cur : List (Segment P)) (T : List (Tok P)) :
    ∃ l ls, (linesOf T).map segsString = l :: ls ∧
      (linesFrom cur T).map segsString = (segsString cur ++ l) :: ls := by
  obtain ⟨l, ls, h1, h2⟩ : ∃ l ls, linesFrom [] T = l :: ls ∧ linesFrom cur T = (cur ++ l) :: ls := by
    have : ∀ c0, ∃ l ls, linesFrom c0 T = (c0 ++ l) :: ls ∧ linesFrom (cur ++ c0) T = (cur ++ (c0 ++ l)) :: ls := by
      induction T with
      | nil => intro c0; exact ⟨[], [], by simp [linesFrom]⟩
      | cons t T ih =>
        intro c0
        cases t with
        | text t =>
          obtain ⟨l, ls, h1, h2⟩ := ih (c0 ++ [t.segment])
          refine ⟨t.segment :: l, ls, ?_, ?_⟩
          · simpa [linesFrom] using h1
          · simpa [linesFrom] using h2
        | nl ind => exact ⟨[], linesFrom ind T, by simp [linesFrom]⟩
        | eol => exact ih c0
        | mark i => exact ih c0
    obtain ⟨l, ls, h1, h2⟩ := this []
    exact ⟨l, ls, by simpa using h1, by simpa using h2⟩
  exact ⟨segsString l, ls.map segsString, by simp [linesOf, h1], by simp [h2, segsString_append]⟩

/-- Gluing two lists of lines. -/
def glue (a b : List String) : List String :=
  match a.getLast?, b with
  | some last, head :: tail => a.dropLast ++ [last ++ head] ++ tail
  | _, _ => []

theorem glue_snoc (a : List String) (x y b) : glue (a ++ [x]) (y :: b) = a ++ (x ++ y) :: b := by
  simp [glue]

theorem exists_snoc {α : Type} {a : List α} (h : a ≠ []) : ∃ b x, a = b ++ [x] :=
  ⟨a.dropLast, a.getLast h, (List.dropLast_concat_getLast h).symm⟩

theorem strs_append (A B : List (GTok P)) : strs (A ++ B) = glue (strs A) (strs B) := by
  obtain ⟨ls, cur, h⟩ := exists_snoc (linesFrom_ne_nil [] (erase A))
  obtain ⟨l, ms, h1, h2⟩ := linesFrom_strs cur (erase B)
  have hA : strs A = ls.map segsString ++ [segsString cur] := by simp [strs, linesOf, h]
  rw [hA]
  unfold strs
  rw [h1, glue_snoc, erase_append, linesOf, linesFrom_append h.symm, List.map_append, h2]

theorem append_lines {a b : List String} (ha : a ≠ []) (hb : b ≠ []) :
    Layout.append (.lines a) (.lines b) = .lines (glue a b) := by
  obtain ⟨a, x, rfl⟩ := exists_snoc ha
  obtain ⟨y, b, rfl⟩ := List.exists_cons_of_ne_nil hb
  simp [Layout.append, glue]

/-- Indenting all lines but the first. -/
def indented (ind : String) : List String → List String
  | [] => []
  | l :: ls => l :: ls.map (ind ++ ·)

theorem indented_length (ind : String) (ls) : (indented ind ls).length = ls.length := by
  cases ls <;> simp [indented]

theorem indent_lines {ls : List String} (h : ls ≠ []) (i : Nat) :
    Layout.indent i (.lines ls) = .lines (indented (spaces i) ls) := by
  cases ls with
  | nil => exact absurd rfl h
  | cons l ls => rfl

theorem indented_indented (a b : String) (ls) : indented a (indented b ls) = indented (a ++ b) ls := by
  cases ls with
  | nil => rfl
  | cons l ls => simp [indented, String.append_assoc]

theorem glue_indented {ind : String} {a b : List String} (ha : a ≠ []) (hb : b ≠ []) :
    glue (indented ind a) (indented ind b) = indented ind (glue a b) := by
  obtain ⟨y, b, rfl⟩ := List.exists_cons_of_ne_nil hb
  obtain ⟨x, a, rfl⟩ := List.exists_cons_of_ne_nil ha
  rcases List.eq_nil_or_concat a with rfl | ⟨a, z, rfl⟩
  · simp [indented, glue]
  · have h1 : indented ind (x :: (a.concat z)) = (x :: a.map (ind ++ ·)) ++ [ind ++ z] := by simp [indented]
    have h2 : x :: a.concat z = (x :: a) ++ [z] := by simp
    simp only [indented] at h1 ⊢
    rw [h1, glue_snoc, h2, glue_snoc]
    simp [String.append_assoc]

theorem glue_ne_nil {a b : List String} (ha : a ≠ []) (hb : b ≠ []) : glue a b ≠ [] := by
  obtain ⟨a, x, rfl⟩ := exists_snoc ha
  obtain ⟨y, b, rfl⟩ := List.exists_cons_of_ne_nil hb
  simp [glue]

theorem glue_length {a b : List String} (ha : a ≠ []) (hb : b ≠ []) :
    (glue a b).length = a.length + (b.length - 1) := by
  obtain ⟨a, x, rfl⟩ := exists_snoc ha
  obtain ⟨y, b, rfl⟩ := List.exists_cons_of_ne_nil hb
  simp [glue]
  omega

/-! ### Widths -/

/-- A token of a plain document, where widths are lengths. -/
def PlainTok : Tok P → Prop
  | .text t => t.width = t.str.length
  | .nl ind => ∀ s ∈ ind, s.width = s.str.length
  | .eol => False
  | .mark _ => True

theorem linesFrom_plain {cur : List (Segment P)} {T : List (Tok P)} (hc : ∀ s ∈ cur, s.width = s.str.length)
    (hT : ∀ t ∈ T, PlainTok t) : ∀ l ∈ linesFrom cur T, ∀ s ∈ l, s.width = s.str.length := by
  induction T generalizing cur with
  | nil => simpa [linesFrom] using hc
  | cons t T ih =>
    have h0 := hT t (List.mem_cons_self ..)
    have hT' := fun x hx => hT x (List.mem_cons_of_mem _ hx)
    cases t with
    | text t =>
      simp only [linesFrom]
      refine ih ?_ hT'
      intro s hs
      rcases List.mem_append.1 hs with hs | hs
      · exact hc s hs
      · rw [List.mem_singleton.1 hs]; exact h0
    | nl ind =>
      simp only [linesFrom, List.mem_cons, forall_eq_or_imp]
      exact ⟨hc, ih h0 hT'⟩
    | eol => exact h0.elim
    | mark i => exact ih hc hT'

theorem segs_length {l : List (Segment P)} (h : ∀ s ∈ l, s.width = s.str.length) :
    segsWidth l = (segsString l).length := by
  induction l with
  | nil => rfl
  | cons s l ih =>
    have : segsString (s :: l) = s.str ++ segsString l := by
      have := segsString_append (P := P) [s] l
      rwa [segsString_singleton] at this
    rw [this, String.length_append, ← ih fun x hx => h x (List.mem_cons_of_mem _ hx), ← h s (List.mem_cons_self ..)]
    simp [segsWidth]

theorem fitsFrom_plain {w : Nat} {B A : List (GTok P)} (hB : ∀ t ∈ erase B, PlainTok t) (hA : ∀ t ∈ erase A, PlainTok t) :
    ∃ l, (strs (B ++ A))[(strs B).length - 1]? = some l ∧ (FitsFrom w (erase B) (erase A) ↔ l.length ≤ w) := by
  obtain ⟨line, h1, h2⟩ := line_at_split (erase B) (erase A)
  have hlen : segsWidth line = (segsString line).length := by
    refine segs_length ?_
    refine linesFrom_plain (cur := []) (by simp) ?_ line (List.mem_of_getElem? h1)
    intro t ht
    rcases List.mem_append.1 ht with ht | ht
    · exact hB t ht
    · exact hA t ht
  refine ⟨segsString line, ?_, ?_⟩
  · simp [strs, erase_append, h1]
  · unfold FitsFrom
    constructor
    · rintro ⟨⟨l, h3, h4⟩, _⟩
      rw [h1] at h3
      obtain rfl := Option.some.inj h3
      omega
    · intro h
      refine ⟨⟨line, h1, by omega⟩, ?_, ?_⟩
      · intro he
        refine absurd (hB .eol ?_) (fun h => h)
        unfold lastLine at he
        exact List.mem_reverse.1 ((List.takeWhile_sublist _).mem (List.mem_reverse.1 he))
      · intro X x Y hX he
        refine absurd (hA .eol ?_) (fun h => h)
        have : Tok.eol ∈ firstLine (erase A) := by rw [hX]; simp [he]
        exact (List.takeWhile_sublist _).mem this

/-! ### The reference implementation computes the reference layout -/

theorem finishes_congr {w : Nat} {B : List (GTok P)} {k A} (h : Finishes w B k A) :
    ∀ B', erase B' = erase B → Finishes w B' k A := by
  induction h with
  | nil => intro B' _; exact .nil
  | empty _ ih => intro B' h; exact .empty (ih _ h)
  | mark _ ih => intro B' h; exact .mark (ih _ (by simp [erase_append, h]))
  | eol _ ih => intro B' h; exact .eol (ih _ (by simp [erase_append, h]))
  | newline _ ih => intro B' h; exact .newline (ih _ (by simp [erase_append, h]))
  | text _ ih => intro B' h; exact .text (ih _ (by simp [erase_append, h]))
  | child _ ih => intro B' h; exact .child (ih _ h)
  | concat _ ih => intro B' h; exact .concat (ih _ h)
  | choice_first _ hf ih => intro B' h; exact .choice_first (ih _ (by simp [erase_append, h])) (by rw [h]; exact hf)
  | choice_second _ hf _ ih1 ih2 =>
    intro B' h
    exact .choice_second (ih1 _ (by simp [erase_append, h])) (by rw [h]; exact hf) (ih2 _ (by simp [erase_append, h]))

section

theorem ppCont_finishes {w : Nat} {d : Doc} (hd : d.Plain) (node : (simpleDoc String.length).Node)
    (kid) (id : Nat) :
    ∀ (c : Ctx (simpleDoc String.length)), c.flat = false → (∀ s ∈ c.indent, s.width = s.str.length) →
    ∀ (n : Nat) (k : Layout → Layout) (B : List (GTok (simpleDoc String.length)))
      (K : List ((simpleDoc String.length).Id × NTree (simpleDoc String.length))),
    n = (strs B).length - 1 → (∀ t ∈ erase B, PlainTok t) →
    (∀ U ls, ls ≠ [] → (∀ t ∈ erase U, PlainTok t) → strs U = indented (segsString c.indent) ls →
      ∃ A, Finishes w (B ++ U) K A ∧ (∀ t ∈ erase A, PlainTok t) ∧ k (.lines ls) = .lines (strs (B ++ U ++ A))) →
    ∃ A, Finishes w B ((id, Notation.tree (P := simpleDoc String.length) node kid d.notation none c) :: K) A ∧
      (∀ t ∈ erase A, PlainTok t) ∧ ppCont w d n k = .lines (strs (B ++ A)) := by
  induction d with
  | err => exact hd.elim
  | flat => exact hd.elim
  | empty =>
    intro c hf hc n k B K hn hB hk
    obtain ⟨A, h1, h2, h3⟩ := hk [] [""] (by simp) (by simp [erase]) rfl
    simp only [List.append_nil] at h1 h3
    exact ⟨A, .empty h1, h2, h3⟩
  | text s =>
    intro c hf hc n k B K hn hB hk
    obtain ⟨A, h1, h2, h3⟩ := hk [.tok (.text ⟨s, s.length, c.style, false⟩)] [s] (by simp) (by simp [erase, PlainTok])
      (by simp [strs, erase, linesOf, linesFrom, indented, segsString, Textual.segment])
    refine ⟨_, .text h1, ?_, ?_⟩
    · simp only [erase, List.mem_cons, forall_eq_or_imp]
      exact ⟨rfl, h2⟩
    · simpa [ppCont] using h3
  | newline =>
    intro c hf hc n k B K hn hB hk
    obtain ⟨A, h1, h2, h3⟩ := hk [.tok (.nl c.indent)] ["", ""] (by simp) (by simpa [erase, PlainTok] using hc)
      (by simp [strs, erase, linesOf, linesFrom, indented, segsString])
    refine ⟨_, .newline h1, ?_, ?_⟩
    · simp only [erase, List.mem_cons, forall_eq_or_imp]
      exact ⟨hc, h2⟩
    · simpa [ppCont] using h3
  | indent i x ih =>
    intro c hf hc n k B K hn hB hk
    refine ih hd { c with indent := c.indent ++ [⟨spaces i, (simpleDoc String.length).strWidth (spaces i), c.style⟩] } hf
      ?_ n _ B K hn hB ?_
    · intro s hs
      rcases List.mem_append.1 hs with hs | hs
      · exact hc s hs
      · rw [List.mem_singleton.1 hs]
    · intro U ls hls hU hs
      obtain ⟨A, h1, h2, h3⟩ := hk U (indented (spaces i) ls) (by
          intro h
          have := indented_length (spaces i) ls
          rw [h] at this
          exact hls (List.length_eq_zero_iff.1 this.symm)) hU
        (by rw [hs, indented_indented, segsString_append, segsString_singleton])
      exact ⟨A, h1, h2, by rw [indent_lines hls]; exact h3⟩
  | concat x y ih1 ih2 =>
    intro c hf hc n k B K hn hB hk
    refine Exists.elim (ih1 hd.1 c hf hc n
      (fun lx => ppCont w y (n + lx.numNewlines) fun ly => k (lx.append ly)) B
      ((id, Notation.tree (P := simpleDoc String.length) node kid y.notation none c) :: K) hn hB ?_)
      (fun A ⟨h1, h2, h3⟩ => ⟨A, .concat h1, h2, h3⟩)
    · intro U ls hls hU hs
      refine ih2 hd.2 c hf hc (n + (ls.length - 1))
        (fun ly => k (Layout.append (.lines ls) ly)) (B ++ U) K ?_ ?_ ?_
      · rw [strs_append, glue_length (strs_ne_nil _) (strs_ne_nil _), hs, indented_length, hn]
        have := List.length_pos_iff.2 (strs_ne_nil B)
        omega
      · intro t ht
        rw [erase_append] at ht
        rcases List.mem_append.1 ht with ht | ht
        · exact hB t ht
        · exact hU t ht
      · intro V ms hms hV hsV
        obtain ⟨A, h1, h2, h3⟩ := hk (U ++ V) (glue ls ms) (glue_ne_nil hls hms) (by
            intro t ht
            rw [erase_append] at ht
            rcases List.mem_append.1 ht with ht | ht
            · exact hU t ht
            · exact hV t ht) (by rw [strs_append, hs, hsV, glue_indented hls hms])
        refine ⟨A, by rwa [List.append_assoc], h2, ?_⟩
        rw [append_lines hls hms, h3]
        simp [List.append_assoc]
  | choice x y ih1 ih2 =>
    intro c hf hc n k B K hn hB hk
    have he : ∀ g : GTok (simpleDoc String.length), g = .first ∨ g = .second → ∀ U,
        erase (B ++ [g] ++ U) = erase (B ++ U) := by
      intro g hg U
      rcases hg with rfl | rfl <;> simp [erase_append, erase]
    have hs : ∀ g : GTok (simpleDoc String.length), g = .first ∨ g = .second → ∀ U,
        strs (B ++ [g] ++ U) = strs (B ++ U) := fun g hg U => by rw [strs, he g hg U, strs]
    have hB' : ∀ g : GTok (simpleDoc String.length), g = .first ∨ g = .second → erase (B ++ [g]) = erase B := by
      intro g hg
      have := he g hg []
      simpa using this
    have hn' : ∀ g : GTok (simpleDoc String.length), g = .first ∨ g = .second →
        n = (strs (B ++ [g])).length - 1 := by
      intro g hg
      rw [strs, hB' g hg]
      exact hn
    have hk' : ∀ g : GTok (simpleDoc String.length), g = .first ∨ g = .second →
        ∀ U ls, ls ≠ [] → (∀ t ∈ erase U, PlainTok t) → strs U = indented (segsString c.indent) ls →
        ∃ A, Finishes w (B ++ [g] ++ U) K A ∧ (∀ t ∈ erase A, PlainTok t) ∧
          k (.lines ls) = .lines (strs (B ++ [g] ++ U ++ A)) := by
      intro g hg U ls hls hU hsU
      obtain ⟨A, h1, h2, h3⟩ := hk U ls hls hU hsU
      refine ⟨A, finishes_congr h1 _ (he g hg U), h2, ?_⟩
      rw [List.append_assoc (B ++ [g]), hs g hg, ← List.append_assoc]
      exact h3
    obtain ⟨A1, f1, p1, e1⟩ := ih1 hd.1 c hf hc n k (B ++ [.first]) K (hn' _ (.inl rfl))
      (by rw [hB' _ (.inl rfl)]; exact hB) (hk' _ (.inl rfl))
    obtain ⟨A2, f2, p2, e2⟩ := ih2 hd.2 c hf hc n k (B ++ [.second]) K (hn' _ (.inr rfl))
      (by rw [hB' _ (.inr rfl)]; exact hB) (hk' _ (.inr rfl))
    rw [hs _ (.inl rfl)] at e1
    rw [hs _ (.inr rfl)] at e2
    obtain ⟨l, hl, hfit⟩ := fitsFrom_plain (w := w) hB p1
    have ht : Notation.tree (P := simpleDoc String.length) node kid (Doc.choice x y).notation none c =
        .choice (Notation.tree (P := simpleDoc String.length) node kid x.notation none c)
          (Notation.tree (P := simpleDoc String.length) node kid y.notation none c) := by
      simp [Doc.notation, Notation.tree, hf]
    rw [ht]
    have hpp : ppCont w (.choice x y) n k =
        if l.length ≤ w then .lines (strs (B ++ A1)) else .lines (strs (B ++ A2)) := by
      have hl' : (strs (B ++ A1))[n]? = some l := by rw [hn]; exact hl
      simp only [ppCont, e1, e2, pick, hl']
    by_cases hw : l.length ≤ w
    · refine ⟨.first :: A1, .choice_first f1 (hfit.2 hw), p1, ?_⟩
      rw [hpp, if_pos hw]
      have := hs .first (.inl rfl) A1
      simp only [List.append_assoc, List.cons_append, List.nil_append] at this
      rw [this]
    · refine ⟨.second :: A2, .choice_second f1 (fun h => hw (hfit.1 h)) f2, p2, ?_⟩
      rw [hpp, if_neg hw]
      have := hs .second (.inr rfl) A2
      simp only [List.append_assoc, List.cons_append, List.nil_append] at this
      rw [this]
end

end Ref
end PPP
