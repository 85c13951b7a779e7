import Verif.Spec.ProgramFormat
import Verif.Proofs.ProgramTree
import Verif.Proofs.JsonFormat
import Verif.Proofs.FlowWrap
/-
C81: what the trees of the programs write.
-/
namespace PPP
variable {P : PrettyDoc} {w : Nat}

/-- The columns of the tree that have to be on the current line. -/
def Heads (t : NTree P) (h : Nat → Nat) : Prop := ∀ w rest K, Trails w rest K → Trails w (h rest) (t :: K)

theorem Heads.text (t : Textual P) : Heads (.text t) (t.width + ·) := by
  intro w rest K hK st hst
  have := hK ⟨st.col + t.width, st.eol⟩ hst
  unfold SecondsFit at this ⊢
  rw [List.flatMap_cons, NTree.seconds, List.singleton_append, lineFits_text, this]
  simp [hst, Nat.add_assoc]

theorem Heads.newline (ind : List (Segment P)) : Heads (.newline ind) fun _ => 0 := by
  intro w rest K hK st hst
  simp [SecondsFit, NTree.seconds]

theorem Heads.child {t : NTree P} {h} (ht : Heads t h) (i : Nat) (id) : Heads (.child i id t) h := ht

theorem Heads.choice {a b : NTree P} {h} (hb : Heads b h) : Heads (.choice a b) h := hb

theorem Heads.concat {a b : NTree P} {ha hb} (h1 : Heads a ha) (h2 : Heads b hb) : Heads (.concat a b) fun r => ha (hb r) := by
  intro w rest K hK st hst
  have := h1 w _ _ (h2 w rest K hK) st hst
  rw [← this]
  simp [SecondsFit, NTree.seconds]

theorem Heads.of_eq {t : NTree P} {h h'} (ht : Heads t h) (e : ∀ r, h r = h' r) : Heads t h' := by
  intro w rest K hK
  rw [← e]
  exact ht w rest K hK

/-- What the tree does to the page, if `rest` more columns have to follow it. -/
structure Inks (w : Nat) (t : NTree P) (f : Nat → Sheet → Sheet) : Prop where
  noFail : t.NoFail
  greedy : ∀ id K rest st cur, Trails w rest K → st.eol = false → segsWidth cur = st.col →
    ∃ U st' ls last, Greedy w id t K st st' U ∧ eolRun false (erase U) = some false ∧ st'.eol = false ∧
      linesFrom cur (erase U) = ls ++ [last] ∧ segsWidth last = st'.col ∧
      ∀ done, f rest ⟨done, lineW cur⟩ = ⟨done ++ ls.map lineW, lineW last⟩

theorem Inks.of_eq {t : NTree P} {f g} (ht : Inks w t f) (e : ∀ r p, f r p = g r p) : Inks w t g := by
  have : f = g := by funext r p; exact e r p
  exact this ▸ ht

theorem Inks.text (t : Textual P) : Inks w (.text t) fun _ p => p.put t.word where
  noFail := trivial
  greedy id K rest st cur _ hst hc := by
    refine ⟨_, _, [], cur ++ [t.segment], .text, rfl, hst, rfl, ?_, fun done => ?_⟩
    · simp [segsWidth_snoc, hc]
    · simp [Sheet.put, lineW_snoc]

theorem Inks.newline (ind : List (Segment P)) : Inks w (.newline ind) fun _ p => ⟨p.done ++ [p.cur], lineW ind⟩ where
  noFail := trivial
  greedy id K rest st cur _ hst hc := ⟨_, _, [cur], ind, .newline, rfl, rfl, rfl, rfl, fun done => rfl⟩

theorem Inks.child {t : NTree P} {f} (ht : Inks w t f) (i : Nat) (id : P.Id) : Inks w (.child i (.ok id) t) f where
  noFail := ⟨⟨_, rfl⟩, ht.noFail⟩
  greedy _ K rest st cur h1 h2 h3 := by
    obtain ⟨U, st', ls, last, g, h⟩ := ht.greedy id K rest st cur h1 h2 h3
    exact ⟨U, st', ls, last, .child g, h⟩

theorem Inks.concat {a b : NTree P} {f g h} (ha : Inks w a f) (hb : Inks w b g) (hh : Heads b h) :
    Inks w (.concat a b) fun r p => g r (f (h r) p) where
  noFail := ⟨ha.noFail, hb.noFail⟩
  greedy id K rest st cur h1 h2 h3 := by
    obtain ⟨U, st1, ls, last, g1, e1, e2, e3, e4, e5⟩ := ha.greedy id (b :: K) (h rest) st cur (hh w _ _ h1) h2 h3
    obtain ⟨V, st2, ls', last', g2, i1, i2, i3, i4, i5⟩ := hb.greedy id K rest st1 last h1 e2 e4
    refine ⟨U ++ V, st2, ls ++ ls', last', .concat g1 g2, ?_, i2, ?_, i4, fun done => ?_⟩
    · rw [erase_append, eolRun_append, e1]; exact i1
    · rw [erase_append, linesFrom_append e3.symm, i3, List.append_assoc]
    · rw [e5, i5]; simp

theorem Inks.choice {a b : NTree P} {f g h} (ha : Inks w a f) (hh : Heads a h) (hb : Inks w b g) :
    Inks w (.choice a b) fun r p => if p.cur.width + h r ≤ w then f r p else g r p where
  noFail := ⟨ha.noFail, hb.noFail⟩
  greedy id K rest st cur h1 h2 h3 := by
    have hfit := hh w _ _ h1 st h2
    have hcw : (lineW cur).width = st.col := h3
    by_cases hf : st.col + h rest ≤ w
    · obtain ⟨U, st', ls, last, g', e1, e2, e3, e4, e5⟩ := ha.greedy id K rest st cur h1 h2 h3
      refine ⟨_, st', ls, last, .choice_first (hfit.2 hf) g', e1, e2, e3, e4, fun done => ?_⟩
      simp only [hcw, hf, if_true]
      exact e5 done
    · obtain ⟨U, st', ls, last, g', e1, e2, e3, e4, e5⟩ := hb.greedy id K rest st cur h1 h2 h3
      refine ⟨_, st', ls, last, .choice_second (fun h => hf (hfit.1 h)) g', e1, e2, e3, e4, fun done => ?_⟩
      simp only [hcw, hf, if_false]
      exact e5 done

/-- The tree is on one line, with the text `x`. -/
def Unbroken (w : Nat) (t : NTree P) (x : Word) : Prop := Heads t (x.width + ·) ∧ Inks w t fun _ p => p.put x

theorem Unbroken.text (t : Textual P) : Unbroken w (.text t) t.word := ⟨Heads.text t, Inks.text t⟩

theorem Unbroken.text' {t : Textual P} {x : Word} (h : t.word = x) : Unbroken w (.text t) x := h ▸ .text t

theorem Unbroken.child {t : NTree P} {x} (h : Unbroken w t x) (i : Nat) (id : P.Id) : Unbroken w (.child i (.ok id) t) x :=
  ⟨h.1.child i _, h.2.child i id⟩

theorem Unbroken.of_eq {t : NTree P} {x y} (h : Unbroken w t x) (e : x = y) : Unbroken w t y := e ▸ h

theorem Sheet.put_put (p : Sheet) (x y : Word) : (p.put x).put y = p.put (x ++ y) := by
  simp [Sheet.put, Word.append_assoc]

theorem Unbroken.concat {a b : NTree P} {x y} (ha : Unbroken w a x) (hb : Unbroken w b y) : Unbroken w (.concat a b) (x ++ y) :=
  ⟨(ha.1.concat hb.1).of_eq fun r => by simp [Nat.add_assoc], (ha.2.concat hb.2 hb.1).of_eq fun r p => Sheet.put_put _ _ _⟩

/-- A whole document. -/
theorem Inks.prints (law : P.Lawful) {doc : P.Node} {id : P.Id} {t : NTree P} {f} (ht : Inks w t f)
    (hr : rootTree law doc none = .ok (id, t)) (s : String) :
    prettyPrintToString doc w = Exec.ofRes (.ok s) ↔
      s = "\n".intercalate ((f 0 ⟨[], .none⟩).lines.map Word.str) ∧ ∀ l ∈ (f 0 ⟨[], .none⟩).lines, l.width ≤ maxWidth := by
  obtain ⟨U, st', ls, last, g, e1, e2, e3, e4, e5⟩ := ht.greedy id [] 0 ⟨0, false⟩ []
    (fun st _ => by simp [SecondsFit]) rfl rfl
  have e5 := e5 []
  rw [lineW_nil] at e5
  rw [e5]
  have := print_of_greedy law hr ht.noFail ⟨_, g⟩ (eolRun_no_defect _ e1)
    (L := (Sheet.lines ⟨[] ++ ls.map lineW, lineW last⟩).map fun x => (x.str, x.width)) (by
      rw [show linesOf (erase U) = ls ++ [last] from e3]
      simp [Sheet.lines, lineOf, lineW]) s
  simpa [List.map_map, Function.comp_def] using this

/-! ### Method chains -/

variable {sw : String → Nat}

theorem chain_one (e : ChainExpr) : ∀ next ind, Unbroken w (e.ntree sw next ⟨true, ind, ()⟩) (e.word sw) := by
  induction e with
  | var name => intro next ind; exact Unbroken.text _
  | methodCall obj method arg iho iha =>
    intro next ind
    have h : Unbroken w ((ChainExpr.methodCall obj method arg).ntree sw next ⟨true, ind, ()⟩) _ :=
      (((iho next ind).child 0 _).concat (((((Unbroken.text _).concat ((Unbroken.text _).child 1 _)).concat (.text _)).concat
        ((iha (obj.build next).2 ind).child 2 _)).concat (.text _)) :)
    refine h.of_eq ?_
    simp [Textual.word, Word.append_mk, ChainExpr.word, ChainExpr.source, ChainExpr.cols, String.append_assoc, Nat.add_assoc]
  | closure v body ih =>
    intro next ind
    have h : Unbroken w ((ChainExpr.closure v body).ntree sw next ⟨true, ind, ()⟩) _ :=
      (((((Unbroken.text _).concat ((Unbroken.text _).child 0 _)).concat (.text _)).concat
        ((ih next ind).child 1 _)).concat (.text _) :)
    refine h.of_eq ?_
    simp [Textual.word, Word.append_mk, ChainExpr.word, ChainExpr.source, ChainExpr.cols, String.append_assoc, Nat.add_assoc]
  | times a b iha ihb =>
    intro next ind
    have h : Unbroken w ((ChainExpr.times a b).ntree sw next ⟨true, ind, ()⟩) _ :=
      ((((iha next ind).child 0 _).concat (.text _)).concat ((ihb (a.build next).2 ind).child 1 _) :)
    refine h.of_eq ?_
    simp [Textual.word, Word.append_mk, ChainExpr.word, ChainExpr.source, ChainExpr.cols, String.append_assoc, Nat.add_assoc]

theorem Heads.broken (ind : List (Segment P)) (x : NTree P) : Heads (.concat (.newline ind) x) fun _ => 0 := by
  intro w rest K hK st hst
  simp [SecondsFit, NTree.seconds]

theorem chain_heads (e : ChainExpr) : ∀ next ind, Heads (e.ntree sw next ⟨false, ind, ()⟩) (e.head sw) := by
  induction e with
  | var name => intro next ind; exact Heads.text _
  | methodCall obj method arg iho iha =>
    intro next ind
    have h : Heads ((ChainExpr.methodCall obj method arg).ntree sw next ⟨false, ind, ()⟩) _ :=
      (((iho next ind).child 0 _).concat (.choice (Heads.broken _ _)) :)
    exact h
  | closure v body ih =>
    intro next ind
    have h : Heads ((ChainExpr.closure v body).ntree sw next ⟨false, ind, ()⟩) _ :=
      (Heads.choice (((((Heads.text _).concat ((Heads.text _).child 0 _)).concat (.text _)).concat
        (Heads.broken _ _)).concat (.newline _) |>.concat (.text _)) :)
    refine h.of_eq fun r => ?_
    simp [ChainExpr.head, Nat.add_assoc]
  | times a b iha ihb =>
    intro next ind
    exact (((iha next ind).child 0 _).concat (.text _)).concat ((ihb (a.build next).2 ind).child 1 _)

theorem lineW_four {ind : List (Segment P)} {k : Nat} (h : lineW ind = levelIndent sw k) (st : P.Style) :
    lineW (ind ++ [⟨String.ofList (List.replicate 4 ' '), sw (String.ofList (List.replicate 4 ' ')), st⟩]) = levelIndent sw (k + 1) := by
  have e : lineW (ind ++ [⟨String.ofList (List.replicate 4 ' '), sw (String.ofList (List.replicate 4 ' ')), st⟩]) =
      lineW ind ++ piece sw (String.ofList (List.replicate 4 ' ')) := by
    simp [lineW, segsString, segsWidth, piece, Word.append_mk]
  rw [e, h]
  rfl

theorem Inks.newLine {ind : List (Segment P)} {k : Nat} (h : lineW ind = levelIndent sw k) :
    Inks w (.newline ind) fun _ p => p.newLine sw k :=
  (Inks.newline ind).of_eq fun r p => by rw [h]; rfl

theorem chain_inks (e : ChainExpr) : ∀ next ind k, lineW ind = levelIndent sw k →
    Inks w (e.ntree sw next ⟨false, ind, ()⟩) (e.write sw w k) := by
  induction e with
  | var name => intro next ind k hk; exact Inks.text _
  | methodCall obj method arg iho iha =>
    intro next ind k hk
    have h1 := lineW_four hk ()
    have h2 := lineW_four h1 ()
    have call : ∀ ind id1 id2, Unbroken (P := chainDoc sw) w (.concat (.concat (.concat (.concat (.text ⟨".", sw ".", (), false⟩)
        (.child 1 (.ok id1) (.text ⟨method, sw method, (), true⟩))) (.text ⟨"(", sw "(", (), false⟩))
        (.child 2 (.ok id2) (arg.ntree sw (obj.build next).2 ⟨true, ind, ()⟩))) (.text ⟨")", sw ")", (), false⟩)) (arg.call sw method) :=
      fun ind id1 id2 => ((((Unbroken.text _).concat ((Unbroken.text _).child 1 _)).concat (.text _)).concat
        ((chain_one arg (obj.build next).2 ind).child 2 _)).concat (.text _)
    have h : Inks w ((ChainExpr.methodCall obj method arg).ntree sw next ⟨false, ind, ()⟩) _ :=
      (((iho next ind k hk).child 0 _).concat (Inks.choice (call ind _ _).2 (call ind _ _).1
        ((Inks.newLine h1).concat (Inks.choice (call _ _ _).2 (call _ _ _).1
          ((((((Inks.text _).concat ((Inks.text _).child 1 _) ((Heads.text _).child 1 _)).concat (.text _) (.text _)).concat
            ((Inks.newLine h2).concat ((iha (obj.build next).2 _ _ h2).child 2 _) ((chain_heads arg (obj.build next).2 _).child 2 _))
              (Heads.broken _ _)).concat (Inks.newLine h1) (Heads.newline _)).concat (.text _) (.text _)))
          (Heads.choice (((((Heads.text _).concat ((Heads.text _).child 1 _)).concat (.text _)).concat
            (Heads.broken _ _)).concat (.newline _) |>.concat (.text _)))))
        (.choice (Heads.broken _ _)) :)
    refine h.of_eq fun r p => ?_
    simp only [ChainExpr.write, Nat.add_assoc]
    rfl
  | closure v body ih =>
    intro next ind k hk
    have h1 := lineW_four hk ()
    have h : Inks w ((ChainExpr.closure v body).ntree sw next ⟨false, ind, ()⟩) _ :=
      (Inks.choice
        (((((Inks.text _).concat ((Inks.text _).child 0 _) ((Heads.text _).child 0 _)).concat (.text _) (.text _)).concat
          ((ih next ind k hk).child 1 _) ((chain_heads body next ind).child 1 _)).concat (.text _) (.text _))
        (((((Heads.text _).concat ((Heads.text _).child 0 _)).concat (.text _)).concat
          ((chain_heads body next ind).child 1 _)).concat (.text _))
        ((((((Inks.text _).concat ((Inks.text _).child 0 _) ((Heads.text _).child 0 _)).concat (.text _) (.text _)).concat
          ((Inks.newLine h1).concat ((ih next _ _ h1).child 1 _) ((chain_heads body next _).child 1 _))
            (Heads.broken _ _)).concat (Inks.newLine hk) (Heads.newline _)).concat (.text _) (.text _)) :)
    refine h.of_eq fun r p => ?_
    have e1 : ∀ q : Sheet, ((q.put (piece sw "|")).put (piece sw v)).cur.width = q.cur.width + (sw "|" + sw v) := by
      intro q; simp [Sheet.put, piece, Nat.add_assoc]
    simp only [ChainExpr.write, e1, Nat.add_assoc]
    rfl
  | times a b iha ihb =>
    intro next ind k hk
    exact (((iha next ind k hk).child 0 _).concat (.text _) (.text _)).concat ((ihb (a.build next).2 ind k hk).child 1 _)
      ((chain_heads b (a.build next).2 ind).child 1 _)

/-! ### Loops -/

theorem ruby_one (e : RubyExpr) : ∀ next ind, Unbroken w (e.ntree sw next ⟨true, ind, ()⟩) (e.word sw) := by
  induction e with
  | var name => intro next ind; exact Unbroken.text _
  | methodCall obj method arg iho iha =>
    intro next ind
    have h : Unbroken w ((RubyExpr.methodCall obj method arg).ntree sw next ⟨true, ind, ()⟩) _ :=
      (((iho next ind).child 0 _).concat ((((Unbroken.text _).concat ((Unbroken.text _).child 1 _)).concat (.text _)).concat
        ((iha (obj.build next).2 ind).child 2 _)) :)
    refine h.of_eq ?_
    simp [Textual.word, Word.append_mk, RubyExpr.word, RubyExpr.source, RubyExpr.cols, String.append_assoc, Nat.add_assoc]
  | doLoop v body ih =>
    intro next ind
    have h : Unbroken w ((RubyExpr.doLoop v body).ntree sw next ⟨true, ind, ()⟩) _ :=
      (((((Unbroken.text _).concat ((Unbroken.text _).child 0 _)).concat (.text _)).concat
        ((ih next ind).child 1 _)).concat (.text _) :)
    refine h.of_eq ?_
    simp [Textual.word, Word.append_mk, RubyExpr.word, RubyExpr.source, RubyExpr.cols, String.append_assoc, Nat.add_assoc]

theorem ruby_heads (e : RubyExpr) : ∀ next ind, Heads (e.ntree sw next ⟨false, ind, ()⟩) (e.head sw) := by
  induction e with
  | var name => intro next ind; exact Heads.text _
  | methodCall obj method arg iho iha =>
    intro next ind
    have h : Heads ((RubyExpr.methodCall obj method arg).ntree sw next ⟨false, ind, ()⟩) _ :=
      (((iho next ind).child 0 _).concat (.choice (Heads.broken _ _)) :)
    exact h
  | doLoop v body ih =>
    intro next ind
    have h : Heads ((RubyExpr.doLoop v body).ntree sw next ⟨false, ind, ()⟩) _ :=
      (Heads.choice (((((Heads.text _).concat ((Heads.text _).child 0 _)).concat (.text _)).concat
        (Heads.broken _ _)).concat (.newline _) |>.concat (.text _)) :)
    refine h.of_eq fun r => ?_
    simp [RubyExpr.head, Nat.add_assoc]

theorem ruby_inks (e : RubyExpr) : ∀ next ind k, lineW ind = levelIndent sw k →
    Inks w (e.ntree sw next ⟨false, ind, ()⟩) (e.write sw w k) := by
  induction e with
  | var name => intro next ind k hk; exact Inks.text _
  | methodCall obj method arg iho iha =>
    intro next ind k hk
    have h1 := lineW_four hk ()
    have h2 := lineW_four h1 ()
    have single : ∀ ind k id1 id2, lineW ind = levelIndent sw k →
        Inks (P := rubyDoc sw) w (.concat (.concat (.concat (.text ⟨".", sw ".", (), false⟩)
          (.child 1 (.ok id1) (.text ⟨method, sw method, (), true⟩))) (.text ⟨" ", sw " ", (), false⟩))
          (.child 2 (.ok id2) (arg.ntree sw (obj.build next).2 ⟨false, ind, ()⟩)))
          (fun r p => arg.write sw w k r (((p.put (piece sw ".")).put (piece sw method)).put (piece sw " "))) :=
      fun ind k id1 id2 hk => (((Inks.text _).concat ((Inks.text _).child 1 _) ((Heads.text _).child 1 _)).concat (.text _) (.text _)).concat
        ((iha (obj.build next).2 ind k hk).child 2 _) ((ruby_heads arg (obj.build next).2 ind).child 2 _)
    have singleH : ∀ ind id1 id2, Heads (P := rubyDoc sw) (.concat (.concat (.concat (.text ⟨".", sw ".", (), false⟩)
          (.child 1 (.ok id1) (.text ⟨method, sw method, (), true⟩))) (.text ⟨" ", sw " ", (), false⟩))
          (.child 2 (.ok id2) (arg.ntree sw (obj.build next).2 ⟨false, ind, ()⟩)))
          (fun r => sw "." + (sw method + (sw " " + arg.head sw r))) :=
      fun ind id1 id2 => (((Heads.text _).concat ((Heads.text _).child 1 _)).concat (.text _)).concat
        ((ruby_heads arg (obj.build next).2 ind).child 2 _)
    have h : Inks w ((RubyExpr.methodCall obj method arg).ntree sw next ⟨false, ind, ()⟩) _ :=
      (((iho next ind k hk).child 0 _).concat (Inks.choice (single ind k _ _ hk) (singleH ind _ _)
        ((Inks.newLine h1).concat (Inks.choice (single _ _ _ _ h1) (singleH _ _ _)
          (((Inks.text _).concat ((Inks.text _).child 1 _) ((Heads.text _).child 1 _)).concat
            ((Inks.newLine h2).concat ((iha (obj.build next).2 _ _ h2).child 2 _) ((ruby_heads arg (obj.build next).2 _).child 2 _))
              (Heads.broken _ _)))
          (Heads.choice (((Heads.text _).concat ((Heads.text _).child 1 _)).concat (Heads.broken _ _)))))
        (.choice (Heads.broken _ _)) :)
    refine h.of_eq fun r p => ?_
    have e1 : ∀ q : Sheet, ((q.put (piece sw ".")).put (piece sw method)).cur.width = q.cur.width + (sw "." + sw method) := by
      intro q; simp [Sheet.put, piece, Nat.add_assoc]
    simp only [RubyExpr.write, e1, Nat.add_assoc]
    rfl
  | doLoop v body ih =>
    intro next ind k hk
    have h1 := lineW_four hk ()
    have h : Inks w ((RubyExpr.doLoop v body).ntree sw next ⟨false, ind, ()⟩) _ :=
      (Inks.choice
        (((((Inks.text _).concat ((Inks.text _).child 0 _) ((Heads.text _).child 0 _)).concat (.text _) (.text _)).concat
          ((ruby_one body next ind).child 1 _).2 ((ruby_one (w := w) body next ind).child 1 _).1).concat (.text _) (.text _))
        (((((Heads.text _).concat ((Heads.text _).child 0 _)).concat (.text _)).concat
          ((ruby_one (w := w) body next ind).child 1 _).1).concat (.text _))
        ((((((Inks.text _).concat ((Inks.text _).child 0 _) ((Heads.text _).child 0 _)).concat (.text _) (.text _)).concat
          ((Inks.newLine h1).concat ((ih next _ _ h1).child 1 _) ((ruby_heads body next _).child 1 _))
            (Heads.broken _ _)).concat (Inks.newLine hk) (Heads.newline _)).concat (.text _) (.text _)) :)
    refine h.of_eq fun r p => ?_
    have e1 : ∀ q : Sheet, ((q.put (piece sw "do |")).put (piece sw v)).cur.width = q.cur.width + (sw "do |" + sw v) := by
      intro q; simp [Sheet.put, piece, Nat.add_assoc]
    simp only [RubyExpr.write, e1, Nat.add_assoc]
    rfl

end PPP
