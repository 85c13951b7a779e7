import Verif.Proofs.Rep
import Verif.Proofs.Seq
/-
`fits` computes whether the first line of the represented trees fits.
-/
namespace PPP
variable {P : PrettyDoc}

/-- Pointwise relation of lists. -/
inductive All2 {α β : Type} (R : α → β → Prop) : List α → List β → Prop where
  | nil : All2 R [] []
  | cons {a b as bs} : R a b → All2 R as bs → All2 R (a :: as) (b :: bs)

theorem All2.append {α β : Type} {R : α → β → Prop} {as bs as' bs'} (h : All2 R as bs)
    (h' : All2 R as' bs') : All2 R (as ++ as') (bs ++ bs') := by
  induction h with
  | nil => exact h'
  | cons h _ ih => exact .cons h ih

theorem All2.length_eq {α β : Type} {R : α → β → Prop} {as bs} (h : All2 R as bs) :
    as.length = bs.length := by
  induction h with
  | nil => rfl
  | cons _ _ ih => simp [ih]

theorem All2.reverse {α β : Type} {R : α → β → Prop} {as bs} (h : All2 R as bs) :
    All2 R as.reverse bs.reverse := by
  induction h with
  | nil => exact .nil
  | cons h _ ih => simp only [List.reverse_cons]; exact ih.append (.cons h .nil)

theorem All2.mono {α β : Type} {R S : α → β → Prop} {as bs} (h : All2 R as bs)
    (hi : ∀ a b, R a b → S a b) : All2 S as bs := by
  induction h with
  | nil => exact .nil
  | cons h _ ih => exact .cons (hi _ _ h) ih

theorem All2.map_right {α β γ : Type} {R : α → β → Prop} {S : α → γ → Prop} (f : β → γ) {as bs}
    (h : All2 R as bs) (hi : ∀ a b, R a b → S a (f b)) : All2 S as (bs.map f) := by
  induction h with
  | nil => exact .nil
  | cons h _ ih => exact .cons (hi _ _ h) ih

/-- Number of nodes of a tree. -/
def NTree.size : NTree P → Nat
  | .concat a b => a.size + b.size + 1
  | .choice a b => a.size + b.size + 1
  | .child _ _ t => t.size + 1
  | _ => 1

theorem NTree.size_pos (t : NTree P) : 0 < t.size := by cases t <;> simp [NTree.size]

def sizes (ts : List (NTree P)) : Nat := (ts.map NTree.size).sum

@[simp] theorem sizes_nil : sizes ([] : List (NTree P)) = 0 := rfl
@[simp] theorem sizes_cons (t : NTree P) (ts) : sizes (t :: ts) = t.size + sizes ts := by
  simp [sizes]
@[simp] theorem sizes_append (a b : List (NTree P)) : sizes (a ++ b) = sizes a + sizes b := by
  simp [sizes]

theorem NTree.spine_sizes {t : NTree P} : ∀ {s}, t.spine = .ok s → sizes s ≤ t.size := by
  induction t with
  | concat a b iha ihb =>
    intro s h
    obtain ⟨sa, sb, ha, hb, rfl⟩ := NTree.spine_concat_ok h
    have := iha ha; have := ihb hb
    simp only [sizes_append, NTree.size]; omega
  | newline ind =>
    intro s h; simp [NTree.spine] at h; split at h <;> simp at h; subst h
    simp [NTree.size]
  | _ => intro s h; simp [NTree.spine] at h; try (subst h; simp [NTree.size])

/-- The chunk represents the item. -/
def ChunkR (c : Chunk P) (x : Item P) : Prop := c.id = x.1 ∧ CNRep (.ok x.1) c.notn x.2

theorem fitsLoop_eq (n : Nat) : ∀ {chunks : List (Chunk P)} {nots : List (CN P)} {ts ks : List (NTree P)},
    All2 (fun c t => ∃ rid, CNRep rid c t) nots ts →
    All2 (fun (c : Chunk P) t => ∃ rid, CNRep rid c.notn t) chunks ks →
    sizes ts + sizes ks + ks.length ≤ n →
    ∀ rem e, fitsLoop chunks rem nots e = Exec.ofRes (fitK (ts ++ ks) rem e) := by
  induction n with
  | zero =>
    intro chunks nots ts ks h1 h2 hn rem e
    cases h1 with
    | nil =>
      cases h2 with
      | nil => rw [fitsLoop]; rfl
      | cons _ _ => simp at hn
    | @cons _ t _ _ _ _ => have := t.size_pos; simp at hn; omega
  | succ n ih =>
    intro chunks nots ts ks h1 h2 hn rem e
    rw [fitsLoop.eq_def]
    cases h1 with
    | nil =>
      cases h2 with
      | nil => rfl
      | cons h h2 =>
        simp only [List.nil_append, sizes_nil, sizes_cons, List.length_cons] at hn ⊢
        exact ih (.cons h .nil) h2 (by simp; omega) rem e
    | @cons c t nots ts h h1 =>
      obtain ⟨rid, h⟩ := h
      simp only [sizes_cons] at hn
      cases h with
      | empty =>
        have hs : (NTree.empty : NTree P).size = 1 := rfl
        exact ih h1 h2 (by omega) rem e
      | eol =>
        have hs : (NTree.eol : NTree P).size = 1 := rfl
        exact ih h1 h2 (by omega) rem true
      | mark =>
        have hs : (NTree.mark : NTree P).size = 1 := rfl
        exact ih h1 h2 (by omega) rem e
      | newline => rfl
      | @text t =>
        have hs : (NTree.text t).size = 1 := rfl
        simp only [List.cons_append, fitK, NTree.fit]
        cases e with
        | true => rfl
        | false =>
          by_cases hw : t.width ≤ rem
          · simp only [Bool.false_eq_true, if_false, hw, if_true]
            exact ih h1 h2 (by omega) _ false
          · simp only [Bool.false_eq_true, if_false, hw]; rfl
      | @concat a b ta tb ha hb =>
        simp only [NTree.size] at hn
        simp only [List.cons_append, fitK, NTree.fit]
        rcases hb.cases' with ⟨f, he, rfl⟩ | ⟨cb, heb, hcb⟩
        · simp only [he]; rfl
        · rcases ha.cases' with ⟨f, he, rfl⟩ | ⟨ca, hea, hca⟩
          · simp only [heb, he, hcb.check_ok]; rfl
          · simp only [heb, hea, Exec.ofRes_ok_bind, hcb.check_ok, hca.check_ok]
            rw [ih (ts := ta :: tb :: ts) (.cons ⟨_, hca⟩ (.cons ⟨_, hcb⟩ h1)) h2
              (by simp; omega) rem e]
            simp only [List.cons_append, fitK, Except.bind_eq]
            cases ta.fit rem e with
            | error _ => rfl
            | ok s => cases s <;> rfl
      | @choice a b ta tb ha hb =>
        simp only [NTree.size] at hn
        simp only [List.cons_append, fitK, NTree.fit]
        rcases hb.cases' with ⟨f, he, rfl⟩ | ⟨cb, heb, hcb⟩
        · simp only [he]; rfl
        · simp only [heb, Exec.ofRes_ok_bind]
          exact ih (ts := tb :: ts) (.cons ⟨_, hcb⟩ h1) h2 (by simp; omega) rem e
      | @child i d cid t hd =>
        simp only [NTree.size] at hn
        simp only [List.cons_append, fitK, NTree.fit]
        rcases hd.cases' with ⟨f, he, rfl⟩ | ⟨cb, heb, hcb⟩
        · simp only [he]; rfl
        · simp only [heb, Exec.ofRes_ok_bind]
          exact ih (ts := t :: ts) (.cons ⟨_, hcb⟩ h1) h2 (by simp; omega) rem e

theorem fits_eq {chunks : List (Chunk P)} {items : List (Item P)} {c : CN P} {rid t}
    (hc : CNRep rid c t) (h : All2 ChunkR chunks items) (rem e) :
    fits rem e c chunks = Exec.ofRes (fitK (t :: trees items) rem e) :=
  fitsLoop_eq _ (ts := [t]) (.cons ⟨_, hc⟩ .nil)
    (h.map_right Prod.snd fun _ _ h => ⟨_, h.2⟩) (Nat.le_refl _) rem e

end PPP
