import Verif.Proofs.Exec
import Verif.Spec.NTree
/-
When a notation tree represents a delayed consolidated notation.
-/
namespace PPP
variable {P : PrettyDoc}

/-- The id of the node a delayed notation belongs to. -/
def DCN.idRes (d : DCN P) : Res P.Err P.Id := Call.toRes (P.id d.doc)

/-- `Rep d rid t`: evaluating `d` and everything reachable from it gives exactly the tree `t`, and
    the node it belongs to has id `rid`. -/
inductive Rep : DCN P → Res P.Err P.Id → NTree P → Prop where
  | fail {d f} : d.eval = Exec.ofRes (.error f) → Rep d d.idRes (.fail f)
  | empty {d} : d.eval = Exec.ofRes (.ok .empty) → Rep d d.idRes .empty
  | eol {d} : d.eval = Exec.ofRes (.ok .endOfLine) → Rep d d.idRes .eol
  | newline {d ind} : d.eval = Exec.ofRes (.ok (.newline ind)) →
      Rep d d.idRes (.newline ind.reverse)
  | text {d t} : d.eval = Exec.ofRes (.ok (.textual t)) → Rep d d.idRes (.text t)
  | mark {d} : d.eval = Exec.ofRes (.ok .focusMark) → Rep d d.idRes .mark
  | concat {d a b ta tb} : d.eval = Exec.ofRes (.ok (.concat a b)) →
      Rep a d.idRes ta → Rep b d.idRes tb → Rep d d.idRes (.concat ta tb)
  | choice {d a b ta tb} : d.eval = Exec.ofRes (.ok (.choice a b)) →
      Rep a d.idRes ta → Rep b d.idRes tb → Rep d d.idRes (.choice ta tb)
  | child {d i c cid t} : d.eval = Exec.ofRes (.ok (.child i c)) →
      Rep c cid t → Rep d d.idRes (.child i cid t)

/-- The tree represents an evaluated notation. -/
inductive CNRep (rid : Res P.Err P.Id) : CN P → NTree P → Prop where
  | empty : CNRep rid .empty .empty
  | eol : CNRep rid .endOfLine .eol
  | newline {ind} : CNRep rid (.newline ind) (.newline ind.reverse)
  | text {t} : CNRep rid (.textual t) (.text t)
  | mark : CNRep rid .focusMark .mark
  | concat {a b ta tb} : Rep a rid ta → Rep b rid tb → CNRep rid (.concat a b) (.concat ta tb)
  | choice {a b ta tb} : Rep a rid ta → Rep b rid tb → CNRep rid (.choice a b) (.choice ta tb)
  | child {i c cid t} : Rep c cid t → CNRep rid (.child i c) (.child i cid t)

theorem Rep.idRes_eq {d : DCN P} {rid t} (h : Rep d rid t) : rid = d.idRes := by
  cases h <;> rfl

theorem Rep.cases' {d : DCN P} {rid t} (h : Rep d rid t) :
    (∃ f, d.eval = Exec.ofRes (.error f) ∧ t = .fail f) ∨
    (∃ c, d.eval = Exec.ofRes (.ok c) ∧ CNRep rid c t) := by
  cases h with
  | fail h => exact .inl ⟨_, h, rfl⟩
  | empty h => exact .inr ⟨_, h, .empty⟩
  | eol h => exact .inr ⟨_, h, .eol⟩
  | newline h => exact .inr ⟨_, h, .newline⟩
  | text h => exact .inr ⟨_, h, .text⟩
  | mark h => exact .inr ⟨_, h, .mark⟩
  | concat h ha hb => exact .inr ⟨_, h, .concat ha hb⟩
  | choice h ha hb => exact .inr ⟨_, h, .choice ha hb⟩
  | child h hc => exact .inr ⟨_, h, .child hc⟩

theorem Rep.of_eval {d : DCN P} {c t} (he : d.eval = Exec.ofRes (.ok c))
    (h : CNRep d.idRes c t) : Rep d d.idRes t := by
  cases h with
  | empty => exact .empty he
  | eol => exact .eol he
  | newline => exact .newline he
  | text => exact .text he
  | mark => exact .mark he
  | concat ha hb => exact .concat he ha hb
  | choice ha hb => exact .choice he ha hb
  | child hc => exact .child he hc

theorem CNRep.check_ok {rid} {c : CN P} {t} (h : CNRep rid c t) : t.check = .ok () := by
  cases h <;> rfl

theorem Rep.eval_sat {d : DCN P} {rid t} (h : Rep d rid t) :
    Sat d.eval (fun c => t.check = .ok () ∧ CNRep rid c t) (fun e => t = .fail e) := by
  rcases h.cases' with ⟨f, he, rfl⟩ | ⟨c, he, hc⟩
  · exact Sat.of_eq_error he rfl
  · exact Sat.of_eq_ok he ⟨hc.check_ok, hc⟩

end PPP
