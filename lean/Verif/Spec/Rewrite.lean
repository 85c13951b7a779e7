import Verif.Spec.Equiv
import Verif.Model.Tree
/-
Specification: documents of the sample document type that differ only in how their notations are written.
-/
namespace PPP
variable {S : Type}

/-- `Rewritten d d'`: `d'` is `d`, except that at some of its nodes (at any depth) the notation has been
    replaced by an equivalent one (`NEquiv`). -/
inductive Rewritten : Tree S → Tree S → Prop where
  | text {s id n n' style over comment sep} : NEquiv none n.1 n'.1 →
      Rewritten (.text s id n style over comment sep) (.text s id n' style over comment sep)
  | branch {cs cs' id n n' style over comment sep} : cs.length = cs'.length →
      (∀ (i : Nat) (a b : Tree S), cs[i]? = some a → cs'[i]? = some b → Rewritten a b) →
      NEquiv (some cs.length) n.1 n'.1 →
      Rewritten (.branch cs id n style over comment sep) (.branch cs' id n' style over comment sep)

end PPP
