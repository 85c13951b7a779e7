import Verif.Model.Reference
import Verif.Model.Notation
/-
Specification: documents of the reference implementation as notations.
-/
namespace PPP
namespace Ref

/-- The document is made without `Err` and `Flat`.  (There is no `Err` in the printer, and its `Flat` is
    different: it takes the first option of every choice.) -/
def Doc.Plain : Doc → Prop
  | .err | .flat _ => False
  | .indent _ x => x.Plain
  | .concat x y | .choice x y => x.Plain ∧ y.Plain
  | _ => True

/-- The same document, as a notation of the printer. -/
def Doc.notation : Doc → Notation Unit Unit
  | .err | .empty => .empty
  | .text s => .literal s
  | .newline => .newline
  | .indent i x => .indent (String.ofList (List.replicate i ' ')) none x.notation
  | .flat x => .flat x.notation
  | .concat x y => .concat x.notation y.notation
  | .choice x y => .choice x.notation y.notation

end Ref
end PPP
