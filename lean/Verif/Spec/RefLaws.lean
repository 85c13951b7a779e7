import Verif.Model.Reference
/-
Specification: when two documents of the reference implementation are the same —
/repo/outdated-proofs/ppp.tex:264-270.
-/
namespace PPP
namespace Ref

/-- A document with a hole. -/
inductive Ctx where
  | hole
  | indent (i : Nat) (c : Ctx)
  | flat (c : Ctx)
  | concatLeft (c : Ctx) (y : Doc)
  | concatRight (x : Doc) (c : Ctx)
  | choiceLeft (c : Ctx) (y : Doc)
  | choiceRight (x : Doc) (c : Ctx)

/-- The document with the hole filled. -/
def Ctx.fill : Ctx → Doc → Doc
  | .hole, d => d
  | .indent i c, d => .indent i (c.fill d)
  | .flat c, d => .flat (c.fill d)
  | .concatLeft c y, d => .concat (c.fill d) y
  | .concatRight x c, d => .concat x (c.fill d)
  | .choiceLeft c y, d => .choice (c.fill d) y
  | .choiceRight x c, d => .choice x (c.fill d)

/-- The two documents print alike, wherever they are used and for every width. -/
def Same (x y : Doc) : Prop := ∀ (c : Ctx) (w : Nat), (ppTree (c.fill x)).resolve w = (ppTree (c.fill y)).resolve w

/-- The document is made of texts, newlines, concatenations and choices only. -/
def Doc.Basic : Doc → Prop
  | .text _ | .newline => True
  | .concat x y | .choice x y => x.Basic ∧ y.Basic
  | _ => False

/-- A text of `i` spaces. -/
def blanks (i : Nat) : Doc := .text (String.ofList (List.replicate i ' '))

end Ref
end PPP
