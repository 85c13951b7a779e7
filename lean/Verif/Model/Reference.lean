/-
The author's two reference implementations, in Haskell — /repo/outdated-proofs/refn_impl_cont.hs and
/repo/outdated-proofs/refn_impl_tree.hs.
-/
namespace PPP
namespace Ref

/-- `Doc` — /repo/outdated-proofs/refn_impl_cont.hs:3-11 and /repo/outdated-proofs/refn_impl_tree.hs:3-11 (the same).  Indentations are
    not negative here. -/
inductive Doc where
  | err
  | empty
  | text (s : String)
  | newline
  | indent (i : Nat) (x : Doc)
  | flat (x : Doc)
  | concat (x y : Doc)
  | choice (x y : Doc)
  deriving DecidableEq

/-- `Layout` — /repo/outdated-proofs/refn_impl_cont.hs:14-15, /repo/outdated-proofs/refn_impl_tree.hs:13-14. -/
inductive Layout where
  | lines (ls : List String)
  | err
  deriving DecidableEq

/-- `flatten` — /repo/outdated-proofs/refn_impl_cont.hs:17-22, /repo/outdated-proofs/refn_impl_tree.hs:20-25. -/
def Layout.flatten : Layout → Layout
  | .err => .err
  | .lines ls => if ls.length = 1 then .lines ls else .err

/-- `replicate i ' '`. -/
def spaces (i : Nat) : String := String.ofList (List.replicate i ' ')

/-- `indent` — /repo/outdated-proofs/refn_impl_cont.hs:24-28, /repo/outdated-proofs/refn_impl_tree.hs:27-31.  (On a layout without lines, of which there are
    none, the Haskell function fails; here that is an error.) -/
def Layout.indent (i : Nat) : Layout → Layout
  | .err => .err
  | .lines [] => .err
  | .lines (line :: ls) => .lines (line :: ls.map fun l => spaces i ++ l)

/-- `append` — /repo/outdated-proofs/refn_impl_cont.hs:30-34, /repo/outdated-proofs/refn_impl_tree.hs:33-37.  (On layouts without lines, of which there are
    none, the Haskell function fails; here that is an error.) -/
def Layout.append : Layout → Layout → Layout
  | .lines ls1, .lines ls2 =>
    match ls1.getLast?, ls2 with
    | some last, head :: tail => .lines (ls1.dropLast ++ [last ++ head] ++ tail)
    | _, _ => .err
  | _, _ => .err

/-- `numNewlines` — /repo/outdated-proofs/refn_impl_cont.hs:36-38, /repo/outdated-proofs/refn_impl_tree.hs:68-70. -/
def Layout.numNewlines : Layout → Nat
  | .err => 0
  | .lines ls => ls.length - 1

/-- `pick` — /repo/outdated-proofs/refn_impl_cont.hs:40-47, /repo/outdated-proofs/refn_impl_tree.hs:39-46.  (If the first layout has no line `n`, the Haskell
    function fails; here that is an error.) -/
def pick (w n : Nat) : Layout → Layout → Layout
  | .err, .err => .err
  | .lines ls, .err => .lines ls
  | .err, .lines ls => .lines ls
  | .lines ls1, .lines ls2 =>
    match ls1[n]? with
    | some l => if l.length ≤ w then .lines ls1 else .lines ls2
    | none => .err

/-- `pp` — /repo/outdated-proofs/refn_impl_cont.hs:49-58. -/
def ppCont (w : Nat) : Doc → Nat → (Layout → Layout) → Layout
  | .err, _, k => k .err
  | .empty, _, k => k (.lines [""])
  | .text t, _, k => k (.lines [t])
  | .newline, _, k => k (.lines ["", ""])
  | .indent i x, n, k => ppCont w x n (fun l => k (l.indent i))
  | .flat x, n, k => ppCont w x n (fun l => k l.flatten)
  | .choice x y, n, k => pick w n (ppCont w x n k) (ppCont w y n k)
  | .concat x y, n, k => ppCont w x n fun x => ppCont w y (n + x.numNewlines) fun y => k (x.append y)

/-- `display` — /repo/outdated-proofs/refn_impl_cont.hs:63-65 (where an error is shown as `!`). -/
def Layout.display : Layout → String
  | .err => "!"
  | .lines ls => "\n".intercalate ls

/-- `pretty` — /repo/outdated-proofs/refn_impl_cont.hs:60-65. -/
def prettyCont (w : Nat) (x : Doc) : String := (ppCont w x 0 id).display

/-- `Layouts` — /repo/outdated-proofs/refn_impl_tree.hs:49-50. -/
inductive Layouts where
  | branch (n : Nat) (x y : Layouts)
  | leaf (l : Layout)

/-- `flatten'` — /repo/outdated-proofs/refn_impl_tree.hs:52-54. -/
def Layouts.flatten : Layouts → Layouts
  | .branch n x y => .branch n x.flatten y.flatten
  | .leaf l => .leaf l.flatten

/-- `indent'` — /repo/outdated-proofs/refn_impl_tree.hs:56-58. -/
def Layouts.indent (i : Nat) : Layouts → Layouts
  | .branch n x y => .branch n (x.indent i) (y.indent i)
  | .leaf l => .leaf (l.indent i)

/-- `append' (Leaf layout)` — /repo/outdated-proofs/refn_impl_tree.hs:62-66. -/
def Layouts.appendLeaf (l : Layout) : Layouts → Layouts
  | .leaf l2 => .leaf (l.append l2)
  | .branch n x y => .branch (n + l.numNewlines) (x.appendLeaf l) (y.appendLeaf l)

/-- `append'` — /repo/outdated-proofs/refn_impl_tree.hs:60-70. -/
def Layouts.append : Layouts → Layouts → Layouts
  | .branch n x y, z => .branch n (x.append z) (y.append z)
  | .leaf l, z => z.appendLeaf l

/-- `resolve` — /repo/outdated-proofs/refn_impl_tree.hs:72-75. -/
def Layouts.resolve (w : Nat) : Layouts → Layout
  | .leaf l => l
  | .branch n x y => pick w n (x.resolve w) (y.resolve w)

/-- `pp` — /repo/outdated-proofs/refn_impl_tree.hs:77-85. -/
def ppTree : Doc → Layouts
  | .err => .leaf .err
  | .empty => .leaf (.lines [""])
  | .text t => .leaf (.lines [t])
  | .newline => .leaf (.lines ["", ""])
  | .flat x => (ppTree x).flatten
  | .indent i x => (ppTree x).indent i
  | .concat x y => (ppTree x).append (ppTree y)
  | .choice x y => .branch 0 (ppTree x) (ppTree y)

end Ref
end PPP
