import Verif.Model.Doc
import Verif.Model.Validate
/-
The sample document type — /repo/src/doc_examples/tree.rs.
-/
namespace PPP

/-- `TreeCondition` — /repo/src/doc_examples/tree.rs:26-34. -/
inductive TreeCondition where
  | needsSeparator
  | isEmptyText
  | isComment
  deriving Repr, DecidableEq

/-- `TreeNotation = ValidNotation<&'static str, TreeCondition>` —
    /repo/src/doc_examples/tree.rs:36-37: a notation that passed validation. -/
abbrev TreeNotation := { n : Notation String TreeCondition // n.Valid }

/-- `Tree<S>` — /repo/src/doc_examples/tree.rs:42-69 — with `Contents<S>` (72-79) inlined: a node
    has either a text or children.  `style_overrides` is an association list. -/
inductive Tree (S : Type) where
  | text (s : String) (id : Nat) (notn : TreeNotation) (nodeStyle : S)
      (styleOverrides : List (String × S)) (isComment needsSeparator : Bool)
  | branch (children : List (Tree S)) (id : Nat) (notn : TreeNotation) (nodeStyle : S)
      (styleOverrides : List (String × S)) (isComment needsSeparator : Bool)

variable {S : Type}

/-- `tree.id`. -/
def Tree.id : Tree S → Nat
  | .text _ i _ _ _ _ _ => i
  | .branch _ i _ _ _ _ _ => i
/-- `tree.notation`. -/
def Tree.notn : Tree S → TreeNotation
  | .text _ _ n _ _ _ _ => n
  | .branch _ _ n _ _ _ _ => n
/-- `tree.node_style`. -/
def Tree.nodeStyle : Tree S → S
  | .text _ _ _ s _ _ _ => s
  | .branch _ _ _ s _ _ _ => s
/-- `tree.style_overrides`. -/
def Tree.styleOverrides : Tree S → List (String × S)
  | .text _ _ _ _ o _ _ => o
  | .branch _ _ _ _ o _ _ => o
/-- `tree.is_comment`. -/
def Tree.isComment : Tree S → Bool
  | .text _ _ _ _ _ c _ => c
  | .branch _ _ _ _ _ c _ => c
/-- `tree.needs_separator`. -/
def Tree.needsSeparator : Tree S → Bool
  | .text _ _ _ _ _ _ n => n
  | .branch _ _ _ _ _ _ n => n
/-- The children, if the contents are `Contents::Children`. -/
def Tree.children? : Tree S → Option (List (Tree S))
  | .text _ _ _ _ _ _ _ => none
  | .branch cs _ _ _ _ _ _ => some cs

/-- `child.needs_separator = true`. -/
def Tree.setNeedsSeparator : Tree S → Tree S
  | .text s i n st o c _ => .text s i n st o c true
  | .branch cs i n st o c _ => .branch cs i n st o c true

/-- `Tree::new_text` — /repo/src/doc_examples/tree.rs:86-96.  The `id` is a parameter here: the
    value of the thread-local counter `next_id()` (14-22). -/
def Tree.newText [Inhabited S] (id : Nat) (notn : TreeNotation) (text : String) : Tree S :=
  .text text id notn default [] false false

/-- The loop of `new_branch` over `children.iter_mut().rev().filter(!is_comment).skip(1)` —
    /repo/src/doc_examples/tree.rs:100-107.  The children are visited from the last to the first;
    the returned flag says whether a non-comment has already been visited (and skipped). -/
def markSeparators : List (Tree S) → List (Tree S) × Bool
  | [] => ([], false)
  | c :: cs =>
    let (cs, seen) := markSeparators cs
    if c.isComment then (c :: cs, seen)
    else if seen then (c.setNeedsSeparator :: cs, true)
    else (c :: cs, true)

/-- `Tree::new_branch` — /repo/src/doc_examples/tree.rs:99-118. -/
def Tree.newBranch [Inhabited S] (id : Nat) (notn : TreeNotation) (children : List (Tree S)) :
    Tree S :=
  .branch (markSeparators children).1 id notn default [] false false

/-- `Tree::into_comment` — /repo/src/doc_examples/tree.rs:121-124. -/
def Tree.intoComment : Tree S → Tree S
  | .text s i n st o _ x => .text s i n st o true x
  | .branch cs i n st o _ x => .branch cs i n st o true x

/-- `Tree::with_style` — /repo/src/doc_examples/tree.rs:127-130. -/
def Tree.withStyle (style : S) : Tree S → Tree S
  | .text s i n _ o c x => .text s i n style o c x
  | .branch cs i n _ o c x => .branch cs i n style o c x

/-- `Tree::with_style_override` — /repo/src/doc_examples/tree.rs:133-136. -/
def Tree.withStyleOverride (label : String) (style : S) : Tree S → Tree S
  | .text s i n st o c x => .text s i n st (o ++ [(label, style)]) c x
  | .branch cs i n st o c x => .branch cs i n st (o ++ [(label, style)]) c x

/-- `PrettyDoc::lookup_style` for `&Tree<S>` — /repo/src/doc_examples/tree.rs:170-177. -/
def Tree.lookupStyle (fromLabel : String → S) (t : Tree S) (label : String) : S :=
  match t.styleOverrides.find? (·.1 = label) with
  | some (_, s) => s
  | none => fromLabel label

/-- `PrettyDoc::condition` for `&Tree<S>` — /repo/src/doc_examples/tree.rs:200-208. -/
def Tree.condition (t : Tree S) : TreeCondition → Bool
  | .isEmptyText =>
    match t with
    | .text s _ _ _ _ _ _ => s = ""
    | .branch _ _ _ _ _ _ _ => false
  | .needsSeparator => t.needsSeparator
  | .isComment => t.isComment

/-- `PrettyDoc::unwrap_text` for `&Tree<S>` — /repo/src/doc_examples/tree.rs:186-191. -/
def Tree.unwrapText : Tree S → Call Empty String
  | .text s _ _ _ _ _ _ => .ok s
  | .branch _ _ _ _ _ _ _ => .error .panic

/-- `PrettyDoc::unwrap_child` for `&Tree<S>` — /repo/src/doc_examples/tree.rs:193-198. -/
def Tree.unwrapChild (t : Tree S) (i : Nat) : Call Empty (Tree S) :=
  match t.children? with
  | none => .error .panic
  | some cs =>
    match cs[i]? with
    | some c => .ok c
    | none => .error .panic

/-- `impl PrettyDoc for &Tree<S>` — /repo/src/doc_examples/tree.rs:150-209, with the default methods
    `unwrap_last_child` and `unwrap_prev_sibling` of /repo/src/pretty_doc.rs:68-87 (`n - 1` on `0`
    underflows, hence panics).  `Style::combine`, `From<&str>` and `str_width` are parameters. -/
@[reducible] def treeDoc (S : Type) (combine : S → S → S) (fromLabel : String → S) (strWidth : String → Nat) :
    PrettyDoc where
  Node := Tree S
  Id := Nat
  Style := S
  Label := String
  Cond := TreeCondition
  Err := Empty
  decId := inferInstance
  combine := combine
  strWidth := strWidth
  id t := .ok t.id
  notn t := .ok t.notn.1
  condition t c := .ok (t.condition c)
  lookupStyle t l := .ok (t.lookupStyle fromLabel l)
  nodeStyle t := .ok t.nodeStyle
  numChildren t := .ok (t.children?.map List.length)
  unwrapText t := t.unwrapText
  unwrapChild t i := t.unwrapChild i
  unwrapLastChild t :=
    match t.children?.map List.length with
    | none => .error .panic
    | some 0 => .error .panic
    | some (n + 1) => t.unwrapChild n
  unwrapPrevSibling _ parent i := parent.unwrapChild i

end PPP
