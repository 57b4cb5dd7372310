import Verif.Model.Outline

/-!
What the outline of a document should be: a tree of the declarations of the file with the visibilities Ruby gives them,
stated by recursion over the syntax tree without the flat list, the indices, the scope ids and the stacks of the visitor.
-/
namespace Verif.Outline

/-- The default visibility a bare `private`, `protected` or `public` sets. -/
def modifier : String → Option Vis
  | "private" => some .priv
  | "protected" => some .prot
  | "public" => some .pub
  | _ => none

/-- A symbol for the whole node. -/
def symbol (name : String) (kind : Kind) (first last : Nat) (vis : Vis) (singleton : Option Bool) : Sym :=
  ⟨name, kind, first, last, first, last, vis, singleton⟩

/-- The declarations of a list of nodes as a tree, in the order of the source, and the default visibility after them.
A class or module contains what is declared inside it and begins with public methods; `class << self` does too, but it is
no symbol of its own.  `sg` is true directly inside `class << self`.  Only a modifier without arguments changes the
default visibility; one with a definition as argument is about this definition alone. -/
def ruby : Forest → Vis → Bool → List Tree × Vis
  | .nil, v, _ => ([], v)
  | .node (.cls name _) a b inside next, v, sg =>
    let r := ruby next v sg
    (.node (symbol name .cls a b v none) (ruby inside .pub false).1 :: r.1, r.2)
  | .node (.mod name _) a b inside next, v, sg =>
    let r := ruby next v sg
    (.node (symbol name .module a b v none) (ruby inside .pub false).1 :: r.1, r.2)
  | .node .sing _ _ inside next, v, sg =>
    let r := ruby next v sg
    ((ruby inside .pub true).1 ++ r.1, r.2)
  | .node (.defn name receiver) a b inside next, v, sg =>
    let r := ruby next v sg
    (.node (symbol name .method a b v (some (receiver || sg))) [] :: ((ruby inside .pub sg).1 ++ r.1), r.2)
  | .node (.constant name) a b inside next, v, sg =>
    let r := ruby next v sg
    (.node (symbol name .constant a b v none) [] :: ((ruby inside v sg).1 ++ r.1), r.2)
  | .node (.call name) _ _ .nil next, v, sg => ruby next ((modifier name).getD v) sg
  | .node (.call name) _ _ inside next, v, sg =>
    let r := ruby next v sg
    ((ruby inside ((modifier name).getD v) sg).1 ++ r.1, r.2)
  | .node .other _ _ inside next, v, sg =>
    let k := ruby inside v sg
    let r := ruby next k.2 sg
    (k.1 ++ r.1, r.2)

/-- The declarations of a list of nodes as a tree, with nothing said about visibility and kind of method. -/
def nest : Forest → List Tree
  | .nil => []
  | .node (.cls name _) a b inside next => .node (symbol name .cls a b .pub none) (nest inside) :: nest next
  | .node (.mod name _) a b inside next => .node (symbol name .module a b .pub none) (nest inside) :: nest next
  | .node (.defn name _) a b inside next => .node (symbol name .method a b .pub none) [] :: (nest inside ++ nest next)
  | .node (.constant name) a b inside next => .node (symbol name .constant a b .pub none) [] :: (nest inside ++ nest next)
  | .node _ _ _ inside next => nest inside ++ nest next

/-- All declarations of a list of nodes: kind, name and offsets. -/
def declared : Forest → List (Kind × String × Nat × Nat)
  | .nil => []
  | .node tag a b inside next =>
    (match tag with
    | .cls name _ => [(.cls, name, a, b)]
    | .mod name _ => [(.module, name, a, b)]
    | .defn name _ => [(.method, name, a, b)]
    | .constant name => [(.constant, name, a, b)]
    | _ => []) ++ declared inside ++ declared next

mutual
/-- A tree with the children of every node in the opposite order. -/
def flip : Tree → Tree
  | .node s children => .node s (flipAll children).reverse
/-- The same for the trees of a list, which stay in their order. -/
def flipAll : List Tree → List Tree
  | [] => []
  | t :: ts => flip t :: flipAll ts
end

mutual
/-- A tree without what it says about visibility and kind of method. -/
def bare : Tree → Tree
  | .node s children => .node { s with vis := .pub, singleton := none } (bareAll children)
def bareAll : List Tree → List Tree
  | [] => []
  | t :: ts => bare t :: bareAll ts
end

mutual
/-- The symbols of a tree. -/
def symbolsOf : Tree → List Sym
  | .node s children => s :: symbolsAll children
def symbolsAll : List Tree → List Sym
  | [] => []
  | t :: ts => symbolsOf t ++ symbolsAll ts
end

/-- The ranges of a list of trees lie within the offsets given, those of the children within the range of their parent,
and every selection range within the range (which the protocol demands). -/
inductive Nested : Nat → Nat → List Tree → Prop where
  | nil {lo hi} : Nested lo hi []
  | cons {lo hi s children rest} :
    lo ≤ s.first → s.first ≤ s.selFirst → s.selFirst ≤ s.selLast → s.selLast ≤ s.last → s.last ≤ hi →
    Nested s.first s.last children → Nested lo hi rest → Nested lo hi (.node s children :: rest)

/-- A class or module. -/
def Tag.isNamespace : Tag → Bool
  | .cls _ _ | .mod _ _ => true
  | _ => false

/-- The nodes start at `lo` or later, and those inside a class or module start later than it (there is the keyword
between). -/
def Starts : Forest → Nat → Prop
  | .nil, _ => True
  | .node tag a _ inside next, lo => lo ≤ a ∧ Starts inside (if tag.isNamespace then a + 1 else lo) ∧ Starts next lo

/-- The nodes lie between `lo` and `hi` and those inside a node lie within it; not so in heredocs with interpolations. -/
def Placed : Forest → Nat → Nat → Prop
  | .nil, _, _ => True
  | .node tag a b inside next, lo, hi =>
    lo ≤ a ∧ a ≤ b ∧ b ≤ hi ∧ Placed inside (if tag.isNamespace then a + 1 else a) b ∧ Placed next lo hi

/-- Every class and module has a proper name. -/
def Named : Forest → Prop
  | .nil => True
  | .node tag _ _ inside next =>
    (match tag with
    | .cls _ valid | .mod _ valid => valid = true
    | _ => True) ∧ Named inside ∧ Named next

/-- No visibility modifier except in the classes, modules and singleton classes inside. -/
def Silent : Forest → Prop
  | .nil => True
  | .node tag _ _ inside next =>
    (match tag with
    | .cls _ _ | .mod _ _ | .sing => True
    | .call name => modifier name = none ∧ Silent inside
    | _ => Silent inside) ∧ Silent next

/-- No declaration and no visibility modifier at all. -/
def Quiet : Forest → Prop
  | .nil => True
  | .node tag _ _ inside next =>
    (match tag with
    | .call name => modifier name = none
    | .other => True
    | _ => False) ∧ Quiet inside ∧ Quiet next

/-- Visibility modifiers stand alone in the body of a class, module or singleton class (possibly within `if` or
`begin`): they have neither receiver nor arguments, and they are neither in methods nor in blocks nor in values. -/
def Plain : Forest → Prop
  | .nil => True
  | .node tag _ _ inside next =>
    (match tag with
    | .cls _ _ | .mod _ _ | .sing | .other => Plain inside
    | .defn _ _ => Quiet inside
    | .constant _ => Silent inside ∧ Plain inside
    | .call name => if modifier name = none then Silent inside ∧ Plain inside else inside = .nil) ∧ Plain next

end Verif.Outline
