import Verif.Model.JavaSource
import Mathlib.Data.List.Forall2
/-!
What C83 says: depths of nodes, declarations with the names around them, texts without type arguments, words, and what decides
between declarations.
-/
namespace Verif.JavaSource

/-- The depths of the nodes of a forest, in document order. -/
def depths (d : Nat) : Forest → List Nat
  | .nil => []
  | .cons _ k n => d :: (depths (d + 1) k ++ depths d n)

/-- All declarations of types with the names of the declarations around them and their own, in document order. -/
def decls (around : List Text) : Forest → List (List Text × Node)
  | .nil => []
  | .cons i k n =>
    (if i.named = false then []
     else if isType i.kind then
      match (⟨i, k⟩ : Node).child .name with
      | none => []
      | some name => (around ++ [name.info.text], ⟨i, k⟩) :: decls (around ++ [name.info.text]) k
     else decls around k) ++ decls around n

/-- Parts with a separator between them. -/
def joinWith (s : Char) : List Text → Text
  | [] => []
  | [t] => t
  | t :: u :: ts => t ++ s :: joinWith s (u :: ts)

/-- The name of a class inside classes: not empty, not a number, and without the separators. -/
def ClassPart (t : Text) : Prop := t ≠ [] ∧ (∃ c ∈ t, digit c = false) ∧ '$' ∉ t ∧ '/' ∉ t

/-- `p` is what is left of `t` without white space at its ends. -/
def Trimmed (t p : Text) : Prop :=
  ∃ a b, t = a ++ p ++ b ∧ (∀ c ∈ a, ws c = true) ∧ (∀ c ∈ b, ws c = true) ∧
    (∀ c, p.head? = some c → ws c = false) ∧ (∀ c, p.getLast? = some c → ws c = false)

/-- Text in which every `<` has its `>`. -/
inductive Balanced : Text → Prop
  | nil : Balanced []
  | char (c : Char) (t : Text) : c ≠ '<' → c ≠ '>' → Balanced t → Balanced (c :: t)
  | group (g t : Text) : Balanced g → Balanced t → Balanced ('<' :: g ++ '>' :: t)

/-- `u` is `t` without white space and without type arguments. -/
inductive Erases : Text → Text → Prop
  | nil : Erases [] []
  | keep (c : Char) (t u : Text) : c ≠ '<' → c ≠ '>' → ws c = false → Erases t u → Erases (c :: t) (c :: u)
  | space (c : Char) (t u : Text) : ws c = true → Erases t u → Erases (c :: t) u
  | group (g t u : Text) : Balanced g → Erases t u → Erases ('<' :: g ++ '>' :: t) u

/-- `w` is a word of `t`. -/
def Word (w t : Text) : Prop :=
  w ≠ [] ∧ (∀ c ∈ w, ws c = false) ∧ ∃ a b, t = a ++ w ++ b ∧ (∀ c, a.getLast? = some c → ws c = true) ∧
    (∀ c, b.head? = some c → ws c = true)

/-- The last name in a type of source: behind the last `.` or `$`. -/
def sourceSimple (t : Text) : Text := (t.reverse.takeWhile (fun c => decide (c ≠ '.') && decide (c ≠ '$'))).reverse

/-- No name of a class in the type has a dot, as in every class file. -/
def NoDot : Ty → Prop
  | .object n => '.' ∉ n
  | .array e => NoDot e
  | _ => True

/-- The type that a parameter of source declares. -/
def Declares (p : Node) (t : Text) : Prop :=
  ∃ ty, (p.child .type_ = some ty ∨ (p.child .type_ = none ∧ firstType p = some ty)) ∧
    t = normalize (ty.info.text ++ if p.info.kind = .spread then ['[', ']'] else [])

def isParam (n : Node) : Bool :=
  match n.info.kind with
  | .formal | .spread | .receiver => true
  | _ => false

/-- `ts` are the types of the parameters of the declaration `n`. -/
def Params (n : Node) (ts : List Text) : Prop :=
  (n.info.kind = .compact ∧ ts = []) ∨
    (n.info.kind ≠ .compact ∧ ∃ ps, n.child .parameters = some ps ∧ List.Forall₂ Declares (ps.namedKids.filter isParam) ts)

/-- The declaration `n` with the name `name` and parameters of types `ts` can be that of the method. -/
structure Fits (m : Method) (ps : List Ty) (n name : Node) (ts : List Text) : Prop where
  kind : isCtor n.info.kind = true ↔ m.name = .init
  named : n.child .name = some name
  same : m.name = .init ∨ m.name = .name name.info.text
  static_ : isStatic n = m.isStatic
  params : Params n ts
  count : ts.length = ps.length

/-- The list of all that fit, in the order of the source. -/
inductive AllFits (m : Method) (ps : List Ty) : List Node → List Cand → Prop
  | nil : AllFits m ps [] []
  | fit (n name : Node) (ts : List Text) (ns : List Node) (cs : List Cand) : Fits m ps n name ts → AllFits m ps ns cs →
      AllFits m ps (n :: ns) ((n, name, ts) :: cs)
  | skip (n : Node) (ns : List Node) (cs : List Cand) : (∀ name ts, ¬ Fits m ps n name ts) → AllFits m ps ns cs →
      AllFits m ps (n :: ns) cs

/-- What decides for `c` among all that fit: it is the only one on the line; or the line does not decide and it is the only one, or
the only one with the types of the descriptor. -/
def Decides (line : Option Nat) (ps : List Ty) (cs : List Cand) (c : Cand) : Prop :=
  (∃ n, line = some n ∧ cs.filter (fun c => onLine n c.1) = [c]) ∨
    ((∀ n, line = some n → (cs.filter (fun c => onLine n c.1)).length ≠ 1) ∧
      (cs = [c] ∨ (2 ≤ cs.length ∧ cs.filter (fun c => typesMatch c.2.2 ps) = [c])))

/-- The node `c` of the declaration `n` has the name of the field. -/
def FieldName (f : FieldInfo) (c name : Node) : Prop :=
  c.info.kind = .declarator ∧ c.child .name = some name ∧ name.info.text = f.name

/-- The declaration `n` declares the field, with `name` as its name. -/
def Names (f : FieldInfo) (n name : Node) : Prop :=
  (n.info.kind = .enumConstant ∧ n.child .name = some name ∧ name.info.text = f.name) ∨
    (n.info.kind ≠ .enumConstant ∧ ∃ c ∈ n.namedKids, FieldName f c name)

/-- The same, and only once. -/
def NamesOnce (f : FieldInfo) (n name : Node) : Prop :=
  (n.info.kind = .enumConstant ∧ n.child .name = some name ∧ name.info.text = f.name) ∨
    (n.info.kind ≠ .enumConstant ∧ ∃ a c b, n.namedKids = a ++ c :: b ∧ FieldName f c name ∧
      ∀ x, x ∈ a ∨ x ∈ b → ∀ y, ¬ FieldName f x y)

/-- Children are inside their parents. -/
def Nested (lo hi : Nat) : Forest → Prop
  | .nil => True
  | .cons i k n => lo ≤ i.start ∧ i.start ≤ i.stop ∧ i.stop ≤ hi ∧ Nested i.start i.stop k ∧ Nested lo hi n

end Verif.JavaSource
