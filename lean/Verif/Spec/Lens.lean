import Verif.Model.Lens
/-!
What the lenses and the folding ranges should be.
-/
namespace Verif.Lens

/-- The declarations of modules in the order of the text, each with the declarations around it (outermost first). -/
def decls (around : List Cst) : Syn → List (List Cst × Cst × Nat × Nat)
  | .nil => []
  | .module c a b _ body next => (around, c, a, b) :: decls (around ++ [c]) body ++ decls around next
  | .cls c _ body next => decls (around ++ [c]) body ++ decls around next
  | .other kids next => decls around kids ++ decls around next

/-- A constant that begins with `::`. -/
def Absolute : Cst → Prop
  | .top _ => True
  | .under p _ => Absolute p
  | _ => False

/-- `A`, `A::B`: a name written with constants only. -/
def Written : Cst → List Name → Prop
  | .read n, l => l = [n]
  | .top (some n), l => l = [n]
  | .under p (some n), l => ∃ q, Written p q ∧ l = q ++ [n]
  | _, _ => False

/-- The full name of a declaration from the declarations around it and itself, as Ruby nests them. -/
inductive Nested : List Cst → List Name → Prop
  | none : Nested [] []
  | relative {around ns c l} : Nested around ns → ¬ Absolute c → Written c l → Nested (around ++ [c]) (ns ++ l)
  | absolute {around c l} : Absolute c → Written c l → Nested (around ++ [c]) l

/-- The edge of an `include`, a `prepend` or an `extend` as the lenses count it. -/
def Uses (k : Mix) (e : EdgeFact) : Prop :=
  match k with
  | .include => e.kind = .include ∧ e.source.singleton = false
  | .prepend => e.kind = .prepend ∧ e.source.singleton = false
  | .extend => e.kind = .extend

instance (k : Mix) (e : EdgeFact) : Decidable (Uses k e) := by
  cases k <;> simp only [Uses] <;> infer_instance

def HasKind (g : Graph) (n : Ns) (k : NodeKind) : Prop := ∃ x ∈ g.nodes, x.ns = n ∧ x.kind = k

/-- Known as a module and not as a class. -/
def IsModule (g : Graph) (n : Ns) : Prop := HasKind g n .module ∧ ¬ HasKind g n .cls

/-- The modules that lead to `m`. -/
inductive Leads (g : Graph) (m : Path) : Ns → Prop
  | start : Leads g m ⟨m, false⟩
  | step {t : Ns} {e : EdgeFact} : Leads g m t → e ∈ g.edges → (∃ k, Uses k e) → e.target.path = t.path → IsModule g e.source →
      Leads g m e.source

/-- The objects of `a` have the methods of `m`: `m` is among the ancestors of `a` by `include` and `prepend`. -/
inductive Ancestor (g : Graph) : Path → Path → Prop
  | direct {e : EdgeFact} : e ∈ g.edges → Uses .include e ∨ Uses .prepend e → Ancestor g e.source.path e.target.path
  | via {e : EdgeFact} {m : Path} : e ∈ g.edges → Uses .include e ∨ Uses .prepend e → Ancestor g e.target.path m →
      Ancestor g e.source.path m

/-- The class `c`, or what it is extended with, has the methods of `m`. -/
def Gets (g : Graph) (c : Ns) (m : Path) : Prop :=
  (c.singleton = false ∧ Ancestor g c.path m) ∨
    ∃ e ∈ g.edges, Uses .extend e ∧ e.source = c ∧ (e.target.path = m ∨ Ancestor g e.target.path m)

/-- The nodes in the order of the text, with a mark when a method is around. -/
def preorder (inside : Bool) : Doc → List (Bool × FoldKind × Nat × Nat)
  | .nil => []
  | .node k a b kids next => (inside, k, a, b) :: preorder (inside || decide (k = .method)) kids ++ preorder inside next

end Verif.Lens
