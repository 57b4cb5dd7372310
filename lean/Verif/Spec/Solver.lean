import Verif.Model.Solver
import Verif.Spec.Types
import Mathlib.Logic.Relation
/-! What a system of method return equations means. -/
namespace Verif.Solver
open Verif.Types

def HasEquation (eqs : List Equation) (m : Nat) : Prop := ∃ e ∈ eqs, e.method = m
def HasBase (eqs : List Equation) (m : Nat) (b : Base) : Prop := ∃ e ∈ eqs, e.method = m ∧ e.base = b
def Depends (eqs : List Equation) (m d : Nat) : Prop := ∃ e ∈ eqs, e.method = m ∧ d ∈ e.deps

/-- Directly, indirectly, or not at all. -/
def Needs (eqs : List Equation) : Nat → Nat → Prop := Relation.ReflTransGen (Depends eqs)

/-- The alternative comes from a proven base of the method or of one it needs. -/
def From (eqs : List Equation) (m : Nat) (x : Ty) : Prop := ∃ d b, Needs eqs m d ∧ HasBase eqs d (.proven b) ∧ AltOf b x

/-- A union somewhere in the type has unknown as a member. -/
inductive UnknownMember : Ty → Prop where
  | here {ts} : .unknown ∈ ts → UnknownMember (.union ts)
  | union {ts t} : t ∈ ts → UnknownMember t → UnknownMember (.union ts)
  | array {ts t} : t ∈ ts → UnknownMember t → UnknownMember (.array ts)
  | key {ks vs t} : t ∈ ks → UnknownMember t → UnknownMember (.hash ks vs)
  | value {ks vs t} : t ∈ vs → UnknownMember t → UnknownMember (.hash ks vs)
  | field {fs r o z d f} : f ∈ fs → UnknownMember f.2.2 → UnknownMember (.shape fs r o z d)
  | restKey {fs k v o z d} : UnknownMember k → UnknownMember (.shape fs (some (k, v)) o z d)
  | restValue {fs k v o z d} : UnknownMember v → UnknownMember (.shape fs (some (k, v)) o z d)

/-- The bases are what the collector of equations may produce: nothing unknown is called proven. -/
def Admissible (eqs : List Equation) : Prop := ∀ m t, HasBase eqs m (.proven t) → t ≠ .unknown ∧ ¬ UnknownMember t

/-- The bases are in canonical form. -/
def CanonicalBases (eqs : List Equation) : Prop := ∀ m t, HasBase eqs m (.proven t) → Canonical t

/-- The method is on a cycle, or several, with at least eight methods. -/
def BigCycle (eqs : List Equation) (m : Nat) : Prop := ∃ l : List Nat, l.Nodup ∧ l.length = 8 ∧ ∀ x ∈ l, Needs eqs m x ∧ Needs eqs x m

/-- Why nothing can be said about a method, or the solver does not say it. -/
inductive Obstacle (eqs : List Equation) (m : Nat) : Prop where
  | noEquation : ¬ HasEquation eqs m → Obstacle eqs m
  | unknownBase (r) : HasBase eqs m (.unknown r) → Obstacle eqs m
  | noBase : (∀ x, ¬ From eqs m x) → Obstacle eqs m
  | manyShapes : ManyShapes (From eqs m) → Obstacle eqs m
  | bigCycle : BigCycle eqs m → Obstacle eqs m

end Verif.Solver
