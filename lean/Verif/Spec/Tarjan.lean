import Verif.Model.Tarjan
import Mathlib.Logic.Relation
/-! Strongly connected components, without an algorithm. -/
namespace Verif.Tarjan

/-- There is a path, possibly empty, along the dependencies. -/
def Reach (g : Nat → List Nat) : Nat → Nat → Prop := Relation.ReflTransGen (fun a b => b ∈ g a)

/-- A strongly connected component: not empty, and everything that reaches a member and is reached by it is a member. -/
def IsComponent (g : Nat → List Nat) (c : List Nat) : Prop := c ≠ [] ∧ ∀ x ∈ c, ∀ y, y ∈ c ↔ Reach g x y ∧ Reach g y x

end Verif.Tarjan
