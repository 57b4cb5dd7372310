/-!
Model of `resolve_constant_fqn`, `/repo/crates/ruby-analysis/src/engine/resolution.rs` L3152-3188.

A constant is any type `C`; the two questions the engine is asked – "is there a graph node for the instance namespace
`probe`" (`graph_nodes_for`, L3170) and "is there a symbol fact for the constant `probe`" (`symbol_facts_for`, L3175) –
are arbitrary predicates.
-/
namespace Verif.Constants

/-- The two kinds of `FullyQualifiedName` that can be returned. -/
inductive Found (C : Type) where
  | namespace (path : List C)
  | constant (path : List C)
  deriving DecidableEq, Repr

/-- One probe of the loop, L3164-3177. -/
def probe {C : Type} (isNamespace isConstant : List C → Bool) (path : List C) : Option (Found C) :=
  if isNamespace path then some (.namespace path)
  else if isConstant path then some (.constant path)
  else none

/-- The loop, L3163-3186; `search` is `search_namespaces`, popped at the end (L3182). -/
def resolveFrom {C : Type} (isNamespace isConstant : List C → Bool) (parts : List C) (absolute : Bool) (search : List C) :
    Option (Found C) :=
  match probe isNamespace isConstant (search ++ parts) with
  | some found => some found
  | none =>
    if absolute || search.isEmpty then none
    else resolveFrom isNamespace isConstant parts absolute search.dropLast
termination_by search.length
decreasing_by
  have : search ≠ [] := by intro h; simp_all
  have := List.length_pos_iff.mpr this
  simp only [List.length_dropLast]; omega

/-- `resolve_constant_fqn`, L3152-3188. -/
def resolveConstant {C : Type} (isNamespace isConstant : List C → Bool) (parts : List C) (absolute : Bool)
    (context : List C) : Option (Found C) :=
  resolveFrom isNamespace isConstant parts absolute (if absolute then [] else context)

end Verif.Constants
