import Verif.Model.Types
import Verif.Model.Tarjan
/-!
Model of the solver of method return equations (crates/ruby-analysis/src/inference/method/recursive.rs L16-242).

Simplifications: methods are numbers in the order of their names; an unknown reason is a number; a map from methods to results is
a function; the telemetry is left out.  `none` is a panic.
-/
namespace Verif.Solver
open Verif.Types

/-- core/method_return_equation.rs L16-20 `MethodReturnBase`. -/
inductive Base where
  | bottom
  | proven (t : Ty)
  | unknown (r : Nat)
  deriving DecidableEq

/-- core/method_return_equation.rs L27-33 `MethodReturnEquation` after its constants have been resolved. -/
structure Equation where
  method : Nat
  base : Base
  deps : List Nat

/-- core/type_inference_outcome.rs L583-591 `TypeInferenceOutcome`. -/
inductive Out where
  | proven (t : Ty)
  | unknown (r : Nat)
  deriving DecidableEq

/-- L18-23 `Approximation`. -/
inductive Approx where
  | bottom
  | proven (t : Ty)
  | unknown (r : Nat)
  deriving DecidableEq

/-- `UnknownReason::UnresolvedMethodReturn`, `UnknownReason::UnprovenRecursiveCycle`. -/
def unresolvedReturn : Nat := 0
def unprovenCycle : Nat := 1

mutual
/-- core/ruby_type.rs L205-233 `nested_union_contains_unknown`. -/
def nestedUnknown : Ty → Bool
  | .union ts => memberUnknown ts
  | .array ts => nestedUnknownList ts
  | .hash ks vs => nestedUnknownList ks || nestedUnknownList vs
  | .shape fs r _ _ _ => nestedUnknownFields fs || nestedUnknownRest r
  | _ => false
/-- `members.iter().any(|member| member == Unknown || nested_union_contains_unknown(member))` -/
def memberUnknown : List Ty → Bool
  | [] => false
  | t :: l => t.isUnknown || nestedUnknown t || memberUnknown l
def nestedUnknownList : List Ty → Bool
  | [] => false
  | t :: l => nestedUnknown t || nestedUnknownList l
def nestedUnknownFields : List (Lit × Bool × Ty) → Bool
  | [] => false
  | (_, _, t) :: l => nestedUnknown t || nestedUnknownFields l
def nestedUnknownRest : Option (Ty × Ty) → Bool
  | none => false
  | some (k, v) => nestedUnknown k || nestedUnknown v
end

/-- core/ruby_type.rs L144-172 `union_members_contain_unknown`. -/
def unionUnknown (t : Ty) : Bool := t.isUnknown || nestedUnknown t

/-- core/type_inference_outcome.rs L598-610 `TypeInferenceOutcome::proven`. -/
def Out.ofProven (t : Ty) : Option Out := if unionUnknown t then none else some (.proven t)

/-- L26-35 `into_outcome`. -/
def Approx.intoOutcome : Approx → Bool → Option Out
  | .proven t, _ => Out.ofProven t
  | .bottom, recursive => some (.unknown (if recursive then unprovenCycle else unresolvedReturn))
  | .unknown r, recursive => some (.unknown (if recursive then unprovenCycle else r))

/-- L202-213, with the value of a dependency inside the component given by `approx`. -/
def depValue (comp : List Nat) (approx : List (Nat × Approx)) (solved : Nat → Option Out) (d : Nat) : Option Approx :=
  if comp.contains d then (approx.find? (fun p => decide (p.1 = d))).map (·.2)
  else
    match solved d with
    | some (.proven t) => some (.proven t)
    | some (.unknown r) => some (.unknown r)
    | none => some (.unknown unresolvedReturn)

/-- What the loops of `evaluate_method` have so far: the alternatives, or the answer `Unknown`. -/
inductive Acc where
  | alts (ts : List Ty)
  | unknown (r : Nat)

/-- L196-224: the loop over the dependencies of one definition. -/
def addDeps (value : Nat → Option Approx) : List Nat → List Ty → Option Acc
  | [], ts => some (.alts ts)
  | d :: ds, ts =>
    match value d with
    | none => none
    | some .bottom => addDeps value ds ts
    | some (.proven t) => addDeps value ds (ts ++ [t])
    | some (.unknown r) => some (.unknown r)

/-- L195-230: the loop over the definitions. -/
def addDefs (value : Nat → Option Approx) : List Equation → List Ty → Option Acc
  | [], ts => some (.alts ts)
  | e :: es, ts =>
    match e.base with
    | .unknown r => some (.unknown r)
    | b =>
      match addDeps value e.deps (match b with | .proven t => ts ++ [t] | _ => ts) with
      | none => none
      | some (.unknown r) => some (.unknown r)
      | some (.alts ts) => addDefs value es ts

/-- The definitions of one method, in order (L60-66). -/
def definitions (eqs : List Equation) (m : Nat) : List Equation := eqs.filter fun e => decide (e.method = m)

/-- L185-242 `evaluate_method`. -/
def evaluate (eqs : List Equation) (comp : List Nat) (approx : List (Nat × Approx)) (solved : Nat → Option Out) (m : Nat) : Option Approx :=
  match addDefs (depValue comp approx solved) (definitions eqs m) [] with
  | none => none
  | some (.unknown r) => some (.unknown r)
  | some (.alts ts) =>
    some (if ts.isEmpty then .bottom
      else if mkUnion ts = .unknown then .unknown unresolvedReturn
      else .proven (mkUnion ts))

/-- L16. -/
def maxIterations : Nat := 8

/-- `component.iter().map(..).collect()`: one result per method. -/
def mapAll (f : Nat → Option Approx) : List Nat → Option (List (Nat × Approx))
  | [] => some []
  | m :: l => (f m).bind fun a => (mapAll f l).map fun r => (m, a) :: r

/-- L119-140: the bounded iteration; the last approximations if they are stable. -/
def iterate (f : List (Nat × Approx) → Option (List (Nat × Approx))) : Nat → List (Nat × Approx) → Option (Option (List (Nat × Approx)))
  | 0, _ => some none
  | n + 1, approx =>
    (f approx).bind fun next => if next = approx then some (some next) else iterate f n next

def put {α : Type} (f : Nat → α) (k : Nat) (a : α) : Nat → α := fun x => if x = k then a else f x

/-- L149-161: store the outcomes of a recursive component. -/
def storeAll (value : Nat → Option Out) : List Nat → (Nat → Option Out) → Option (Nat → Option Out)
  | [], solved => some solved
  | m :: l, solved => (value m).bind fun o => storeAll value l (put solved m (some o))

/-- L60-66: the methods with an equation, in order. -/
def methods (eqs : List Equation) : List Nat := dedupAdj (stableSort Nat.ble (eqs.map (·.method)))

/-- L68-78: the dependencies of a method among them, in order. -/
def graph (eqs : List Equation) (m : Nat) : List Nat :=
  dedupAdj (stableSort Nat.ble (((definitions eqs m).flatMap (·.deps)).filter fun d => (methods eqs).contains d))

/-- L85-161: one component. -/
def solveComponent (eqs : List Equation) (solved : Nat → Option Out) (comp : List Nat) : Option (Nat → Option Out) :=
  let recursive := decide (comp.length > 1) || comp.any fun m => (graph eqs m).contains m
  if !recursive then
    match comp with
    | [] => none
    | m :: _ => (evaluate eqs comp [] solved m).bind fun a => (a.intoOutcome false).map fun o => put solved m (some o)
  else
    (iterate (fun approx => mapAll (evaluate eqs comp approx solved) comp) maxIterations (comp.map fun m => (m, .bottom))).bind fun r =>
    storeAll (fun m =>
      match r with
      | none => some (.unknown unprovenCycle)
      | some approx => ((approx.find? (fun p => decide (p.1 = m))).map (·.2)).bind fun a => a.intoOutcome true) comp solved

def solveAll (eqs : List Equation) : List (List Nat) → (Nat → Option Out) → Option (Nat → Option Out)
  | [], solved => some solved
  | c :: cs, solved => (solveComponent eqs solved c).bind (solveAll eqs cs)

/-- L57-175 `solve_method_return_equations_with_telemetry`. -/
def solve (eqs : List Equation) : Option (Nat → Option Out) :=
  (Tarjan.components (graph eqs) (methods eqs)).bind fun cs => solveAll eqs cs fun _ => none

end Verif.Solver
