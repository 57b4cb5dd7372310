import Verif.Model.Types
import Verif.Model.CheckReport
/-!
What is counted about the inference of types: crates/ruby-analysis/src/core/type_inference_outcome.rs, and whose file it is counted for:
crates/ruby-analysis/src/engine/state.rs.

The fields of `InferenceTelemetry` are values at `Counter` (added up) and `Peak` (largest); the map of reasons is a function (a reason that is not in
the map counts 0; entries of 0 are never made). Every addition is checked (L579-585); since numbers only grow, checking them at the end is the same.
A method is a number. An equation is its method and whether it depends on constants; what the solver finds is a parameter.
-/
namespace Verif.Telemetry
open Verif.Types (Ty)
open Verif.CheckReport (natLe)

/-- type_inference_outcome.rs L24-76 `UnknownReason`: 25 reasons in the order of the match at L516-552; 0 is `MutableShapeInvalidated` and 1 is
`ShapeBoundExceeded`. -/
abbrev Reason := Fin 25

/-- The counts of `InferenceTelemetry` (L237-262) that are added up. -/
inductive Counter where
  | outcomes | proven | unknown | components | methods | iterations | boundHits | shapes | fields | unions | variants | invalidated | exceeded
deriving DecidableEq, Repr

/-- The counts of which the largest is kept. -/
inductive Peak where
  | fields | depth | variants | aliases
deriving DecidableEq, Repr

def Counter.all : List Counter :=
  [.outcomes, .proven, .unknown, .components, .methods, .iterations, .boundHits, .shapes, .fields, .unions, .variants, .invalidated, .exceeded]

@[ext] structure Telemetry where
  sum : Counter → Nat
  peak : Peak → Nat
  reasons : Reason → Nat

/-- `default()`. -/
def zero : Telemetry := ⟨fun _ => 0, fun _ => 0, fun _ => 0⟩

def fitsIn (t : Telemetry) : Bool := Counter.all.all (fun c => decide (t.sum c < 2 ^ 64)) && (List.finRange 25).all (fun r => decide (t.reasons r < 2 ^ 64))

/-- L579-585 `checked_add`: `none` is the panic. -/
def fit (t : Telemetry) : Option Telemetry := if fitsIn t then some t else none

def addCount (t : Telemetry) (c : Counter) (n : Nat) : Telemetry := ⟨fun x => if x = c then t.sum x + n else t.sum x, t.peak, t.reasons⟩
def addReason (t : Telemetry) (r : Reason) : Telemetry := ⟨t.sum, t.peak, fun x => if x = r then t.reasons x + 1 else t.reasons x⟩
def raise (t : Telemetry) (p : Peak) (n : Nat) : Telemetry := ⟨t.sum, fun x => if x = p then max (t.peak x) n else t.peak x, t.reasons⟩

/-- L588-591 `TypeInferenceState`. -/
inductive Outcome where
  | proven (t : Ty)
  | unknown (r : Reason)

/-- L331-352 `observe_method_return`. -/
def observeReturn (t : Telemetry) (o : Outcome) : Telemetry :=
  let t := addCount t .outcomes 1
  match o with
  | .proven _ => addCount t .proven 1
  | .unknown r => addReason (addCount t .unknown 1) r

/-- L354-436 `merge`, without the checks. -/
def plus (a b : Telemetry) : Telemetry := ⟨fun c => a.sum c + b.sum c, fun p => max (a.peak p) (b.peak p), fun r => a.reasons r + b.reasons r⟩

/-- L354-436 `merge`. -/
def merge (a b : Telemetry) : Option Telemetry := fit (plus a b)

/-- engine/state.rs L2684-2694 `inference_telemetry`, src/check.rs L305-321: one after the other. -/
def mergeAll : Telemetry → List Telemetry → Option Telemetry
  | t, [] => some t
  | t, x :: xs => (merge t x).bind (fun s => mergeAll s xs)

def isShape : Ty → Bool
  | .shape .. => true
  | _ => false

/-- L470-488: a union. -/
def observeUnion (t : Telemetry) (ms : List Ty) : Telemetry :=
  let n := (ms.filter isShape).length
  if 1 < n then raise (addCount (addCount t .unions 1) .variants n) .variants n else t

/-- L443-462: a shape, without what is in it. -/
def observeShape (t : Telemetry) (fields depth : Nat) : Telemetry :=
  raise (raise (addCount (addCount t .shapes 1) .fields fields) .fields fields) .depth depth

mutual
/-- L441-513 `observe_retained_type`. -/
def observeType (t : Telemetry) : Ty → Telemetry
  | .shape fs r _ _ d => observeRest (observeFields (observeShape t fs.length d) fs) r
  | .union ms => observeTypes (observeUnion t ms) ms
  | .array ts => observeTypes t ts
  | .hash ks vs => observeTypes (observeTypes t ks) vs
  | .cls _ => t
  | .mod _ => t
  | .clsRef _ => t
  | .modRef _ => t
  | .lit _ => t
  | .unknown => t
def observeTypes (t : Telemetry) : List Ty → Telemetry
  | [] => t
  | x :: xs => observeTypes (observeType t x) xs
def observeFields (t : Telemetry) : List (Verif.Types.Lit × Bool × Ty) → Telemetry
  | [] => t
  | (_, _, x) :: xs => observeFields (observeType t x) xs
def observeRest (t : Telemetry) : Option (Ty × Ty) → Telemetry
  | none => t
  | some (k, v) => observeType (observeType t k) v
end

/-- L515-555 `observe_shape_unknown`. -/
def observeUnknown (t : Telemetry) (r : Reason) : Telemetry :=
  if r = 0 then addCount t .invalidated 1 else if r = 1 then addCount t .exceeded 1 else t

/-- L557-562 `observe_max_live_shape_aliases`. -/
def observeAliases (t : Telemetry) (n : Nat) : Telemetry := raise t .aliases n

def Counter.retained : Counter → Bool
  | .shapes | .fields | .unions | .variants | .invalidated | .exceeded => true
  | _ => false

def Peak.retained : Peak → Bool
  | .aliases => false
  | _ => true

/-- L566-576 `replace_retained_shape_observations`. -/
def replaceRetained (t o : Telemetry) : Telemetry := ⟨fun c => if c.retained then o.sum c else t.sum c, fun p => if p.retained then o.peak p else t.peak p, t.reasons⟩

/-! ### Files -/

structure Equation where
  method : Nat
  constants : Bool
  body : Nat
deriving DecidableEq, Repr

/-- `InferenceEvidence` (L270-291) and the facts of the file that are counted: types (the inferred returns of methods with their method), local
reads, results of calls and unknown expressions. -/
structure File where
  id : Nat
  equations : List Equation
  outcomes : List (Nat × Outcome)
  types : List (Option Nat × Ty)
  reads : List Ty
  calls : List Outcome
  failures : List Reason
  telemetry : Telemetry

def observeOutcome (t : Telemetry) : Outcome → Telemetry
  | .proven ty => observeType t ty
  | .unknown r => observeUnknown t r

/-- engine/state.rs L2381-2414: what is seen in a file. -/
def observed (f : File) : Telemetry :=
  let t := f.types.foldl (fun t x => observeType t x.2) zero
  let t := f.reads.foldl observeType t
  let t := f.outcomes.foldl (fun t x => observeOutcome t x.2) t
  let t := f.failures.foldl observeUnknown t
  f.calls.foldl observeOutcome t

/-- engine/state.rs L2380-2422 `refresh_retained_shape_telemetry`. -/
def refresh (f : File) : File := { f with telemetry := replaceRetained f.telemetry (observed f) }

/-- `into_ruby_type`. -/
def Outcome.ty : Outcome → Ty
  | .proven t => t
  | .unknown _ => .unknown

/-- core/type_store.rs L385-: the inferred returns of the methods that have outcomes. -/
def updateTypes (outcomes : List (Nat × Outcome)) (x : Option Nat × Ty) : Option Nat × Ty :=
  match x.1 with
  | none => x
  | some m =>
    match outcomes.find? (fun o => decide (o.1 = m)) with
    | some o => (some m, o.2.ty)
    | none => x

/-- The engine: its files in order of their numbers, and the two flags (engine/state.rs L1379-1381). -/
structure Engine where
  files : List File
  dirty : Bool
  spans : Bool

def put (f : File) : List File → List File
  | [] => [f]
  | g :: gs => if g.id = f.id then f :: gs else if f.id < g.id then f :: g :: gs else g :: put f gs

/-- engine/state.rs L2279-2300: what is kept of the file before when its equations are the same. -/
def carry (p f : File) : File := { f with outcomes := p.outcomes, telemetry := p.telemetry, types := f.types.map (updateTypes p.outcomes) }

/-- engine/state.rs L2278-2377 `replace_facts`: equations, outcomes and telemetry. -/
def replace (e : Engine) (f : File) : Engine :=
  match e.files.find? (fun g => decide (g.id = f.id)) with
  | some p =>
    if p.equations = f.equations then ⟨put (refresh (carry p f)) e.files, e.dirty, e.spans⟩
    else ⟨put (refresh f) e.files, true, e.spans⟩
  | none => ⟨put (refresh f) e.files, e.dirty || decide (f.equations ≠ []), e.spans⟩

/-- The methods of equations, each once, in order (the keys of a `BTreeMap`). -/
def methodsOf (es : List Equation) : List Nat := dedupAdj (stableSort natLe (es.map Equation.method))

/-- What the solver finds for a method, and its work (L104-150 of inference/method/recursive.rs, modelled in `Solver`). -/
structure Solver where
  find : List Equation → Nat → Outcome
  work : List Equation → Telemetry

/-- recursive.rs L167-170: the returns are counted after the work. -/
def solved (s : Solver) (es : List Equation) : Telemetry := (methodsOf es).foldl (fun t m => observeReturn t (s.find es m)) (s.work es)

/-- engine/state.rs L2617-2674: the outcomes of a file, and the telemetry of all files for the first one; files without equations stay. -/
def project (s : Solver) (es : List Equation) : Bool → List File → List File
  | _, [] => []
  | first, f :: fs =>
    if f.equations.isEmpty then f :: project s es first fs
    else
      let out := (methodsOf f.equations).map (fun m => (m, s.find es m))
      let base := if first then solved s es else zero
      refresh { f with outcomes := out, types := f.types.map (updateTypes out), telemetry := observeAliases base (f.telemetry.peak .aliases) } :: project s es false fs

/-- engine/state.rs L2557-2682 `resolve_method_return_equations`. -/
def resolve (s : Solver) (e : Engine) : Engine :=
  if e.dirty then
    let owners := e.files.filter (fun f => !f.equations.isEmpty)
    if owners.length = 1 ∧ e.spans = false ∧ owners.all (fun f => f.equations.all (fun q => !q.constants)) then ⟨e.files, false, e.spans⟩
    else if owners.isEmpty then ⟨e.files, false, false⟩
    else ⟨project s (owners.flatMap File.equations) true e.files, false, decide (1 < owners.length)⟩
  else e

/-- engine/state.rs L2424-2530 `resolve_constant_type_equations`: other types for the facts of a file; the methods are solved again when an
equation depends on constants. -/
def constants (e : Engine) (id : Nat) (types : List (Option Nat × Ty)) (reads : List Ty) : Engine :=
  ⟨e.files.map (fun f => if f.id = id then { f with types := types, reads := reads } else f),
    e.dirty || e.files.any (fun f => f.equations.any Equation.constants), e.spans⟩

end Verif.Telemetry
