import Verif.Model.Visibility
import Verif.Model.Sort

/-!
Model of the lookup of the method that a call reaches: `crates/ruby-analysis/src/engine/resolution.rs` 732-757, 796-805,
905-1032 (`resolve_method_callees_inner`, `resolve_super_method_callee`) and 2791-3150 (`method_callee_in_chain` and what it
uses), with `method_facts_matching_owner_name` and `method_visibility_overrides_matching_owner_name` of
`engine/state.rs` 3148-3231.

Left out: the lookup chain (`method_lookup_chain`, modelled in `Verif.Model.Mro`), the includers of a module, the targets of
execution contexts and the existence of namespaces are parameters here.  The order of callees by printed owner is a
parameter.  Owners are compared by parts and kind, which is equality of owners.
-/
namespace Verif.MethodLookup

open Verif.Visibility

/-- What lookup reads from the engine. -/
structure Base where
  facts : List Fact
  overrides : List Override
  /-- `method_lookup_chain` -/
  chain : Owner → List Owner
  /-- `namespace_target_exists` -/
  known : Owner → Bool
  /-- `is_module_instance_namespace` -/
  isModule : Owner → Bool
  /-- `module_includers` -/
  includers : Owner → List Owner
  /-- `execution_context_application_targets` -/
  applications : Owner → List Owner
  /-- less or equal of printed owners -/
  ownerLe : Owner → Owner → Bool

/-- `BasicObject` (resolution.rs 3103-3113). -/
def basicObject : Owner := ⟨[0], false⟩

/-- engine/state.rs 3873-3894 `retain_effective_method_availability`, for facts of one name. -/
def retainAvailable (l : List Fact) : List Fact :=
  if l.any (fun f => decide (f.avail = .absent)) then []
  else if l.any (fun f => decide (f.avail = .unavailable)) then l.filter (fun f => decide (f.avail = .unavailable))
  else l

/-- engine/state.rs 3148-3167 `method_facts_matching_owner_name`. -/
def factsAt (B : Base) (o : Owner) (m : Nat) : List Fact :=
  retainAvailable (B.facts.filter (fun f => decide (f.owner = o ∧ f.name = m)))

/-- engine/state.rs 3214-3229 `method_visibility_overrides_matching_owner_name`. -/
def overridesAt (B : Base) (o : Owner) (m : Nat) : List Override :=
  B.overrides.filter (fun f => decide (f.name = m ∧ f.owner = o))

/-- resolution.rs 2917-2943 `method_visibility_override_for_chain`. -/
def overrideFor (B : Base) (owner : Owner) (m : Nat) : List Owner → Option Override
  | [] => none
  | a :: rest =>
    match (stableSort (fun x y => decide (x.pos ≤ y.pos)) (overridesAt B a m)).getLast? with
    | some f => some f
    | none => if a = owner then none else overrideFor B owner m rest

/-- resolution.rs 2903-2915 `effective_method_visibility_for_chain`. -/
def effective (B : Base) (chain : List Owner) (f : Fact) (m : Nat) : Vis × Owner :=
  match overrideFor B f.owner m chain with
  | some g => (g.vis, g.owner)
  | none => (f.vis, f.owner)

/-- resolution.rs 3033-3044 `protected_method_visible_from`. -/
def protectedFrom (B : Base) (owner caller : Owner) : Bool := (B.chain caller).any (fun a => decide (a = owner))

/-- resolution.rs 3015-3031 `method_visibility_allowed`. -/
def allowed (B : Base) (v : Vis) (owner : Owner) (allowPrivate : Bool) (caller : Option Owner) : Bool :=
  match v with
  | .pub => true
  | .priv => allowPrivate
  | .prot => allowPrivate || (match caller with | some c => protectedFrom B owner c | none => false)

/-- resolution.rs 2823-2841: the facts of an ancestor that may be called. -/
def visibleAt (B : Base) (chain : List Owner) (m : Nat) (allowPrivate : Bool) (caller : Option Owner) (a : Owner) : List Fact :=
  (factsAt B a m).filter (fun f =>
    chain.any (fun c => decide (c = f.owner)) &&
      allowed B (effective B chain f m).1 (effective B chain f m).2 allowPrivate caller)

/-- resolution.rs 2843-2867: facts from signature files only count if there are no others. -/
def preferSource (l : List Fact) : List Fact :=
  if l.any (fun f => decide (f.kind ≠ .signature)) then l.filter (fun f => decide (f.kind ≠ .signature)) else l

/-- resolution.rs 2814-2882 `method_facts_in_chain`. -/
def factsInChain (B : Base) (chain : List Owner) (m : Nat) (allowPrivate : Bool) (caller : Option Owner) : List Owner → Option (Owner × List Fact)
  | [] => none
  | a :: rest =>
    match preferSource (visibleAt B chain m allowPrivate caller a) with
    | [] => factsInChain B chain m allowPrivate caller rest
    | f :: l => some (a, dedupAdj (stableSort (fun x y => decide (x.pos ≤ y.pos)) (f :: l)))

/-- `MethodCalleeResolution`. -/
inductive How where
  | exact
  | methodMissing
  | receiverOnly
deriving DecidableEq, Repr

/-- `ResolvedMethodCallee`. -/
structure Callee where
  owner : Owner
  name : Nat
  how : How
  ranges : List Nat
deriving DecidableEq, Repr

/-- resolution.rs 2791-2812 `method_callee_in_chain`. -/
def calleeInChain (B : Base) (chain : List Owner) (m : Nat) (how : How) (allowPrivate : Bool) (caller : Option Owner) : Option Callee :=
  match factsInChain B chain m allowPrivate caller chain with
  | none => none
  | some (o, l) => some { owner := o, name := m, how := how, ranges := l.map (·.pos) }

/-- resolution.rs 2884-2901 `private_method_in_chain`. -/
def privateInChain (B : Base) (chain : List Owner) (m : Nat) : Bool :=
  chain.any (fun a => (factsAt B a m).any (fun f => chain.any (fun c => decide (c = f.owner)) && decide ((effective B chain f m).1 ≠ .pub)))

/-- resolution.rs 3046-3053 `receiver_only_callee`. -/
def receiverOnly (o : Owner) (m : Nat) : Callee := { owner := o, name := m, how := .receiverOnly, ranges := [] }

/-- Kind of the file with a position (`engine.file(range.file_id)`). -/
def kindAt (B : Base) (pos : Nat) : Option Kind := (B.facts.find? (fun f => decide (f.pos = pos))).map (·.kind)

/-- resolution.rs 3088-3101 `default_basic_object_method_missing_callee`. -/
def defaultMissing (B : Base) (c : Callee) : Bool :=
  decide (c.owner = basicObject) && !c.ranges.isEmpty &&
    c.ranges.all (fun p => match kindAt B p with | some .stub => true | some .signature => true | _ => false)

/-- resolution.rs 3055-3073 `method_missing_callee_in_chain`. -/
def missingCallee (B : Base) (chain : List Owner) : Option Callee :=
  match calleeInChain B chain methodMissingName .methodMissing true none with
  | none => none
  | some c => if defaultMissing B c then none else some c

/-- One receiver (resolution.rs 946-966 and 969-991): its callee goes to the callees or to the fallbacks. -/
def search (B : Base) (m : Nat) (allowPrivate : Bool) (caller : Option Owner) (o : Owner) (acc : List Callee × List Callee) : List Callee × List Callee :=
  match calleeInChain B (B.chain o) m .exact allowPrivate caller with
  | some c => (acc.1 ++ [c], acc.2)
  | none =>
    if !allowPrivate && privateInChain B (B.chain o) m then (acc.1 ++ [receiverOnly o m], acc.2)
    else
      match missingCallee B (B.chain o) with
      | some c => (acc.1, acc.2 ++ [c])
      | none => acc

/-- Order of callees by printed owner and first range (resolution.rs 992-1000). -/
def calleeLe (B : Base) (a b : Callee) : Bool :=
  if B.ownerLe a.owner b.owner then
    if B.ownerLe b.owner a.owner then
      match a.ranges.head?, b.ranges.head? with
      | none, _ => true
      | some _, none => false
      | some p, some q => decide (p ≤ q)
    else true
  else false

/-- resolution.rs 942-1014: search the receivers, then the targets of the execution context, then fall back. -/
def searchAll (B : Base) (n : Owner) (m : Nat) (allowPrivate : Bool) (caller : Option Owner) (receivers : List Owner) : List Callee :=
  let acc := receivers.foldl (fun a o => search B m allowPrivate caller o a) ([], [])
  let acc := if acc.1.isEmpty then
      let acc := (B.applications n).foldl (fun a o => search B m allowPrivate caller o a) acc
      (dedupAdj (stableSort (calleeLe B) acc.1), acc.2)
    else acc
  if acc.1.isEmpty then
    if acc.2.isEmpty then receivers.map (fun o => receiverOnly o m) else acc.2
  else acc.1

/-- resolution.rs 905-1017 `resolve_method_callees_inner`. -/
def resolve (B : Base) (n : Owner) (m : Nat) (allowPrivate : Bool) (caller : Option Owner) : Option (List Callee) :=
  if !B.known n then none
  else if B.isModule n then
    match calleeInChain B (B.chain n) m .exact allowPrivate caller with
    | some c => some [c]
    | none =>
      if !allowPrivate && privateInChain B (B.chain n) m then some [receiverOnly n m]
      else some (searchAll B n m allowPrivate caller (if (B.includers n).isEmpty then [n] else B.includers n))
  else some (searchAll B n m allowPrivate caller [n])

/-- resolution.rs 3115-3142 `method_callee_after_owner`. -/
def afterOwner (B : Base) (owner : Owner) (m : Nat) : List Owner → Bool → Option Callee
  | [], _ => none
  | a :: rest, false => afterOwner B owner m rest (decide (a = owner))
  | a :: rest, true =>
    match calleeInChain B [a] m .exact true none with
    | some c => some c
    | none => afterOwner B owner m rest true

/-- resolution.rs 1019-1031 `resolve_super_method_callee`. -/
def resolveSuper (B : Base) (n : Owner) (m : Nat) : Option Callee :=
  if !B.known n then none else afterOwner B n m (B.chain n) false

end Verif.MethodLookup
