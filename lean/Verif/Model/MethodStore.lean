import Verif.Model.Arena
/-!
Model of `MethodStore` (crates/ruby-analysis/src/core/method_store.rs L441-870).

Simplifications: identifiers, offsets and interned method names are natural numbers; all fields of a fact that the store
neither indexes nor sorts by, other than its availability, are one number `rest` (compared by `==` like the rest of the
fact).  The replacement loop sorts the touched buckets in the iteration order of a `HashSet`, which is arbitrary: the model
takes the three orders as parameters.
-/
namespace Verif.MethodStore
open Verif.Store

/-- core/method_store.rs L33-37 `MethodAvailability`; the reason is a number. -/
inductive Availability where
  | available
  | unavailable (reason : Nat)
  | absent (reason : Nat)
  deriving DecidableEq

/-- core/method_store.rs L369-384 `StoredMethodFact`. -/
structure Fact where
  fqn : Nat
  owner : Nat
  method : Option Nat
  file : Nat
  start : Nat
  stop : Nat
  avail : Availability
  rest : Nat
  deriving DecidableEq

/-- Key of the owner/name index: only facts with a method name have one. -/
def Fact.ownerName (a : Fact) : Option (Nat × Nat) := a.method.map fun m => (a.owner, m)

/-- core/method_store.rs `sort_method_ids_by_fqn`: file, start, end, owner. -/
def fqnKey (a : Fact) : List Nat := [a.file, a.start, a.stop, a.owner]
/-- core/method_store.rs `sort_method_ids_by_owner`: file, start, end, fqn. -/
def ownerKey (a : Fact) : List Nat := [a.file, a.start, a.stop, a.fqn]
/-- core/method_store.rs `sort_method_ids_by_file`: start, end. -/
def fileKey (a : Fact) : List Nat := [a.start, a.stop]

/-- core/method_store.rs L441-449. -/
structure State where
  arena : Arena Fact
  byFqn : Nat → List Nat
  byOwner : Nat → List Nat
  byOwnerName : Nat × Nat → List Nat
  byFile : Nat → List Nat

/-- core/method_store.rs L469-471 `new`. -/
def init : State :=
  { arena := Arena.empty, byFqn := fun _ => [], byOwner := fun _ => [], byOwnerName := fun _ => [], byFile := fun _ => [] }

/-- core/method_store.rs L473-490 `add`. -/
def add (s : State) (a : Fact) : Outcome State :=
  (s.arena.insert a).bind fun r =>
  (r.1.sortKey (leBy fqnKey) (some a.fqn) (push s.byFqn (some a.fqn) r.2)).bind fun byFqn =>
  (r.1.sortKey (leBy ownerKey) (some a.owner) (push s.byOwner (some a.owner) r.2)).bind fun byOwner =>
  (r.1.sortKey (leBy ownerKey) a.ownerName (push s.byOwnerName a.ownerName r.2)).bind fun byOwnerName =>
  (r.1.sortKey (leBy fileKey) (some a.file) (push s.byFile (some a.file) r.2)).bind fun byFile =>
  .ok { arena := r.1, byFqn, byOwner, byOwnerName, byFile }

/-- core/method_store.rs L492-497 `facts_for`. -/
def factsFor (s : State) (fqn : Nat) : List Fact := s.arena.clone (s.byFqn fqn)

/-- core/method_store.rs L507-519 `facts_matching_owner`; `q` is "the method name starts with the given text". -/
def factsMatchingOwner (s : State) (owner : Nat) (q : Nat → Bool) : List Fact :=
  ((s.byOwner owner).filterMap s.arena.get).filter (fun a => a.method.any q)

/-- core/method_store.rs L521-530 `facts_matching_owner_name`. -/
def factsMatchingOwnerName (s : State) (owner method : Nat) : List Fact := s.arena.clone (s.byOwnerName (owner, method))

/-- core/method_store.rs L612-620 `facts_in_file`. -/
def factsInFile (s : State) (f : Nat) : List Fact := s.arena.clone (s.byFile f)

/-- core/method_store.rs L499-501 `all_facts`. -/
def allFacts (s : State) : List Fact := s.arena.all

/-- core/method_store.rs L386-391 `StoredMethodFactMatch`. -/
inductive Match where
  | missing
  | unique (a : Fact)
  | ambiguous
  deriving DecidableEq

def isAbsent (a : Fact) : Bool := match a.avail with | .absent _ => true | _ => false
def isUnavailable (a : Fact) : Bool := match a.avail with | .unavailable _ => true | _ => false

/-- core/method_store.rs L539-578 `effective_fact_matching_owner_name`; a dead id panics. -/
def effective (s : State) (owner method : Nat) : Outcome Match :=
  let ids := s.byOwnerName (owner, method)
  if ids.all (fun i => (s.arena.get i).isSome) then
    let facts := ids.filterMap s.arena.get
    if facts.any isAbsent then .ok .missing
    else
      let wins := facts.any isUnavailable
      match facts.filter (fun a => !wins || isUnavailable a) with
      | [] => .ok .missing
      | first :: l => if l.any (fun a => decide (a ≠ first)) then .ok .ambiguous else .ok (.unique first)
  else .panic

/-- core/method_store.rs L597-611 `ruby_method_names_for_owner` (and L580-595 `method_names_for_owner`): each name once, in
order of first occurrence. -/
def methodNames (s : State) (owner : Nat) : List Nat :=
  ((s.byOwner owner).filterMap s.arena.get).foldl (fun names a => note names a.method) []

/-- core/method_store.rs L626-652: the body of the loop of `remove_file`. -/
def removeOne (s : State) (id : Nat) : State :=
  match s.arena.take id with
  | none => s
  | some (stale, A) =>
    { s with
      arena := A
      byFqn := retain s.byFqn (some stale.fqn) id
      byOwner := retain s.byOwner (some stale.owner) id
      byOwnerName := retain s.byOwnerName stale.ownerName id }

/-- core/method_store.rs L622-653 `remove_file`. -/
def removeFile (s : State) (f : Nat) : State :=
  (s.byFile f).foldl removeOne { s with byFile := upd s.byFile f [] }

/-- The touched keys of a replacement. -/
structure Touched where
  fqns : List Nat
  owners : List Nat
  ownerNames : List (Nat × Nat)

/-- core/method_store.rs L661-687: append the replacement facts. -/
def append (f : Nat) : List Fact → State → Touched → Outcome (State × Touched)
  | [], s, t => .ok (s, t)
  | a :: l, s, t =>
    if a.file = f then
      (s.arena.insert a).bind fun r =>
      append f l
        { arena := r.1
          byFqn := push s.byFqn (some a.fqn) r.2
          byOwner := push s.byOwner (some a.owner) r.2
          byOwnerName := push s.byOwnerName a.ownerName r.2
          byFile := push s.byFile (some f) r.2 }
        { fqns := note t.fqns (some a.fqn)
          owners := note t.owners (some a.owner)
          ownerNames := note t.ownerNames a.ownerName }
    else .panic

/-- The iteration orders of the three hash sets of `replace_file`. -/
structure Orders where
  fqns : List Nat → List Nat
  owners : List Nat → List Nat
  ownerNames : List (Nat × Nat) → List (Nat × Nat)

/-- core/method_store.rs L655-708 `replace_file`. -/
def replaceFile (π : Orders) (s : State) (f : Nat) (facts : List Fact) : Outcome State :=
  (append f facts (removeFile s f) ⟨[], [], []⟩).bind fun r =>
  let s := r.1
  (s.arena.sortKeys (leBy fqnKey) (π.fqns r.2.fqns) s.byFqn).bind fun byFqn =>
  (s.arena.sortKeys (leBy ownerKey) (π.owners r.2.owners) s.byOwner).bind fun byOwner =>
  (s.arena.sortKeys (leBy ownerKey) (π.ownerNames r.2.ownerNames) s.byOwnerName).bind fun byOwnerName =>
  (s.arena.sortKey (leBy fileKey) (some f) s.byFile).bind fun byFile =>
  .ok { arena := s.arena, byFqn, byOwner, byOwnerName, byFile }

/-- A call on the store; each replacement comes with the iteration orders it used. -/
inductive Op where
  | add (a : Fact)
  | remove (f : Nat)
  | replace (π : Orders) (f : Nat) (facts : List Fact)

def apply (s : State) : Op → Outcome State
  | .add a => add s a
  | .remove f => .ok (removeFile s f)
  | .replace π f facts => replaceFile π s f facts

def run : List Op → State → Outcome State
  | [], s => .ok s
  | op :: ops, s => (apply s op).bind (run ops)

end Verif.MethodStore
