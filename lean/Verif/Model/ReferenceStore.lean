import Verif.Model.Arena
/-!
Model of `ReferenceStore` (crates/ruby-analysis/src/core/reference_store.rs L628-766, L792-800) and of
`ReferenceCandidateStore` (L365-583).

Simplifications: identifiers and offsets are natural numbers; the fields the stores never look at are one number `rest`; a
hash map is a function (an absent key is the empty list, which is how every reader treats it); the readers that iterate a whole
hash map (`all_facts`, `facts_for_caller`, `iter_candidates`) and heap-size estimates are left out.
-/
namespace Verif.ReferenceStore
open Verif.Store

/-- core/reference_store.rs L30-35 `ReferenceFact`. -/
structure Fact where
  file : Nat
  start : Nat
  stop : Nat
  rest : Nat
  deriving DecidableEq

/-- core/reference_store.rs L792-800 key of `sort_reference_facts`. -/
def factKey (a : Fact) : List Nat := [a.file, a.start, a.stop]

/-- core/reference_store.rs L628-632. -/
structure State where
  facts : Nat → List Fact
  targets : Nat → List Nat

/-- core/reference_store.rs L635-637 `new`. -/
def init : State := { facts := fun _ => [], targets := fun _ => [] }

/-- core/reference_store.rs L639-647 `add`. -/
def add (s : State) (t : Nat) (a : Fact) : State :=
  { facts := upd s.facts t (s.facts t ++ [a]), targets := upd s.targets a.file (s.targets a.file ++ [t]) }

/-- core/reference_store.rs L654-664 `sort_all`. -/
def sortAll (s : State) : State :=
  { facts := fun t => stableSort (leBy factKey) (s.facts t),
    targets := fun f => dedupAdj (stableSort (fun a b => decide (a ≤ b)) (s.targets f)) }

/-- core/reference_store.rs L649-652 `add_sorted`. -/
def addSorted (s : State) (t : Nat) (a : Fact) : State := sortAll (add s t a)

/-- core/reference_store.rs L666-668 `facts_for`. -/
def factsFor (s : State) (t : Nat) : List Fact := s.facts t

/-- core/reference_store.rs L687-698 `facts_in_file`. -/
def factsInFile (s : State) (f : Nat) : List Fact :=
  (s.targets f).flatMap fun t => (s.facts t).filter (fun a => decide (a.file = f))

/-- core/reference_store.rs L707-720 `targets_for_exact_range`. -/
def targetsForExactRange (s : State) (file start stop : Nat) : List Nat :=
  (s.targets file).filter fun t => (s.facts t).any (fun a => decide (a.file = file ∧ a.start = start ∧ a.stop = stop))

/-- core/reference_store.rs L735-742: the body of the loop of `remove_file`. -/
def removeOne (f : Nat) (m : Nat → List Fact) (t : Nat) : Nat → List Fact :=
  upd m t ((m t).filter (fun a => decide (a.file ≠ f)))

/-- core/reference_store.rs L731-743 `remove_file`. -/
def removeFile (s : State) (f : Nat) : State :=
  { facts := (s.targets f).foldl (removeOne f) s.facts, targets := upd s.targets f [] }

/-- core/reference_store.rs L755-764: the loop of `replace_file`. -/
def addAll (f : Nat) : List (Nat × Fact) → State → Outcome State
  | [], s => .ok s
  | x :: l, s => if x.2.file ≠ f then .panic else addAll f l (add s x.1 x.2)

/-- core/reference_store.rs L750-766 `replace_file`. -/
def replaceFile (s : State) (f : Nat) (facts : List (Nat × Fact)) : Outcome State :=
  (addAll f facts (removeFile s f)).bind fun s => .ok (sortAll s)

/-- A call on the store. -/
inductive Op where
  | add (t : Nat) (a : Fact)
  | addSorted (t : Nat) (a : Fact)
  | sortAll
  | remove (f : Nat)
  | clear
  | replace (f : Nat) (facts : List (Nat × Fact))

def apply (s : State) : Op → Outcome State
  | .add t a => .ok (add s t a)
  | .addSorted t a => .ok (addSorted s t a)
  | .sortAll => .ok (sortAll s)
  | .remove f => .ok (removeFile s f)
  | .clear => .ok init
  | .replace f facts => replaceFile s f facts

def run : List Op → State → Outcome State
  | [], s => .ok s
  | op :: ops, s => (apply s op).bind (run ops)

/-! ### the candidate store -/

/-- core/reference_store.rs L156-200: the three kinds of candidate. -/
inductive CandKind where
  | constant | method | resolved
  deriving DecidableEq

/-- core/reference_store.rs L162-166 `StoredReferenceCandidate`. -/
structure Cand where
  kind : CandKind
  file : Nat
  start : Nat
  stop : Nat
  rest : Nat
  deriving DecidableEq

def candKey (c : Cand) : List Nat := [c.start, c.stop]

/-- core/reference_store.rs L365-370. -/
structure CState where
  constants : Nat → List Cand
  methods : Nat → List Cand
  resolved : Nat → List Cand

def cinit : CState := { constants := fun _ => [], methods := fun _ => [], resolved := fun _ => [] }

/-- core/reference_store.rs L384-459 `replace_file`. -/
def creplace (s : CState) (f : Nat) (cs : List Cand) : Outcome CState :=
  if cs.any (fun c => decide (c.file ≠ f)) then .panic
  else .ok
    { constants := upd s.constants f (stableSort (leBy candKey) (cs.filter (fun c => decide (c.kind = .constant)))),
      methods := upd s.methods f (stableSort (leBy candKey) (cs.filter (fun c => decide (c.kind = .method)))),
      resolved := upd s.resolved f (stableSort (leBy candKey) (cs.filter (fun c => decide (c.kind = .resolved)))) }

/-- core/reference_store.rs L505-542 `candidates_in_file`. -/
def candidatesInFile (s : CState) (f : Nat) : List Cand :=
  stableSort (leBy candKey) (s.constants f ++ s.methods f ++ s.resolved f)

def crun : List (Nat × List Cand) → CState → Outcome CState
  | [], s => .ok s
  | x :: l, s => (creplace s x.1 x.2).bind (crun l)

end Verif.ReferenceStore
