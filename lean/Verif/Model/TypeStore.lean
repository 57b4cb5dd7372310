import Verif.Model.SymbolStore
/-!
Model of `TypeStore` (crates/ruby-analysis/src/core/type_store.rs).

Simplifications: identifiers, offsets and types are natural numbers; a provenance is its rank (L938-949, an injection);
interning of subjects and types (L803-823, L884-887, append-only index sets) is the identity, so a named subject is a number and
an expression subject its range; the text of a type, which orders ambiguous candidates, is a parameter `str`; heap-size
estimates and `shrink_to_fit` are left out.
-/
namespace Verif.TypeStore
open Verif.Store

/-- core/type_store.rs L51-72 `TypeSubject`: an expression or any other subject. -/
inductive Subject where
  | named (n : Nat)
  | expr (file start stop : Nat)
  deriving DecidableEq

/-- core/type_store.rs L110-116 `StoredTypeFact`, L88-94 `TypeFact`. -/
structure Fact where
  subject : Subject
  ty : Nat
  file : Nat
  start : Nat
  stop : Nat
  prov : Nat
  deriving DecidableEq

/-- The bucket of `facts_by_subject`; expressions have none (L273-278). -/
def kNamed (a : Fact) : Option Nat :=
  match a.subject with
  | .named n => some n
  | .expr _ _ _ => none

def kFile (a : Fact) : Option Nat := some a.file

/-- core/type_store.rs L910-924 key of `sort_type_ids`. -/
def namedKey (a : Fact) : List Nat := [a.file, a.start, a.stop, a.prov]

/-- core/type_store.rs L926-936 key of `sort_type_ids_by_file`. -/
def fileKey (a : Fact) : List Nat := [a.start, a.stop, a.prov]

/-- core/type_store.rs L174-182. -/
structure State where
  arena : Arena Fact
  byNamed : Nat → List Nat
  byFile : Nat → List Nat
  ordered : Bool

/-- core/type_store.rs L184-196. -/
def init : State := { arena := Arena.empty, byNamed := fun _ => [], byFile := fun _ => [], ordered := true }

/-- core/type_store.rs L803-811: the assertion of `store_subject`. -/
def subjectOk (a : Fact) : Bool :=
  match a.subject with
  | .named _ => true
  | .expr f i j => decide (f = a.file ∧ i = a.start ∧ j = a.stop)

/-- core/type_store.rs L259-281 `add`. -/
def add (s : State) (a : Fact) : Outcome State :=
  if subjectOk a then
    (s.arena.insert a).bind fun r =>
    .ok { arena := r.1, byNamed := push s.byNamed (kNamed a) r.2, byFile := push s.byFile (kFile a) r.2, ordered := false }
  else .panic

/-- core/type_store.rs L600-613: the body of the loop of `remove_file`. -/
def removeOne (s : State) (id : Nat) : State :=
  match s.arena.take id with
  | none => s
  | some (stale, A) => { s with arena := A, byNamed := retain s.byNamed (kNamed stale) id }

/-- core/type_store.rs L596-614 `remove_file`. -/
def removeFile (s : State) (f : Nat) : State :=
  (s.byFile f).foldl removeOne { s with byFile := upd s.byFile f [] }

/-- core/type_store.rs L631-639: count one appended fact of a subject. -/
def bumpKey (k : Option Nat) (t : List (Nat × Nat)) : List (Nat × Nat) :=
  match k with
  | none => t
  | some k => SymbolStore.bump k t

/-- core/type_store.rs L623-654: append the replacement facts. -/
def append (f : Nat) : List Fact → State → List (Nat × Nat) → Outcome (State × List (Nat × Nat))
  | [], s, touched => .ok (s, touched)
  | a :: l, s, touched =>
    if a.file = f ∧ subjectOk a = true then
      (s.arena.insert a).bind fun r =>
      append f l
        { s with arena := r.1, byNamed := push s.byNamed (kNamed a) r.2, byFile := push s.byFile (kFile a) r.2 }
        (bumpKey (kNamed a) touched)
    else .panic

/-- core/type_store.rs L655-681: restore the order of every touched subject. -/
def placeTouched (f : Nat) : List (Nat × Nat) → State → Outcome State
  | [], s => .ok s
  | (k, n) :: t, s =>
    (if s.ordered then s.arena.place (leBy namedKey) Fact.file (s.byNamed k) n f
      else s.arena.sortIds (leBy namedKey) (s.byNamed k)).bind fun ids =>
    placeTouched f t { s with byNamed := upd s.byNamed k ids }

/-- core/type_store.rs L616-686 `replace_file`. -/
def replaceFile (s : State) (f : Nat) (facts : List Fact) : Outcome State :=
  (append f facts (removeFile s f) []).bind fun r =>
  (placeTouched f r.2 r.1).bind fun s =>
  (s.arena.sortIds (leBy fileKey) (s.byFile f)).bind fun fids =>
  .ok { s with byFile := upd s.byFile f fids }

/-- core/type_store.rs L396-419, L440-452, L471-496: change the type of the facts of a bucket that satisfy a condition.  In the
first two loops a vacant slot panics (`strict`), in the third it is passed over. -/
def retypeIds (strict : Bool) (cond : Fact → Bool) (ty : Nat) : List Nat → Arena Fact → Outcome (Arena Fact)
  | [], A => .ok A
  | i :: l, A =>
    match A.get i with
    | none => if strict then .panic else retypeIds strict cond ty l A
    | some a => retypeIds strict cond ty l (if cond a then { A with slots := A.slots.set i (some { a with ty := ty }) } else A)

/-- The provenance `Inferred`. -/
def inferred : Nat := 7

/-- core/type_store.rs L380-422 `update_inferred_method_return_types_in_file`, for one update. -/
def updateInferred (s : State) (f n ty : Nat) : Outcome State :=
  (retypeIds true (fun a => decide (a.file = f ∧ a.prov = inferred)) ty (s.byNamed n) s.arena).bind fun A => .ok { s with arena := A }

/-- core/type_store.rs L425-454 `update_equation_target`. -/
def updateEquation (s : State) (n f i j ty : Nat) : Outcome State :=
  (retypeIds true (fun a => decide (a.file = f ∧ a.start = i ∧ a.stop = j)) ty (s.byNamed n) s.arena).bind fun A =>
  .ok { s with arena := A }

/-- core/type_store.rs L459-499 `update_local_assignment_equation_target`; `isLocal` tells which named subjects are locals of
the given name. -/
def updateLocal (s : State) (isLocal : Nat → Bool) (f i j ty : Nat) : Outcome State :=
  (retypeIds false (fun a => decide (a.file = f ∧ a.start = i ∧ a.stop = j) && (kNamed a).any isLocal) ty (s.byFile f) s.arena).bind
    fun A => .ok { s with arena := A }

/-- core/type_store.rs L825-842 `fact_ids_for_subject`. -/
def idsFor (s : State) : Subject → List Nat
  | .named n => s.byNamed n
  | .expr f _ _ => s.byFile f

/-- core/type_store.rs L844-858 `stored_subject_matches`. -/
def subjectMatches (a : Fact) : Subject → Bool
  | .expr f i j => (kNamed a).isNone && decide (a.file = f ∧ a.start = i ∧ a.stop = j)
  | .named n => decide (kNamed a = some n)

/-- core/type_store.rs L283-306 `facts_for`. -/
def factsFor (s : State) (subj : Subject) : List Fact :=
  match subj with
  | .named n => s.arena.clone (s.byNamed n)
  | .expr f i j => (s.arena.clone (s.byFile f)).filter (fun a => subjectMatches a (.expr f i j))

/-- core/type_store.rs L505-510 `facts_in_file`. -/
def factsInFile (s : State) (f : Nat) : List Fact := s.arena.clone (s.byFile f)

/-- `Iterator::max`. -/
def maxOf : List Nat → Option Nat
  | [] => none
  | a :: l => some (l.foldl Nat.max a)

/-- Comparison of `(String, u8)` keys, L758. -/
def candLe (str : Nat → List Nat) (a b : Fact) : Bool :=
  if str a.ty = str b.ty then decide (a.prov ≤ b.prov) else lexLe (str a.ty) (str b.ty)

def sameCand (a b : Fact) : Bool := decide (a.ty = b.ty ∧ a.prov = b.prov)

/-- `Vec::dedup_by` after its first element `prev` has been kept. -/
def dedupFrom (same : Fact → Fact → Bool) (prev : Fact) : List Fact → List Fact
  | [] => []
  | b :: l => if same b prev then dedupFrom same prev l else b :: dedupFrom same b l

/-- `Vec::dedup_by`. -/
def dedupBy (same : Fact → Fact → Bool) : List Fact → List Fact
  | [] => []
  | a :: l => a :: dedupFrom same a l

/-- core/type_store.rs L154-159 `TypeResolution`. -/
inductive Resolution where
  | resolved (a : Fact)
  | ambiguous (l : List Fact)
  | unresolved
  deriving DecidableEq

/-- core/type_store.rs L732-770 `type_at`. -/
def typeAt (str : Nat → List Nat) (s : State) (subj : Subject) (f off : Nat) : Resolution :=
  let facts := (s.arena.clone (idsFor s subj)).filter (fun a => subjectMatches a subj)
  match maxOf ((facts.filter (fun a => decide (a.file = f ∧ a.start ≤ off))).map Fact.start) with
  | none => .unresolved
  | some latest =>
    match dedupBy sameCand (stableSort (candLe str) (facts.filter (fun a => decide (a.file = f ∧ a.start = latest)))) with
    | [] => .unresolved
    | [a] => .resolved a
    | l => .ambiguous l

/-- core/type_store.rs L166-170 `NamedTypeResolution`. -/
inductive NamedResolution where
  | resolved (ty : Nat)
  | ambiguous
  | unresolved
  deriving DecidableEq

/-- core/type_store.rs L538-569: the loop of `named_type_in_file_before_matching`; the accumulator is the latest start with its
type, and the ambiguity flag. -/
def namedStep (p : Nat → Nat → Nat → Bool) (off : Nat) (acc : Option (Nat × Nat) × Bool) (a : Fact) : Option (Nat × Nat) × Bool :=
  if a.start > off then acc
  else
    match kNamed a with
    | none => acc
    | some n =>
      if !p n a.start a.stop then acc
      else
        match acc.1 with
        | none => (some (a.start, a.ty), acc.2)
        | some (start, ty) =>
          if a.start > start then (some (a.start, a.ty), false)
          else if a.start = start then (acc.1, if ty ≠ a.ty then true else acc.2)
          else acc

/-- core/type_store.rs L525-579 `named_type_in_file_before_matching`; `p` is the caller's predicate on subject and range. -/
def namedTypeBefore (s : State) (f off : Nat) (p : Nat → Nat → Nat → Bool) : NamedResolution :=
  match (s.arena.clone (s.byFile f)).foldl (namedStep p off) (none, false) with
  | (none, _) => .unresolved
  | (some _, true) => .ambiguous
  | (some (_, ty), false) => .resolved ty

/-- A call on the store. -/
inductive Op where
  | add (a : Fact)
  | remove (f : Nat)
  | replace (f : Nat) (facts : List Fact)
  | updateInferred (f n ty : Nat)
  | updateEquation (n f i j ty : Nat)
  | updateLocal (isLocal : Nat → Bool) (f i j ty : Nat)

def apply (s : State) : Op → Outcome State
  | .add a => add s a
  | .remove f => .ok (removeFile s f)
  | .replace f facts => replaceFile s f facts
  | .updateInferred f n ty => updateInferred s f n ty
  | .updateEquation n f i j ty => updateEquation s n f i j ty
  | .updateLocal isLocal f i j ty => updateLocal s isLocal f i j ty

def run : List Op → State → Outcome State
  | [], s => .ok s
  | op :: ops, s => (apply s op).bind (run ops)

end Verif.TypeStore
