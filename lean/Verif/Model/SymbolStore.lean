import Verif.Model.Arena
/-!
Model of `SymbolStore` (crates/ruby-analysis/src/core/symbol_store.rs L87-324).

Simplifications: identifiers, offsets and kinds are natural numbers (`SymbolKind` by declaration order, which is the order
its derived `Ord` uses); the fields the store never looks at are one number `rest`; heap-size estimates and `shrink_to_fit`
are left out.
-/
namespace Verif.SymbolStore
open Verif.Store

/-- core/symbol_store.rs L43-60 `StoredSymbolFact`. -/
structure Fact where
  fqn : Nat
  file : Nat
  start : Nat
  stop : Nat
  kind : Nat
  rest : Nat
  deriving DecidableEq

/-- core/symbol_store.rs L299-313 key of `sort_symbol_ids`. -/
def fqnKey (a : Fact) : List Nat := [a.file, a.start, a.stop, a.kind]

/-- core/symbol_store.rs L315-324 key of `sort_symbol_ids_by_file`. -/
def fileKey (a : Fact) : List Nat := [a.start, a.stop, a.kind]

/-- core/symbol_store.rs L87-93. -/
structure State where
  arena : Arena Fact
  byFqn : Nat → List Nat
  byFile : Nat → List Nat

/-- core/symbol_store.rs L112-114 `new`. -/
def init : State := { arena := Arena.empty, byFqn := fun _ => [], byFile := fun _ => [] }

/-- core/symbol_store.rs L116-125 `add`. -/
def add (s : State) (a : Fact) : Outcome State :=
  (s.arena.insert a).bind fun r =>
  (r.1.sortIds (leBy fqnKey) (s.byFqn a.fqn ++ [r.2])).bind fun ids =>
  (r.1.sortIds (leBy fileKey) (s.byFile a.file ++ [r.2])).bind fun fids =>
  .ok { arena := r.1, byFqn := upd s.byFqn a.fqn ids, byFile := upd s.byFile a.file fids }

/-- core/symbol_store.rs L127-132 `facts_for`. -/
def factsFor (s : State) (fqn : Nat) : List Fact := s.arena.clone (s.byFqn fqn)

/-- core/symbol_store.rs L151-156 `facts_in_file`. -/
def factsInFile (s : State) (f : Nat) : List Fact := s.arena.clone (s.byFile f)

/-- core/symbol_store.rs L134-136 `all_facts`. -/
def allFacts (s : State) : List Fact := s.arena.all

/-- core/symbol_store.rs L162-175: the body of the loop of `remove_file`. -/
def removeOne (s : State) (id : Nat) : State :=
  match s.arena.take id with
  | none => s
  | some (stale, A) =>
    { s with arena := A, byFqn := upd s.byFqn stale.fqn ((s.byFqn stale.fqn).filter (fun i => decide (i ≠ id))) }

/-- core/symbol_store.rs L158-176 `remove_file`. -/
def removeFile (s : State) (f : Nat) : State :=
  (s.byFile f).foldl removeOne { s with byFile := upd s.byFile f [] }

/-- core/symbol_store.rs L193-199: count one appended fact of a name. -/
def bump (k : Nat) : List (Nat × Nat) → List (Nat × Nat)
  | [] => [(k, 1)]
  | (k', n) :: t => if k' = k then (k', n + 1) :: t else (k', n) :: bump k t

/-- core/symbol_store.rs L185-203: append the replacement facts. -/
def append (f : Nat) : List Fact → State → List (Nat × Nat) → Outcome (State × List (Nat × Nat))
  | [], s, touched => .ok (s, touched)
  | a :: l, s, touched =>
    if a.file = f then
      (s.arena.insert a).bind fun r =>
      append f l
        { arena := r.1
          byFqn := upd s.byFqn a.fqn (s.byFqn a.fqn ++ [r.2])
          byFile := upd s.byFile f (s.byFile f ++ [r.2]) }
        (bump a.fqn touched)
    else .panic

/-- core/symbol_store.rs L204-227: place the appended facts of every touched name. -/
def placeTouched (f : Nat) : List (Nat × Nat) → State → Outcome State
  | [], s => .ok s
  | (k, n) :: t, s =>
    (s.arena.place (leBy fqnKey) Fact.file (s.byFqn k) n f).bind fun ids =>
    placeTouched f t { s with byFqn := upd s.byFqn k ids }

/-- core/symbol_store.rs L178-234 `replace_file`. -/
def replaceFile (s : State) (f : Nat) (facts : List Fact) : Outcome State :=
  (append f facts (removeFile s f) []).bind fun r =>
  (placeTouched f r.2 r.1).bind fun s =>
  (s.arena.sortIds (leBy fileKey) (s.byFile f)).bind fun fids =>
  .ok { s with byFile := upd s.byFile f fids }

/-- A call on the store. -/
inductive Op where
  | add (a : Fact)
  | remove (f : Nat)
  | replace (f : Nat) (facts : List Fact)

/-- Apply one call. -/
def apply (s : State) : Op → Outcome State
  | .add a => add s a
  | .remove f => .ok (removeFile s f)
  | .replace f facts => replaceFile s f facts

/-- Apply a history of calls to an empty store. -/
def run : List Op → State → Outcome State
  | [], s => .ok s
  | op :: ops, s => (apply s op).bind (run ops)

end Verif.SymbolStore
