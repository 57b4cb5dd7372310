import Verif.Model.Sort
/-!
The limits of the persistent cache: src/persistent_cache.rs L26-33 (constants), L52-58 `CacheAccounting`, L198-222 `with_limits`,
L300-329 `invalidate_compiled_wasm`, L339-431 `lookup_derived_product`, L449-479 `clear`, L541-565 `ensure_accounting`, L567-582
`record_publication_and_cleanup`, L584-634 `cleanup_to_limits`, L691-777 publishing, L1163-1205 `scan_product_entries`.

A product file has a path (a number; paths are compared as numbers are), a size and a time of change. Any number of processes share
the directory; each has its own accounting and any number of threads. One step of the system is one critical section of the code:

* `ensure_accounting` scans and stores under the exclusive maintenance lock. Another thread that records a publication in between
  changes the accounting as if it had done so before the scan, so this is one step; the same is true of `cleanup_to_limits`;
* a reservation holds the shared maintenance lock from the lookup until its file is renamed and it is unlocked;
* recording a publication comes after unlocking and is a step of its own, and so is the cleanup that follows it;
* `clear` deletes under the exclusive lock, and changes the accounting after unlocking, which is another step.

C44 is about the locks themselves. Counters for statistics are left out. `Removal` is what `remove_file` answers. Reading a directory
does not fail. Other people can remove files at any time (`vanish`).
-/
namespace Verif.CacheLimits

/-- L186-191 `CacheEntry`. -/
structure Entry where
  path : Nat
  bytes : Nat
  modified : Nat
  deriving DecidableEq

/-- L52-58. -/
structure Accounting where
  initialized : Bool
  entries : Nat
  bytes : Nat
  since : Nat
  deriving DecidableEq

/-- `CacheAccounting::default()`. -/
def Accounting.fresh : Accounting := ⟨false, 0, 0, 0⟩

/-- L26-27, L198-222 (both are positive there). -/
structure Limits where
  maxEntries : Nat
  maxBytes : Nat

/-- `u64::MAX` and, on 64-bit targets, `usize::MAX`. -/
def top : Nat := 18446744073709551615

/-- L28 `MAX_COMPRESSED_ENTRY_BYTES`. -/
def entryMax : Nat := 268435456

/-- L33 `RESCAN_PUBLICATION_INTERVAL`. -/
def rescan : Nat := 64

/-- `saturating_add`. -/
def saturate (a b : Nat) : Nat := min (a + b) top

/-- `try_fold` with `checked_add` (L548-552, L593-596). -/
def checkedSum : List Entry → Nat → Option Nat
  | [], t => some t
  | e :: es, t => if t + e.bytes ≤ top then checkedSum es (t + e.bytes) else none

/-- L588-592: by time of change, then by path. -/
def entryLe (a b : Entry) : Bool :=
  if a.modified < b.modified then true else if b.modified < a.modified then false else decide (a.path ≤ b.path)

inductive Removal where
  | ok | notFound | failed
  deriving DecidableEq

inductive Outcome where
  /-- The loop ended, with `count` and `total`. -/
  | done (count total : Nat)
  /-- `remove_file` failed (L614-621). -/
  | failed
  /-- A `checked_sub` failed (L604-609). -/
  | underflow
  deriving DecidableEq

/-- L598-624: the loop. Gives the files that are gone (removed, or not there any more) and how it ends. -/
def sweep (L : Limits) (out : Entry → Removal) : List Entry → Nat → Nat → List Entry × Outcome
  | [], count, total => ([], .done count total)
  | e :: es, count, total =>
    if count ≤ L.maxEntries ∧ total ≤ L.maxBytes then ([], .done count total)
    else
      match out e with
      | .ok =>
        if e.bytes ≤ total ∧ 1 ≤ count then
          let r := sweep L out es (count - 1) (total - e.bytes)
          (e :: r.1, r.2)
        else ([e], .underflow)
      | .notFound =>
        let r := sweep L out es count total
        (e :: r.1, r.2)
      | .failed => ([], .failed)

/-- L584-624 without the locks; `none` when the sum overflows. -/
def cleanup (L : Limits) (out : Entry → Removal) (disk : List Entry) : Option (List Entry × Outcome) :=
  match checkedSum disk 0 with
  | none => none
  | some total => some (sweep L out (stableSort entryLe disk) disk.length total)

/-- What is left on disk. -/
def remaining (disk gone : List Entry) : List Entry := disk.filter (fun e => !gone.contains e)

/-- One process. -/
structure Proc where
  acct : Accounting
  /-- lookups that have passed `ensure_accounting` (L347) and not yet got the maintenance lock (L369) -/
  looking : Nat
  /-- reservations, with the shared maintenance lock -/
  holding : Nat
  /-- sizes of the files published and unlocked whose publication is not recorded yet (L710-716) -/
  unrecorded : List Nat
  /-- sizes of the files whose publication was recorded and made a cleanup necessary that has not ended (L578-580) -/
  cleaning : List Nat
  /-- calls of `clear` between L467 and L468 -/
  clearing : Nat
  deriving DecidableEq

/-- A process that has just started. -/
def Proc.fresh : Proc := ⟨.fresh, 0, 0, [], [], 0⟩

structure State where
  disk : List Entry
  /-- sizes of the temporary files that crashes left behind -/
  temps : List Nat
  procs : List Proc
  deriving DecidableEq

inductive Event where
  /-- L541-565 with the accounting not initialised -/
  | init (p : Nat)
  /-- L541-543 with the accounting initialised -/
  | look (p : Nat)
  /-- the lookup ends with a hit or an error, without reservation -/
  | leave (p : Nat)
  /-- L368-431: a reservation; the corrupt file at this path is removed -/
  | reserve (p : Nat) (path : Nat)
  /-- a reservation ends without publication (an error, or dropped) -/
  | drop (p : Nat)
  /-- L720-777, L710 -/
  | publish (p : Nat) (e : Entry)
  /-- L567-577 -/
  | record (p : Nat) (bytes : Nat)
  /-- L578-580, L584-634 -/
  | clean (p : Nat) (bytes : Nat) (out : Entry → Removal)
  /-- the cleanup does not get its lock within 180 seconds (L949-954) -/
  | abandon (p : Nat) (bytes : Nat)
  /-- L300-329 -/
  | invalidate (p : Nat) (path : Nat)
  /-- L449-467 -/
  | clear (p : Nat)
  /-- L468-473 -/
  | reset (p : Nat)
  /-- the process ends, leaving temporary files, and is started again -/
  | crash (p : Nat) (temps : List Nat)
  /-- somebody else removes a file -/
  | vanish (path : Nat)

/-- Nobody holds the maintenance lock shared, so it can be had exclusively. -/
def free (s : State) : Bool := s.procs.all (fun q => q.holding == 0)

def State.put (s : State) (p : Nat) (q : Proc) : State := { s with procs := s.procs.set p q }

/-- L568-573: the new accounting. -/
def Accounting.note (a : Accounting) (bytes : Nat) : Accounting :=
  { a with entries := saturate a.entries 1, bytes := saturate a.bytes bytes, since := saturate a.since 1 }

/-- L574-576 `should_cleanup`. -/
def Accounting.over (L : Limits) (a : Accounting) : Bool :=
  decide (L.maxEntries < a.entries) || decide (L.maxBytes < a.bytes) || decide (rescan ≤ a.since)

/-- `none`: not possible in this state. -/
def step (L : Limits) (s : State) : Event → Option State
  | .init p =>
    match s.procs[p]? with
    | none => none
    | some q =>
      if q.acct.initialized || !free s then none
      else
        match checkedSum s.disk 0 with
        | none => none
        | some total => some (s.put p { q with acct := ⟨true, s.disk.length, total, 0⟩ })
  | .look p =>
    match s.procs[p]? with
    | none => none
    | some q => if q.acct.initialized then some (s.put p { q with looking := q.looking + 1 }) else none
  | .leave p =>
    match s.procs[p]? with
    | none => none
    | some q => if 0 < q.looking then some (s.put p { q with looking := q.looking - 1 }) else none
  | .reserve p path =>
    match s.procs[p]? with
    | none => none
    | some q =>
      if 0 < q.looking then
        some { s.put p { q with looking := q.looking - 1, holding := q.holding + 1 } with disk := s.disk.filter (fun e => e.path != path) }
      else none
  | .drop p =>
    match s.procs[p]? with
    | none => none
    | some q => if 0 < q.holding then some (s.put p { q with holding := q.holding - 1 }) else none
  | .publish p e =>
    match s.procs[p]? with
    | none => none
    | some q =>
      if 0 < q.holding ∧ e.bytes ≤ entryMax then
        some { s.put p { q with holding := q.holding - 1, unrecorded := e.bytes :: q.unrecorded } with disk := e :: s.disk.filter (fun x => x.path != e.path) }
      else none
  | .record p b =>
    match s.procs[p]? with
    | none => none
    | some q =>
      if b ∈ q.unrecorded then
        if (q.acct.note b).over L then
          some (s.put p { q with acct := q.acct.note b, unrecorded := q.unrecorded.erase b, cleaning := b :: q.cleaning })
        else some (s.put p { q with acct := q.acct.note b, unrecorded := q.unrecorded.erase b })
      else none
  | .clean p b out =>
    match s.procs[p]? with
    | none => none
    | some q =>
      if b ∈ q.cleaning ∧ free s then
        match cleanup L out s.disk with
        | none => none
        | some (gone, .done count total) =>
          some { s.put p { q with acct := ⟨true, count, total, 0⟩, cleaning := q.cleaning.erase b } with disk := remaining s.disk gone }
        | some (gone, _) => some { s.put p { q with cleaning := q.cleaning.erase b } with disk := remaining s.disk gone }
      else none
  | .abandon p b =>
    match s.procs[p]? with
    | none => none
    | some q => if b ∈ q.cleaning then some (s.put p { q with cleaning := q.cleaning.erase b }) else none
  | .invalidate p path =>
    match s.procs[p]? with
    | none => none
    | some q =>
      if free s then
        if s.disk.any (fun e => e.path == path) then
          some { s.put p { q with acct := .fresh } with disk := s.disk.filter (fun e => e.path != path) }
        else some s
      else none
  | .clear p =>
    match s.procs[p]? with
    | none => none
    | some q => if free s then some { s.put p { q with clearing := q.clearing + 1 } with disk := [], temps := [] } else none
  | .reset p =>
    match s.procs[p]? with
    | none => none
    | some q =>
      if 0 < q.clearing then some (s.put p { q with acct := ⟨true, 0, 0, 0⟩, clearing := q.clearing - 1 }) else none
  | .crash p temps =>
    match s.procs[p]? with
    | none => none
    | some q => if temps.length ≤ q.holding then some { s.put p .fresh with temps := temps ++ s.temps } else none
  | .vanish path => some { s with disk := s.disk.filter (fun e => e.path != path) }

/-- The state after a list of events, `none` if one of them is not possible when it should happen. -/
def run (L : Limits) : State → List Event → Option State
  | s, [] => some s
  | s, ev :: evs =>
    match step L s ev with
    | none => none
    | some s' => run L s' evs

end Verif.CacheLimits
