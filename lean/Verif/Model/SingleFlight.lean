import Verif.Model.Common
/-!
Model of `/repo/src/single_flight.rs`: `SingleFlightCache` (L53-204), `BoundedSingleFlightCache` (L206-415) and
`BlockingBoundedSingleFlightCache` (L417-685) as one labelled transition system.  A step is what one thread or task does
between two points where others can interfere: a critical section of the `entries` mutex, one access to a flight's cell, or one
counter update.

* `mode = async`: the first two caches (the producer and its completion run in spawned tasks); `limits = none` is the unbounded one.
* `mode = blocking`: the third cache (the producer and its completion run in the calling thread).

Simplifications: a hash map is the list of its entries, in any order (lookups by key; counts, sums and minima over distinct
generations do not depend on the order); weights and counters are unbounded (the code panics on `u64` overflow); wall-clock
statistics are left out; the runtime runs every spawned task.  The eviction loop reads the cells while other flights may
complete: what one scan sees is any set between the completed entries at the start of the iteration and those at its end
(a superset of what the three scans of one iteration can see).
-/
namespace Verif.SingleFlight

inductive Mode where
  | async | blocking
  deriving DecidableEq

/-- What a producer ends with; in `async` mode a panic arrives as an `Err` (L146-148). -/
inductive Res (V E : Type) where
  | ok (v : V)
  | err (e : E)
  | panicked
  deriving DecidableEq

variable {K V E : Type}

def Res.isOk : Res V E → Bool
  | .ok _ => true
  | _ => false

/-- `matches!(cell.get(), Some(Ok(_)))`. -/
def isOk : Option (Res V E) → Bool
  | some r => r.isOk
  | none => false

structure Config (K V E : Type) where
  mode : Mode
  /-- `max_entries`, `max_weight`. -/
  limits : Option (Nat × Nat)
  weight : V → Nat

/-- Where the producer of a flight and its completion code are. -/
inductive Stage where
  /-- the flight is in the map, the producer not yet started (L138/L314/L560) -/
  | created
  | running
  /-- the producer returned, `failures` not yet counted -/
  | returned
  /-- `failures` counted -/
  | counted
  /-- blocking, failed: removed from the map, cell not yet set (between L570 and L573) -/
  | removed
  /-- async: cell set, waiters not yet notified (between L43 and L47) -/
  | set
  /-- waiters notified, map not yet cleaned up -/
  | notified
  /-- in the eviction loop, holding the map lock -/
  | evicting
  /-- completion code finished -/
  | processed
  deriving DecidableEq

structure Flight (K V E : Type) where
  key : K
  generation : Nat
  stage : Stage
  /-- what the producer returned -/
  returned : Option (Res V E)
  /-- the `OnceCell` / `BlockingFlightCompletion` -/
  cell : Option (Res V E)
  /-- `notify_waiters` / `notify_all` called -/
  notified : Bool

/-- A map entry: `BoundedFlightEntry`; the unbounded cache has no generation, it is not read there. -/
structure Entry (K : Type) where
  key : K
  flight : Nat
  generation : Nat
  deriving DecidableEq

/-- Where one call of `get_or_try_init` is. -/
inductive Phase (V E : Type) where
  /-- `lookups` counted, map not yet locked -/
  | counted
  /-- created flight `f`, must start its producer -/
  | owner (f : Nat)
  /-- blocking: runs the producer and completion of `f` itself -/
  | producing (f : Nat)
  /-- in `wait` of flight `f` -/
  | waiting (f : Nat)
  /-- `notified()` created; `seen` = the flight had notified already -/
  | armed (f : Nat) (seen : Bool)
  /-- `ready.await` / `Condvar::wait` -/
  | asleep (f : Nat) (seen : Bool)
  | done (f : Nat) (r : Res V E)
  /-- async: the calling future was dropped -/
  | abandoned

structure Caller (K V E : Type) where
  key : K
  phase : Phase V E

structure State (K V E : Type) where
  entries : List (Entry K)
  flights : List (Flight K V E)
  callers : List (Caller K V E)
  nextGeneration : Nat
  /-- the flight whose eviction loop holds the map lock, if any -/
  lock : Option Nat
  /-- completed entries at the start of the current eviction iteration -/
  base : List Nat
  lookups : Nat
  hits : Nat
  joined : Nat
  misses : Nat
  producers : Nat
  failures : Nat
  evictions : Nat

def init : State K V E :=
  { entries := [], flights := [], callers := [], nextGeneration := 0, lock := none, base := [], lookups := 0, hits := 0, joined := 0,
    misses := 0, producers := 0, failures := 0, evictions := 0 }

def State.flight (s : State K V E) (f : Nat) (g : Flight K V E → Flight K V E) : State K V E := { s with flights := s.flights.modify f g }

def State.caller (s : State K V E) (c : Nat) (p : Phase V E) : State K V E :=
  { s with callers := s.callers.modify c (fun x => { x with phase := p }) }

/-- The flight's cell holds `Ok`. -/
def okAt (s : State K V E) (f : Nat) : Bool :=
  match s.flights[f]? with
  | some fl => isOk fl.cell
  | none => false

/-- The weight of a completed flight. -/
def weightAt (cfg : Config K V E) (s : State K V E) (f : Nat) : Nat :=
  match s.flights[f]? with
  | some fl =>
    match fl.cell with
    | some (.ok v) => cfg.weight v
    | _ => 0
  | none => 0

/-- Entries whose flight is completed successfully. -/
def completed (s : State K V E) : List Nat := (s.entries.filter (fun e => okAt s e.flight)).map (·.flight)

/-- `if entries.get(&key).is_some_and(|current| Arc::ptr_eq(..)) { entries.remove(&key) }`, L158-163, L336-341, L643-651. -/
def removeIfOwned [DecidableEq K] (entries : List (Entry K)) (key : K) (f : Nat) : List (Entry K) :=
  match entries.find? (fun e => e.key = key) with
  | some current => if current.flight = f then entries.filter (fun e => e.key ≠ key) else entries
  | none => entries

/-- The decision of one eviction iteration, L393-412 and L655-676, on what the three scans saw: stop, or remove this entry. -/
def evictChoice (cfg : Config K V E) (s : State K V E) (maxEntries maxWeight : Nat) (count weight oldest : Nat → Bool) : Option (Entry K) :=
  if (s.entries.filter (fun e => count e.flight)).length ≤ maxEntries ∧
      ((s.entries.filter (fun e => weight e.flight)).map (fun e => weightAt cfg s e.flight)).sum ≤ maxWeight then none
  else minBy (fun a b => decide (a.generation < b.generation)) (s.entries.filter (fun e => oldest e.flight))

/-- What a scan of the cells may have seen in an iteration that started with `s.base` completed. -/
def Scan (s : State K V E) (seen : Nat → Bool) : Prop :=
  (∀ f ∈ s.base, seen f = true) ∧ ∀ e ∈ s.entries, seen e.flight = true → okAt s e.flight = true

/-- Does the entry count as a hit?  Async: the cell is set (L123, L281); blocking: it is set to `Ok` (L529). -/
def isHit (mode : Mode) (cell : Option (Res V E)) : Bool :=
  match mode with
  | .async => cell.isSome
  | .blocking => isOk cell

inductive Step [DecidableEq K] (cfg : Config K V E) : State K V E → State K V E → Prop where
  /-- `lookups.fetch_add(1)`, L116, L274, L522. -/
  | call {s} (key : K) :
      Step cfg s { s with lookups := s.lookups + 1, callers := s.callers ++ [{ key, phase := .counted }] }
  /-- The critical section, occupied entry: L121-128, L279-286, L527-534. -/
  | found {s} (c : Nat) (key : K) (e : Entry K) (fl : Flight K V E) (hlock : s.lock = none)
      (hc : s.callers[c]? = some { key, phase := .counted })
      (he : s.entries.find? (fun e => e.key = key) = some e) (hf : s.flights[e.flight]? = some fl) :
      Step cfg s
        { s.caller c (.waiting e.flight) with
          hits := if isHit cfg.mode fl.cell then s.hits + 1 else s.hits
          joined := if isHit cfg.mode fl.cell then s.joined else s.joined + 1 }
  /-- The critical section, vacant entry: L129-132, L287-307, L535-552. -/
  | miss {s} (c : Nat) (key : K) (hlock : s.lock = none) (hc : s.callers[c]? = some { key, phase := .counted })
      (he : s.entries.find? (fun e => e.key = key) = none) :
      Step cfg s
        { s.caller c (.owner s.flights.length) with
          misses := s.misses + 1
          nextGeneration := s.nextGeneration + 1
          flights := s.flights ++ [{ key, generation := s.nextGeneration + 1, stage := .created, returned := none, cell := none, notified := false }]
          entries := s.entries ++ [{ key, flight := s.flights.length, generation := s.nextGeneration + 1 }] }
  /-- `producers.fetch_add(1)` and the start of the producer: L136-143, L312-318, L556-558. -/
  | start {s} (c : Nat) (key : K) (f : Nat) (hc : s.callers[c]? = some { key, phase := .owner f }) :
      Step cfg s
        { (s.flight f (fun fl => { fl with stage := .running })).caller c
            (match cfg.mode with | .async => .waiting f | .blocking => .producing f) with
          producers := s.producers + 1 }
  /-- The producer ends. -/
  | finish {s} (f : Nat) (fl : Flight K V E) (r : Res V E) (hf : s.flights[f]? = some fl) (hs : fl.stage = .running)
      (hr : cfg.mode = .async → r ≠ .panicked) :
      Step cfg s (s.flight f (fun fl => { fl with stage := .returned, returned := some r }))
  /-- `if result.is_err() { failures.fetch_add(1) }`, L151-153, L328-330, L563-564, L577. -/
  | count {s} (f : Nat) (fl : Flight K V E) (hf : s.flights[f]? = some fl) (hs : fl.stage = .returned) :
      Step cfg s
        { s.flight f (fun fl => { fl with stage := .counted }) with
          failures := if isOk fl.returned then s.failures else s.failures + 1 }
  /-- Blocking: a failed flight leaves the map first, L565, L578. -/
  | removeFailed {s} (f : Nat) (fl : Flight K V E) (hlock : s.lock = none) (hm : cfg.mode = .blocking) (hf : s.flights[f]? = some fl)
      (hs : fl.stage = .counted) (hr : isOk fl.returned = false) :
      Step cfg s
        { s.flight f (fun fl => { fl with stage := .removed }) with
          entries := removeIfOwned s.entries fl.key f }
  /-- Async `complete`, first half: `result.set(result)`, L43 (the assertion is `cell = none`). -/
  | completeAsync {s} (f : Nat) (fl : Flight K V E) (hm : cfg.mode = .async) (hf : s.flights[f]? = some fl) (hs : fl.stage = .counted)
      (hassert : fl.cell = none) :
      Step cfg s (s.flight f (fun fl => { fl with stage := .set, cell := fl.returned }))
  /-- Async `complete`, second half: `notify_waiters`, L47. -/
  | notify {s} (f : Nat) (fl : Flight K V E) (hf : s.flights[f]? = some fl) (hs : fl.stage = .set) :
      Step cfg s (s.flight f (fun fl => { fl with stage := .notified, notified := true }))
  /-- Blocking `complete` / `complete_panicked`, L442-461: set and notify under the cell's lock. -/
  | completeBlocking {s} (f : Nat) (fl : Flight K V E) (hm : cfg.mode = .blocking) (hf : s.flights[f]? = some fl)
      (hs : fl.stage = if isOk fl.returned then .counted else .removed) (hassert : fl.cell = none) :
      Step cfg s (s.flight f (fun fl => { fl with stage := .notified, cell := fl.returned, notified := true }))
  /-- Async, failed: remove the entry, L155-164, L333-342. -/
  | cleanupFailed {s} (f : Nat) (fl : Flight K V E) (hlock : s.lock = none) (hm : cfg.mode = .async) (hf : s.flights[f]? = some fl)
      (hs : fl.stage = .notified) (hr : isOk fl.cell = false) :
      Step cfg s
        { s.flight f (fun fl => { fl with stage := .processed }) with
          entries := removeIfOwned s.entries fl.key f }
  /-- The cases that do not evict: async unbounded success (nothing to do) and a panicked blocking producer (L580). -/
  | cleanupNothing {s} (f : Nat) (fl : Flight K V E) (hf : s.flights[f]? = some fl) (hs : fl.stage = .notified)
      (hwhich : (cfg.mode = .async ∧ isOk fl.cell = true ∧ cfg.limits = none) ∨ (cfg.mode = .blocking ∧ (fl.cell = some .panicked ∨ cfg.limits = none))) :
      Step cfg s (s.flight f (fun fl => { fl with stage := .processed }))
  /-- `evict_completed_to_limits` locks the map, L344/L392, L570/L654. -/
  | evictStart {s} (f : Nat) (fl : Flight K V E) (hlock : s.lock = none) (hf : s.flights[f]? = some fl) (hs : fl.stage = .notified)
      (hlim : cfg.limits ≠ none) (hwhich : (cfg.mode = .async ∧ isOk fl.cell = true) ∨ (cfg.mode = .blocking ∧ fl.cell ≠ some .panicked)) :
      Step cfg s { s.flight f (fun fl => { fl with stage := .evicting }) with lock := some f, base := completed s }
  /-- One iteration that ends the loop. -/
  | evictStop {s} (f : Nat) (fl : Flight K V E) (maxEntries maxWeight : Nat) (count weight oldest : Nat → Bool) (hf : s.flights[f]? = some fl)
      (hs : fl.stage = .evicting) (hlim : cfg.limits = some (maxEntries, maxWeight))
      (hscan : Scan s count ∧ Scan s weight ∧ Scan s oldest)
      (hchoice : evictChoice cfg s maxEntries maxWeight count weight oldest = none) :
      Step cfg s { s.flight f (fun fl => { fl with stage := .processed }) with lock := none }
  /-- One iteration that removes an entry. -/
  | evictOne {s} (f : Nat) (fl : Flight K V E) (maxEntries maxWeight : Nat) (count weight oldest : Nat → Bool) (e : Entry K)
      (hf : s.flights[f]? = some fl) (hs : fl.stage = .evicting) (hlim : cfg.limits = some (maxEntries, maxWeight))
      (hscan : Scan s count ∧ Scan s weight ∧ Scan s oldest)
      (hchoice : evictChoice cfg s maxEntries maxWeight count weight oldest = some e) :
      Step cfg s
        { s with
          entries := s.entries.filter (fun x => x.key ≠ e.key)
          evictions := s.evictions + 1
          base := completed { s with entries := s.entries.filter (fun x => x.key ≠ e.key) } }
  /-- Blocking: the owner comes back from the completion code and either waits (L584) or unwinds (L580). -/
  | resume {s} (c : Nat) (key : K) (f : Nat) (fl : Flight K V E) (hc : s.callers[c]? = some { key, phase := .producing f })
      (hf : s.flights[f]? = some fl) (hs : fl.stage = .processed) :
      Step cfg s (s.caller c (match fl.cell with | some .panicked => .done f .panicked | _ => .waiting f))
  /-- `let ready = self.ready.notified()`, L34. -/
  | arm {s} (c : Nat) (key : K) (f : Nat) (fl : Flight K V E) (hc : s.callers[c]? = some { key, phase := .waiting f })
      (hf : s.flights[f]? = some fl) :
      Step cfg s (s.caller c (.armed f fl.notified))
  /-- `if let Some(result) = self.result.get()`, L35-38, L469-483. -/
  | check {s} (c : Nat) (key : K) (f : Nat) (seen : Bool) (fl : Flight K V E) (hc : s.callers[c]? = some { key, phase := .armed f seen })
      (hf : s.flights[f]? = some fl) :
      Step cfg s (s.caller c (match fl.cell with | some r => .done f r | none => .asleep f seen))
  /-- The notification arrives: `notify_waiters` was called after `notified()` was created. -/
  | wake {s} (c : Nat) (key : K) (f : Nat) (fl : Flight K V E) (hc : s.callers[c]? = some { key, phase := .asleep f false })
      (hf : s.flights[f]? = some fl) (hn : fl.notified = true) :
      Step cfg s (s.caller c (.waiting f))
  /-- Async: the calling future is dropped while it waits. -/
  | abandon {s} (c : Nat) (key : K) (f : Nat) (seen : Bool) (hm : cfg.mode = .async)
      (hc : s.callers[c]? = some { key, phase := .waiting f } ∨ s.callers[c]? = some { key, phase := .asleep f seen } ∨
        s.callers[c]? = some { key, phase := .armed f seen }) :
      Step cfg s (s.caller c .abandoned)

/-- The assertions of `complete` and `complete_panicked` (L42-46, L443-447, L454-458) fire. -/
def Panics (cfg : Config K V E) (s : State K V E) : Prop :=
  ∃ (f : Nat) (fl : Flight K V E), s.flights[f]? = some fl ∧ fl.cell ≠ none ∧
    match cfg.mode with
    | .async => fl.stage = .counted
    | .blocking => fl.stage = if isOk fl.returned then .counted else .removed

inductive Reachable [DecidableEq K] (cfg : Config K V E) : State K V E → Prop where
  | init : Reachable cfg init
  | step {s s'} : Reachable cfg s → Step cfg s s' → Reachable cfg s'

inductive Steps [DecidableEq K] (cfg : Config K V E) : State K V E → State K V E → Prop where
  | refl (s) : Steps cfg s s
  | tail {s s' s''} : Steps cfg s s' → Step cfg s' s'' → Steps cfg s s''

end Verif.SingleFlight
