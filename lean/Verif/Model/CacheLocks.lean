/-!
The locks of the persistent cache, shared by all processes: src/persistent_cache.rs L300-329 `invalidate_compiled_wasm`, L339-432
`lookup_derived_product`, L434-447 `summary`, L449-479 `clear`, L541-569 `ensure_accounting`, L584-634 `cleanup_to_limits`, L691-718
`publish_payload`, L779-807 `unlock` and `Drop`, L910-961 lock files and `acquire_lock`.

An actor is one call (a lookup together with the reservation it returns, or a maintenance call) in one thread of one process. Locks
are advisory `flock` locks on inodes (trusted): granted when compatible, released when the file is closed or the process ends. The
maintenance lock file is never removed. Key lock files live below the directory that `clear` deletes, so a path can lead to another
inode later. `acquire_lock` polls until it succeeds or times out.

A product on disk is missing, corrupt or valid. Publishing is one step (C27). Contents can be damaged or lost at any time, by anybody,
without any lock. Two requests with the same identity agree on what is valid.
-/
namespace Verif.CacheLocks

inductive Disk where
  | missing | corrupt | valid
  deriving DecidableEq

/-- What holds the exclusive maintenance lock: scanning for the accounting (L541-569), eviction (L584-634), clearing (L449-479), or
rejecting a compiled module (L300-329). -/
inductive Job where
  | scan | evict | clear
  | invalidate (k : Nat)
  deriving DecidableEq

inductive Actor where
  | idle
  /-- L376-377: opened the maintenance lock file, waiting for the shared lock. -/
  | wantShared (k : Nat)
  /-- L378: holds it, about to open the key lock file. -/
  | haveShared (k : Nat)
  /-- L379-380: opened inode `i`, waiting for the key lock. -/
  | wantKey (k i : Nat)
  /-- L382: holds both, about to look at the disk again. -/
  | checking (k i : Nat)
  /-- L412-427: the product was corrupt, about to remove it. -/
  | removing (k i : Nat)
  /-- A reservation. -/
  | reserved (k i : Nat)
  /-- After a hit, a publication, a failure or a drop: about to unlock the key. -/
  | leaving (k i : Nat)
  /-- The key is unlocked, the maintenance lease is not (L387, L786, L800). -/
  | left
  /-- L434-438 `summary`. -/
  | wantSummary
  | summarizing
  | wantExcl (j : Job)
  | excl (j : Job)
  /-- L304-307: holds the exclusive maintenance lock, waiting for the key. -/
  | invWant (k i : Nat)
  | invHold (k i : Nat)
  deriving DecidableEq

structure State where
  actor : Nat → Actor
  /-- lock table of the maintenance file -/
  shared : Nat → Bool
  excl : Option Nat
  /-- exclusive locks on the inodes of key lock files -/
  holder : Nat → Option Nat
  /-- the directory `locks` -/
  keyFile : Nat → Option Nat
  next : Nat
  product : Nat → Disk

def set {β : Type} (f : Nat → β) (a : Nat) (b : β) : Nat → β := fun x => if x = a then b else f x

/-- Closing every file of the calls in `gone`: their locks are released. -/
def State.releaseAll (s : State) (gone : Nat → Bool) : State :=
  { s with
    actor := fun t => if gone t then .idle else s.actor t
    shared := fun t => if gone t then false else s.shared t
    excl := match s.excl with
      | some t => if gone t then none else some t
      | none => none
    holder := fun i => match s.holder i with
      | some t => if gone t then none else some t
      | none => none }

inductive Step : State → State → Prop where
  /-- L346-377: the first look at the disk did not hit. -/
  | lookup {s : State} (t k : Nat) : s.actor t = .idle → Step s { s with actor := set s.actor t (.wantShared k) }
  | acquireShared {s : State} (t k : Nat) : s.actor t = .wantShared k → s.excl = none →
      Step s { s with actor := set s.actor t (.haveShared k), shared := set s.shared t true }
  /-- L910-930: open, creating the file if there is none. -/
  | openKey {s : State} (t k i : Nat) : s.actor t = .haveShared k → s.keyFile k = some i →
      Step s { s with actor := set s.actor t (.wantKey k i) }
  | createKey {s : State} (t k : Nat) : s.actor t = .haveShared k → s.keyFile k = none →
      Step s { s with actor := set s.actor t (.wantKey k s.next), keyFile := set s.keyFile k (some s.next), next := s.next + 1 }
  | acquireKey {s : State} (t k i : Nat) : s.actor t = .wantKey k i → s.holder i = none →
      Step s { s with actor := set s.actor t (.checking k i), holder := set s.holder i (some t) }
  /-- L383-392. -/
  | hit {s : State} (t k i : Nat) : s.actor t = .checking k i → s.product k = .valid →
      Step s { s with actor := set s.actor t (.leaving k i) }
  /-- L393-405. -/
  | miss {s : State} (t k i : Nat) : s.actor t = .checking k i → s.product k = .missing →
      Step s { s with actor := set s.actor t (.reserved k i) }
  /-- L406-415. -/
  | corrupt {s : State} (t k i : Nat) : s.actor t = .checking k i → s.product k = .corrupt →
      Step s { s with actor := set s.actor t (.removing k i) }
  /-- L415-430: whatever is there is removed. -/
  | remove {s : State} (t k i : Nat) : s.actor t = .removing k i →
      Step s { s with actor := set s.actor t (.reserved k i), product := set s.product k .missing }
  /-- L720-777: the rename. -/
  | publish {s : State} (t k i : Nat) : s.actor t = .reserved k i →
      Step s { s with actor := set s.actor t (.leaving k i), product := set s.product k .valid }
  /-- The publication fails before the rename, or the reservation is dropped; L382 and L419: an error of the file system. -/
  | giveUp {s : State} (t k i : Nat) : s.actor t = .reserved k i ∨ s.actor t = .checking k i ∨ s.actor t = .removing k i →
      Step s { s with actor := set s.actor t (.leaving k i) }
  /-- L384, L781, L793. -/
  | unlockKey {s : State} (t k i : Nat) : s.actor t = .leaving k i →
      Step s { s with actor := set s.actor t .left, holder := set s.holder i none }
  /-- L386, L784, L800, L440. -/
  | unlockShared {s : State} (t : Nat) : s.actor t = .left ∨ s.actor t = .summarizing →
      Step s { s with actor := set s.actor t .idle, shared := set s.shared t false }
  | summary {s : State} (t : Nat) : s.actor t = .idle → Step s { s with actor := set s.actor t .wantSummary }
  | summaryLock {s : State} (t : Nat) : s.actor t = .wantSummary → s.excl = none →
      Step s { s with actor := set s.actor t .summarizing, shared := set s.shared t true }
  | maintain {s : State} (t : Nat) (j : Job) : s.actor t = .idle → Step s { s with actor := set s.actor t (.wantExcl j) }
  | acquireExcl {s : State} (t : Nat) (j : Job) : s.actor t = .wantExcl j → s.excl = none → (∀ u, s.shared u = false) →
      Step s { s with actor := set s.actor t (.excl j), excl := some t }
  /-- L600-624, L460-467: remove one product. -/
  | evict {s : State} (t k : Nat) : s.actor t = .excl .evict ∨ s.actor t = .excl .clear →
      Step s { s with product := set s.product k .missing }
  /-- L460-467: remove one key lock file. -/
  | removeLock {s : State} (t k : Nat) : s.actor t = .excl .clear → Step s { s with keyFile := set s.keyFile k none }
  | invOpen {s : State} (t k i : Nat) : s.actor t = .excl (.invalidate k) → s.keyFile k = some i →
      Step s { s with actor := set s.actor t (.invWant k i) }
  | invCreate {s : State} (t k : Nat) : s.actor t = .excl (.invalidate k) → s.keyFile k = none →
      Step s { s with actor := set s.actor t (.invWant k s.next), keyFile := set s.keyFile k (some s.next), next := s.next + 1 }
  | invAcquire {s : State} (t k i : Nat) : s.actor t = .invWant k i → s.holder i = none →
      Step s { s with actor := set s.actor t (.invHold k i), holder := set s.holder i (some t) }
  | invRemove {s : State} (t k i : Nat) : s.actor t = .invHold k i → Step s { s with product := set s.product k .missing }
  | invUnlock {s : State} (t k i : Nat) : s.actor t = .invHold k i →
      Step s { s with actor := set s.actor t (.excl .scan), holder := set s.holder i none }
  /-- L472, L567, L631, L326; also any error while the lock is held. -/
  | finish {s : State} (t : Nat) (j : Job) : s.actor t = .excl j →
      Step s { s with actor := set s.actor t .idle, excl := none }
  /-- L948-955: a time-out, or any error; every file of the call is closed. -/
  | abort {s : State} (t : Nat) : Step s (s.releaseAll fun u => decide (u = t))
  /-- Processes end; `gone` is the set of their calls. -/
  | crash {s : State} (gone : Nat → Bool) : Step s (s.releaseAll gone)
  /-- A file is lost or damaged. -/
  | damage {s : State} (k : Nat) (d : Disk) : d ≠ .valid → Step s { s with product := set s.product k d }

structure Init (s : State) : Prop where
  actor : ∀ t, s.actor t = .idle
  shared : ∀ t, s.shared t = false
  excl : s.excl = none
  holder : ∀ i, s.holder i = none
  fresh : ∀ k i, s.keyFile k = some i → i < s.next
  distinct : ∀ k k' i, s.keyFile k = some i → s.keyFile k' = some i → k = k'

inductive Reachable (s0 : State) : State → Prop where
  | start : Reachable s0 s0
  | step {s s' : State} : Reachable s0 s → Step s s' → Reachable s0 s'

end Verif.CacheLocks
