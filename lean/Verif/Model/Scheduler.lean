import Verif.Model.Common
import Mathlib.Order.Defs.LinearOrder
/-!
Model of `/repo/src/indexing_scheduler.rs` (the whole non-test part, L1-369).

Simplifications: ticket numbers and counters are unbounded `Nat` (the code panics on `u64` overflow); a project root is
any linearly ordered type `P` (the code: `PathBuf`, compared as OS strings).  Everything done under the state mutex is
one atomic step.  `Notify::notify_waiters` is called *after* the mutex is released, so it is a separate step: a state
change leaves a *pending notification* behind, executed later by an `Op.notify` step (`pendingNotify` counts them).
Per tokio's documentation `notify_waiters` wakes every `Notified` future that exists at the time of the call.
-/
namespace Verif.Scheduler

/-- `IndexingPriority`, L11-16. -/
inductive Prio where
  | activeDocument | openDocument | background
  deriving DecidableEq, Repr

/-- The derived `Ord` of `IndexingPriority` (declaration order), L11. -/
def Prio.rank : Prio → Nat
  | .activeDocument => 0
  | .openDocument => 1
  | .background => 2

/-- `QueueEntry`, L19-25. -/
structure Entry (P : Type) where
  id : Nat
  root : P
  requested : Prio
  prio : Prio
  order : Nat
  deriving DecidableEq

/-- Where a task that owns an `IndexingAdmission` stands in `wait`, L143-209: before creating the `Notified` future
(L144-147, also "never polled"), with the future created but the state not yet inspected (L148-150), or suspended in
`select!` (L203-207). -/
inductive Pc where
  | ready | armed | sleeping
  deriving DecidableEq, Repr

/-- One `IndexingAdmission` (L137-140) that is neither finished nor dropped.  `notified`: its current `Notified` future
has been woken.  `cancelled`: its cancellation token is cancelled. -/
structure Waiter where
  pc : Pc
  notified : Bool
  cancelled : Bool
  deriving DecidableEq, Repr

/-- `SchedulerInner` + `SchedulerState`, L28-43.  `permits` is the collection of live `IndexingPermit` values (L347-350),
`waiters` the live admissions by ticket; neither is stored by the code, both are part of the system being described. -/
structure State (P : Type) where
  limit : Nat
  nextId : Nat
  active : Nat
  activeRoots : List P
  queued : List (Entry P)
  activeProject : Option P
  reprioritizations : Nat
  counter : Nat
  permits : List P
  waiters : Nat → Option Waiter
  pendingNotify : Nat

variable {P : Type} [LinearOrder P]

/-- `IndexingScheduler::new`, L51-71 (limit 0 panics; see `init?`). -/
def init (limit : Nat) : State P :=
  { limit, nextId := 0, active := 0, activeRoots := [], queued := [], activeProject := none, reprioritizations := 0,
    counter := 0, permits := [], waiters := fun _ => none, pendingNotify := 0 }

/-- `MAX_PRIORITY_ADMISSIONS_WHILE_BACKGROUND_WAITS`, L9. -/
def maxPriorityAdmissions : Nat := 1

/-- `effective_priority`, L256-266. -/
def effectivePriority (root : P) (requested : Prio) (activeProject : Option P) : Prio :=
  if activeProject = some root then .activeDocument else requested

/-- Key comparison of `best_admissible_entry_index`, L285-291: `(priority, insertion_order, project_root)`. -/
def keyLt (a b : Entry P) : Bool :=
  a.prio.rank < b.prio.rank ||
    (a.prio.rank == b.prio.rank && (a.order < b.order || (a.order == b.order && a.root < b.root)))

/-- Key comparison of the background selection, L309: `(insertion_order, project_root)`. -/
def ageLt (a b : Entry P) : Bool :=
  a.order < b.order || (a.order == b.order && a.root < b.root)

/-- `best_admissible_entry_index`, L277-293. -/
def bestAdmissible (entries : List (Entry P)) (activeRoots : List P) : Option Nat :=
  (minBy (fun a b => keyLt a.2 b.2)
    ((enumerate entries).filter fun e => !activeRoots.contains e.2.root)).map (·.1)

/-- `best_admissible_entry_index_with_fairness`, L295-316. -/
def bestWithFairness (entries : List (Entry P)) (activeRoots : List P) (counter : Nat) : Option Nat :=
  if counter ≥ maxPriorityAdmissions then
    match minBy (fun a b => ageLt a.2 b.2)
        ((enumerate entries).filter fun e => e.2.prio == .background && !activeRoots.contains e.2.root) with
    | some b => some b.1
    | none => bestAdmissible entries activeRoots
  else bestAdmissible entries activeRoots

/-- `Notify::notify_waiters`: every existing `Notified` future (armed or sleeping waiter) is woken. -/
def wakeAll (w : Nat → Option Waiter) : Nat → Option Waiter := fun i =>
  (w i).map fun x => if x.pc = .ready then x else { x with notified := true }

def setWaiter (w : Nat → Option Waiter) (i : Nat) (x : Option Waiter) : Nat → Option Waiter :=
  fun j => if j = i then x else w j

/-- Operations: calls by clients, polls by waiting tasks, and the delayed `notify_waiters` calls. -/
inductive Op (P : Type) where
  /-- `register_cancellable`, L102-134 -/
  | register (root : P) (prio : Prio)
  /-- first half of a `wait` iteration: not cancelled, create the `Notified` future, L145-148 -/
  | arm (id : Nat)
  /-- second half under the mutex, L149-202 -/
  | check (id : Nat)
  /-- the suspended task resumes because `changed` fired, L206 -/
  | wake (id : Nat)
  /-- the owner cancels the token -/
  | cancel (id : Nat)
  /-- `wait` notices the cancellation (L145, L151 or L205), returns `None` and drops the registration -/
  | exitCancelled (id : Nat)
  /-- the owner drops the admission (never polled, or suspended), L333-345 -/
  | drop (id : Nat)
  /-- `prioritize_active_project`, L213-242 -/
  | prioritize (root : P)
  /-- a permit is dropped, L352-369 -/
  | release (root : P)
  /-- a delayed `changed.notify_waiters()` executes -/
  | notify

/-- `register_cancellable`, L102-134. -/
def register (s : State P) (root : P) (prio : Prio) : State P :=
  let id := s.nextId
  { s with
    nextId := s.nextId + 1
    queued := s.queued ++ [{ id, root, requested := prio, prio := effectivePriority root prio s.activeProject, order := id }]
    waiters := setWaiter s.waiters id (some { pc := .ready, notified := false, cancelled := false })
    pendingNotify := s.pendingNotify + 1 }

/-- The admission branch of `wait`, L161-198, for the queue entry at index `winner`.  The two assertions (L168-172 and
L185-189) are the `panic` outcomes. -/
def admit (s : State P) (winner : Nat) (entry : Entry P) (id : Nat) : Outcome (State P) :=
  let backgroundWaiting := s.queued.any fun e => e.prio == .background && !s.activeRoots.contains e.root
  let queued := swapRemove s.queued winner
  if s.activeRoots.contains entry.root then .panic
  else
    let counter := if entry.prio = .background ∨ backgroundWaiting = false then 0 else s.counter + 1
    if counter > maxPriorityAdmissions then .panic
    else .ok { s with
      queued
      activeRoots := entry.root :: s.activeRoots
      active := s.active + 1
      counter
      permits := entry.root :: s.permits
      waiters := setWaiter s.waiters id none
      pendingNotify := s.pendingNotify + 1 }

/-- The locked half of one iteration of `wait`, L149-202, for a token that is not cancelled. -/
def check (s : State P) (id : Nat) (w : Waiter) : Outcome (State P) :=
  let sleep := Outcome.ok { s with waiters := setWaiter s.waiters id (some { w with pc := .sleeping }) }
  if s.active < s.limit then
    match bestWithFairness s.queued s.activeRoots s.counter with
    | some winner =>
      match s.queued[winner]? with
      | some entry => if entry.id = id then admit s winner entry id else sleep
      | none => .panic
    | none => sleep
  else sleep

/-- `Drop for QueueRegistration` of a registration that was not admitted, L333-345. -/
def dropRegistration (s : State P) (id : Nat) : State P :=
  let s := { s with waiters := setWaiter s.waiters id none }
  match s.queued.findIdx? (fun e => e.id == id) with
  | some index => { s with queued := swapRemove s.queued index, pendingNotify := s.pendingNotify + 1 }
  | none => s

/-- `prioritize_active_project`, L213-242. -/
def prioritize (s : State P) (root : P) : State P :=
  let switched := s.activeProject ≠ some root
  let queued := s.queued.map fun e => { e with prio := effectivePriority e.root e.requested (some root) }
  let changed := switched ∨ queued ≠ s.queued
  { s with
    activeProject := some root
    reprioritizations := if switched then s.reprioritizations + 1 else s.reprioritizations
    queued
    pendingNotify := if changed then s.pendingNotify + 1 else s.pendingNotify }

/-- `Drop for IndexingPermit`, L352-369; assertions L355-358 and L360-364. -/
def release (s : State P) (root : P) : Outcome (State P) :=
  if s.active = 0 then .panic
  else if !s.activeRoots.contains root then .panic
  else .ok { s with
    activeRoots := s.activeRoots.erase root
    active := s.active - 1
    permits := s.permits.erase root
    pendingNotify := s.pendingNotify + 1 }

/-- One step of the system. -/
def step (s : State P) : Op P → Outcome (State P)
  | .register root prio => .ok (register s root prio)
  | .arm id =>
    match s.waiters id with
    | some w => if w.pc = .ready ∧ w.cancelled = false then
        .ok { s with waiters := setWaiter s.waiters id (some { w with pc := .armed, notified := false }) }
      else .disabled
    | none => .disabled
  | .check id =>
    match s.waiters id with
    | some w => if w.pc = .armed ∧ w.cancelled = false then check s id w else .disabled
    | none => .disabled
  | .wake id =>
    match s.waiters id with
    | some w => if w.pc = .sleeping ∧ w.notified = true then
        .ok { s with waiters := setWaiter s.waiters id (some { w with pc := .ready }) }
      else .disabled
    | none => .disabled
  | .cancel id =>
    match s.waiters id with
    | some w => .ok { s with waiters := setWaiter s.waiters id (some { w with cancelled := true }) }
    | none => .disabled
  | .exitCancelled id =>
    match s.waiters id with
    | some w => if w.cancelled = true then .ok (dropRegistration s id) else .disabled
    | none => .disabled
  | .drop id =>
    match s.waiters id with
    | some w => if w.pc ≠ .armed then .ok (dropRegistration s id) else .disabled
    | none => .disabled
  | .prioritize root => .ok (prioritize s root)
  | .release root => if s.permits.contains root then release s root else .disabled
  | .notify =>
    if s.pendingNotify = 0 then .disabled
    else .ok { s with waiters := wakeAll s.waiters, pendingNotify := s.pendingNotify - 1 }

/-- Any state reached from a fresh scheduler by any sequence of operations, in any interleaving. -/
inductive Reachable (limit : Nat) : State P → Prop where
  | init : Reachable limit (init limit)
  | step {s t : State P} (op : Op P) : Reachable limit s → step s op = .ok t → Reachable limit t

/-- Run a list of operations (used for concrete cases). -/
def run (s : State P) : List (Op P) → Option (State P)
  | [] => some s
  | op :: ops => match step s op with
    | .ok t => run t ops
    | _ => none

/-- `Steps s ops t`: performing `ops` one after the other leads from `s` to `t`. -/
inductive Steps : State P → List (Op P) → State P → Prop where
  | nil (s : State P) : Steps s [] s
  | cons {s t u : State P} {op : Op P} {ops : List (Op P)} : step s op = .ok t → Steps t ops u → Steps s (op :: ops) u

end Verif.Scheduler
