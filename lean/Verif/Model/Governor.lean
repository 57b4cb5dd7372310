import Verif.Model.Common
import Mathlib.Order.Defs.LinearOrder
/-!
Model of the admission part of `/repo/src/indexing_resources.rs`: policy (L19-93), work requests (L112-174), queue and
accounting (L200-227), reprioritisation and navigation reservations (L321-416), `acquire` (L614-720), selection and
reservation (L729-865), registration and lease `Drop` (L882-974).

Not modelled: the Rayon pools and `spawn_blocking` that run the admitted work.  Machine integers are `Nat`; the
`checked_add(..).is_some_and(total <= limit)` tests of the code agree with the unbounded test because every limit is a
`usize`.  As in the scheduler model, what happens under the mutex is one step and `notify_waiters` is a separate step.
-/
namespace Verif.Governor

/-- `IndexingResourcePriority`, L105-110. -/
inductive Prio where
  | activeDocument | openDocument | background
  deriving DecidableEq, Repr

/-- Derived `Ord`, L105. -/
def Prio.rank : Prio → Nat
  | .activeDocument => 0
  | .openDocument => 1
  | .background => 2

/-- `IndexingResourcePolicy`, L19-25. -/
structure Policy where
  cpu : Nat
  tasks : Nat
  mem : Nat
  io : Nat
  deriving DecidableEq

/-- The assertions of `IndexingResourcePolicy::with_limits`, L43-58. -/
def Policy.Valid (p : Policy) : Prop := 0 < p.cpu ∧ 0 < p.tasks ∧ 0 < p.mem ∧ 0 < p.io

/-- `IndexingWorkSpec`, L112-120. -/
structure Spec (P : Type) where
  root : Option P
  requested : Prio
  cpu : Nat
  mem : Nat
  io : Nat
  projectParallel : Bool
  deriving DecidableEq

/-- `QueuedWork`, L200-206. -/
structure Entry (P : Type) where
  id : Nat
  spec : Spec P
  prio : Prio
  order : Nat
  deriving DecidableEq

/-- Where a task stands in `acquire`: in the loop before `notified()` (L640-651), future created but state not inspected
(L651-653), suspended (L707-718), or having noticed its cancellation and counted it but not yet dropped its
registration (L645, L660, L711). -/
inductive Pc where
  | ready | armed | sleeping | leaving
  deriving DecidableEq, Repr

structure Waiter where
  pc : Pc
  notified : Bool
  cancelled : Bool
  deriving DecidableEq, Repr

/-- `AdmissionState` (L208-227), plus the live leases (`ActiveResourceLease`, L906-910, with the ticket that obtained
it) and the live waiting tasks, which the code does not store. -/
structure State (P : Type) where
  policy : Policy
  nextId : Nat
  queued : List (Entry P)
  tasks : Nat
  peakTasks : Nat
  cpu : Nat
  peakCpu : Nat
  mem : Nat
  peakMem : Nat
  io : Nat
  peakIo : Nat
  completed : Nat
  panicked : Nat
  cancelledBefore : Nat
  cancelledAfter : Nat
  activeProject : Option P
  reprioritizations : Nat
  counter : Nat
  navPending : Bool
  leases : List (Nat × Spec P)
  waiters : Nat → Option Waiter
  pendingNotify : Nat

variable {P : Type} [LinearOrder P]

/-- `IndexingResourceGovernor::new`, L252-290. -/
def init (policy : Policy) : State P :=
  { policy, nextId := 0, queued := [], tasks := 0, peakTasks := 0, cpu := 0, peakCpu := 0, mem := 0, peakMem := 0,
    io := 0, peakIo := 0, completed := 0, panicked := 0, cancelledBefore := 0, cancelledAfter := 0,
    activeProject := none, reprioritizations := 0, counter := 0, navPending := false, leases := [],
    waiters := fun _ => none, pendingNotify := 0 }

/-- `MAX_PRIORITY_ADMISSIONS_WHILE_BACKGROUND_WAITS`, L17. -/
def maxPriorityAdmissions : Nat := 1

/-- `effective_priority`, L729-738. -/
def effectivePriority (spec : Spec P) (activeProject : Option P) : Prio :=
  if activeProject ≠ none ∧ spec.root = activeProject then .activeDocument else spec.requested

/-- `validate_request_fits_policy`, L740-759 (the assertions). -/
def fitsPolicy (spec : Spec P) (policy : Policy) : Bool :=
  spec.cpu ≤ policy.cpu && spec.mem ≤ policy.mem && spec.io ≤ policy.io

/-- `project_parallel_blocked_by_active_navigation`, L782-789. -/
def blockedByNavigation (spec : Spec P) (s : State P) : Bool :=
  spec.projectParallel && s.navPending && s.activeProject ≠ spec.root

/-- `request_fits_available`, L761-780. -/
def fitsAvailable (spec : Spec P) (s : State P) : Bool :=
  !blockedByNavigation spec s && s.tasks < s.policy.tasks && s.cpu + spec.cpu ≤ s.policy.cpu &&
    s.mem + spec.mem ≤ s.policy.mem && s.io + spec.io ≤ s.policy.io

/-- Order on `Option<&Path>`: `None` first. -/
def optLt : Option P → Option P → Bool
  | none, some _ => true
  | some a, some b => a < b
  | _, none => false

/-- Key `(priority, insertion_order, project_root)`, L816-822. -/
def keyLt (a b : Entry P) : Bool :=
  a.prio.rank < b.prio.rank ||
    (a.prio.rank == b.prio.rank && (a.order < b.order || (a.order == b.order && optLt a.spec.root b.spec.root)))

/-- Key `(insertion_order, project_root)`, L806. -/
def ageLt (a b : Entry P) : Bool :=
  a.order < b.order || (a.order == b.order && optLt a.spec.root b.spec.root)

/-- `best_admissible_entry_index`, L791-824. -/
def best (s : State P) : Option Nat :=
  let byKey := (minBy (fun a b => keyLt a.2 b.2)
    ((enumerate s.queued).filter fun e => fitsAvailable e.2.spec s)).map (·.1)
  if s.counter ≥ maxPriorityAdmissions then
    match minBy (fun a b => ageLt a.2 b.2)
        ((enumerate s.queued).filter fun e => e.2.prio == .background && fitsAvailable e.2.spec s) with
    | some b => some b.1
    | none => byKey
  else byKey

def wakeAll (w : Nat → Option Waiter) : Nat → Option Waiter := fun i =>
  (w i).map fun x => if x.pc = .armed ∨ x.pc = .sleeping then { x with notified := true } else x

def setWaiter (w : Nat → Option Waiter) (i : Nat) (x : Option Waiter) : Nat → Option Waiter :=
  fun j => if j = i then x else w j

/-- How a lease ends, `Drop for ActiveResourceLease` L945-973: its thread is panicking, the work completed, or the
future holding it was dropped. -/
inductive End where
  | completed | panicked | cancelled
  deriving DecidableEq

inductive Op (P : Type) where
  /-- `acquire` up to the loop: validate and enqueue, L620-638 -/
  | acquire (spec : Spec P)
  /-- a loop iteration begins: not cancelled, `notified()` created, L641-651 -/
  | arm (id : Nat)
  /-- the locked half of an iteration, L652-705 -/
  | check (id : Nat)
  /-- the suspended task resumes because `changed` fired, L714/L717 -/
  | wake (id : Nat)
  /-- the owner cancels the token -/
  | cancel (id : Nat)
  /-- cancellation noticed and counted (`record_cancelled_before_start`), L645, L660-661, L711 -/
  | recordCancelled (id : Nat)
  /-- the registration is dropped without a lease, L882-898 -/
  | drop (id : Nat)
  /-- `prioritize_active_project_with_navigation_pending`, L326-359 -/
  | prioritize (root : P) (navPending : Bool)
  /-- `mark_project_navigation_pending_if_active`, L361-375 -/
  | markPending (root : P)
  /-- `mark_project_navigation_complete_if_active` L377-391, also `Drop for ProjectNavigationReservation` L917-932 -/
  | markComplete (root : P)
  /-- a lease is dropped, L934-974 -/
  | release (id : Nat) (how : End)
  /-- a delayed `changed.notify_waiters()` executes -/
  | notify

/-- L620-638. -/
def acquire (s : State P) (spec : Spec P) : Outcome (State P) :=
  if fitsPolicy spec s.policy then
    .ok { s with
      nextId := s.nextId + 1
      queued := s.queued ++ [{ id := s.nextId, spec, prio := effectivePriority spec s.activeProject, order := s.nextId }]
      waiters := setWaiter s.waiters s.nextId (some { pc := .ready, notified := false, cancelled := false }) }
  else .panic

/-- `reserve_resources` (L826-865) together with the rest of the admission branch, L668-705. -/
def admit (s : State P) (winner : Nat) (entry : Entry P) (id : Nat) : Outcome (State P) :=
  let backgroundWaiting := s.queued.any fun e => e.id ≠ id && e.prio == .background && fitsAvailable e.spec s
  if fitsAvailable entry.spec s then
    let counter := if entry.prio = .background ∨ backgroundWaiting = false then 0 else s.counter + 1
    if counter > maxPriorityAdmissions then .panic
    else .ok { s with
      queued := swapRemove s.queued winner
      tasks := s.tasks + 1
      cpu := s.cpu + entry.spec.cpu
      mem := s.mem + entry.spec.mem
      io := s.io + entry.spec.io
      peakTasks := max s.peakTasks (s.tasks + 1)
      peakCpu := max s.peakCpu (s.cpu + entry.spec.cpu)
      peakMem := max s.peakMem (s.mem + entry.spec.mem)
      peakIo := max s.peakIo (s.io + entry.spec.io)
      counter
      leases := (id, entry.spec) :: s.leases
      waiters := setWaiter s.waiters id none }
  else .panic

/-- The locked half of an iteration, L652-705, token not cancelled. -/
def check (s : State P) (id : Nat) (w : Waiter) : Outcome (State P) :=
  let sleep := Outcome.ok { s with waiters := setWaiter s.waiters id (some { w with pc := .sleeping }) }
  match best s with
  | some winner =>
    match s.queued[winner]? with
    | some entry => if entry.id = id then admit s winner entry id else sleep
    | none => .panic
  | none => sleep

/-- `Drop for QueuedTaskRegistration`, L882-898. -/
def dropRegistration (s : State P) (id : Nat) : State P :=
  let s := { s with waiters := setWaiter s.waiters id none }
  match s.queued.findIdx? (fun e => e.id == id) with
  | some index => { s with queued := swapRemove s.queued index, pendingNotify := s.pendingNotify + 1 }
  | none => s

/-- `prioritize_active_project_with_navigation_pending`, L326-359. -/
def prioritize (s : State P) (root : P) (navPending : Bool) : State P :=
  let switched := s.activeProject ≠ some root
  let queued := s.queued.map fun e => { e with prio := effectivePriority e.spec (some root) }
  let changed := switched ∨ s.navPending ≠ navPending ∨ queued ≠ s.queued
  { s with
    activeProject := some root
    reprioritizations := if switched then s.reprioritizations + 1 else s.reprioritizations
    navPending
    queued
    pendingNotify := if changed then s.pendingNotify + 1 else s.pendingNotify }

/-- `Drop for ActiveResourceLease`, L934-974; the `checked_sub` panics are explicit. -/
def release (s : State P) (id : Nat) (spec : Spec P) (how : End) : Outcome (State P) :=
  if s.tasks < 1 ∨ s.cpu < spec.cpu ∨ s.mem < spec.mem ∨ s.io < spec.io then .panic
  else .ok { s with
    tasks := s.tasks - 1
    cpu := s.cpu - spec.cpu
    mem := s.mem - spec.mem
    io := s.io - spec.io
    completed := if how = .completed then s.completed + 1 else s.completed
    panicked := if how = .panicked then s.panicked + 1 else s.panicked
    cancelledAfter := if how = .cancelled then s.cancelledAfter + 1 else s.cancelledAfter
    leases := s.leases.erase (id, spec)
    pendingNotify := s.pendingNotify + 1 }

def step (s : State P) : Op P → Outcome (State P)
  | .acquire spec => acquire s spec
  | .arm id =>
    match s.waiters id with
    | some w => if w.pc = .ready ∧ w.cancelled = false then
        .ok { s with waiters := setWaiter s.waiters id (some { w with pc := .armed, notified := false }) }
      else .disabled
    | none => .disabled
  | .check id =>
    match s.waiters id with
    | some w => if w.pc = .armed ∧ w.cancelled = false then check s id w else .disabled
    | none => .disabled
  | .wake id =>
    match s.waiters id with
    | some w => if w.pc = .sleeping ∧ w.notified = true then
        .ok { s with waiters := setWaiter s.waiters id (some { w with pc := .ready }) }
      else .disabled
    | none => .disabled
  | .cancel id =>
    match s.waiters id with
    | some w => .ok { s with waiters := setWaiter s.waiters id (some { w with cancelled := true }) }
    | none => .disabled
  | .recordCancelled id =>
    match s.waiters id with
    | some w => if w.cancelled = true ∧ w.pc ≠ .leaving then
        .ok { s with
          cancelledBefore := s.cancelledBefore + 1
          waiters := setWaiter s.waiters id (some { w with pc := .leaving }) }
      else .disabled
    | none => .disabled
  | .drop id =>
    match s.waiters id with
    | some w => if w.pc ≠ .armed then .ok (dropRegistration s id) else .disabled
    | none => .disabled
  | .prioritize root navPending => .ok (prioritize s root navPending)
  | .markPending root =>
    if s.activeProject = some root ∧ s.navPending = false then
      .ok { s with navPending := true, pendingNotify := s.pendingNotify + 1 }
    else .ok s
  | .markComplete root =>
    if s.activeProject = some root ∧ s.navPending = true then
      .ok { s with navPending := false, pendingNotify := s.pendingNotify + 1 }
    else .ok s
  | .release id how =>
    match s.leases.find? (fun l => l.1 == id) with
    | some lease => release s id lease.2 how
    | none => .disabled
  | .notify =>
    if s.pendingNotify = 0 then .disabled
    else .ok { s with waiters := wakeAll s.waiters, pendingNotify := s.pendingNotify - 1 }

/-- Any state reached from a fresh governor by any sequence of operations. -/
inductive Reachable (policy : Policy) : State P → Prop where
  | init : Reachable policy (init policy)
  | step {s t : State P} (op : Op P) : Reachable policy s → step s op = .ok t → Reachable policy t

/-- Run a list of operations (used for concrete cases). -/
def run (s : State P) : List (Op P) → Option (State P)
  | [] => some s
  | op :: ops => match step s op with
    | .ok t => run t ops
    | _ => none

end Verif.Governor
