import Verif.Model.Common
/-!
Model of `/repo/src/indexing_status.rs` L8-48 (phases), L188-420 (`ProjectIndexingStatus`).

Every method is one critical section on the state mutex.  The clock is a number of milliseconds that only grows.  A cancellation token
is the position of its run: `tokens[g]` says whether the token of generation `g` is cancelled (`tokens[0]` is the token made by `new`).
Anybody holding a run may cancel its token, so that is a step of its own.

Simplifications: `u64` counters are unbounded (`checked_add(..).expect`); the project root is left out; a failure text is an arbitrary
value, the assertion that it is not blank (L340-343) is left out.
-/
namespace Verif.Status

/-- `IndexingPhase`, L10-25. -/
inductive Phase where
  | discovered | queued | resolvingRuntime | discoveringInputs | indexingCore | indexingProject | projectNavigationReady
  | indexingDependencies | resolvingSemantics | dependencyNavigationReady | publishingDiagnostics | ready | failed | cancelled
  deriving DecidableEq

/-- L28-44. -/
def Phase.rank : Phase → Nat
  | .discovered => 0
  | .queued => 1
  | .resolvingRuntime => 2
  | .discoveringInputs => 3
  | .indexingCore => 4
  | .indexingProject => 5
  | .projectNavigationReady => 6
  | .indexingDependencies => 7
  | .resolvingSemantics => 8
  | .dependencyNavigationReady => 9
  | .publishingDiagnostics => 10
  | .ready => 11
  | .failed => 12
  | .cancelled => 12

/-- L46-48. -/
def Phase.isTerminal : Phase → Bool
  | .ready | .failed | .cancelled => true
  | _ => false

variable {F : Type}

/-- `ProjectIndexingState`, L188-201. -/
structure State (F : Type) where
  generation : Nat
  sequence : Nat
  phase : Phase
  completed : Option Nat
  total : Option Nat
  startedAt : Option Nat
  completedElapsed : Option Nat
  projectReady : Option Nat
  dependencyReady : Option Nat
  failure : Option F
  /-- the tokens of all runs so far, in order -/
  tokens : List Bool
  /-- the clock -/
  now : Nat

/-- `ProjectIndexingSnapshot`, L79-90. -/
structure Snapshot (F : Type) where
  generation : Nat
  sequence : Nat
  phase : Phase
  completed : Option Nat
  total : Option Nat
  elapsed : Nat
  projectReady : Option Nat
  dependencyReady : Option Nat
  failure : Option F

/-- `new`, L210-226. -/
def init (now : Nat) : State F :=
  { generation := 0, sequence := 0, phase := .discovered, completed := none, total := none, startedAt := none, completedElapsed := none,
    projectReady := none, dependencyReady := none, failure := none, tokens := [false], now }

/-- `elapsed_ms`, L412-421. -/
def elapsed (s : State F) : Nat := match s.startedAt with | some t => s.now - t | none => 0

/-- `snapshot_locked`, L393-409. -/
def snapshot (s : State F) : Snapshot F :=
  { generation := s.generation, sequence := s.sequence, phase := s.phase, completed := s.completed, total := s.total,
    elapsed := s.completedElapsed.getD (elapsed s), projectReady := s.projectReady, dependencyReady := s.dependencyReady, failure := s.failure }

/-- Cancel the token of generation `g`. -/
def cancelToken (l : List Bool) (g : Nat) : List Bool := l.modify g (fun _ => true)

/-- `begin_run`, L233-255. -/
def beginRun (s : State F) : State F :=
  { s with
    generation := s.generation + 1
    sequence := s.sequence + 1
    phase := .queued
    completed := none
    total := none
    startedAt := some s.now
    completedElapsed := none
    projectReady := none
    dependencyReady := none
    failure := none
    tokens := cancelToken s.tokens s.generation ++ [false] }

/-- The assertions on the arguments, L264-278. -/
def argsOk (phase : Phase) (completed total : Option Nat) : Bool :=
  decide (completed.isSome = total.isSome) && (match completed, total with | some c, some t => decide (c ≤ t) | _, _ => true) &&
    decide (phase ≠ .discovered ∧ phase ≠ .queued)

/-- The assertions against the current state, L284-305. -/
def forward (s : State F) (phase : Phase) (completed total : Option Nat) : Bool :=
  decide (s.phase.rank ≤ phase.rank) &&
    (decide (phase ≠ s.phase) ||
      ((match s.completed, completed with | some p, some n => decide (p ≤ n) | _, _ => true) &&
       (match s.total, total with | some p, some n => decide (n = p) | _, _ => true)))

/-- `transition`, L257-337. -/
def transition (s : State F) (g : Nat) (phase : Phase) (completed total : Option Nat) : Outcome (State F × Option (Snapshot F)) :=
  if argsOk phase completed total then
    if g ≠ s.generation ∨ s.phase.isTerminal then .ok (s, none)
    else if forward s phase completed total then
      let s1 := { s with sequence := s.sequence + 1, phase, completed, total, failure := none }
      let s2 := match phase with
        | .projectNavigationReady => { s1 with projectReady := some (elapsed s1) }
        | .dependencyNavigationReady => { s1 with dependencyReady := some (elapsed s1) }
        | .ready => { s1 with completedElapsed := some (elapsed s1) }
        | _ => s1
      .ok (s2, some (snapshot s2))
    else .panic
  else .panic

/-- `fail`, L339-357. -/
def fail (s : State F) (g : Nat) (f : F) : State F × Option (Snapshot F) :=
  if g ≠ s.generation ∨ s.phase.isTerminal then (s, none)
  else
    let s1 := { s with sequence := s.sequence + 1, phase := .failed, completed := none, total := none, failure := some f }
    let s2 := { s1 with completedElapsed := some (elapsed s1) }
    (s2, some (snapshot s2))

/-- `cancel`, L359-374. -/
def cancel (s : State F) (g : Nat) : State F × Option (Snapshot F) :=
  if g ≠ s.generation ∨ s.phase.isTerminal then (s, none)
  else
    let s1 := { s with sequence := s.sequence + 1, phase := .cancelled, completed := none, total := none, failure := none,
                       tokens := cancelToken s.tokens s.generation }
    let s2 := { s1 with completedElapsed := some (elapsed s1) }
    (s2, some (snapshot s2))

/-- `is_current_run` of the run of generation `g`, L381-386. -/
def isCurrentRun (s : State F) (g : Nat) : Bool :=
  decide (s.generation = g) && !s.phase.isTerminal && decide (s.tokens[g]? = some false)

/-- One call by any thread.  `cancel_current` (L376-379) reads a generation in one critical section and calls `cancel` with it, so it is
an instance of `cancel`. -/
inductive Step : State F → State F → Prop where
  | begin {s} : Step s (beginRun s)
  | transition {s s'} (g : Nat) (phase : Phase) (completed total : Option Nat) (r : Option (Snapshot F))
      (h : transition s g phase completed total = .ok (s', r)) : Step s s'
  | fail {s} (g : Nat) (f : F) : Step s (fail s g f).1
  | cancel {s} (g : Nat) : Step s (cancel s g).1
  /-- somebody holding the run of generation `g` cancels its token -/
  | token {s} (g : Nat) : Step s { s with tokens := cancelToken s.tokens g }
  | tick {s} (d : Nat) : Step s { s with now := s.now + d }

inductive Reachable : State F → Prop where
  | init (now : Nat) : Reachable (init now)
  | step {s s'} : Reachable s → Step s s' → Reachable s'

inductive Steps : State F → State F → Prop where
  | refl (s) : Steps s s
  | tail {s s' s''} : Steps s s' → Step s' s'' → Steps s s''

end Verif.Status
