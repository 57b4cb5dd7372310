import Verif.Model.Status
import Verif.Model.NavDemand
/-!
Model of `begin_indexing_run` and `cancel_current_indexing_run` (`/repo/src/server.rs` L355-366): the indexing status and the navigation
demand controller of one project are changed one after the other, with no lock held in between.
-/
namespace Verif.Workspace

variable {F K : Type}

structure State (F K : Type) where
  status : Status.State F
  demands : NavDemand.Ctl K
  /-- generations of the calls of `begin_indexing_run` that are past L357 and before L358 -/
  beginning : List Nat
  /-- generations of the calls of `cancel_current_indexing_run` that are past L363; `true` once they are past L364 -/
  cancelling : List (Nat × Bool)

def init (now : Nat) : State F K := { status := Status.init now, demands := NavDemand.Ctl.init, beginning := [], cancelling := [] }

inductive Step : State F K → State F K → Prop where
  /-- L357 -/
  | beginStatus {s} : Step s { s with status := Status.beginRun s.status, beginning := s.beginning ++ [s.status.generation + 1] }
  /-- L358 by the `i`-th such call -/
  | beginDemand {s} (i g : Nat) (c : NavDemand.Ctl K) (hi : s.beginning[i]? = some g) (h : NavDemand.begin s.demands g = .ok c) :
      Step s { s with demands := c, beginning := s.beginning.eraseIdx i }
  /-- L363 -/
  | cancelRead {s} : Step s { s with cancelling := s.cancelling ++ [(s.status.generation, false)] }
  /-- L364: `cancel_current` reads the generation again -/
  | cancelStatus {s} (i g : Nat) (hi : s.cancelling[i]? = some (g, false)) :
      Step s { s with status := (Status.cancel s.status s.status.generation).1, cancelling := s.cancelling.set i (g, true) }
  /-- L365 -/
  | cancelDemand {s} (i g : Nat) (hi : s.cancelling[i]? = some (g, true)) :
      Step s { s with demands := (NavDemand.cancel s.demands g).1, cancelling := s.cancelling.eraseIdx i }

inductive Reachable : State F K → Prop where
  | init (now : Nat) : Reachable (init now)
  | step {s s'} : Reachable s → Step s s' → Reachable s'

/-- The same, with calls of `begin_indexing_run` kept apart by a lock. -/
inductive Serial : State F K → Prop where
  | init (now : Nat) : Serial (init now)
  | step {s s'} : Serial s → Step s s' → s'.beginning.length ≤ 1 → Serial s'

end Verif.Workspace
