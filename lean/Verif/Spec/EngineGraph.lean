import Verif.Model.EngineGraph
import Verif.Spec.Mro
/-! Which links the current facts stand for. -/
namespace Verif.EngineGraph
open Verif.GraphStore Verif.Mro

/-- The names a constant may stand for, innermost namespace first. -/
def candidates (N : Names) (u : Unresolved) : List Nat :=
  if (N.lookup u.target).absolute then [N.ns (N.lookup u.target).path]
  else ((List.range ((N.lookup u.target).context.length + 1)).reverse).map fun k =>
    N.ns ((N.lookup u.target).context.take k ++ (N.lookup u.target).path)

/-- The facts define `n`. -/
def defined (nodes : List (Nat × Def)) (n : Nat) : Bool := nodes.any fun x => decide (x.1 = n)

/-- The facts define `n` as a class. -/
def definedClass (nodes : List (Nat × Def)) (n : Nat) : Bool := nodes.any fun x => decide (x.1 = n) && decide (x.2.kind = kindClass)

/-- What a constant stands for: the first candidate that is defined. -/
def target (N : Names) (nodes : List (Nat × Def)) (u : Unresolved) : Option Nat := (candidates N u).find? (defined nodes)

/-- The link from one name to another an unresolved fact gives rise to: it keeps the provenance and the place of the fact. -/
def linkOf (u : Unresolved) (a b : Nat) (kind : Kind) : Edge :=
  { source := a, target := b, kind := kind, prov := u.prov, file := u.file, start := u.start, stop := u.stop }

/-- The links an unresolved fact stands for: the link itself and, between classes, the link between their singletons. -/
def links (N : Names) (nodes : List (Nat × Def)) (u : Unresolved) : List Edge :=
  match target N nodes u with
  | none => []
  | some t =>
    linkOf u u.source t u.kind ::
      if u.kind = .superclass ∧ N.cfg.singleton t = false ∧ N.cfg.singleton u.source = false ∧
          definedClass nodes u.source = true ∧ definedClass nodes t = true
        then [linkOf u (N.single u.source) (N.single t) .superclass] else []

/-- What a call does to the facts of the files. -/
def currentStep (l : Log) : Call → Log
  | .replace f x => logOp l (.replace f x.nodes x.edges x.unresolved)
  | _ => l

/-- The current facts of the files: what the last replacement of each file brought. -/
def current (calls : List Call) : Log := calls.foldl currentStep Log.empty

/-- The links the current facts stand for. -/
def wanted (N : Names) (l : Log) : List Edge := l.edges ++ l.unresolved.flatMap (links N l.nodes)

/-- The facts in the graph after each call. -/
def logCall (N : Names) (l : Log) : Call → Log
  | .replace f x => logOp l (.replace f x.nodes x.edges x.unresolved)
  | .resolve =>
    { nodes := l.nodes
      edges := l.edges ++ l.unresolved.flatMap (links N l.nodes)
      unresolved := l.unresolved.filter fun u => (links N l.nodes u).isEmpty }
  | .askTopLevel => l
  | .askObject => l

def logCalls (N : Names) (calls : List Call) : Log := calls.foldl (logCall N) Log.empty

/-- Replacement facts belong to the file they replace. -/
def Call.Valid : Call → Prop
  | .replace f x => (∀ y ∈ x.nodes, y.2.file = f) ∧ (∀ e ∈ x.edges, e.file = f) ∧ (∀ u ∈ x.unresolved, u.file = f)
  | _ => True

/-- The files replaced. -/
def replaced : List Call → List Nat
  | calls => calls.filterMap fun c => match c with
    | .replace f _ => some f
    | _ => none

/-- Whatever a resolution in the middle of the history resolved, and was not replaced since, it resolved as the final facts would. -/
def Stable (N : Names) (calls : List Call) : Prop :=
  ∀ c1 c2, calls = c1 ++ Call.resolve :: c2 → ∀ u ∈ (logCalls N c1).unresolved, u.file ∉ replaced c2 →
    links N (logCalls N c1).nodes u ≠ [] → links N (logCalls N c1).nodes u = links N (current calls).nodes u

/-- No question is asked between a replacement and the next resolution. -/
def Quiet : Bool → List Call → Prop
  | _, [] => True
  | _, .replace _ _ :: cs => Quiet true cs
  | _, .resolve :: cs => Quiet false cs
  | dirty, .askTopLevel :: cs => dirty = false ∧ Quiet dirty cs
  | dirty, .askObject :: cs => dirty = false ∧ Quiet dirty cs

end Verif.EngineGraph
