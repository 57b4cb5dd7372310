import Verif.Model.Mro
/-!
Model of how the engine turns unresolved inheritance facts into links, and of the two cached fallback chains
(crates/ruby-analysis/src/engine/state.rs L1603-1619, L1645-1657, L2253-2260, L2329-2335, L2962-2983, L3749-3864 and
engine/resolution.rs L2527-2573).

Simplifications: as in `Model/Mro` and `Model/GraphStore`; of the facts of a file only the graph facts are modelled, and of
`resolve` only the retry of unresolved edges, which no other part of `resolve` undoes (nothing else in the engine calls
`add_edge`); pending edges are retried in order of arrival, where the code goes file by file (the edges do not depend on one
another, see `Props/EngineGraph`); a query is one that asks for a lookup chain.
-/
namespace Verif.EngineGraph
open Verif.GraphStore Verif.Store Verif.Mro

/-- engine/state.rs `ConstLookup`, with the namespace parts of its context. -/
structure Lookup where
  path : List Nat
  absolute : Bool
  context : List Nat
  deriving DecidableEq

/-- What the code reads about names. -/
structure Names where
  cfg : Cfg
  /-- `names.const_lookup(id)` -/
  lookup : Nat → Lookup
  /-- `FullyQualifiedName::namespace(parts)` -/
  ns : List Nat → Nat
  /-- `fqn.to_singleton_namespace()` -/
  single : Nat → Nat

/-- engine/state.rs L3845-3861: the loop of `resolve_unresolved_graph_target`; the search namespaces are reversed, so that the
innermost comes first. -/
def search (N : Names) (s : State) (path : List Nat) : List Nat → Option Nat
  | [] => if (nodesFor s (N.ns path)).isEmpty then none else some (N.ns path)
  | x :: outer =>
    let target := N.ns ((x :: outer).reverse ++ path)
    if (nodesFor s target).isEmpty then search N s path outer else some target

/-- engine/state.rs L3829-3864 `resolve_unresolved_graph_target`. -/
def resolveTarget (N : Names) (s : State) (u : Unresolved) : Option Nat :=
  let lookup := N.lookup u.target
  search N s lookup.path (if lookup.absolute then [] else lookup.context.reverse)

/-- engine/state.rs L3794-3827 `resolved_singleton_superclass_companion`. -/
def companion (N : Names) (s : State) (u : Unresolved) (target : Nat) : Option (Nat × Nat) :=
  if u.kind ≠ .superclass ∨ N.cfg.singleton target then none
  else if N.cfg.singleton u.source ∨ (nodesFor s u.source).all (fun d => decide (d.kind ≠ kindClass)) ∨
      (nodesFor s target).all (fun d => decide (d.kind ≠ kindClass)) then none
  else some (N.single u.source, N.single target)

/-- The edge that stands for a resolved fact. -/
def edgeOf (u : Unresolved) (source target : Nat) (kind : Kind) : Edge :=
  { source, target, kind, prov := u.prov, file := u.file, start := u.start, stop := u.stop }

/-- engine/state.rs L3755-3786: one turn of the loop of `retry_unresolved_graph_edges`. -/
def retryOne (N : Names) (s : State) (u : Unresolved) : Outcome State :=
  match resolveTarget N s u with
  | none => .ok (addUnresolved s u)
  | some target =>
    let comp := companion N s u target
    (addEdge s (edgeOf u u.source target u.kind)).bind fun s =>
    match comp with
    | none => .ok s
    | some (a, b) => addEdge s (edgeOf u a b .superclass)

def retryAll (N : Names) : List Unresolved → State → Outcome State
  | [], s => .ok s
  | u :: l, s => (retryOne N s u).bind (retryAll N l)

/-- engine/state.rs L3749-3787 `retry_unresolved_graph_edges`. -/
def retry (N : Names) (s : State) : Outcome State :=
  if s.unresolved.isEmpty then .ok s else retryAll N s.unresolved (takeUnresolved s)

/-- engine/state.rs L1383-1384 and the graph. -/
structure Engine where
  graph : State
  topLevel : Option (List Nat)
  object : Option (List Nat)

def Engine.init : Engine := { graph := GraphStore.init, topLevel := none, object := none }

/-- The graph facts of one file. -/
structure Facts where
  nodes : List (Nat × Def)
  edges : List Edge
  unresolved : List Unresolved

/-- engine/state.rs L2253-2260, L2329-2335: the part of `replace_facts_deferred` about the graph. -/
def Engine.replace (e : Engine) (f : Nat) (x : Facts) : Outcome Engine :=
  (replaceFile e.graph f x.nodes x.edges x.unresolved).bind fun g => .ok { graph := g, topLevel := none, object := none }

/-- engine/state.rs L1645-1657 `resolve`, L1666-1691 `resolve_files`: the part about the graph. -/
def Engine.resolve (N : Names) (e : Engine) : Outcome Engine :=
  (retry N e.graph).bind fun g => .ok { e with graph := g }

/-- engine/resolution.rs L2527-2543: the top-level fallback, and the engine with the cache filled. -/
def Engine.askTopLevel (N : Names) (e : Engine) : Outcome (Engine × List Nat) :=
  match e.topLevel with
  | some chain => .ok (e, chain)
  | none =>
    match topLevelFallback N.cfg e.graph with
    | none => .panic
    | some chain => .ok ({ e with topLevel := some chain }, chain)

/-- engine/resolution.rs L2560-2573 `compute_universal_object_fallback`. -/
def Engine.askObject (N : Names) (e : Engine) : Outcome (Engine × List Nat) :=
  match e.object with
  | some chain => .ok (e, chain)
  | none =>
    match objectFallback N.cfg e.graph with
    | none => .panic
    | some chain => .ok ({ e with object := some chain }, chain)

/-- A call on the engine. -/
inductive Call where
  | replace (f : Nat) (x : Facts)
  | resolve
  | askTopLevel
  | askObject

def Engine.apply (N : Names) (e : Engine) : Call → Outcome Engine
  | .replace f x => e.replace f x
  | .resolve => e.resolve N
  | .askTopLevel => (e.askTopLevel N).bind fun r => .ok r.1
  | .askObject => (e.askObject N).bind fun r => .ok r.1

def Engine.run (N : Names) : List Call → Engine → Outcome Engine
  | [], e => .ok e
  | c :: cs, e => (e.apply N c).bind (Engine.run N cs)

end Verif.EngineGraph
