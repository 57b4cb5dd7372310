import Verif.Model.GraphStore
/-!
Model of the method lookup chain (crates/ruby-analysis/src/engine/resolution.rs L2107-2119, L2240-2365, L2411-2468,
L2470-2490, L2527-2573, L2618-2634, L2647-2775) on top of the graph store.

Simplifications: names are the numbers under which the graph store interned them, and every name has one (a name the engine
has not interned has no node and no edge, so the answers are the same); the facts about names and files the code reads are
functions in `Cfg`; the recursion and the loop carry fuel, and `none` means the fuel ran out (proved impossible); sets are lists;
the two cached fallback chains are computed afresh (`Model/EngineGraph` models the caches).  `method_lookup_edge_is_language_owned`
panics for an edge of an unregistered file; files are never unregistered, so `languageOwned` is total.
-/
namespace Verif.Mro
open Verif.GraphStore

/-- What the code reads about names and files. -/
structure Cfg where
  /-- `fqn.namespace_kind() == Some(Singleton)` -/
  singleton : Nat → Bool
  /-- `fqn.to_instance_namespace()` -/
  inst : Nat → Nat
  /-- `fqn.namespace_parts().is_empty()` -/
  noParts : Nat → Bool
  /-- engine/resolution.rs L2107-2119 `is_universal_open_root` -/
  universal : Nat → Bool
  /-- engine/resolution.rs L2718-2734: the file is a stub or a signature -/
  languageOwned : Nat → Bool
  /-- the instance namespaces without parts, `Object`, `Class` and `Module` -/
  root : Nat
  object : Nat
  cls : Nat
  modl : Nat

/-- core/graph_store.rs `GraphNodeKind`: `Class`, `Module`. -/
def kindClass : Nat := 0
def kindModule : Nat := 1

/-- engine/resolution.rs L2765-2775 `edges_from`. -/
def edgesOf (s : State) (n : Nat) (k : Kind) : List Edge := (edgesFrom s n).filter (fun e => decide (e.kind = k))

/-- engine/state.rs L3300-3309 `proven_superclass_edge` (with L3317-3329). -/
def provenSuperclass (C : Cfg) (s : State) (n : Nat) : Option Edge :=
  if hasUnresolvedExplicit s (if C.singleton n then C.inst n else n) then none
  else
    match superclassResolution s n with
    | .unique e => some e
    | .missing => none
    | .ambiguous => none

/-- engine/resolution.rs L2658-2661 `edge_is_allowed`. -/
def allowed (C : Cfg) (allow : Bool) (n : Nat) (e : Edge) : Bool :=
  !(C.universal n && !allow) || C.languageOwned e.file

/-- engine/resolution.rs L2736-2763 `included_hook_extend_edges`. -/
def hookEdges (C : Cfg) (s : State) (allow : Bool) (n : Nat) : List Edge :=
  if C.singleton n then
    ((edgesOf s (C.inst n) .incl ++ edgesOf s (C.inst n) .prep).filter (allowed C allow n)).flatMap
      fun e => (edgesOf s e.target .extend).filter (allowed C allow n)
  else []

/-- The chain and the set `visited`. -/
structure St where
  chain : List Nat
  vis : List Nat
  deriving DecidableEq

/-- `for edge in edges { build_mro(..) }` -/
def each (f : Nat → St → Option St) : List Nat → St → Option St
  | [], st => some st
  | m :: l, st => (f m st).bind (each f l)

/-- The targets visited before and after the namespace itself, in order. -/
def before (C : Cfg) (s : State) (allow : Bool) (n : Nat) : List Nat :=
  (((edgesOf s n .prep).filter (allowed C allow n)).reverse).map (·.target)
def included (C : Cfg) (s : State) (allow : Bool) (n : Nat) : List Nat :=
  (((edgesOf s n .incl).filter (allowed C allow n)).reverse).map (·.target)
def hooked (C : Cfg) (s : State) (allow : Bool) (n : Nat) : List Nat :=
  (((hookEdges C s allow n).filter (allowed C allow n)).reverse).map (·.target)
def super (C : Cfg) (s : State) (allow : Bool) (n : Nat) : List Nat :=
  (((provenSuperclass C s n).filter (allowed C allow n)).map (·.target)).toList

/-- engine/resolution.rs L2647-2716 `build_mro`. -/
def buildMro (C : Cfg) (s : State) (allow : Bool) : Nat → Nat → St → Option St
  | 0, _, _ => none
  | fuel + 1, n, st =>
    if n ∈ st.vis then some st
    else
      (each (buildMro C s allow fuel) (before C s allow n) { st with vis := n :: st.vis }).bind fun st =>
      (each (buildMro C s allow fuel) (included C s allow n) { st with chain := st.chain ++ [n] }).bind fun st =>
      (each (buildMro C s allow fuel) (hooked C s allow n) st).bind fun st =>
      each (buildMro C s allow fuel) (super C s allow n) st

/-- Enough fuel: one more than the edge slots, and one for the start. -/
def enough (s : State) : Nat := s.edges.slots.length + 2

/-- engine/resolution.rs L3190-3195 `node_kind`. -/
def nodeKind (s : State) (n : Nat) : Option Nat := (nodesFor s n).head?.map (·.kind)

/-- engine/resolution.rs L2240-2248 `is_module_instance_namespace`. -/
def moduleInstance (C : Cfg) (s : State) (n : Nat) : Bool :=
  !C.singleton n && (nodesFor s n).any (fun d => decide (d.kind = kindModule))

/-- engine/resolution.rs L2445-2462: the links followed when looking for unresolved dependencies. -/
def depTargets (s : State) (n : Nat) : List Nat :=
  ((edgesFrom s n).filter (fun e => decide (e.kind ≠ .context))).map (·.target)

/-- engine/resolution.rs L2423-2443: the walk stops here with the answer `true`. -/
def depStops (C : Cfg) (s : State) (n : Nat) : Bool :=
  decide (superclassResolution s n = .ambiguous) ||
    s.unresolved.any (fun u => decide (u.prov = .explicit) && decide (u.source = if C.singleton n then C.inst n else n))

/-- engine/resolution.rs L2411-2468 `method_lookup_chain_has_unresolved_dependency_from_sources`, with
L2367-2379; the head of the list is the top of the stack. -/
def depWalk (C : Cfg) (s : State) : Nat → List Nat → List Nat → Option Bool
  | _, [], _ => some false
  | 0, _ :: _, _ => none
  | fuel + 1, n :: pending, vis =>
    if n ∈ vis then depWalk C s fuel pending vis
    else if depStops C s n then some true
    else depWalk C s fuel ((depTargets s n).reverse ++ pending) (n :: vis)

/-- All names some edge points to. -/
def targets (s : State) : List Nat := s.edges.all.map (·.target)

/-- Enough fuel for `depWalk`. -/
def enoughDep (s : State) (n : Nat) : Nat := 1 + ((n :: targets s).dedup.map (fun m => (depTargets s m).length)).sum

def unresolvedDependency (C : Cfg) (s : State) (n : Nat) : Option Bool := depWalk C s (enoughDep s n) [n] []

/-- engine/resolution.rs L2544-2546, L2555-2557: append what is not there yet. -/
def append : List Nat → St → St
  | [], st => st
  | m :: l, st => if m ∈ st.vis then append l st else append l { chain := st.chain ++ [m], vis := m :: st.vis }

/-- engine/resolution.rs L2618-2634 `compute_top_level_instance_fallback`. -/
def topLevelFallback (C : Cfg) (s : State) : Option (List Nat) :=
  (buildMro C s true (enough s) C.root ⟨[], []⟩).bind fun st =>
  (if (nodesFor s C.object).isEmpty then some st else buildMro C s true (enough s) C.object st).map (·.chain)

/-- engine/resolution.rs L2560-2573 `compute_universal_object_fallback`. -/
def objectFallback (C : Cfg) (s : State) : Option (List Nat) :=
  if (nodesFor s C.object).isEmpty then some []
  else (buildMro C s false (enough s) C.object ⟨[], []⟩).map (·.chain)

/-- engine/resolution.rs L2310-2365 `method_lookup_chain_without_metaclass_with_fallback` (and L2302-2308). -/
def chainWithoutMetaclass (C : Cfg) (s : State) (n : Nat) : Option (List Nat) :=
  (unresolvedDependency C s n).bind fun unresolved =>
  if (nodesFor s n).isEmpty then
    if C.noParts n then
      (topLevelFallback C s).map fun fallback =>
        let chain := (append fallback ⟨[], []⟩).chain
        if chain.isEmpty then [n] else chain
    else some [n]
  else
    (buildMro C s (C.universal n) (enough s) n ⟨[], []⟩).bind fun st =>
    if decide (C.root ∉ st.chain) && !C.noParts n && (moduleInstance C s n || C.singleton n) && !unresolved then
      (objectFallback C s).map fun fallback => (append fallback st).chain
    else some st.chain

/-- engine/resolution.rs L2470-2490 `metaclass_namespace_for_object`. -/
def metaclass (C : Cfg) (s : State) (n : Nat) : Option Nat :=
  if C.singleton n then
    match nodeKind s n with
    | none => none
    | some k =>
      let m := if k = kindClass then C.cls else C.modl
      if (nodesFor s m).isEmpty then none else some m
  else none

/-- engine/resolution.rs L2287-2300 `method_lookup_chain`. -/
def lookupChain (C : Cfg) (s : State) (n : Nat) : Option (List Nat) :=
  (chainWithoutMetaclass C s n).bind fun chain =>
  match metaclass C s n with
  | none => some chain
  | some m => (buildMro C s false (enough s) m ⟨chain, chain⟩).map (·.chain)

end Verif.Mro
