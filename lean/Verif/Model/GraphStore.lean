import Verif.Model.Arena
/-!
Model of `SemanticGraph` (crates/ruby-analysis/src/core/graph_store.rs L240-760).

Simplifications: identifiers, offsets and node kinds are natural numbers; the ten per-kind edge lists of a `GraphNode` are two
functions from the edge kind; a missing node is a node whose lists are all empty (no query tells them apart); the per-file
vectors of unresolved edges are one list, the vector of a file being its sublist; counters are unbounded (`checked_add`
cannot fail).  Not modelled: `all_nodes`, `nodes_in_file`, counts and heap estimates.
-/
namespace Verif.GraphStore
open Verif.Store

/-- core/graph_store.rs `GraphEdgeKind`, in declaration order (its derived `Ord`). -/
inductive Kind where
  | superclass | incl | prep | extend | context
  deriving DecidableEq

/-- Position in the derived order. -/
def Kind.rank : Kind → Nat
  | .superclass => 0 | .incl => 1 | .prep => 2 | .extend => 3 | .context => 4

/-- core/graph_store.rs L25-28 `GraphEdgeProvenance`. -/
inductive Prov where
  | explicit | implicitObject
  deriving DecidableEq

def Prov.rank : Prov → Nat
  | .explicit => 0 | .implicitObject => 1

/-- core/graph_store.rs `GraphEdge` (and `StoredGraphEdgeFact`, which has the same fields). -/
structure Edge where
  source : Nat
  target : Nat
  kind : Kind
  prov : Prov
  file : Nat
  start : Nat
  stop : Nat
  deriving DecidableEq

/-- core/graph_store.rs `StoredUnresolvedGraphEdgeFact`. -/
structure Unresolved where
  source : Nat
  target : Nat
  kind : Kind
  prov : Prov
  file : Nat
  start : Nat
  stop : Nat
  deriving DecidableEq

/-- core/graph_store.rs `GraphNodeDefinition`. -/
structure Def where
  kind : Nat
  file : Nat
  start : Nat
  stop : Nat
  deriving DecidableEq

/-- core/graph_store.rs `GraphNode`. -/
structure Node where
  defs : List Def
  out : Kind → List Nat
  inc : Kind → List Nat

def Node.empty : Node := { defs := [], out := fun _ => [], inc := fun _ => [] }

/-- core/graph_store.rs L240-249. -/
structure State where
  nodes : Nat → Node
  edges : Arena Edge
  defFiles : Nat → Bool
  byFile : Nat → List Nat
  unresolved : List Unresolved
  counts : Nat → Option Nat

def init : State :=
  { nodes := fun _ => Node.empty, edges := Arena.empty, defFiles := fun _ => false, byFile := fun _ => [],
    unresolved := [], counts := fun _ => none }

def updNode (nodes : Nat → Node) (n : Nat) (x : Node) : Nat → Node := fun m => if m = n then x else nodes m

/-- core/graph_store.rs `sort_node_definitions`. -/
def defKey (d : Def) : List Nat := [d.file, d.start, d.stop]

/-- core/graph_store.rs `graph_edge_order_key`. -/
def edgeKey (e : Edge) : List Nat := [e.source, e.file, e.start, e.stop, e.kind.rank, e.prov.rank, e.target]

/-- core/graph_store.rs `add_node`. -/
def addNode (s : State) (fqn : Nat) (d : Def) : State :=
  { s with
    defFiles := fun f => if f = d.file then true else s.defFiles f
    nodes := updNode s.nodes fqn { s.nodes fqn with defs := stableSort (leBy defKey) ((s.nodes fqn).defs ++ [d]) } }

/-- core/graph_store.rs L660-676 `push_outgoing`. -/
def Node.pushOut (x : Node) (k : Kind) (id : Nat) : Node :=
  { x with out := fun k' => if k' = k then x.out k' ++ [id] else x.out k' }
/-- core/graph_store.rs `push_incoming`. -/
def Node.pushInc (x : Node) (k : Kind) (id : Nat) : Node :=
  { x with inc := fun k' => if k' = k then x.inc k' ++ [id] else x.inc k' }
/-- core/graph_store.rs `retain_outgoing`. -/
def Node.retainOut (x : Node) (k : Kind) (id : Nat) : Node :=
  { x with out := fun k' => if k' = k then (x.out k').filter (fun i => decide (i ≠ id)) else x.out k' }
/-- core/graph_store.rs `retain_incoming`. -/
def Node.retainInc (x : Node) (k : Kind) (id : Nat) : Node :=
  { x with inc := fun k' => if k' = k then (x.inc k').filter (fun i => decide (i ≠ id)) else x.inc k' }

/-- core/graph_store.rs L605-640 `insert_edge`. -/
def addEdge (s : State) (e : Edge) : Outcome State :=
  (s.edges.insert e).bind fun r =>
  let nodes := updNode s.nodes e.source ((s.nodes e.source).pushOut e.kind r.2)
  let nodes := updNode nodes e.target ((nodes e.target).pushInc e.kind r.2)
  .ok { s with edges := r.1, nodes, byFile := push s.byFile (some e.file) r.2 }

/-- core/graph_store.rs L642-655 `remove_edge`. -/
def removeEdge (s : State) (id : Nat) : Outcome State :=
  match s.edges.take id with
  | none => .panic
  | some (e, A) =>
    let nodes := updNode s.nodes e.source ((s.nodes e.source).retainOut e.kind id)
    let nodes := updNode nodes e.target ((nodes e.target).retainInc e.kind id)
    .ok { s with edges := A, nodes }

def removeEdges : List Nat → State → Outcome State
  | [], s => .ok s
  | id :: l, s => (removeEdge s id).bind (removeEdges l)

/-- Is this an unresolved explicit superclass?  -/
def Unresolved.counted (u : Unresolved) : Bool := decide (u.kind = .superclass) && decide (u.prov = .explicit)

/-- core/graph_store.rs `add_unresolved_edge`. -/
def addUnresolved (s : State) (u : Unresolved) : State :=
  { s with
    counts := if u.counted then (fun n => if n = u.source then some ((s.counts n).getD 0 + 1) else s.counts n) else s.counts
    unresolved := s.unresolved ++ [u] }

/-- core/graph_store.rs `remove_unresolved_explicit_superclass_source`. -/
def uncount (s : State) (u : Unresolved) : Outcome State :=
  if u.counted then
    match s.counts u.source with
    | none => .panic
    | some 0 => .panic
    | some (c + 1) =>
      .ok { s with counts := fun n => if n = u.source then (if c = 0 then none else some c) else s.counts n }
  else .ok s

def uncountAll : List Unresolved → State → Outcome State
  | [], s => .ok s
  | u :: l, s => (uncount s u).bind (uncountAll l)

/-- core/graph_store.rs `node_has_no_edges`. -/
def Node.noEdges (x : Node) : Bool :=
  (x.out .superclass).isEmpty && (x.out .incl).isEmpty && (x.out .prep).isEmpty && (x.out .extend).isEmpty &&
  (x.out .context).isEmpty && (x.inc .superclass).isEmpty && (x.inc .incl).isEmpty && (x.inc .prep).isEmpty &&
  (x.inc .extend).isEmpty && (x.inc .context).isEmpty

/-- core/graph_store.rs L404-416: drop the definitions of a file, and nodes left with nothing. -/
def dropDefs (s : State) (f : Nat) : State :=
  if s.defFiles f then
    { s with
      defFiles := fun g => if g = f then false else s.defFiles g
      nodes := fun n =>
        let defs := (s.nodes n).defs.filter (fun d => decide (d.file ≠ f))
        if defs.isEmpty && (s.nodes n).noEdges then Node.empty else { s.nodes n with defs } }
  else s

/-- core/graph_store.rs L404-432 `remove_file`. -/
def removeFile (s : State) (f : Nat) : Outcome State :=
  let s := dropDefs s f
  let stale := s.unresolved.filter (fun u => decide (u.file = f))
  (uncountAll stale { s with unresolved := s.unresolved.filter (fun u => decide (u.file ≠ f)) }).bind fun s =>
  removeEdges (s.byFile f) { s with byFile := upd s.byFile f [] }

def addNodes (f : Nat) : List (Nat × Def) → State → Outcome State
  | [], s => .ok s
  | (n, d) :: l, s => if d.file = f then addNodes f l (addNode s n d) else .panic

def addEdges (f : Nat) : List Edge → State → Outcome State
  | [], s => .ok s
  | e :: l, s => if e.file = f then (addEdge s e).bind (addEdges f l) else .panic

def addUnresolvedAll (f : Nat) : List Unresolved → State → Outcome State
  | [], s => .ok s
  | u :: l, s => if u.file = f then addUnresolvedAll f l (addUnresolved s u) else .panic

/-- core/graph_store.rs L434-469 `replace_file`. -/
def replaceFile (s : State) (f : Nat) (ns : List (Nat × Def)) (es : List Edge) (us : List Unresolved) :
    Outcome State :=
  (removeFile s f).bind fun s => (addNodes f ns s).bind fun s => (addEdges f es s).bind fun s => addUnresolvedAll f us s

/-- core/graph_store.rs L486-493 `take_unresolved_edges` (the state left behind). -/
def takeUnresolved (s : State) : State := { s with unresolved := [], counts := fun _ => none }

/-- core/graph_store.rs L657-665 `edges_by_ids`. -/
def edgesByIds (s : State) (ids : List Nat) : List Edge := stableSort (leBy edgeKey) (s.edges.clone ids)

/-- core/graph_store.rs L283-295 `edges_from`. -/
def edgesFrom (s : State) (n : Nat) : List Edge :=
  let x := s.nodes n
  edgesByIds s (x.out .superclass ++ x.out .incl ++ x.out .prep ++ x.out .extend ++ x.out .context)

/-- core/graph_store.rs L334-346 `edges_to`. -/
def edgesTo (s : State) (n : Nat) : List Edge :=
  let x := s.nodes n
  edgesByIds s (x.inc .superclass ++ x.inc .incl ++ x.inc .prep ++ x.inc .extend ++ x.inc .context)

/-- core/graph_store.rs L363-368 `edges_in_file`. -/
def edgesInFile (s : State) (f : Nat) : List Edge := edgesByIds s (s.byFile f)

/-- core/graph_store.rs L384-392 `all_edges`. -/
def allEdges (s : State) : List Edge := stableSort (leBy edgeKey) s.edges.all

/-- core/graph_store.rs L270-281 `nodes_for`. -/
def nodesFor (s : State) (n : Nat) : List Def := (s.nodes n).defs

/-- core/graph_store.rs `StoredSuperclassResolution`. -/
inductive Resolution where
  | missing
  | unique (e : Edge)
  | ambiguous
  deriving DecidableEq

/-- core/graph_store.rs L306-321: the loop of `superclass_resolution`. -/
def choose (hasExplicit : Bool) : List Edge → Option Edge → Resolution
  | [], none => .missing
  | [], some e => .unique e
  | e :: l, chosen =>
    if hasExplicit && decide (e.prov ≠ .explicit) then choose hasExplicit l chosen
    else
      match chosen with
      | none => choose hasExplicit l (some e)
      | some p =>
        if p.target ≠ e.target then .ambiguous
        else choose hasExplicit l (some (if !leBy edgeKey p e then e else p))

/-- core/graph_store.rs L297-327 `superclass_resolution`. -/
def superclassResolution (s : State) (n : Nat) : Resolution :=
  let es := s.edges.clone ((s.nodes n).out .superclass)
  choose (es.any (fun e => decide (e.prov = .explicit))) es none

/-- core/graph_store.rs L329-332 `has_unresolved_explicit_superclass`. -/
def hasUnresolvedExplicit (s : State) (n : Nat) : Bool := (s.counts n).isSome

/-- A call on the graph. -/
inductive Op where
  | addNode (n : Nat) (d : Def)
  | addEdge (e : Edge)
  | addUnresolved (u : Unresolved)
  | takeUnresolved
  | remove (f : Nat)
  | replace (f : Nat) (ns : List (Nat × Def)) (es : List Edge) (us : List Unresolved)

def apply (s : State) : Op → Outcome State
  | .addNode n d => .ok (addNode s n d)
  | .addEdge e => addEdge s e
  | .addUnresolved u => .ok (addUnresolved s u)
  | .takeUnresolved => .ok (takeUnresolved s)
  | .remove f => removeFile s f
  | .replace f ns es us => replaceFile s f ns es us

def run : List Op → State → Outcome State
  | [], s => .ok s
  | op :: ops, s => (apply s op).bind (run ops)

end Verif.GraphStore
