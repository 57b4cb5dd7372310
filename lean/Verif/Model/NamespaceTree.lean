import Verif.Model.Sort

/-!
Model of the tree of namespaces: `crates/ruby-analysis/src/engine/namespace_tree.rs` and the cache of
`src/capabilities/namespace_tree.rs`.

A name is a list of character codes, a namespace a list of names.  The texts of the code, in which the parent of a namespace
is what stands before the last `::`, and lists of names are the same thing as long as names contain no `:`.  Hash maps whose
iteration order can be observed get it as a parameter; the others are lists in the order of insertion.  The superclass that
is proven for a class (`proven_superclass_edge`) is given.  Edges from and to singleton classes are not looked at and not in
the list of edges.

Left out: the list `external_modules` / `external_classes`, which repeats the libraries, and the protocol.
-/
namespace Verif.NamespaceTree

abbrev Name := List Nat
abbrev Path := List Name

inductive Kind where
  | cls
  | module
deriving DecidableEq, Repr

/-- core/graph_store.rs 13-21 `GraphEdgeKind`, the kinds that matter here. -/
inductive EdgeKind where
  | superclass
  | include
  | prepend
  | extend
  | other
deriving DecidableEq, Repr

structure Range where
  file : Nat
  start : Nat
  stop : Nat
deriving DecidableEq, Repr

/-- `GraphNodeFact`; `singleton` for `namespace_kind() == Singleton`. -/
structure NodeFact where
  path : Path
  kind : Kind
  range : Range
  singleton : Bool := false
  generated : Bool := false
deriving DecidableEq, Repr

/-- `GraphEdgeFact`. -/
structure EdgeFact where
  source : Path
  target : Path
  kind : EdgeKind
  range : Range
  generated : Bool := false
deriving DecidableEq, Repr

inductive SourceKind where
  | project
  | gem
  | stub
  | stdlib
  | ext
  | signature
  | excluded
deriving DecidableEq, Repr

/-- engine `SourceFile`; `owned` is `kind.is_workspace_owned()`, `line` is `byte_offset_to_line_character`. -/
structure File where
  path : Name
  kind : SourceKind
  owned : Bool
  package : Option (Name × Name)
  line : Nat → Option (Nat × Nat)

structure Graph where
  nodes : List NodeFact
  edges : List EdgeFact
  file : Nat → Option File
  proven : Path → Option EdgeFact

structure Loc where
  uri : Name
  line : Nat
  char : Nat
deriving DecidableEq, Repr

structure Mixin where
  name : Path
  locs : List Loc
deriving DecidableEq, Repr

structure Includer where
  name : Path
  locs : List Loc
  via : List (Path × Option Loc)
deriving DecidableEq, Repr

/-- `NamespaceNode` without its children; `extends` are the includes of its singleton class. -/
structure Item where
  path : Path
  kind : Kind
  locs : List Loc := []
  super : Option Mixin := none
  includes : List Mixin := []
  prepends : List Mixin := []
  extends_ : List Mixin := []
  includedBy : List Includer := []
deriving DecidableEq, Repr

inductive Tree where
  | node (item : Item) (modules classes : List Tree)
deriving Repr

def Tree.item : Tree → Item
  | .node i _ _ => i

def Item.name (i : Item) : Name := i.path.getLastD []

/-- `fqn.to_string()`: the parts joined by `::`. -/
def joined : Path → Name
  | [] => []
  | [n] => n
  | n :: ns => n ++ [58, 58] ++ joined ns

/-! ### Locations, mixins and includers -/

/-- namespace_tree.rs 515-526 `analysis_location_info`. -/
def location (g : Graph) (r : Range) : Option Loc :=
  match g.file r.file with
  | none => none
  | some f =>
    match f.line r.start with
    | none => none
    | some lc => some ⟨f.path, lc.1, lc.2⟩

/-- namespace_tree.rs 496-500 `analysis_range_is_project`. -/
def rangeIsProject (g : Graph) (r : Range) : Bool :=
  match g.file r.file with
  | none => false
  | some f => f.owned

/-- state.rs 3273-3282 `graph_nodes_for`. -/
def nodesFor (g : Graph) (p : Path) : List NodeFact := g.nodes.filter (fun n => !n.singleton && n.path = p)

/-- namespace_tree.rs 489-494 `analysis_namespace_is_project`. -/
def isProject (g : Graph) (p : Path) : Bool := (nodesFor g p).any (fun n => rangeIsProject g n.range)

/-- namespace_tree.rs 485-487 `analysis_node_kind`. -/
def nodeKind (g : Graph) (p : Path) : Option Kind := (nodesFor g p).head?.map NodeFact.kind

/-- namespace_tree.rs 502-511 `analysis_namespace_locations`. -/
def locations (g : Graph) (p : Path) : List Loc := (nodesFor g p).filterMap (fun n => location g n.range)

/-- namespace_tree.rs 399-411 `analysis_edges_from`. -/
def edgesFrom (g : Graph) (p : Path) (k : EdgeKind) : List EdgeFact :=
  g.edges.filter (fun e => e.source = p && e.kind = k)

/-- Lines 424-427: one entry of the map of locations. -/
def addMixin (name : Path) (locs : List Loc) : List Mixin → List Mixin
  | [] => [⟨name, locs⟩]
  | m :: ms => if m.name = name then ⟨name, m.locs ++ locs⟩ :: ms else m :: addMixin name locs ms

/-- Lines 420-428, the loop. -/
def groupMixins (g : Graph) (ext : Bool) : List EdgeFact → List Mixin → List Mixin
  | [], acc => acc
  | e :: es, acc =>
    if !ext && !isProject g e.target then groupMixins g ext es acc
    else groupMixins g ext es (addMixin e.target (location g e.range).toList acc)

/-- namespace_tree.rs 413-436 `analysis_edges_to_mixins`. -/
def mixins (g : Graph) (ext : Bool) (edges : List EdgeFact) : List Mixin :=
  stableSort (fun a b => decide (joined a.name ≤ joined b.name)) (groupMixins g ext edges [])

/-- The state of the search for includers. -/
structure Search where
  result : List Includer := []
  visited : List (Path × Path) := []
  queue : List (Path × List (Path × Option Loc)) := []
deriving DecidableEq, Repr

/-- Lines 449-479: one edge to the namespace `target`. -/
def visitEdge (g : Graph) (ext : Bool) (target : Path) (via : List (Path × Option Loc)) (s : Search) (e : EdgeFact) : Search :=
  if e.kind ≠ .include ∧ e.kind ≠ .prepend then s
  else if (e.source, target) ∈ s.visited then s
  else
    let s := { s with visited := (e.source, target) :: s.visited }
    match nodeKind g e.source with
    | some .cls =>
      if !ext && !isProject g e.source then s
      else { s with result := s.result ++ [⟨e.source, locations g e.source, via⟩] }
    | some .module => { s with queue := s.queue ++ [(e.source, via ++ [(e.source, location g e.range)])] }
    | none => s

/-- Lines 447-480: the loop, with fuel. -/
def searchLoop (g : Graph) (ext : Bool) : Nat → Search → Search
  | 0, s => s
  | n + 1, s =>
    match s.queue with
    | [] => s
    | (target, via) :: queue =>
      searchLoop g ext n ((g.edges.filter (fun e => e.target = target)).foldl (visitEdge g ext target via) { s with queue := queue })

/-- Lines 443-480 before sorting. -/
def searched (g : Graph) (ext : Bool) (m : Path) : Search :=
  searchLoop g ext (g.edges.length + 1) { queue := [(m, [])] }

/-- namespace_tree.rs 438-483 `analysis_find_includers`. -/
def includers (g : Graph) (ext : Bool) (m : Path) : List Includer :=
  stableSort (fun a b => decide (joined a.name ≤ joined b.name)) (searched g ext m).result

/-! ### Namespaces -/

/-- Line 308: `(kind, file_id, start_byte)`. -/
def nodeOrder (a b : NodeFact) : Bool :=
  let key := fun n : NodeFact => [if n.kind = .cls then 0 else 1, n.range.file, n.range.start]
  decide (key a ≤ key b)

/-- Lines 307-392: the node of one namespace from its facts. -/
def item (g : Graph) (extMixins withIncluders : Bool) (p : Path) (facts : List NodeFact) : Item :=
  let facts := stableSort nodeOrder facts
  let kind := (facts.head?.map NodeFact.kind).getD .cls
  { path := p
    kind := kind
    locs := facts.filterMap (fun n => location g n.range)
    super := (mixins g extMixins (g.proven p).toList).head?
    includes := mixins g extMixins (edgesFrom g p .include)
    prepends := mixins g extMixins (edgesFrom g p .prepend)
    extends_ := mixins g extMixins (edgesFrom g p .extend)
    includedBy := if withIncluders && kind = .module then includers g extMixins p else [] }

/-- The sections of the answer. -/
inductive Section where
  | project
  | runtime
  | gems
  | package (name version : Name)
  | excluded
deriving DecidableEq, Repr

/-- namespace_tree.rs 270-279 `source_kind_library_section` and 194-245 `partition_namespace_nodes`: the section of a fact. -/
def sectionOf (g : Graph) (n : NodeFact) : Option Section :=
  if n.generated then none
  else if n.singleton then none
  else if rangeIsProject g n.range then some .project
  else
    match g.file n.range.file with
    | none => none
    | some f =>
      match f.kind with
      | .project => none
      | .gem =>
        match f.package with
        | some pv => some (.package pv.1 pv.2)
        | none => some .gems
      | .stub | .stdlib | .ext | .signature => some .runtime
      | .excluded => some .excluded

/-- The namespaces of a section, in the order of their first facts. -/
def paths : List NodeFact → List Path
  | [] => []
  | n :: ns => n.path :: (paths ns).filter (fun p => p ≠ n.path)

/-- namespace_tree.rs 300-397 `build_namespace_map_from_grouped_nodes` for one section. -/
def items (g : Graph) (s : Section) (extMixins withIncluders : Bool) : List Item :=
  let facts := g.nodes.filter (fun n => sectionOf g n = some s)
  (paths facts).map (fun p => item g extMixins withIncluders p (facts.filter (fun n => n.path = p)))

/-! ### The tree -/

/-- `rfind("::")`: the namespace around. -/
def parent (p : Path) : Option Path := if p.length ≤ 1 then none else some p.dropLast

/-- Line 537: the order of the texts. -/
def fqnOrder (a b : Item) : Bool := decide (joined a.path ≤ joined b.path)

/-- Lines 536-552 `children_map`. -/
def children (all : List Item) (p : Path) : List Path :=
  ((stableSort fqnOrder all).filter (fun i => parent i.path = some p)).map Item.path

/-- `sort_by(|a, b| a.name.cmp(&b.name))`. -/
def sortNames (l : List Tree) : List Tree := stableSort (fun a b => decide (a.item.name ≤ b.item.name)) l

structure Build where
  lookup : List Item
  processed : List Path

/-- namespace_tree.rs 889-926 `build_children_iterative`, with fuel. -/
def build (kids : Path → List Path) : Nat → Item → Build → Tree × Build
  | 0, i, b => (.node i [] [], b)
  | n + 1, i, b =>
    let r := (kids i.path).foldl (fun (acc : List Tree × List Tree × Build) c =>
      match acc.2.2.lookup.find? (fun j => j.path = c) with
      | none => acc
      | some j =>
        let b := { acc.2.2 with lookup := acc.2.2.lookup.filter (fun k => k.path ≠ c) }
        let t := if c ∈ b.processed then (.node j [] [], b) else build kids n j b
        if j.kind = .module then (acc.1 ++ [t.1], acc.2.1, t.2) else (acc.1, acc.2.1 ++ [t.1], t.2))
      ([], [], { b with processed := i.path :: b.processed })
    (.node i (sortNames r.1) (sortNames r.2.1), r.2.2)

/-- Lines 566-571: whether the namespace around is still in the map. -/
def hasParent (lookup : List Item) (p : Path) : Bool :=
  match parent p with
  | none => false
  | some q => lookup.any (fun j => j.path = q)

/-- Lines 561-585: one name of the loop over all names. -/
def rootStep (kids : Path → List Path) (fuel : Nat) (acc : List Tree × Build) (p : Path) : List Tree × Build :=
  if p ∈ acc.2.processed then acc
  else if hasParent acc.2.lookup p then acc
  else
    match acc.2.lookup.find? (fun j => j.path = p) with
    | none => acc
    | some j =>
      let t := build kids fuel j { acc.2 with lookup := acc.2.lookup.filter (fun k => k.path ≠ p) }
      (acc.1 ++ [t.1], t.2)

/-- namespace_tree.rs 528-596 `build_namespace_tree`: modules and classes.  `order` are the keys of the map in the order in
which it returns them.  The fuel is the greatest length of a path, and one more. -/
def tree (all : List Item) (order : List Path) : List Tree × List Tree :=
  let fuel := (all.map (fun i => i.path.length)).foldr max 0 + 1
  let roots := (order.foldl (rootStep (children all) fuel) ([], ⟨all, []⟩)).1
  (sortNames (roots.filter (fun t => t.item.kind = .module)), sortNames (roots.filter (fun t => t.item.kind ≠ .module)))

/-! ### The cache -/

/-- namespace_tree.rs 30-76 `compute_namespace_tree_hash`: what is hashed. -/
def cacheKey (g : Graph) (ext : Bool) : Bool × List (List Nat) × List (List Nat) :=
  (ext,
   stableSort (fun a b => decide (a ≤ b)) ((g.nodes.filter (fun n => !n.generated && (ext || rangeIsProject g n.range))).map
     (fun n => joined n.path ++ [0, if n.singleton then 1 else 0, if n.kind = .cls then 0 else 1, n.range.file, n.range.start, n.range.stop])),
   stableSort (fun a b => decide (a ≤ b)) ((g.edges.filter (fun e => !e.generated && (ext || rangeIsProject g e.range))).map
     (fun e => joined e.source ++ [0] ++ joined e.target ++ [0, match e.kind with | .superclass => 0 | .include => 1 | .prepend => 2 | .extend => 3 | .other => 4,
       e.range.file, e.range.start, e.range.stop])))

/-- namespace_tree.rs 79-92, without external types: the trees of the project. -/
def projectTree (g : Graph) (order : List Path) : List Tree × List Tree := tree (items g .project false true) order

/-- capabilities/namespace_tree.rs 46-66: answer from the cache if the key is that of the cached answer. -/
def answer {K A : Type} [DecidableEq K] (cache : Option (K × A)) (key : K) (compute : A) : A × Option (K × A) :=
  match cache with
  | some (k, a) => if k = key then (a, cache) else (compute, some (key, compute))
  | none => (compute, some (key, compute))

end Verif.NamespaceTree
