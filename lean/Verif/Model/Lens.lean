import Verif.Model.Sort
/-!
The lenses above modules and the folding ranges of a document
(/repo/crates/ruby-analysis/src/indexer/code_lens.rs, /repo/crates/ruby-analysis/src/engine/lookup.rs 137-207 and 349-357,
/repo/src/query/code_lens.rs, /repo/src/capabilities/code_lens.rs, /repo/src/capabilities/folding_range.rs).

Simplified: names are lists of code points; the parts of a constant path are kept as a list, the code joins them with `::`
and splits the text again; `valid` stands for `RubyConstant::new`; the facts of the engine are lists; positions come from a
function on offsets; the lenses of extensions are given.
-/
namespace Verif.Lens

abbrev Name := List Nat
abbrev Path := List Name

/-! ### The modules of a document -/

/-- The constant in `module X`: `A`, `::A`, `X::A`, and any other expression. -/
inductive Cst where
  | read (n : Name)
  | top (n : Option Name)
  | under (p : Cst) (n : Option Name)
  | expr
deriving DecidableEq, Repr

/-- code_lens.rs 66-77 `collect_constant_path_parts`. -/
def collectParts : Cst → List Name
  | .read n => [n]
  | .top n => n.toList
  | .under p n => collectParts p ++ n.toList
  | .expr => []

/-- code_lens.rs 53-63 `extract_constant_name`, the parts of the name. -/
def constantName : Cst → List Name
  | .read n => [n]
  | .expr => []
  | c => collectParts c

/-- A document: `head` is the constant and the superclass, which the collector does not visit. -/
inductive Syn where
  | nil
  | module (c : Cst) (start nameEnd : Nat) (head body next : Syn)
  | cls (c : Cst) (head body next : Syn)
  | other (kids next : Syn)
deriving DecidableEq, Repr

/-- `ModuleDefinitionForLens`. -/
structure Mod where
  fqn : Path
  start : Nat
  stop : Nat
deriving DecidableEq, Repr

/-- `CodeLensCollector`. -/
structure Collector where
  modules : List Mod := []
  stack : List Name := []
deriving DecidableEq, Repr

/-- code_lens.rs 33-51 `compute_fqn`. -/
def computeFqn (valid : Name → Bool) (stack : List Name) (name : List Name) : Option Path :=
  if stack.all valid then if name.all valid then some (stack ++ name) else none else none

/-- Lines 79-108 `visit_module_node`, from the name to the push. -/
def enterModule (valid : Name → Bool) (c : Cst) (start nameEnd : Nat) (s : Collector) : Collector :=
  let name := constantName c
  if name = [] then s
  else
    let modules :=
      match computeFqn valid s.stack name with
      | some f => s.modules ++ [⟨f, start, nameEnd⟩]
      | none => s.modules
    ⟨modules, s.stack ++ [name.getLastD []]⟩

/-- Lines 110-118 `visit_class_node`, the push. -/
def enterClass (c : Cst) (s : Collector) : Collector :=
  let name := constantName c
  if name = [] then s else ⟨s.modules, s.stack ++ [name.getLastD []]⟩

/-- The pop. -/
def leave (c : Cst) (s : Collector) : Collector :=
  if constantName c = [] then s else ⟨s.modules, s.stack.dropLast⟩

def visit (valid : Name → Bool) : Syn → Collector → Collector
  | .nil, s => s
  | .module c a b _ body next, s => visit valid next (leave c (visit valid body (enterModule valid c a b s)))
  | .cls c _ body next, s => visit valid next (leave c (visit valid body (enterClass c s)))
  | .other kids next, s => visit valid next (visit valid kids s)

/-- code_lens.rs 11-18 `module_definitions_for_lens`. -/
def modules (valid : Name → Bool) (t : Syn) : List Mod := (visit valid t {}).modules

/-! ### Who uses a module -/

inductive NodeKind where
  | cls
  | module
deriving DecidableEq, Repr

/-- core/graph_store.rs 13-21 `GraphEdgeKind`. -/
inductive EdgeKind where
  | superclass
  | include
  | prepend
  | extend
  | execution
deriving DecidableEq, Repr

structure Range where
  file : Nat
  start : Nat
  stop : Nat
deriving DecidableEq, Repr

/-- A namespace: its parts and whether it is the singleton class. -/
structure Ns where
  path : Path
  singleton : Bool := false
deriving DecidableEq, Repr

structure NodeFact where
  ns : Ns
  kind : NodeKind
  range : Range
deriving DecidableEq, Repr

structure EdgeFact where
  source : Ns
  target : Ns
  kind : EdgeKind
  range : Range
deriving DecidableEq, Repr

structure Loc where
  uri : Name
  line : Nat
  char : Nat
  endLine : Nat
  endChar : Nat
deriving DecidableEq, Repr

structure Graph where
  nodes : List NodeFact
  edges : List EdgeFact
  loc : Range → Option Loc

/-- `MixinUsageKind` and `MixinType`. -/
inductive Mix where
  | include
  | prepend
  | extend
deriving DecidableEq, Repr

/-- code_lens.rs 228-234 `mixin_type_sort_key`. -/
def Mix.key : Mix → Nat
  | .include => 0
  | .prepend => 1
  | .extend => 2

/-- lookup.rs 349-357 `mixin_usage_kind_for_graph_edge`. -/
def mixOf : EdgeKind → Option Mix
  | .include => some .include
  | .prepend => some .prepend
  | .extend => some .extend
  | .superclass => none
  | .execution => none

/-- lookup.rs 140-154: one edge. -/
def usageOf (m : Path) (e : EdgeFact) : Option (Mix × Range) :=
  if e.target.path ≠ m then none
  else if (e.kind = .include ∨ e.kind = .prepend) ∧ e.source.singleton = true then none
  else
    match mixOf e.kind with
    | none => none
    | some k => some (k, e.range)

/-- Comparison of lists of numbers, first difference first. -/
def lexLe (a b : List Nat) : Bool := decide (a ≤ b)

/-- lookup.rs 137-158 `module_mixin_usages`. -/
def usages (g : Graph) (m : Path) : List (Mix × Range) :=
  stableSort (fun a b => lexLe [a.1.key, a.2.file, a.2.start] [b.1.key, b.2.file, b.2.start]) (g.edges.filterMap (usageOf m))

/-- state.rs 3273-3282 `graph_nodes_for`. -/
def nodesFor (g : Graph) (n : Ns) : List NodeFact := g.nodes.filter (fun x => x.ns = n)

structure Search where
  result : List Range := []
  queue : List Ns := []
  visited : List Ns := []
deriving DecidableEq, Repr

/-- lookup.rs 175-188: does the search follow this edge. -/
def follows (target : Ns) (e : EdgeFact) : Bool :=
  if e.kind ≠ .include ∧ e.kind ≠ .prepend ∧ e.kind ≠ .extend then false
  else if (e.kind = .include ∨ e.kind = .prepend) ∧ e.source.singleton = true then false
  else decide (e.target.path = target.path)

/-- lookup.rs 174-201: one edge; the head of `queue` is the end of the vector. -/
def visitEdge (g : Graph) (target : Ns) (s : Search) (e : EdgeFact) : Search :=
  if follows target e = false then s
  else
    let nodes := nodesFor g e.source
    if nodes.any (fun n => n.kind = .cls) then
      { s with result := s.result ++ (nodes.filter (fun n => n.kind = .cls)).map NodeFact.range }
    else if nodes.any (fun n => n.kind = .module) then { s with queue := e.source :: s.queue }
    else s

/-- lookup.rs 168-202: the loop, with fuel. -/
def searchLoop (g : Graph) : Nat → Search → Search
  | 0, s => s
  | n + 1, s =>
    match s.queue with
    | [] => s
    | t :: q =>
      if t ∈ s.visited then searchLoop g n { s with queue := q }
      else searchLoop g n (g.edges.foldl (visitEdge g t) { s with queue := q, visited := s.visited ++ [t] })

/-- The search, with fuel for every pop. -/
def searched (g : Graph) (m : Path) : Search :=
  searchLoop g ((g.edges.length + 1) * (g.edges.length + 1) + 1) { queue := [⟨m, false⟩] }

/-- lookup.rs 160-207 `module_including_class_definition_ranges`. -/
def classRanges (g : Graph) (m : Path) : List Range :=
  dedupAdj (stableSort (fun a b => lexLe [a.file, a.start, a.stop] [b.file, b.start, b.stop]) (searched g m).result)

/-! ### The lenses -/

/-- Order by a text and then by numbers. -/
def textLe (u : Name) (k : List Nat) (v : Name) (l : List Nat) : Bool :=
  if u = v then lexLe k l else lexLe u v

/-- query/code_lens.rs 176-182: order of the usages. -/
def usageLe (a b : Mix × Loc) : Bool :=
  if a.1.key = b.1.key then textLe a.2.uri [a.2.line, a.2.char] b.2.uri [b.2.line, b.2.char] else decide (a.1.key ≤ b.1.key)

/-- query/code_lens.rs 162-186 `mixin_usages_from_analysis`. -/
def mixinUsages (g : Graph) (m : Path) : List (Mix × Loc) :=
  stableSort usageLe ((usages g m).filterMap (fun u => (g.loc u.2).map (fun l => (u.1, l))))

def locLe (a b : Loc) : Bool := textLe a.uri [a.line, a.char] b.uri [b.line, b.char]

/-- query/code_lens.rs 188-212 `class_definition_locations_from_analysis`. -/
def classLocations (g : Graph) (m : Path) : List Loc :=
  dedupAdj (stableSort locLe ((classRanges g m).filterMap g.loc))

structure Pos where
  line : Nat
  char : Nat
deriving DecidableEq, Repr

/-- `CodeLensData`; the title is `count` and `word`. -/
structure Lens where
  start : Pos
  stop : Pos
  count : Nat
  word : String
  target : Pos
  locs : List Loc
deriving DecidableEq, Repr

/-- query/code_lens.rs 112-115: the lookup in `usages_by_type`. -/
def bucket (us : List (Mix × Loc)) (k : Mix) : List Loc := (us.filter (fun u => u.1 = k)).map Prod.snd

/-- query/code_lens.rs 124-135: one type of mixin. -/
def mixLens (pos : Nat → Pos) (md : Mod) (us : List (Mix × Loc)) (k : Mix × String) : List Lens :=
  let ls := bucket us k.1
  if ls = [] then [] else [⟨pos md.start, pos md.stop, ls.length, k.2, pos md.start, ls⟩]

/-- query/code_lens.rs 138-148: the lens for classes. -/
def classLens (pos : Nat → Pos) (md : Mod) (cs : List Loc) : List Lens :=
  if cs = [] then []
  else [⟨pos md.start, pos md.stop, cs.length, if cs.length = 1 then "class" else "classes", pos md.start, cs⟩]

/-- query/code_lens.rs 79-149: one module. -/
def lensesOf (g : Graph) (pos : Nat → Pos) (md : Mod) : List Lens :=
  let us := mixinUsages g md.fqn
  let cs := classLocations g md.fqn
  if us = [] ∧ cs = [] then []
  else [(Mix.include, "include"), (Mix.prepend, "prepend"), (Mix.extend, "extend")].flatMap (mixLens pos md us) ++ classLens pos md cs

/-- query/code_lens.rs 62-152 `get_code_lenses`. -/
def lenses (valid : Name → Bool) (g : Graph) (pos : Nat → Pos) (t : Syn) : List Lens :=
  (modules valid t).flatMap (lensesOf g pos)

/-- capabilities/code_lens.rs 13-71 `handle_code_lens`; `none` for a document that is not open and for failed extensions. -/
def handle (enabled : Option Bool) (valid : Name → Bool) (g : Graph) (pos : Nat → Pos) (doc : Option Syn) (ext : Option (List Lens)) :
    List Lens :=
  if enabled.getD true = false then []
  else
    match doc with
    | none => []
    | some t => lenses valid g pos t ++ ext.getD []

/-! ### Folding -/

inductive FoldKind where
  | cls
  | module
  | method
  | if_
  | while_
  | for_
  | case_
  | begin_
  | array
  | hash
  | block
  | other
deriving DecidableEq, Repr

/-- A document: the nodes with their offsets. -/
inductive Doc where
  | nil
  | node (kind : FoldKind) (start stop : Nat) (kids next : Doc)
deriving DecidableEq, Repr

structure Fold where
  startLine : Nat
  endLine : Nat
deriving DecidableEq, Repr

/-- folding_range.rs 26-47 `create_folding_range_from_offsets`. -/
def createFold (line : Nat → Nat) (start stop : Nat) (acc : List Fold) : List Fold :=
  if line start < line stop then acc ++ [⟨line start, line stop⟩] else acc

/-- folding_range.rs 50-198: the visitor; a method is not visited further, every node without a method of its own is. -/
def foldVisit (line : Nat → Nat) : Doc → List Fold → List Fold
  | .nil, acc => acc
  | .node kind a b kids next, acc =>
    let acc :=
      match kind with
      | .method => createFold line a b acc
      | .array | .hash => foldVisit line kids (if line a < line b then createFold line a b acc else acc)
      | .other => foldVisit line kids acc
      | _ => foldVisit line kids (createFold line a b acc)
    foldVisit line next acc

/-- folding_range.rs 201-214 `handle_folding_range`. -/
def folds (line : Nat → Nat) (d : Doc) : List Fold := foldVisit line d []

end Verif.Lens
