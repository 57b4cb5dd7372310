/-!
Model of the outline of a document: `crates/ruby-analysis/src/indexer/document_symbols.rs` (the visitor and
`build_hierarchy`) and the conversion in `src/capabilities/document_symbols.rs`.

The syntax tree is a forest in first-child/next-sibling form, with the nodes the visitor looks at; every other node is
`other`.  The children of a node are in the order in which prism visits them.  Offsets stand for positions (the
conversion of offsets to lines and columns is the subject of `Positions`).  Vectors used as stacks are lists whose head is
the top.  A hash map is a function.

Left out: the stacks of local scope kinds, of `module_function` and of visibilities inside `ScopeTracker` (pushed and
popped here but never read by this visitor), `symbols` (used by tests), the symbols added by extensions, and the test
whether the document is open.
-/
namespace Verif.Outline

/-- document_symbols.rs 30-35 `MethodVisibility`. -/
inductive Vis where
  | pub
  | prot
  | priv
deriving DecidableEq, Repr

/-- document_symbols.rs 11-18 `DocumentSymbolKind`; `Property` is left out because `extract_attr_names` (192-195) never
returns a name. -/
inductive Kind where
  | module
  | cls
  | method
  | constant
deriving DecidableEq, Repr

/-- The nodes of the syntax tree which have a visit method of their own (document_symbols.rs 328-362).
`valid` tells whether `RubyConstant::new` accepts the name of a class or module, which it does for every constant but not
for what the parser takes for the name in a file with mistakes. -/
inductive Tag where
  | cls (name : String) (valid : Bool)
  | mod (name : String) (valid : Bool)
  | sing
  | defn (name : String) (receiver : Bool)
  | constant (name : String)
  | call (name : String)
  | other
deriving DecidableEq, Repr

/-- A list of nodes: the first one with its offsets and the nodes inside it, and the nodes after it. -/
inductive Forest where
  | nil
  | node (tag : Tag) (first last : Nat) (inside next : Forest)
deriving DecidableEq, Repr

/-- document_symbols.rs 39-48 `RubySymbolContext` without its children.  `detail` is always `None` (173), the selection
range is the range (175), and the visibility is always there (176).  `singleton` is `namespace_kind`. -/
structure Sym where
  name : String
  kind : Kind
  first : Nat
  last : Nat
  selFirst : Nat
  selLast : Nat
  vis : Vis
  singleton : Option Bool
deriving DecidableEq, Repr

/-- A symbol with its children (document_symbols.rs 39-48). -/
inductive Tree where
  | node (sym : Sym) (children : List Tree)
deriving Repr

/-- document_symbols.rs 50-57 `DocumentSymbolsVisitor`.  `frames` are the frames of `ScopeTracker`
(scope_tracker.rs 74-80): true for a singleton class, false for a namespace. -/
structure State where
  flat : List (Sym × Option Nat)
  vis : List Vis
  frames : List Bool
  owner : Nat → Option Nat
  scopes : List Nat

/-- document_symbols.rs 60-69 `new`. -/
def State.new : State := { flat := [], vis := [.pub], frames := [], owner := fun _ => none, scopes := [] }

/-- document_symbols.rs 72-77 `current_visibility`. -/
def State.visibility (s : State) : Vis := s.vis.headD .pub

/-- document_symbols.rs 86-90 `pop_visibility_scope`: the last one stays. -/
def popVis (vis : List Vis) : List Vis := if vis.length > 1 then vis.tail else vis

/-- document_symbols.rs 93-97 `set_current_visibility`. -/
def setVis (v : Vis) : List Vis → List Vis
  | [] => []
  | _ :: vis => v :: vis

/-- document_symbols.rs 156-160 `find_current_parent_index`. -/
def State.parent (s : State) : Option Nat :=
  match s.scopes with
  | [] => none
  | id :: _ => s.owner id

/-- document_symbols.rs 148-154 `add_symbol_to_flat_list`. -/
def State.add (s : State) (sym : Sym) : State := { s with flat := s.flat ++ [(sym, s.parent)] }

/-- document_symbols.rs 162-181 `create_symbol`. -/
def State.create (s : State) (name : String) (kind : Kind) (first last : Nat) (singleton : Option Bool) : Sym :=
  { name := name, kind := kind, first := first, last := last, selFirst := first, selLast := last, vis := s.visibility, singleton := singleton }

/-- scope_tracker.rs 421-423 `in_singleton`. -/
def State.inSingleton (s : State) : Bool := s.frames.head? == some true

/-- document_symbols.rs 198-221 and 231-254, `process_class_node_entry` and `process_module_node_entry`. -/
def State.enterNamespace (s : State) (name : String) (kind : Kind) (valid : Bool) (first last : Nat) : State :=
  let index := s.flat.length
  let s := s.add (s.create name kind first last none)
  let id := first + 1
  { s with
    frames := if valid then false :: s.frames else s.frames
    owner := fun k => if k = id then some index else s.owner k
    scopes := id :: s.scopes
    vis := .pub :: s.vis }

/-- scope_tracker.rs 297-311 `pop_ns_scope`: only if the last frame is a namespace. -/
def popNamespace : List Bool → List Bool
  | false :: frames => frames
  | frames => frames

/-- scope_tracker.rs 410-419 `exit_singleton`: only if the last frame is a singleton class. -/
def popSingleton : List Bool → List Bool
  | true :: frames => frames
  | frames => frames

/-- document_symbols.rs 187-190 and 310-316: the visibility a call sets by its name, whatever its receiver and arguments. -/
def visibilityOf (name : String) : Option Vis :=
  if name = "private" then some .priv
  else if name = "protected" then some .prot
  else if name = "public" then some .pub
  else none

/-- document_symbols.rs 307-325 `process_call_node_entry`.  The branch for `attr_reader`, `attr_writer` and
`attr_accessor` adds a symbol for each of no names (192-195). -/
def State.enterCall (s : State) (name : String) : State :=
  match visibilityOf name with
  | some v => { s with vis := setVis v s.vis }
  | none => s

/-- document_symbols.rs 198-325, what is done before the children of a node are visited. -/
def State.enter (s : State) (tag : Tag) (first last : Nat) : State :=
  match tag with
  | .cls name valid => s.enterNamespace name .cls valid first last
  | .mod name valid => s.enterNamespace name .module valid first last
  | .sing => { s with frames := true :: s.frames, vis := .pub :: s.vis }
  | .defn name receiver => s.add (s.create name .method first last (some (receiver || s.inSingleton)))
  | .constant name => s.add (s.create name .constant first last none)
  | .call name => s.enterCall name
  | .other => s

/-- document_symbols.rs 223-229, 256-262, 270-274: what is done after the children of a node have been visited. -/
def State.exit (s : State) (tag : Tag) : State :=
  match tag with
  | .cls _ _ | .mod _ _ => { s with frames := popNamespace s.frames, scopes := s.scopes.tail, vis := popVis s.vis }
  | .sing => { s with frames := popSingleton s.frames, vis := popVis s.vis }
  | _ => s

/-- document_symbols.rs 328-362, the visit of a list of nodes. -/
def visit : Forest → State → State
  | .nil, s => s
  | .node tag first last inside next, s => visit next ((visit inside (s.enter tag first last)).exit tag)

/-- A hash map with one entry changed. -/
def update (m : Nat → Option Tree) (k : Nat) (t : Option Tree) : Nat → Option Tree := fun j => if j = k then t else m j

/-- document_symbols.rs 109-117, the first pass: every symbol without children. -/
def leaves (flat : List (Sym × Option Nat)) : Nat → Option Tree := fun i => flat[i]?.map fun e => .node e.1 []

/-- document_symbols.rs 119-133, the second pass for one index. -/
def attach (e : (Sym × Option Nat) × Nat) (m : Nat → Option Tree) : Nat → Option Tree :=
  match e.1.2 with
  | none => m
  | some parent =>
    match m e.2 with
    | none => m
    | some child =>
      let m := update m e.2 none
      match m parent with
      | some (.node sym children) => update m parent (some (.node sym (children ++ [child])))
      | none => update m e.2 (some child)

/-- document_symbols.rs 135-143, the third pass: the symbols without a parent. -/
def collect (m : Nat → Option Tree) (l : List ((Sym × Option Nat) × Nat)) : List Tree :=
  l.filterMap fun e => if e.1.2 = none then m e.2 else none

/-- document_symbols.rs 107-146 `build_hierarchy`; the second pass goes through the list from its end. -/
def build (flat : List (Sym × Option Nat)) : List Tree :=
  collect (flat.zipIdx.foldr attach (leaves flat)) flat.zipIdx

/-- capabilities/document_symbols.rs 36-43: the outline of a document, before the conversion to the protocol. -/
def hierarchy (f : Forest) : List Tree := build (visit f State.new).flat

/-- capabilities/document_symbols.rs 123-164 `build_symbol_detail`, the parts which are joined; no part is `None`. -/
def detail (s : Sym) : List String :=
  (if s.singleton = some true then [] else
    match s.vis with
    | .priv => ["private"]
    | .prot => ["protected"]
    | .pub => if s.kind = .method then ["public"] else []) ++
  match s.singleton with
  | some true => ["class method"]
  | some false => ["instance method"]
  | none => []

end Verif.Outline
