/-!
Model of what the indexer records about method definitions and their visibility:
`crates/ruby-analysis/src/indexer/scope_tracker.rs` (the scope tracker) and the parts of
`crates/ruby-analysis/src/indexer/fact_collector` that visit `class`, `module`, `class << self`, `def`,
`private` / `protected` / `public` and `module_function`.

Constants and method names are numbers.  A position stands for a text range; positions are ordered like
`(file_id, start_byte, end_byte)`.

Left out: blocks and `class_eval` (so every execution context comes from a `def` and the check
`implicit_receiver_context_is_proven`, scope_tracker.rs 196-235, is always true), the reopening of a class through an
alias constant, `attr_*`, `define_method`, `alias_method`, `delegate` (they record facts with the current visibility like
`def`), parameters, documentation and types, symbol facts, and extensions.
-/
namespace Verif.Visibility

/-- core/method_store.rs `MethodVisibility`. -/
inductive Vis where
  | pub
  | prot
  | priv
deriving DecidableEq, Repr

/-- A namespace with its kind (`FullyQualifiedName::Namespace(parts, kind)`): `sing` is `NamespaceKind::Singleton`. -/
structure Owner where
  parts : List Nat
  sing : Bool
deriving DecidableEq, Repr

/-- Kind of the file a fact comes from, as far as lookup asks for it (core `SourceKind`). -/
inductive Kind where
  | project
  | stub
  | signature
deriving DecidableEq, Repr

/-- core/method_store.rs `MethodAvailability`. -/
inductive Avail where
  | available
  | unavailable
  | absent
deriving DecidableEq, Repr

/-- core/method_store.rs `MethodFact`. -/
structure Fact where
  owner : Owner
  name : Nat
  pos : Nat
  vis : Vis
  kind : Kind := .project
  avail : Avail := .available
deriving DecidableEq, Repr

/-- core/method_store.rs 346-353 `MethodVisibilityOverrideFact`. -/
structure Override where
  owner : Owner
  name : Nat
  vis : Vis
  pos : Nat
deriving DecidableEq, Repr

/-- The method name `initialize`. -/
def initializeName : Nat := 0
/-- The method name `new`. -/
def newName : Nat := 1
/-- The method name `method_missing`. -/
def methodMissingName : Nat := 2

/-! ### The scope tracker -/

/-- scope_tracker.rs 72-78 `ScopeFrame`. -/
inductive Frame where
  | ns (parts : List Nat) (absolute : Bool)
  | singleton
deriving DecidableEq, Repr

/-- scope_tracker.rs 12-20 `LocalScopeKind`, without the kinds of blocks. -/
inductive ScopeKind where
  | constant
  | instanceMethod
  | classMethod
deriving DecidableEq, Repr

/-- scope_tracker.rs 55-64 `ExecutionContextFrame` (of origin `Method`). -/
structure Exec where
  frameDepth : Nat
  scopeDepth : Nat
  receiver : List Nat
  receiverSing : Bool
  defOwner : List Nat
  defSing : Bool
deriving DecidableEq, Repr

/-- scope_tracker.rs 45-53 `ScopeTracker`; the top of every stack is the head of its list. -/
structure Tracker where
  frames : List Frame
  exec : List Exec
  kinds : List ScopeKind
  methods : List (Option (List Nat × Nat))
  modFun : List Bool
  vis : List Vis
deriving DecidableEq, Repr

/-- scope_tracker.rs 87-96 `ScopeTracker::new`. -/
def Tracker.new : Tracker := { frames := [], exec := [], kinds := [.constant], methods := [], modFun := [], vis := [.pub] }

/-- scope_tracker.rs 130-151 `push_execution_context`. -/
def Tracker.pushExec (t : Tracker) (receiver : List Nat) (receiverSing : Bool) (defOwner : List Nat) (defSing : Bool) : Tracker :=
  { t with exec := { frameDepth := t.frames.length, scopeDepth := t.kinds.length, receiver := receiver, receiverSing := receiverSing, defOwner := defOwner, defSing := defSing } :: t.exec, modFun := false :: t.modFun, vis := .pub :: t.vis }

/-- scope_tracker.rs 153-163 `pop_execution_context`; `none` is a panic. -/
def Tracker.popExec (t : Tracker) : Option Tracker :=
  match t.exec, t.modFun, t.vis with
  | _ :: e, _ :: m, _ :: v => some { t with exec := e, modFun := m, vis := v }
  | _, _, _ => none

/-- scope_tracker.rs 165-184 `current_execution_context`: the outer `none` is the failed assertion. -/
def Tracker.currentExec (t : Tracker) : Option (Option Exec) :=
  match t.exec with
  | [] => some none
  | e :: _ =>
    if t.kinds.length < e.scopeDepth then none
    else if e.frameDepth = t.frames.length ∧ t.kinds.length - e.scopeDepth = 0 then some (some e) else some none

/-- scope_tracker.rs 304-318 `get_ns_stack`. -/
def nsOf : List Frame → List Nat
  | [] => []
  | .ns parts absolute :: rest => if absolute then parts else nsOf rest ++ parts
  | .singleton :: rest => nsOf rest

/-- scope_tracker.rs 265-270, 256-263 `push_ns_scopes`, `push_ns_scope`; a path read from the source is never pushed as an
absolute one (320-336 `push_namespace_from_constant_path`). -/
def Tracker.pushNs (t : Tracker) (parts : List Nat) : Tracker :=
  { t with frames := .ns parts false :: t.frames, modFun := false :: t.modFun, vis := .pub :: t.vis }

/-- scope_tracker.rs 287-302 `pop_ns_scope`. -/
def Tracker.popNs (t : Tracker) : Option Tracker :=
  match t.frames with
  | .ns _ _ :: f =>
    match t.modFun, t.vis with
    | _ :: m, _ :: v => some { t with frames := f, modFun := m, vis := v }
    | _, _ => none
  | _ => some t

/-- scope_tracker.rs 338-344 `push_scope_kind`, `pop_scope_kind`. -/
def Tracker.pushKind (t : Tracker) (k : ScopeKind) : Tracker := { t with kinds := k :: t.kinds }
def Tracker.popKind (t : Tracker) : Tracker := { t with kinds := t.kinds.tail }

/-- scope_tracker.rs 346-352 `push_method_fqn`, `pop_method_fqn`. -/
def Tracker.pushMethod (t : Tracker) (m : List Nat × Nat) : Tracker := { t with methods := some m :: t.methods }
def Tracker.popMethod (t : Tracker) : Tracker := { t with methods := t.methods.tail }

/-- scope_tracker.rs 361-366 `enable_module_function_mode`. -/
def Tracker.enableModFun (t : Tracker) : Tracker := { t with modFun := match t.modFun with | [] => [] | _ :: m => true :: m }

/-- scope_tracker.rs 368-373 `module_function_mode_enabled`. -/
def Tracker.modFunEnabled (t : Tracker) : Bool := t.modFun.head?.getD false

/-- scope_tracker.rs 375-384 `set_current_visibility`. -/
def Tracker.setVis (t : Tracker) (v : Vis) : Option Tracker :=
  match t.vis with
  | [] => none
  | _ :: l => some { t with vis := v :: l }

/-- scope_tracker.rs 396-399 `enter_singleton`: pushes no `module_function` flag. -/
def Tracker.enterSingleton (t : Tracker) : Tracker := { t with frames := .singleton :: t.frames, vis := .pub :: t.vis }

/-- scope_tracker.rs 401-410 `exit_singleton`. -/
def Tracker.exitSingleton (t : Tracker) : Option Tracker :=
  match t.frames with
  | .singleton :: f =>
    match t.vis with
    | _ :: v => some { t with frames := f, vis := v }
    | _ => none
  | _ => some t

/-- scope_tracker.rs 412-414 `in_singleton`. -/
def Tracker.inSingleton (t : Tracker) : Bool :=
  match t.frames with
  | .singleton :: _ => true
  | _ => false

/-- scope_tracker.rs 423-442 `current_method_context_without_execution`. -/
def Tracker.methodContext (t : Tracker) : Bool :=
  match t.kinds with
  | .instanceMethod :: _ => false
  | .classMethod :: _ => true
  | _ => t.inSingleton || !(nsOf t.frames).isEmpty

/-- scope_tracker.rs 451-470 `current_macro_definition_context_without_execution`. -/
def Tracker.macroContext (t : Tracker) : Bool :=
  match t.kinds with
  | .instanceMethod :: _ => false
  | .classMethod :: _ => true
  | _ => t.inSingleton

/-- scope_tracker.rs 190-204 `implicit_receiver_context`. -/
def Tracker.implicitReceiver (t : Tracker) : Option (List Nat × Bool) :=
  match t.currentExec with
  | none => none
  | some (some e) => some (e.receiver, e.receiverSing)
  | some none => some (nsOf t.frames, t.methodContext)

/-- scope_tracker.rs 237-252 `method_definition_context`. -/
def Tracker.definition (t : Tracker) : Option (List Nat × Bool) :=
  match t.currentExec with
  | none => none
  | some (some e) => some (e.defOwner, e.defSing)
  | some none => some (nsOf t.frames, t.macroContext)

/-- scope_tracker.rs 444-449 `current_macro_definition_context`. -/
def Tracker.macroDefinition (t : Tracker) : Option Bool :=
  match t.currentExec with
  | none => none
  | some (some e) => some e.defSing
  | some none => some t.macroContext

/-! ### The collector -/

/-- The receiver of a `def`: none, `self`, a constant, a constant path, anything else. -/
inductive Recv where
  | none
  | self
  | const (name : Nat)
  | path
  | other
deriving DecidableEq, Repr

/-- Ruby code, as far as it is modelled: a statement and the statements after it. -/
inductive Code where
  | nil
  /-- `def recv.m … end` -/
  | defn (recv : Recv) (m pos : Nat) (body rest : Code)
  /-- `private` without arguments -/
  | keyword (v : Vis) (rest : Code)
  /-- `private :a, :b` -/
  | change (v : Vis) (names : List (Nat × Nat)) (rest : Code)
  /-- `private def m … end` -/
  | changeDef (v : Vis) (m pos : Nat) (body rest : Code)
  /-- `module_function` without arguments -/
  | moduleFunction (rest : Code)
  /-- `class path … end` or `module path … end`; `absolute` if the path begins with `::` -/
  | ns (isClass : Bool) (path : List Nat) (absolute : Bool) (body rest : Code)
  /-- `class << self … end` -/
  | sclass (body rest : Code)
deriving DecidableEq, Repr

/-- The collector: the tracker, the namespaces declared in the file (`graph_nodes`: name, and whether a class), the method
facts and the visibility overrides (`direct_facts`). -/
structure State where
  tracker : Tracker
  nodes : List (List Nat × Bool)
  facts : List Fact
  overrides : List Override
deriving DecidableEq, Repr

/-- The collector at the start of a file. -/
def State.new : State := { tracker := .new, nodes := [], facts := [], overrides := [] }

/-- scope_tracker.rs 500-530 `get_method_namespace_kind` for a receiver that is not `self`: the kind, or `none` if the method
is skipped. -/
def receiverKind (r : Recv) (ns : List Nat) : Option Bool :=
  match r with
  | .const n => if ns.getLast? = some n then some true else none
  | .path => some true
  | _ => none

/-- def_node.rs 36-64: namespace and kind of a definition; the outer `none` is a panic, the inner one a skipped method. -/
def definitionOwner (t : Tracker) (r : Recv) : Option (Option (List Nat × Bool)) :=
  match r with
  | .none => t.definition.map some
  | .self =>
    match t.implicitReceiver with
    | none => none
    | some (ns, sing) => if sing then some (some (ns, true)) else some none
  | r =>
    match receiverKind r (nsOf t.frames) with
    | some sing => some (some (nsOf t.frames, sing))
    | none => some none

/-- def_node.rs 78-93 `definition_is_proven_class`; `E` is the answer of the engine for a namespace that the file does not
declare. -/
def provenClass (E : List Nat → Bool) (nodes : List (List Nat × Bool)) (ns : List Nat) : Bool :=
  let kinds := nodes.filter (fun n => decide (n.1 = ns))
  if kinds.isEmpty then E ns else kinds.all (·.2)

/-- def_node.rs 31-260 `process_def_node_entry`, and whether the method was indexed. -/
def enterDef (E : List Nat → Bool) (s : State) (r : Recv) (m pos : Nat) : Option (State × Bool) :=
  match definitionOwner s.tracker r with
  | none => none
  | some none => some (s, false)
  | some (some (ns, sing)) =>
    -- 94-102: a constructor is recorded as the singleton method `new`
    let ctor := decide (m = initializeName) && decide (r = .none) && !sing && provenClass E s.nodes ns
    let name := if ctor then newName else m
    let factSing := if ctor then true else sing
    match s.tracker.vis with
    | [] => none
    | v :: _ =>
      -- 173-186, mod.rs 1020-1044: the fact gets the current visibility
      let facts := s.facts ++ [{ owner := ⟨ns, factSing⟩, name := name, pos := pos, vis := v }]
      -- 187-215: and in `module_function` mode the singleton gets it too
      let facts := if r = .none ∧ factSing = false ∧ s.tracker.modFunEnabled = true then facts ++ [{ owner := ⟨ns, true⟩, name := name, pos := pos, vis := v }] else facts
      -- 135, 240-250
      let t := ((s.tracker.pushMethod (ns, name)).pushKind (if sing then .classMethod else .instanceMethod)).pushExec ns sing ns sing
      some ({ s with tracker := t, facts := facts }, true)

/-- def_node.rs 570-575 `process_def_node_exit`. -/
def exitDef (s : State) : Option State :=
  match s.tracker.popExec with
  | none => none
  | some t => some { s with tracker := t.popMethod.popKind }

/-- fact_collector/mod.rs 1068-1100 `direct_set_method_visibility`. -/
def setMethodVis (s : State) (v : Vis) (m pos : Nat) : Option State :=
  match s.tracker.macroDefinition with
  | none => none
  | some sing =>
    let owner : Owner := ⟨nsOf s.tracker.frames, sing⟩
    some { s with overrides := s.overrides ++ [{ owner := owner, name := m, vis := v, pos := pos }], facts := s.facts.map (fun f => if f.name = m ∧ f.owner = owner then { f with vis := v } else f) }

/-- call_node/mod.rs 160-179 `push_direct_visibility_modifier` with arguments. -/
def setMethodsVis (v : Vis) : List (Nat × Nat) → State → Option State
  | [], s => some s
  | (m, pos) :: l, s =>
    match setMethodVis s v m pos with
    | none => none
    | some s => setMethodsVis v l s

/-- class_node.rs 14-148, module_node.rs 9-39: entering a class or module. -/
def enterNs (s : State) (isClass : Bool) (path : List Nat) : State :=
  let t := s.tracker.pushNs path
  { s with tracker := t.pushKind .constant, nodes := s.nodes ++ [(nsOf t.frames, isClass)] }

/-- class_node.rs 150-154, module_node.rs 41-45: and leaving it. -/
def exitNs (s : State) : Option State :=
  match s.tracker.popNs with
  | none => none
  | some t => some { s with tracker := t.popKind }

/-- The visit of the code of a file (fact_collector/mod.rs 3623-3660 and call_node/mod.rs 74-179); `none` is a panic. -/
def visit (E : List Nat → Bool) : Code → State → Option State
  | .nil, s => some s
  | .defn r m pos body rest, s =>
    match enterDef E s r m pos with
    | none => none
    | some (s1, entered) =>
      match visit E body s1 with
      | none => none
      | some s2 =>
        match (if entered then exitDef s2 else some s2) with
        | none => none
        | some s3 => visit E rest s3
  | .keyword v rest, s =>
    match s.tracker.setVis v with
    | none => none
    | some t => visit E rest { s with tracker := t }
  | .change v names rest, s =>
    match setMethodsVis v names s with
    | none => none
    | some s1 => visit E rest s1
  -- call_node/mod.rs 170-173: a `def` among the arguments has no method name and is skipped; then it is visited
  | .changeDef _ m pos body rest, s =>
    match enterDef E s .none m pos with
    | none => none
    | some (s1, entered) =>
      match visit E body s1 with
      | none => none
      | some s2 =>
        match (if entered then exitDef s2 else some s2) with
        | none => none
        | some s3 => visit E rest s3
  | .moduleFunction rest, s => visit E rest { s with tracker := s.tracker.enableModFun }
  | .ns isClass path _ body rest, s =>
    match visit E body (enterNs s isClass path) with
    | none => none
    | some s1 =>
      match exitNs s1 with
      | none => none
      | some s2 => visit E rest s2
  | .sclass body rest, s =>
    match visit E body { s with tracker := s.tracker.enterSingleton } with
    | none => none
    | some s1 =>
      match s1.tracker.exitSingleton with
      | none => none
      | some t => visit E rest { s1 with tracker := t }

/-- The facts and overrides of the files of a workspace; every file is visited by a collector of its own. -/
def indexFiles (E : List Nat → Bool) : List Code → Option (List Fact × List Override)
  | [] => some ([], [])
  | code :: l =>
    match visit E code .new, indexFiles E l with
    | some s, some r => some (s.facts ++ r.1, s.overrides ++ r.2)
    | _, _ => none

end Verif.Visibility
