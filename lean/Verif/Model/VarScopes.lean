import Verif.Model.Arena
/-!
Model of the tree of local variable scopes (crates/ruby-analysis/src/indexer/variable_scopes.rs).

Simplifications: names, types and file ids are numbers (`ustr` makes equal names identical); a scope does not store its own id,
which is its index (L94, L98); names of scopes and the never filled `captured_variables` are left out; `record_read` and
`record_write` have no callers outside tests and are left out, and so is the separate vector of flow results; the loops that walk to
the parent carry fuel, which `Props/VarScopes` shows never to run out.
-/
namespace Verif.VarScopes

/-- core/type_store.rs `TextRange`. -/
structure Range where
  file : Nat
  start : Nat
  stop : Nat
  deriving DecidableEq

/-- core/type_store.rs L41-43 `contains_offset`. -/
def Range.contains (r : Range) (file offset : Nat) : Bool := decide (r.file = file) && decide (r.start ≤ offset) && decide (offset ≤ r.stop)

/-- indexer/scope_tracker.rs L11-19 `LocalScopeKind`. -/
inductive Kind where
  | constant | instanceMethod | classMethod | block | frameworkBlock | rescue | explicitBlockLocal
  deriving DecidableEq

/-- indexer/scope_tracker.rs L22-27 `is_hard_scope_boundary`. -/
def Kind.hard : Kind → Bool
  | .instanceMethod | .classMethod | .constant => true
  | _ => false

/-- L754-762 `VariableNode`. -/
structure Var where
  name : Nat
  defn : Range
  reads : List Range
  writes : List Range
  types : List (Range × Nat)
  deriving DecidableEq

/-- L729-743 `ScopeNode`. -/
structure Scope where
  parent : Option Nat
  children : List Nat
  kind : Kind
  range : Range
  vars : List Var
  deriving DecidableEq

/-- L27-45 `VariableScopes`; the root is scope 0. -/
structure State where
  scopes : List Scope
  current : Option Nat

/-- L49-74 `new`. -/
def init : State :=
  { scopes := [{ parent := none, children := [], kind := .constant, range := ⟨0, 0, 0⟩, vars := [] }], current := some 0 }

def modify (scopes : List Scope) (i : Nat) (f : Scope → Scope) : List Scope := scopes.modify i f

/-- L87-116 `enter_scope`. -/
def enterScope (s : State) (kind : Kind) (range : Range) : State :=
  let id := s.scopes.length
  let scopes := s.scopes ++ [{ parent := s.current, children := [], kind, range, vars := [] }]
  { scopes :=
      match s.current with
      | some p => modify scopes p fun x => { x with children := x.children ++ [id] }
      | none => scopes
    current := some id }

/-- L443-458 `find_child_scope_by_range`. -/
def childByRange (s : State) (parent : Nat) (range : Range) : Option Nat :=
  match s.scopes[parent]? with
  | none => none
  | some x => x.children.find? fun c => match s.scopes[c]? with
    | some y => decide (y.range = range)
    | none => false

/-- L120-126 `enter_child_scope`. -/
def enterChild (s : State) (range : Range) : State :=
  match s.current with
  | none => s
  | some c =>
    match childByRange s c range with
    | some id => { s with current := some id }
    | none => s

/-- L129-135 `exit_scope`. -/
def exitScope (s : State) : State :=
  match s.current with
  | none => s
  | some c =>
    match s.scopes[c]? with
    | some x => { s with current := x.parent }
    | none => s

/-- L156-163: the first variable of that name, if any, gets a write location. -/
def addWrite (name : Nat) (loc : Range) : List Var → Option (List Var)
  | [] => none
  | v :: vs => if v.name = name then some ({ v with writes := v.writes ++ [loc] } :: vs) else (addWrite name loc vs).map (v :: ·)

/-- L156-172: assign in one scope. -/
def defineIn (name : Nat) (loc : Range) (x : Scope) : Scope :=
  match addWrite name loc x.vars with
  | some vars => { x with vars := vars }
  | none => { x with vars := x.vars ++ [{ name, defn := loc, reads := [], writes := [], types := [] }] }

/-- L149-174 `define_variable` (without the index it returns, which nobody reads). -/
def define (s : State) (name : Nat) (loc : Range) : State :=
  match s.current with
  | none => s
  | some c => { s with scopes := modify s.scopes c (defineIn name loc) }

/-- L203-236 `reference_variable_from_scope`: the scope and the index of the variable. -/
def owner (scopes : List Scope) (name : Nat) : Nat → Nat → Option (Nat × Nat)
  | 0, _ => none
  | fuel + 1, sid =>
    match scopes[sid]? with
    | none => none
    | some x =>
      match x.vars.findIdx? (fun v => decide (v.name = name)) with
      | some i => some (sid, i)
      | none =>
        if x.kind.hard then none
        else
          match x.parent with
          | none => none
          | some p => owner scopes name fuel p

/-- L179-201 `reference_variable`. -/
def reference (s : State) (name : Nat) (loc : Range) : State :=
  match s.current with
  | none => s
  | some c =>
    match owner s.scopes name (c + 1) c with
    | none => s
    | some (sid, i) =>
      { s with scopes := modify s.scopes sid fun x => { x with vars := x.vars.modify i fun v => { v with reads := v.reads ++ [loc] } } }

/-- L473-475: the first variable of that name gets a type. -/
def pushType (name : Nat) (ta : Range × Nat) : List Var → Option (List Var)
  | [] => none
  | v :: vs => if v.name = name then some ({ v with types := v.types ++ [ta] } :: vs) else (pushType name ta vs).map (v :: ·)

/-- L462-491 `add_type_assignment`. -/
def addType (name : Nat) (ta : Range × Nat) (s : State) : Nat → Nat → State
  | 0, _ => s
  | fuel + 1, sid =>
    match s.scopes[sid]? with
    | none => s
    | some x =>
      match pushType name ta x.vars with
      | some vars => { s with scopes := modify s.scopes sid fun x => { x with vars := vars } }
      | none =>
        if x.kind.hard then s
        else
          match x.parent with
          | none => s
          | some p => addType name ta s fuel p

/-! ### questions -/

/-- L413-441 `find_variable`. -/
def findVariable (s : State) (name : Nat) : Nat → Nat → Option (Nat × Var)
  | 0, _ => none
  | fuel + 1, sid =>
    match s.scopes[sid]? with
    | none => none
    | some x =>
      match x.vars.find? (fun v => decide (v.name = name)) with
      | some v => some (sid, v)
      | none =>
        if x.kind.hard then none
        else
          match x.parent with
          | none => none
          | some p => findVariable s name fuel p

/-- L274-300: the places of one variable. -/
def Var.places (v : Var) : List Range := v.defn :: (v.reads ++ v.writes)

/-- L257-310 `find_rename_targets`, without the kinds of the places. -/
def targets (s : State) (name : Nat) : Nat → Nat → List Range
  | 0, _ => []
  | fuel + 1, sid =>
    match s.scopes[sid]? with
    | none => []
    | some x =>
      (x.vars.filter (fun v => decide (v.name = name))).flatMap Var.places ++
        if x.kind.hard then []
        else
          match x.parent with
          | none => []
          | some p => targets s name fuel p

/-- L328-350: does a place of the variable contain the offset? -/
def Var.covers (v : Var) (file offset : Nat) : Bool :=
  v.defn.contains file offset || v.reads.any (·.contains file offset) || v.writes.any (·.contains file offset)

/-- L315-354 `find_scope_for_variable_at`. -/
def scopeForVariableAt (s : State) (name file offset : Nat) : Option Nat :=
  s.scopes.findIdx? fun x => x.vars.any fun v => decide (v.name = name) && v.covers file offset

/-- indexer/ruby_document.rs L203-222 `local_variable_reference_ranges_at`. -/
def referencesAt (s : State) (name file offset : Nat) : List Range :=
  match scopeForVariableAt s name file offset with
  | none => []
  | some sid => targets s name (sid + 1) sid

/-- L368-394 `find_scope_at`: the first child with an answer, then the scope itself. -/
def scopeAt (s : State) (file offset : Nat) : Nat → Nat → Option Nat
  | 0, _ => none
  | fuel + 1, sid =>
    match s.scopes[sid]? with
    | none => none
    | some x =>
      match x.children.findSome? (scopeAt s file offset fuel) with
      | some r => some r
      | none => if x.parent.isNone then some sid else if x.range.contains file offset then some sid else none

/-- L360-366 `scope_at_position`. -/
def scopeAtPosition (s : State) (file offset : Nat) : Option Nat := scopeAt s file offset s.scopes.length 0

/-- L618-664 `get_assignment_type_at_position`. -/
def typeAt (s : State) (name file offset : Nat) : Nat → Nat → Option Nat
  | 0, _ => none
  | fuel + 1, sid =>
    match s.scopes[sid]? with
    | none => none
    | some x =>
      match x.vars.find? (fun v => decide (v.name = name)) with
      | some v => ((v.types.filter fun ta => decide (ta.1.file = file) && decide (ta.1.start ≤ offset)).getLast?).map (·.2)
      | none =>
        if x.kind.hard then none
        else
          match x.parent with
          | none => none
          | some p => typeAt s name file offset fuel p

/-- L698-719 `get_visible_variables`. -/
def visible (s : State) : Nat → Nat → List Var
  | 0, _ => []
  | fuel + 1, sid =>
    match s.scopes[sid]? with
    | none => []
    | some x =>
      x.vars ++
        if x.kind.hard then []
        else
          match x.parent with
          | none => []
          | some p => visible s fuel p

/-! ### building -/

/-- What the fact collector does while it walks a file. -/
inductive Op where
  | enter (kind : Kind) (range : Range)
  | enterChild (range : Range)
  | exit
  | define (name : Nat) (loc : Range)
  | reference (name : Nat) (loc : Range)
  | addType (scope name : Nat) (range : Range) (type : Nat)

def apply (s : State) : Op → State
  | .enter kind range => enterScope s kind range
  | .enterChild range => enterChild s range
  | .exit => exitScope s
  | .define name loc => define s name loc
  | .reference name loc => reference s name loc
  | .addType scope name range type => addType name (range, type) s (scope + 1) scope

def run (ops : List Op) : State := ops.foldl apply init

end Verif.VarScopes
