import Verif.Model.Common
/-!
Model of the source registry of the analysis engine: `/repo/crates/ruby-analysis/src/engine/file_id_map.rs` (L11-46) and
`/repo/crates/ruby-analysis/src/engine/state.rs` (registration L1460-1558, snapshots L1560-1601, fact commits L1603-1643).

`norm` is `path.components().collect()`; two `PathBuf`s are equal exactly when their components are, so a path *is* its
normal form here.  The 64-bit `source_hash` (L3867-3871) and the line index (L168-191) are arbitrary functions `hash`,
`lines` of the content, and `isAscii` an arbitrary test: nothing is assumed about collisions.  Counters are unbounded
(the code panics on overflow).  Facts are an opaque value per file; `replace_facts_deferred` is modelled only as "the
facts of this file are now `facts`" (with its `assert_known_file_id` check, L2261).  Source files are never removed from the registry (no code does).
-/
namespace Verif.Sources

/-- Parameters: raw paths, path normal forms, contents and the functions applied to them. -/
structure Params where
  RawPath : Type
  Path : Type
  Content : Type
  Lines : Type
  Kind : Type
  Package : Type
  Facts : Type
  [decPath : DecidableEq Path]
  [decContent : DecidableEq Content]
  [decLines : DecidableEq Lines]
  [decKind : DecidableEq Kind]
  [decPackage : DecidableEq Package]
  norm : RawPath → Path
  hash : Content → Nat
  lines : Content → Lines
  isAscii : Content → Bool

variable {p : Params}
instance : DecidableEq p.Path := p.decPath
instance : DecidableEq p.Content := p.decContent
instance : DecidableEq p.Lines := p.decLines
instance : DecidableEq p.Kind := p.decKind
instance : DecidableEq p.Package := p.decPackage

/-- What a registration stores about the file, apart from its id and revision (`SourceFile`, state.rs L130-150 and the
comparison L1531-1538). -/
structure Record (p : Params) where
  path : p.Path
  kind : p.Kind
  lineIndex : p.Lines
  contentHash : Nat
  source : Option p.Content
  libraryPackage : Option p.Package
  deriving DecidableEq

/-- `SourceFile`. -/
structure SourceFile (p : Params) where
  record : Record p
  revision : Nat

/-- `SourceFileSnapshot`, L114-119. -/
structure Snapshot where
  engine : Nat
  fileId : Nat
  revision : Nat
  deriving DecidableEq

/-- The part of `AnalysisEngine` concerned: `FileIdMap` (`byPath`, `byId`, `nextId`), `sources.files`,
`next_source_revision`, `instance_id`, and the current facts of each file. -/
structure Engine (p : Params) where
  instanceId : Nat
  byPath : p.Path → Option Nat
  byId : Nat → Option p.Path
  nextId : Nat
  files : Nat → Option (SourceFile p)
  nextRevision : Nat
  facts : Nat → Option p.Facts

/-- `AnalysisEngine::default`, L1404-1428. -/
def init (instanceId : Nat) : Engine p :=
  { instanceId, byPath := fun _ => none, byId := fun _ => none, nextId := 0, files := fun _ => none, nextRevision := 0,
    facts := fun _ => none }

/-- Function update (a `HashMap::insert`). -/
def insert {α β : Type} [DecidableEq α] (f : α → Option β) (k : α) (v : β) : α → Option β :=
  fun x => if x = k then some v else f x

/-- `FileIdMap::get_or_insert`, file_id_map.rs L23-38. -/
def getOrInsert (e : Engine p) (path : p.Path) : Nat × Engine p :=
  match e.byPath path with
  | some id => (id, e)
  | none => (e.nextId,
      { e with nextId := e.nextId + 1, byPath := insert e.byPath path e.nextId, byId := insert e.byId e.nextId path })

/-- The record built by the `register_*` functions, L1460-1518: ASCII sources are not retained. -/
def mkRecord (raw : p.RawPath) (content : p.Content) (kind : p.Kind) (package : Option p.Package) : Record p :=
  { path := p.norm raw, kind, lineIndex := p.lines content, contentHash := p.hash content
    source := if p.isAscii content then none else some content, libraryPackage := package }

/-- `register_indexed_file`, L1521-1558. -/
def registerIndexed (e : Engine p) (r : Record p) : Nat × Engine p :=
  let (id, e) := getOrInsert e r.path
  match e.files id with
  | some existing =>
    if existing.record = r then (id, e)
    else (id, { e with nextRevision := e.nextRevision + 1
                       files := insert e.files id { record := r, revision := e.nextRevision + 1 } })
  | none => (id, { e with nextRevision := e.nextRevision + 1
                          files := insert e.files id { record := r, revision := e.nextRevision + 1 } })

/-- `register_file`, `register_gem_file`, `register_file_borrowed`, L1460-1519 (the kind assertion of the gem variant is
left to the caller). -/
def register (e : Engine p) (raw : p.RawPath) (content : p.Content) (kind : p.Kind) (package : Option p.Package) : Nat × Engine p :=
  registerIndexed e (mkRecord raw content kind package)

/-- `source_snapshot_for_path`, L1560-1568. -/
def snapshotForPath (e : Engine p) (raw : p.RawPath) : Option Snapshot :=
  match e.byPath (p.norm raw) with
  | none => none
  | some fileId =>
    match e.files fileId with
    | none => none
    | some file => some { engine := e.instanceId, fileId, revision := file.revision }

/-- `register_file_borrowed_if_snapshot`, L1572-1601.  The panic is the assertion that the snapshot comes from this
engine; a lost file would panic too. -/
def registerIfSnapshot (e : Engine p) (raw : p.RawPath) (content : p.Content) (kind : p.Kind) (expected : Option Snapshot) :
    Outcome (Option Snapshot × Engine p) :=
  if expected.any (fun s => s.engine ≠ e.instanceId) then .panic
  else if snapshotForPath e raw ≠ expected then .ok (none, e)
  else
    let (id, e') := register e raw content kind none
    match e'.files id with
    | none => .panic
    | some file => .ok (some { engine := e'.instanceId, fileId := id, revision := file.revision }, e')

/-- `replace_facts`, L1603-1620, as far as the choice of facts goes; unknown ids panic (L2261). -/
def replaceFacts (e : Engine p) (fileId : Nat) (facts : p.Facts) : Outcome (Engine p) :=
  match e.files fileId with
  | none => .panic
  | some _ => .ok { e with facts := insert e.facts fileId facts }

/-- `replace_facts_if_source_snapshot`, L1624-1643: `false` = refused. -/
def replaceIfSnapshot (e : Engine p) (expected : Snapshot) (facts : p.Facts) : Outcome (Bool × Engine p) :=
  if expected.engine ≠ e.instanceId then .panic
  else if (e.files expected.fileId).map (·.revision) ≠ some expected.revision then .ok (false, e)
  else match replaceFacts e expected.fileId facts with
    | .ok e' => .ok (true, e')
    | .panic => .panic
    | .disabled => .disabled

/-- Calls that change the engine. -/
inductive Op (p : Params) where
  | register (raw : p.RawPath) (content : p.Content) (kind : p.Kind) (package : Option p.Package)
  | registerIf (raw : p.RawPath) (content : p.Content) (kind : p.Kind) (expected : Option Snapshot)
  | replace (fileId : Nat) (facts : p.Facts)
  | replaceIf (expected : Snapshot) (facts : p.Facts)

def step (e : Engine p) : Op p → Outcome (Engine p)
  | .register raw content kind package => .ok (register e raw content kind package).2
  | .registerIf raw content kind expected =>
    match registerIfSnapshot e raw content kind expected with
    | .ok r => .ok r.2
    | .panic => .panic
    | .disabled => .disabled
  | .replace fileId facts => replaceFacts e fileId facts
  | .replaceIf expected facts =>
    match replaceIfSnapshot e expected facts with
    | .ok r => .ok r.2
    | .panic => .panic
    | .disabled => .disabled

/-- `Clone for AnalysisEngine`, L1430-1454: same contents, fresh instance id. -/
def clone (e : Engine p) (freshInstance : Nat) : Engine p := { e with instanceId := freshInstance }

/-- Engines that can exist: fresh ones, clones, and what calls make of them. -/
inductive Reachable : Engine p → Prop where
  | init (instanceId : Nat) : Reachable (init instanceId)
  | clone {e : Engine p} (freshInstance : Nat) : Reachable e → Reachable (clone e freshInstance)
  | step {e e' : Engine p} (op : Op p) : Reachable e → step e op = .ok e' → Reachable e'

/-- `Steps e ops e'`: performing `ops` leads from `e` to `e'`. -/
inductive Steps : Engine p → List (Op p) → Engine p → Prop where
  | nil (e : Engine p) : Steps e [] e
  | cons {e f g : Engine p} {op : Op p} {ops : List (Op p)} : step e op = .ok f → Steps f ops g → Steps e (op :: ops) g

end Verif.Sources
