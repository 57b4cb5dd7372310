import Verif.Model.Sort
/-!
The report of `check` (/repo/src/check.rs): what is collected from the files and the engine, its order, and its summary.

Simplified: texts are lists of bytes; a path is the list of its components, without prefixes and dots (the paths are canonical); what the
parser and the engine give for a file are parts of the file; positions are given as lines and columns (C06 says how they come from bytes);
the report as JSON and as text, the indexing itself and the errors of reading files are left out.
-/
namespace Verif.CheckReport

abbrev Text := List Nat

/-- `Path` as its components: `none` is the root directory. -/
abbrev Path := List (Option Text)

structure Pos where
  line : Nat
  column : Nat
deriving DecidableEq, Repr

structure Range where
  start : Pos
  stop : Pos
deriving DecidableEq, Repr

/-- check.rs 27-34. -/
inductive Severity where
  | error | warning | information | hint
deriving DecidableEq, Repr

def Severity.rank : Severity → Nat
  | .error => 0
  | .warning => 1
  | .information => 2
  | .hint => 3

/-- check.rs 50-57. -/
structure Diagnostic where
  path : Path
  range : Range
  severity : Severity
  code : Option Text
  message : Text
deriving DecidableEq, Repr

/-- check.rs 59-64; a reason is its number in the enumeration. -/
inductive Outcome where
  | proven (label : Text)
  | unknown (reason : Nat)
deriving DecidableEq, Repr

/-- check.rs 66-77. -/
inductive Kind where
  | methodReturn | constant | local_ | instanceVariable | classVariable | globalVariable | parameter | expression
deriving DecidableEq, Repr

def Kind.rank : Kind → Nat
  | .methodReturn => 0
  | .constant => 1
  | .local_ => 2
  | .instanceVariable => 3
  | .classVariable => 4
  | .globalVariable => 5
  | .parameter => 6
  | .expression => 7

/-- check.rs 79-86. -/
structure Inferred where
  path : Path
  range : Range
  kind : Kind
  subject : Text
  outcome : Outcome
deriving DecidableEq, Repr

/-! ### Orders -/

def natLe (a b : Nat) : Bool := decide (a ≤ b)

def optLe {α : Type} (le : α → α → Bool) : Option α → Option α → Bool
  | none, _ => true
  | some _, none => false
  | some a, some b => le a b

def pairLe {α β : Type} [DecidableEq α] (la : α → α → Bool) (lb : β → β → Bool) (x y : α × β) : Bool :=
  if x.1 = y.1 then lb x.2 y.2 else la x.1 y.1

def listLe {α : Type} [DecidableEq α] (le : α → α → Bool) : List α → List α → Bool
  | [], _ => true
  | _ :: _, [] => false
  | a :: as, b :: bs => if a = b then listLe le as bs else le a b

def pathLe : Path → Path → Bool := listLe (optLe (listLe natLe))

abbrev RangeKey := (Nat × Nat) × (Nat × Nat)

def rangeLe : RangeKey → RangeKey → Bool := pairLe (pairLe natLe natLe) (pairLe natLe natLe)

def Range.key (r : Range) : RangeKey := ((r.start.line, r.start.column), (r.stop.line, r.stop.column))

def Diagnostic.key (d : Diagnostic) : Path × RangeKey × Nat × Option Text × Text := (d.path, d.range.key, d.severity.rank, d.code, d.message)

/-- check.rs 672-690: the order of diagnostics. -/
def diagLe (a b : Diagnostic) : Bool := pairLe pathLe (pairLe rangeLe (pairLe natLe (pairLe (optLe (listLe natLe)) (listLe natLe)))) a.key b.key

def Outcome.key : Outcome → Nat × Text
  | .proven l => (0, l)
  | .unknown r => (1, [r])

def Inferred.key (x : Inferred) : Path × RangeKey × Nat × Text × Nat × Text := (x.path, x.range.key, x.kind.rank, x.subject, x.outcome.key)

/-- The derived order of check.rs 79-86. -/
def inferredLe (a b : Inferred) : Bool := pairLe pathLe (pairLe rangeLe (pairLe natLe (pairLe (listLe natLe) (pairLe natLe (listLe natLe))))) a.key b.key

/-- check.rs 672-691 `normalize_diagnostics`. -/
def normalize (ds : List Diagnostic) : List Diagnostic := dedupAdj (stableSort diagLe ds)

/-- check.rs 86-92. -/
structure Summary where
  errors : Nat
  warnings : Nat
  information : Nat
  hints : Nat
deriving DecidableEq, Repr

def Summary.add (s : Summary) : Severity → Summary
  | .error => ⟨s.errors + 1, s.warnings, s.information, s.hints⟩
  | .warning => ⟨s.errors, s.warnings + 1, s.information, s.hints⟩
  | .information => ⟨s.errors, s.warnings, s.information + 1, s.hints⟩
  | .hint => ⟨s.errors, s.warnings, s.information, s.hints + 1⟩

/-- check.rs 693-704 `summarize`. -/
def summarize (ds : List Diagnostic) : Summary := ds.foldl (fun s d => s.add d.severity) ⟨0, 0, 0, 0⟩

/-- check.rs 141-145 `has_failures`. -/
def hasFailures (s : Summary) : Bool := decide (0 < s.errors) || decide (0 < s.warnings)

/-! ### Paths -/

/-- `Path::strip_prefix`. -/
def stripPath : Path → Path → Option Path
  | [], p => some p
  | _ :: _, [] => none
  | r :: rs, c :: cs => if r = c then stripPath rs cs else none

/-- check.rs 615-619 `report_path`. -/
def reportPath (root path : Path) : Path :=
  match stripPath root path with
  | some p => p
  | none => path

/-- check.rs 549-551 `source_is_selected`. -/
def selectedSource (selected : Option Path) (root path : Path) : Bool :=
  match selected with
  | some s => decide (path = s)
  | none => (stripPath root path).isSome

/-- `Path::ancestors`, nearest first. -/
def ancestors (p : Path) : List Path := (List.range (p.length + 1)).reverse.map (fun n => p.take n)

/-- check.rs 537-547 `nearest_project_root`; `gemfile` tells whether a directory has a file `Gemfile`. Relative paths do not occur. -/
def nearestRoot (gemfile : Path → Bool) (source : Path) : Path :=
  match ((ancestors source.dropLast).filter (fun a => decide (a ≠ []))).find? gemfile with
  | some a => a
  | none => source.dropLast

/-- check.rs 621-633 `one_based_position`. -/
def oneBased (p : Pos) : Pos := ⟨p.line + 1, p.column + 1⟩

def checkRange (r : Range) : Range := ⟨oneBased r.start, oneBased r.stop⟩

/-! ### Collection -/

inductive FileKind where
  | project | signature | other
deriving DecidableEq, Repr

/-- A diagnostic of the parser (check.rs 597-613); no severity is an error (check.rs 645-658). -/
structure Syntax where
  range : Range
  severity : Option Severity
  code : Option Text
  message : Text
deriving DecidableEq, Repr

/-- The subject of a type fact. -/
inductive Subject where
  | constant (t : Text)
  | local_ (t : Text)
  | instanceVariable (owner name : Text)
  | classVariable (owner name : Text)
  | globalVariable (t : Text)
  | parameter (method name : Text)
  | expression
  | methodReturn
deriving DecidableEq, Repr

/-- A type fact; no type is `Unknown`, with the reason for its range. -/
structure TypeFact where
  subject : Subject
  range : Range
  type : Option Text
  reason : Option Nat
deriving DecidableEq, Repr

structure Method where
  name : Text
  range : Range
  /-- the exact outcome of the file -/
  exact_ : Option Outcome
  /-- the type of the return otherwise -/
  declared : Option Text
deriving DecidableEq, Repr

structure File where
  path : Path
  kind : FileKind
  parsed : List Syntax
  methods : List Method
  facts : List TypeFact
  unknowns : List (Range × Nat)
  reads : List (Range × Text)
  calls : List (Range × Outcome)
deriving DecidableEq, Repr

/-- `UnresolvedMethodReturn` (type_inference_outcome.rs 80-86). -/
def unresolvedReturn : Nat := 5

def colons : Text := [58, 58]
def tExpression : Text := [101, 120, 112, 114, 101, 115, 115, 105, 111, 110]

/-- check.rs 394-420. -/
def methodEntry (root : Path) (f : File) (m : Method) : Inferred :=
  ⟨reportPath root f.path, checkRange m.range, .methodReturn, m.name, match m.exact_ with
    | some o => o
    | none => match m.declared with
      | some t => .proven t
      | none => .unknown unresolvedReturn⟩

/-- check.rs 439-463. -/
def subjectEntry : Subject → Option (Kind × Text)
  | .constant t => some (.constant, t)
  | .local_ t => some (.local_, t)
  | .instanceVariable o n => some (.instanceVariable, o ++ colons ++ n)
  | .classVariable o n => some (.classVariable, o ++ colons ++ n)
  | .globalVariable t => some (.globalVariable, t)
  | .parameter m n => some (.parameter, m ++ 40 :: n ++ [41])
  | .expression => some (.expression, tExpression)
  | .methodReturn => none

/-- check.rs 422-471. -/
def factEntry (root : Path) (f : File) (x : TypeFact) : Option Inferred :=
  match x.type with
  | none =>
    if x.subject = .expression then
      match x.reason with
      | some r => some ⟨reportPath root f.path, checkRange x.range, .expression, tExpression, .unknown r⟩
      | none => none
    else none
  | some t =>
    match subjectEntry x.subject with
    | some (k, s) => some ⟨reportPath root f.path, checkRange x.range, k, s, .proven t⟩
    | none => none

/-- check.rs 380-511 `solved_types_in_file`. -/
def solved (root : Path) (f : File) : List Inferred :=
  f.methods.map (methodEntry root f) ++ f.facts.filterMap (factEntry root f) ++
  f.unknowns.map (fun u => ⟨reportPath root f.path, checkRange u.1, .expression, tExpression, .unknown u.2⟩) ++
  f.reads.map (fun u => ⟨reportPath root f.path, checkRange u.1, .expression, tExpression, .proven u.2⟩) ++
  f.calls.map (fun u => ⟨reportPath root f.path, checkRange u.1, .expression, tExpression, u.2⟩)

/-- check.rs 597-613 `lsp_diagnostic`. -/
def syntaxEntry (root : Path) (path : Path) (s : Syntax) : Diagnostic :=
  ⟨reportPath root path, checkRange s.range, s.severity.getD .error, s.code, s.message⟩

/-- A diagnostic of the engine; its path is that of its file. -/
structure Fact where
  path : Path
  range : Range
  severity : Severity
  code : Text
  message : Text
deriving DecidableEq, Repr

def factDiagnostic (root : Path) (x : Fact) : Diagnostic := ⟨reportPath root x.path, checkRange x.range, x.severity, some x.code, x.message⟩

/-- check.rs 553-595 `domain_diagnostics`. -/
def domain (root : Path) (selected : Option Path) (facts : List Fact) : List Diagnostic :=
  (facts.filter (fun x => match selected with
    | some s => decide (x.path = s)
    | none => true)).map (factDiagnostic root)

structure Workspace where
  files : List File
  facts : List Fact
deriving DecidableEq, Repr

def checked (root : Path) (selected : Option Path) (f : File) : Bool :=
  (decide (f.kind = .project) || decide (f.kind = .signature)) && selectedSource selected root f.path

def collectDiagnostics (root : Path) (selected : Option Path) (w : Workspace) : List Diagnostic :=
  ((w.files.filter (checked root selected)).filter (fun f => decide (f.kind = .project))).flatMap (fun f => f.parsed.map (syntaxEntry root f.path)) ++
  domain root selected w.facts

structure Report where
  root : Path
  filesChecked : Nat
  diagnostics : List Diagnostic
  inferred : List Inferred
  summary : Summary
deriving DecidableEq, Repr

/-- check.rs 304-378: the part of `check_path` behind the indexing. -/
def check (root : Path) (selected : Option Path) (ws : List Workspace) : Option Report :=
  let files := ws.flatMap (fun w => w.files.filter (checked root selected))
  if selected.isSome = true ∧ files.length ≠ 1 then none
  else
    let diagnostics := normalize (ws.flatMap (collectDiagnostics root selected))
    some ⟨root, files.length, diagnostics, dedupAdj (stableSort inferredLe (files.flatMap (solved root))), summarize diagnostics⟩

end Verif.CheckReport
