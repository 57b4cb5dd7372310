/-!
`require` and `require_relative`: the strings in a document, the files they mean, the place to go to, and the diagnostics
(/repo/src/indexer/require_paths.rs).

Simplified: texts are lists of code points; a path is its components and whether it ends with a separator; the file system and
the files that the engine knows are functions on components (`stat` of a file with a separator at the end fails, the engine
compares components).
-/
namespace Verif.RequirePaths

abbrev Text := List Nat
abbrev Dir := List Text

inductive Kind where
  | require
  | relative
deriving DecidableEq, Repr

/-- `RequireStringTarget`. -/
structure Target where
  kind : Kind
  argument : Text
  start : Nat
  stop : Nat
deriving DecidableEq, Repr

/-! ### The strings of a document -/

inductive Receiver where
  | none
  | kernel
  | other
deriving DecidableEq, Repr

/-- An argument of a call: a `StringNode` with its text and place, or anything else. -/
inductive Arg where
  | str (text : Text) (start stop : Nat)
  | other
deriving DecidableEq, Repr

inductive Name where
  | require
  | requireRelative
  | other
deriving DecidableEq, Repr

inductive Syn where
  | nil
  | call (name : Name) (receiver : Receiver) (args : List Arg) (kids next : Syn)
  | other (kids next : Syn)
deriving DecidableEq, Repr

/-- require_paths.rs 371-404 `static_require_target`. -/
def target (name : Name) (receiver : Receiver) (args : List Arg) : Option Target :=
  let kind : Option Kind := match name with
    | .require => some .require
    | .requireRelative => some .relative
    | .other => none
  match kind with
  | none => none
  | some kind =>
    if receiver = .other then none
    else
      match args with
      | [.str t a b] => some ⟨kind, t, a, b⟩
      | _ => none

/-- require_paths.rs 353-369: the visitor. -/
def visit (off : Option Nat) : Syn → List Target → List Target
  | .nil, acc => acc
  | .other kids next, acc => visit off next (visit off kids acc)
  | .call n r as kids next, acc =>
    match target n r as with
    | none => visit off next (visit off kids acc)
    | some t =>
      match off with
      | none => visit off next (visit off kids (acc ++ [t]))
      | some o =>
        if o ≥ t.start ∧ o ≤ t.stop then visit off next (acc ++ [t])
        else visit off next (visit off kids acc)

/-- require_paths.rs 103-114 `find_require_string_at_offset`. -/
def findAt (t : Syn) (o : Nat) : Option Target := (visit (some o) t []).head?

/-- require_paths.rs 117-125 `find_all_require_strings`. -/
def findAll (t : Syn) : List Target := visit none t []

/-- require_paths.rs 69-96 `content_byte_range`; 34 and 39 are the quotes. -/
def contentRange (t : Target) (source : Text) : Nat × Nat :=
  let slice := (source.take t.stop).drop t.start
  if 2 ≤ slice.length then
    let first := slice.head?
    let last := slice.getLast?
    if (first = some 39 ∨ first = some 34) ∧ first = last then (t.start + 1, t.stop - 1) else (t.start, t.stop)
  else (t.start, t.stop)

/-! ### Paths -/

structure Path where
  comps : Dir
  slash : Bool
deriving DecidableEq, Repr

/-- The parts of a text between separators (47). -/
def segments : Text → List Text
  | [] => [[]]
  | c :: cs =>
    if c = 47 then [] :: segments cs
    else
      match segments cs with
      | [] => [[c]]
      | s :: ss => (c :: s) :: ss

def dot : Text := [46]
def dotdot : Text := [46, 46]

/-- `Path::components` without the root and `.`. -/
def comps (t : Text) : Dir := (segments t).filter (fun s => decide (s ≠ []) && decide (s ≠ dot))

def isAbsolute (t : Text) : Bool := decide (t.head? = some 47)

/-- `root.join(argument)`. -/
def join (root : Dir) (argument : Text) : Path :=
  let last := (segments argument).getLastD []
  ⟨if isAbsolute argument then comps argument else root ++ comps argument, decide (last = []) || decide (last = dot)⟩

/-- `Path::file_name`. -/
def fileName (p : Path) : Option Text :=
  match p.comps.getLast? with
  | none => none
  | some n => if n = dotdot then none else some n

/-- The part behind the last dot, with the part before it. -/
def rsplitDot : Text → Option (Text × Text)
  | [] => none
  | c :: cs =>
    match rsplitDot cs with
    | some (a, b) => some (c :: a, b)
    | none => if c = 46 then some ([], cs) else none

/-- `Path::extension`. -/
def extension (p : Path) : Option Text :=
  match fileName p with
  | none => none
  | some n =>
    match rsplitDot n with
    | none => none
    | some (a, b) => if a = [] then none else some b

def lower (c : Nat) : Nat := if 65 ≤ c ∧ c ≤ 90 then c + 32 else c

/-- `eq_ignore_ascii_case("rb")`. -/
def isRb (e : Text) : Bool := decide (e.map lower = [114, 98])

def dotRb : Text := [46, 114, 98]

/-- require_paths.rs 333-347 `with_rb_extension`. -/
def withRb (p : Path) : Path :=
  if (extension p).any isRb then p
  else
    match fileName p with
    | some n => ⟨p.comps.dropLast ++ [n ++ dotRb], false⟩
    | none => ⟨p.comps ++ [dotRb], false⟩

/-- The file system and the files of the engine. -/
structure World where
  isFile : Dir → Bool
  known : Dir → Bool

/-- require_paths.rs 320-328: one path. -/
def hit (w : World) (p : Path) : Bool := (!p.slash && w.isFile p.comps) || w.known p.comps

/-- require_paths.rs 315-331 `existing_require_candidate`. -/
def existing (w : World) (p : Path) : Option Path := [p, withRb p].find? (hit w)

/-- require_paths.rs 299-313 `validated_project_relative_dir`. -/
def validated (root : Dir) (configured : Text) : Option Dir :=
  if configured = [] ∨ isAbsolute configured = true ∨ (segments configured).head? = some dot ∨ dotdot ∈ segments configured then none
  else some (root ++ comps configured)

def lib : Text := [108, 105, 98]

/-- require_paths.rs 216-229: the roots of `require`. -/
def roots (project : Dir) (loadPaths : List Text) (deps : List Dir) : List Dir :=
  loadPaths.filterMap (validated project) ++ [project ++ [lib]] ++ [project] ++ deps.filter (fun d => decide (d ≠ []))

/-- require_paths.rs 190-239 `resolve_require_path`. -/
def resolve (w : World) (k : Kind) (argument : Text) (current project : Dir) (loadPaths : List Text) (deps : List Dir) : Option Path :=
  if argument = [] then none
  else
    match k with
    | .relative => if current = [] then none else existing w (join current.dropLast argument)
    | .require => ((roots project loadPaths deps).map (fun r => join r argument)).findSome? (existing w)

/-- `DiagnosticFact`: the place and the message. -/
structure Diagnostic where
  start : Nat
  stop : Nat
  kind : Kind
  argument : Text
deriving DecidableEq, Repr

/-- require_paths.rs 130-175 `unresolved_require_diagnostics`. -/
def diagnostics (w : World) (t : Syn) (source : Text) (current project : Dir) (loadPaths : List Text) (deps : List Dir) : List Diagnostic :=
  (findAll t).filterMap (fun x =>
    if (resolve w x.kind x.argument current project loadPaths deps).isSome then none
    else some ⟨(contentRange x source).1, (contentRange x source).2, x.kind, x.argument⟩)

/-! ### The place -/

def utf16 (c : Nat) : Nat := if c < 65536 then 1 else 2

/-- The part behind the last line feed (10). -/
def lastLine : Text → Text
  | [] => []
  | c :: cs => if 10 ∈ c :: cs then (if c = 10 ∧ 10 ∉ cs then cs else lastLine cs) else c :: cs

/-- require_paths.rs 290-297 `full_document_range`, the end. -/
def documentEnd (t : Text) : Nat × Nat := (t.count 10, ((lastLine t).map utf16).sum)

end Verif.RequirePaths
