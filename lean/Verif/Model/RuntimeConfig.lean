import Verif.Model.RubyVersions
/-!
The settings that select runtimes and JRuby's paths for projects (/repo/src/config/runtime.rs).

Simplified: texts are lists of Unicode scalar values; paths are those of Unix, so that a path is absolute when it begins with a slash; the mode,
which has one value, and where a runtime was found are left out; the errors do not carry the texts they show.
-/
namespace Verif.RuntimeConfig
open Verif.JavaSource (Text)
open Verif.Runtimes (Space Impl Series split trim number parseVersion forFamily showPair)
open Verif.RubyVersions (tAuto)

/-- `parse::<u16>()`: a plus sign may come first. -/
def word : Text → Option Nat
  | [] => none
  | c :: cs => if c = '+' then number cs else number (c :: cs)

/-- runtime.rs 208-213 `parse_family`. -/
def parseFamily (t : Text) : Option (Nat × Nat) :=
  match split '.' t with
  | a :: b :: _ =>
    match word a, word b with
    | some m, some n => some (m, n)
    | _, _ => none
  | _ => none

/-- `Path::is_absolute`. -/
def absolute : Text → Bool
  | [] => false
  | c :: _ => c == '/'

/-- runtime.rs 50-60 `SelectedRuntimeDescriptor`. -/
structure Desc where
  impl : Impl
  family : Text
  engine : Text
  compat : Text
  exe : Text
  javaHome : Option Text
deriving DecidableEq, Repr

inductive Err where
  | duplicateRoot | emptyRoot | engine | compat | mismatch | executable | javaHome
deriving DecidableEq, Repr

/-- jruby-support/src/version.rs 156-164 `from_identifier`: the series. -/
def seriesOf (engine : Text) : Option Series :=
  match parseVersion engine with
  | some (a :: b :: _) => forFamily (a, b)
  | _ => none

def relativeHome : Option Text → Bool
  | some h => !absolute h
  | none => false

/-- runtime.rs 131-191 `SelectedRuntimeDescriptor::validate`. -/
def Desc.validate (d : Desc) : Option Err :=
  if absolute d.exe = false then some .executable
  else if relativeHome d.javaHome = true then some .javaHome
  else
    match parseFamily d.compat with
    | none => some .compat
    | some c =>
      match d.impl with
      | .jruby =>
        match seriesOf d.engine with
        | none => some .engine
        | some s => if d.family ≠ showPair s.family ∨ c ≠ s.compat then some .mismatch else none
      | .mri =>
        match parseFamily d.engine with
        | none => some .engine
        | some e => if d.family ≠ d.compat ∨ e ≠ c then some .mismatch else none
      | .truffleruby => if (parseFamily d.engine).isNone = true then some .engine else none

inductive Selection where
  | auto
  | explicit (d : Desc)
deriving DecidableEq, Repr

structure Project where
  root : Text
  selection : Selection
deriving DecidableEq, Repr

def Selection.validate : Selection → Option Err
  | .auto => none
  | .explicit d => d.validate

/-- runtime.rs 85-99: the loop with the roots that were seen. -/
def validateFrom (S : Space) (seen : List Text) : List Project → Option Err
  | [] => none
  | p :: ps =>
    if trim S p.root = [] then some .emptyRoot
    else if p.root ∈ seen then some .duplicateRoot
    else
      match p.selection.validate with
      | some e => some e
      | none => validateFrom S (p.root :: seen) ps

/-- runtime.rs 84-100 `RuntimeSelectionConfig::validate`. -/
def validate (S : Space) (ps : List Project) : Option Err := validateFrom S [] ps

/-- `Path::components`: whether there is a root, whether a relative path begins with `.`, and the names. -/
def components (t : Text) : Bool × Bool × List Text :=
  (absolute t, decide ((split '/' t).head? = some ['.']), (split '/' t).filter (fun p => decide (p ≠ [] ∧ p ≠ ['.'])))

/-- runtime.rs 281-283 `same_project_root`. -/
def sameRoot (a b : Text) : Bool := decide (components a = components b)

inductive Effective where
  | auto
  | explicit (d : Desc)
  | legacy (major minor : Nat)
deriving DecidableEq, Repr

def Selection.effective : Selection → Effective
  | .auto => .auto
  | .explicit d => .explicit d

/-- runtime.rs 102-128 `selection_for_project`. -/
def selectionFor (ps : List Project) (root legacy : Text) : Effective :=
  match ps.find? (fun p => sameRoot p.root root) with
  | some p => p.selection.effective
  | none =>
    if legacy = tAuto then .auto
    else
      match parseFamily legacy with
      | none => .auto
      | some (m, n) => .legacy m n

/-- runtime.rs 269-279 `is_scoped_pattern`. -/
def isScoped (pattern : Text) : Bool := !pattern.isEmpty && !absolute pattern && !(split '/' pattern).any (fun p => decide (p = ['.', '.']))

structure JrubyProject where
  root : Text
  classpath : List Text
  sources : List Text
deriving DecidableEq, Repr

inductive JrubyErr where
  | root (t : Text)
  | pattern (t : Text)
deriving DecidableEq, Repr

/-- runtime.rs 233-246: the loop. -/
def jrubyFrom (S : Space) (seen : List Text) : List JrubyProject → Option JrubyErr
  | [] => none
  | p :: ps =>
    if trim S p.root = [] ∨ p.root ∈ seen then some (.root p.root)
    else
      match (p.classpath ++ p.sources).find? (fun x => !isScoped x) with
      | some x => some (.pattern x)
      | none => jrubyFrom S (p.root :: seen) ps

/-- runtime.rs 231-248 `JrubyConfig::validate`. -/
def jrubyValidate (S : Space) (ps : List JrubyProject) : Option JrubyErr := jrubyFrom S [] ps

/-- runtime.rs 250-260 `project_config`. -/
def projectConfig (ps : List JrubyProject) (root : Text) : JrubyProject :=
  (ps.find? (fun p => sameRoot p.root root)).getD ⟨root, [], []⟩

end Verif.RuntimeConfig
