import Verif.Spec.JavaSource
import Verif.Model.Sort
/-!
Which Ruby runtimes are recognised and which one a project selects (/repo/crates/jruby-support/src/version.rs and
/repo/src/runtime/catalog.rs).

Simplified: a text is a list of Unicode scalar values; white space is a parameter with the facts that are used; executables are numbers
in the order of their paths; the texts that are only shown (labels) and the home of Java are left out; errors of reading files are left
out; `JrubyRuntimeIdentity::from_version_output` has no callers outside tests and is left out.
-/
namespace Verif.Runtimes
open Verif.JavaSource (Text joinWith)

/-- What is used of Unicode's White_Space. -/
structure Space where
  ws : Char → Bool
  blank : ws ' ' = true
  visible : ∀ c : Char, c.toNat < 128 → 32 < c.toNat → ws c = false

/-- `str::split(char)`. -/
def split (sep : Char) : Text → List Text
  | [] => [[]]
  | c :: cs =>
    if c = sep then [] :: split sep cs
    else
      match split sep cs with
      | [] => [[c]]
      | s :: ss => (c :: s) :: ss

/-- `str::strip_prefix`. -/
def strip : Text → Text → Option Text
  | [], t => some t
  | _ :: _, [] => none
  | p :: ps, c :: cs => if p = c then strip ps cs else none

/-- `parse::<u16>()` of a text of digits (a plus sign, which is accepted too, never gets there). -/
def number (t : Text) : Option Nat :=
  if t = [] ∨ t.all Char.isDigit = false ∨ 65536 ≤ Nat.ofDigitChars 10 t 0 then none else some (Nat.ofDigitChars 10 t 0)

def numbers : List Text → Option (List Nat)
  | [] => some []
  | t :: ts =>
    match number t, numbers ts with
    | some n, some ns => some (n :: ns)
    | _, _ => none

def tJrubyDash : Text := ['j', 'r', 'u', 'b', 'y', '-']

/-- version.rs 9-26 `JrubyVersion::parse`. -/
def parseVersion (source : Text) : Option (List Nat) :=
  match numbers (split '.' ((strip tJrubyDash source).getD source)) with
  | some ns => if ns.length < 2 then none else some ns
  | none => none

/-- version.rs 41-51 `Display`. -/
def display (v : List Nat) : Text := joinWith '.' (v.map (Nat.toDigits 10))

inductive Series where
  | v9_0 | v9_1 | v9_2 | v9_3 | v9_4 | v10_0 | v10_1
deriving DecidableEq, Repr

/-- version.rs 91-102 `for_family`. -/
def forFamily : Nat × Nat → Option Series
  | (9, 0) => some .v9_0
  | (9, 1) => some .v9_1
  | (9, 2) => some .v9_2
  | (9, 3) => some .v9_3
  | (9, 4) => some .v9_4
  | (10, 0) => some .v10_0
  | (10, 1) => some .v10_1
  | _ => none

/-- version.rs 104-114 `engine_family`; `overlay_name` (130-140) is its text. -/
def Series.family : Series → Nat × Nat
  | .v9_0 => (9, 0)
  | .v9_1 => (9, 1)
  | .v9_2 => (9, 2)
  | .v9_3 => (9, 3)
  | .v9_4 => (9, 4)
  | .v10_0 => (10, 0)
  | .v10_1 => (10, 1)

/-- version.rs 116-127 `ruby_compatibility`. -/
def Series.compat : Series → Nat × Nat
  | .v9_0 => (2, 2)
  | .v9_1 => (2, 3)
  | .v9_2 => (2, 5)
  | .v9_3 => (2, 6)
  | .v9_4 => (3, 1)
  | .v10_0 => (3, 4)
  | .v10_1 => (4, 0)

def showPair (p : Nat × Nat) : Text := Nat.toDigits 10 p.1 ++ '.' :: Nat.toDigits 10 p.2

/-! ### catalog.rs -/

def versionChar (c : Char) : Bool := c.isDigit || c == '.'

/-- catalog.rs 737-750 `clean_version`. -/
def cleanVersion (source : Text) : Option Text :=
  let version := (((source.dropWhile (fun c => !versionChar c)).reverse.dropWhile (fun c => !versionChar c)).reverse).takeWhile versionChar
  if version = [] ∨ (split '.' version).any (fun c => (number c).isNone) = true then none else some version

/-- catalog.rs 752-755 `version_family`. -/
def versionFamily (version : Text) : Option Text :=
  match split '.' version with
  | a :: b :: _ => some (a ++ '.' :: b)
  | _ => none

/-- The text behind the first occurrence of a character. -/
def after (c : Char) : Text → Option Text
  | [] => none
  | d :: ds => if d = c then some ds else after c ds

/-- The text before the first occurrence of a character, when it occurs. -/
def before (c : Char) : Text → Option Text
  | [] => none
  | d :: ds => if d = c then some [] else (before c ds).map (d :: ·)

/-- catalog.rs 726-735 `reported_compatibility`. -/
def reported (output : Text) : Option (Nat × Nat) :=
  ((((after '(' output).bind (before ')')).bind cleanVersion).bind versionFamily).bind (fun family =>
    match before '.' family, after '.' family with
    | some a, some b =>
      match number a, number b with
      | some m, some n => some (m, n)
      | _, _ => none
    | _, _ => none)

inductive Impl where
  | mri | jruby | truffleruby
deriving DecidableEq, Repr

inductive Source where
  | path | rvm | rbenv | asdf | mise
deriving DecidableEq, Repr

structure Runtime where
  impl : Impl
  family : Text
  compat : Text
  engine : Text
  exe : Nat
  source : Source
  supported : Bool
deriving DecidableEq, Repr

def trim (S : Space) (t : Text) : Text := ((t.dropWhile S.ws).reverse.dropWhile S.ws).reverse

/-- `split_whitespace().next()`. -/
def firstWord (S : Space) (t : Text) : Option Text :=
  match t.dropWhile S.ws with
  | [] => none
  | c :: cs => some ((c :: cs).takeWhile (fun d => !S.ws d))

/-- `split_whitespace().nth(1)`. -/
def secondWord (S : Space) (t : Text) : Option Text := firstWord S ((t.dropWhile S.ws).dropWhile (fun d => !S.ws d))

/-- catalog.rs 632-673 `parse_jruby_output`. -/
def parseJruby (S : Space) (output : Text) (exe : Nat) (source : Source) : Option Runtime :=
  match (secondWord S output).bind parseVersion, reported output with
  | some (a :: b :: rest), some c =>
    match forFamily (a, b) with
    | some s =>
      if c ≠ s.compat then none
      else some ⟨.jruby, showPair s.family, showPair s.compat, display (a :: b :: rest), exe, source, true⟩
    | none => some ⟨.jruby, showPair (a, b), showPair c, display (a :: b :: rest), exe, source, false⟩
  | _, _ => none

/-- catalog.rs 675-696 `parse_mri_output`. -/
def parseMri (S : Space) (output : Text) (exe : Nat) (source : Source) : Option Runtime :=
  match (secondWord S output).bind cleanVersion with
  | none => none
  | some engine =>
    match versionFamily engine with
    | none => none
    | some family => some ⟨.mri, family, family, engine, exe, source, true⟩

def tLikeRuby : Text := ['l', 'i', 'k', 'e', ' ', 'r', 'u', 'b', 'y', ' ']

/-- `split_once(pattern)`: the text behind the first occurrence. -/
def behind (p : Text) : Text → Option Text
  | [] => strip p []
  | c :: cs =>
    match strip p (c :: cs) with
    | some t => some t
    | none => behind p cs

def trimCommas (t : Text) : Text := (t.reverse.dropWhile (fun c => c == ',')).reverse

/-- catalog.rs 705-709. -/
def truffleCompat (S : Space) (output : Text) : Option Text :=
  match (((behind tLikeRuby output).bind (firstWord S)).bind cleanVersion).bind versionFamily with
  | some f => some f
  | none => (reported output).map showPair

/-- catalog.rs 698-724 `parse_truffleruby_output`. -/
def parseTruffle (S : Space) (output : Text) (exe : Nat) (source : Source) : Option Runtime :=
  match ((secondWord S output).map trimCommas).bind cleanVersion with
  | none => none
  | some engine =>
    match versionFamily engine, truffleCompat S output with
    | some family, some c => some ⟨.truffleruby, family, c, engine, exe, source, true⟩
    | _, _ => none

def tJrubyBlank : Text := ['j', 'r', 'u', 'b', 'y', ' ']
def tTruffleBlank : Text := ['t', 'r', 'u', 'f', 'f', 'l', 'e', 'r', 'u', 'b', 'y', ' ']
def tRubyBlank : Text := ['r', 'u', 'b', 'y', ' ']

/-- catalog.rs 614-630 `parse_runtime_output`. -/
def parseOutput (S : Space) (output : Text) (exe : Nat) (source : Source) : Option Runtime :=
  let t := trim S output
  if (strip tJrubyBlank t).isSome then parseJruby S t exe source
  else if (strip tTruffleBlank t).isSome then parseTruffle S t exe source
  else if (strip tRubyBlank t).isSome then parseMri S t exe source
  else none

def tTruffleDash : Text := ['t', 'r', 'u', 'f', 'f', 'l', 'e', 'r', 'u', 'b', 'y', '-']
def tRubyDash : Text := ['r', 'u', 'b', 'y', '-']
def tRuby : Text := ['r', 'u', 'b', 'y']
def tSystem : Text := ['s', 'y', 's', 't', 'e', 'm']

/-- catalog.rs 262-272: the implementation and the version in a marker. -/
def markerParts (marker : Text) : Option (Impl × Text) :=
  match strip tJrubyDash marker with
  | some v => some (.jruby, v)
  | none =>
    match strip tTruffleDash marker with
    | some v => some (.truffleruby, v)
    | none =>
      match strip tRubyDash marker with
      | some v => some (.mri, v)
      | none =>
        match marker with
        | [] => none
        | c :: _ => if c.isDigit then some (.mri, marker) else none

/-- catalog.rs 259-280 `parse_runtime_marker`. -/
def parseMarker (S : Space) (marker : Text) : Option (Impl × Text) :=
  match markerParts (trim S marker) with
  | none => none
  | some (i, v) => if cleanVersion v ≠ some v ∨ versionFamily v = none then none else some (i, v)

inductive Selection where
  | nothing
  | invalid
  | one (r : Runtime)
  | ambiguous (exes : List Nat)
deriving DecidableEq, Repr

def fits (i : Impl) (v : Text) (r : Runtime) : Bool := decide (r.impl = i) && decide (r.engine = v)

def onPath (r : Runtime) : Bool := decide (r.source = .path)

/-- catalog.rs 231-256: the choice among the runtimes that fit. -/
def choose (hits : List Runtime) : Selection :=
  match hits.filter onPath, hits with
  | [r], _ => .one r
  | [], [] => .nothing
  | [], [r] => .one r
  | [], hs => .ambiguous (hs.map Runtime.exe)
  | ps, _ => .ambiguous (ps.map Runtime.exe)

/-- catalog.rs 216-257 `select_runtime_for_marker`. -/
def select (S : Space) (marker : Text) (runtimes : List Runtime) : Selection :=
  if trim S marker = tSystem then .nothing
  else
    match parseMarker S marker with
    | none => .invalid
    | some (i, v) => choose (stableSort (fun a b => decide (a.exe ≤ b.exe)) (runtimes.filter (fits i v)))

inductive Marker where
  | nothing
  | invalid
  | found (t : Text)
deriving DecidableEq, Repr

/-- catalog.rs 205-214: the loop over the lines of `.tool-versions` (a carriage return at the end of a line is white space and does not matter). -/
def toolMarker (S : Space) : List Text → Marker
  | [] => .nothing
  | l :: ls =>
    if firstWord S l = some tRuby then
      match secondWord S l with
      | some v => .found v
      | none => .invalid
    else toolMarker S ls

/-- catalog.rs 179-214 `project_runtime_marker`, for the contents of the two files, when they exist. -/
def projectMarker (S : Space) (rubyVersion toolVersions : Option Text) : Marker :=
  match rubyVersion with
  | some t => if trim S t = [] then .invalid else .found (trim S t)
  | none =>
    match toolVersions with
    | none => .nothing
    | some t => toolMarker S (split '\n' t)

end Verif.Runtimes
