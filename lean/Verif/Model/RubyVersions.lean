import Verif.Model.Runtimes
/-!
Which version of Ruby a workspace is taken to have (/repo/src/indexer/version/ruby_version.rs and
/repo/src/indexer/version/version_detector.rs).

Simplified: a text is a list of Unicode scalar values and white space is a parameter (as in Model/Runtimes.lean); a file that is missing or
cannot be read and a program that cannot be run or fails are `none`; `lines()` is a split at line feeds, as a carriage return at the end of a
line and an empty last line make no difference to the callers; the order of versions and `get_available_versions`, which has no callers,
are left out, as are the log messages.
-/
namespace Verif.RubyVersions
open Verif.JavaSource (Text)
open Verif.Runtimes (Space Impl split strip trim after before behind forFamily Series tJrubyDash tTruffleDash tRubyDash tRubyBlank tLikeRuby)

/-- ruby_version.rs 18-22 `RubyVersion`. -/
structure Version where
  major : Nat
  minor : Nat
  impl : Impl
deriving DecidableEq, Repr

def digits (t : Text) : Option Nat :=
  if t = [] ∨ t.all Char.isDigit = false ∨ 256 ≤ Nat.ofDigitChars 10 t 0 then none else some (Nat.ofDigitChars 10 t 0)

/-- `parse::<u8>()`: a plus sign may come first. -/
def byte : Text → Option Nat
  | [] => none
  | c :: cs => if c = '+' then digits cs else digits (c :: cs)

/-- ruby_version.rs 46-54 `parse`. -/
def parse (t : Text) : Option (Nat × Nat) :=
  match split '.' t with
  | a :: b :: _ =>
    match byte a, byte b with
    | some m, some n => some (m, n)
    | _, _ => none
  | _ => none

/-- ruby_version.rs 147-158 `map_jruby_to_mri`; the numbers of a series always fit into a byte. -/
def jrubyMri (p : Nat × Nat) : Option (Nat × Nat) := if p = (1, 7) then some (1, 9) else (forFamily p).map Series.compat

/-- ruby_version.rs 161-175 `map_truffleruby_to_mri`. -/
def truffleMri (p : Nat × Nat) : Option (Nat × Nat) :=
  if p.1 = 23 then some (3, 2)
  else if p.1 = 22 then some (3, 1)
  else if p.1 = 21 then some (3, 0)
  else if p.1 = 20 then some (2, 7)
  else if p.1 = 19 then some (2, 6)
  else none

def withImpl (i : Impl) (p : Nat × Nat) : Version := ⟨p.1, p.2, i⟩

/-- ruby_version.rs 199-219 `from_full_version`. -/
def fromFull (t : Text) : Option Version :=
  match strip tJrubyDash t with
  | some v => ((parse v).bind jrubyMri).map (withImpl .jruby)
  | none =>
    match strip tTruffleDash t with
    | some v => ((parse v).bind truffleMri).map (withImpl .truffleruby)
    | none => (parse ((strip tRubyDash t).getD t)).map (withImpl .mri)

/-- `str::split(char::is_whitespace)`. -/
def pieces (S : Space) : Text → List Text
  | [] => [[]]
  | c :: cs =>
    if S.ws c = true then [] :: pieces S cs
    else
      match pieces S cs with
      | [] => [[c]]
      | s :: ss => (c :: s) :: ss

/-- `split_whitespace()`. -/
def words (S : Space) (t : Text) : List Text := (pieces S t).filter (fun w => !w.isEmpty)

/-- `str::contains`. -/
def contains (p t : Text) : Bool := (behind p t).isSome

def tJruby : Text := ['j', 'r', 'u', 'b', 'y']
def tTruffle : Text := ['t', 'r', 'u', 'f', 'f', 'l', 'e', 'r', 'u', 'b', 'y']

/-- The first of two attempts that succeeds. -/
def orElse {α : Type} (a b : Option α) : Option α :=
  match a with
  | some v => some v
  | none => b

/-- ruby_version.rs 80-109: JRuby. -/
def jrubyOutput (S : Space) (out : Text) : Option (Nat × Nat) :=
  orElse (((after '(' out).bind (before ')')).bind parse) ((words S out).findSome? (fun w => (parse w).bind jrubyMri))

/-- ruby_version.rs 110-139: TruffleRuby. -/
def truffleOutput (S : Space) (out : Text) : Option (Nat × Nat) :=
  orElse ((behind tLikeRuby out).bind (fun t => (words S t).findSome? parse)) ((words S out).findSome? (fun w => (parse w).bind truffleMri))

/-- ruby_version.rs 57-144 `parse_from_version_output`. -/
def parseOutput (S : Space) (out : Text) : Option Version :=
  if contains tJruby out = true then (jrubyOutput S out).map (withImpl .jruby)
  else if contains tTruffle out = true then (truffleOutput S out).map (withImpl .truffleruby)
  else ((words S out).findSome? parse).map (withImpl .mri)

/-! ### version_detector.rs -/

/-- What is found in a workspace and on the machine. -/
structure World where
  rubyVersion : Option Text
  gemfile : Option Text
  rbenvFile : Option Text
  rbenvCommand : Option Text
  rvmrc : Option Text
  rvmCommand : Option Text
  system : Option Text

def lines (t : Text) : List Text := split '\n' t

/-- version_detector.rs 148-150. -/
def quoteChar (c : Char) : Bool := c == '"' || c == '\'' || c == '~' || c == '>' || c == ' '

def unquote (t : Text) : Text := ((t.dropWhile quoteChar).reverse.dropWhile quoteChar).reverse

/-- version_detector.rs 143-157: a line of a Gemfile. -/
def directive (S : Space) (line : Text) : Option Version :=
  if (strip tRubyBlank (trim S line)).isSome = true then ((words S (trim S line))[1]?).bind (fun w => fromFull (unquote w)) else none

/-- version_detector.rs 135-160 `detect_from_gemfile`. -/
def fromGemfile (S : Space) (content : Text) : Option Version := (lines content).findSome? (directive S)

/-- The text up to the first occurrence. -/
def upTo (p : Text) : Text → Text
  | [] => []
  | c :: cs => if (strip p (c :: cs)).isSome = true then [] else c :: upTo p cs

/-- version_detector.rs 203-212: a line of a .rvmrc file; `split("ruby-").nth(1)` is what is between the first two occurrences. -/
def rvmLine (S : Space) (line : Text) : Option Version :=
  (behind tRubyDash line).bind (fun t => fromFull (((words S (upTo tRubyDash t)).head?).getD []))

/-- version_detector.rs 163-195 `detect_from_rbenv`. -/
def fromRbenv (S : Space) (w : World) : Option Version :=
  orElse (w.rbenvFile.bind (fun t => fromFull (trim S t))) (w.rbenvCommand.bind (fun t => (words S t).head?.bind fromFull))

/-- version_detector.rs 198-238 `detect_from_rvm`. -/
def fromRvm (S : Space) (w : World) : Option Version :=
  orElse (w.rvmrc.bind (fun t => (lines t).findSome? (rvmLine S)))
    (w.rvmCommand.bind (fun t => (strip tRubyDash t).bind (fun v => fromFull (trim S v))))

/-- version_detector.rs 241-268 `detect_from_system`. -/
def fromSystem (S : Space) (w : World) : Option Version :=
  w.system.bind (fun t => orElse (parseOutput S t) (((words S t)[1]?).bind fromFull))

/-- version_detector.rs 50-70 `detect_version`. -/
def detect (S : Space) (w : World) : Option Version :=
  [w.rubyVersion.bind (fun t => fromFull (trim S t)), w.gemfile.bind (fromGemfile S), fromRbenv S w, fromRvm S w, fromSystem S w].findSome? id

def tAuto : Text := ['a', 'u', 't', 'o']

/-- /repo/src/config.rs 277-290 `get_ruby_version`. -/
def configured (t : Text) : Option Version := if t = tAuto then none else (parse t).map (withImpl .mri)

/-- /repo/src/indexer/coordinator.rs 1526-1552 `detect_ruby_version_off_reactor`, with 3038-3052 `ruby_version_for_runtime`: the
implementation and the compatibility version of the selected runtime, when there is one, the setting, and the detection. -/
def effective (S : Space) (runtime : Option (Impl × Text)) (setting : Text) (w : World) : Option Version :=
  match runtime with
  | some (i, compat) => (parse compat).map (withImpl i)
  | none => orElse (configured setting) (detect S w)

end Verif.RubyVersions
