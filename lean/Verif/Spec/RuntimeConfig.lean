import Verif.Model.RuntimeConfig
import Verif.Spec.Runtimes
/-! When settings for runtimes are consistent. -/
namespace Verif.RuntimeConfig
open Verif.JavaSource (Text joinWith)
open Verif.Runtimes (Space Impl Series Num value showPair)

/-- A number below 65536, perhaps with a plus sign. -/
def Word (t : Text) (n : Nat) : Prop := ∃ ds, (t = ds ∨ t = '+' :: ds) ∧ Num ds ∧ value ds = n

/-- Two numbers with a dot between them, and behind another dot anything. -/
def Family (t : Text) (p : Nat × Nat) : Prop :=
  ∃ a b : Text, Word a p.1 ∧ Word b p.2 ∧ (t = a ++ '.' :: b ∨ ∃ rest, t = a ++ '.' :: (b ++ '.' :: rest))

/-- A version of JRuby of the series. -/
def EngineOf (s : Series) (t : Text) : Prop :=
  ∃ (a b : Text) (cs : List Text), (∀ c ∈ a :: b :: cs, Num c) ∧ (value a, value b) = s.family ∧
    (t = joinWith '.' (a :: b :: cs) ∨ t = "jruby-".toList ++ joinWith '.' (a :: b :: cs))

/-- The parts of a description fit each other. -/
def Fitting (d : Desc) (c : Nat × Nat) : Prop :=
  match d.impl with
  | .jruby => ∃ s : Series, EngineOf s d.engine ∧ d.family = showPair s.family ∧ c = s.compat
  | .mri => d.family = d.compat ∧ Family d.engine c
  | .truffleruby => ∃ e, Family d.engine e

structure Consistent (d : Desc) : Prop where
  exe : ∃ r, d.exe = '/' :: r
  home : ∀ h, d.javaHome = some h → ∃ r, h = '/' :: r
  fits : ∃ c, Family d.compat c ∧ Fitting d c

/-- Following a relative path from a place, without links; `none` above the top. -/
def walk : List Text → List Text → Option (List Text)
  | place, [] => some place
  | place, p :: ps =>
    if p = [] ∨ p = ['.'] then walk place ps
    else if p = ['.', '.'] then
      match place with
      | [] => none
      | _ :: up => walk up ps
    else walk (p :: place) ps

end Verif.RuntimeConfig
