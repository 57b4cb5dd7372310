import Verif.Model.ProjectRoots
/-! What the projects of a workspace are. -/
namespace Verif.ProjectRoots
open Verif.JavaSource (Text)

/-- A way down through directories: their names, and whether they hold a Gemfile. -/
inductive Trail : Entries → List (Text × Bool) → Prop
  | one (n : Text) (g : Bool) (k r : Entries) : Trail (.cons n true g k r) [(n, g)]
  | down {k : Entries} {t : List (Text × Bool)} (n : Text) (g : Bool) (r : Entries) : Trail k t → Trail (.cons n true g k r) ((n, g) :: t)
  | next {r : Entries} {t : List (Text × Bool)} (n : Text) (d g : Bool) (k : Entries) : Trail r t → Trail (.cons n d g k r) t

/-- The way leads to the first Gemfile on it, and not through directories that are left out. -/
def Nearest (t : List (Text × Bool)) : Prop :=
  ∃ up n, t = up ++ [(n, true)] ∧ (∀ x ∈ up, x.2 = false) ∧ ∀ x ∈ t, x.1 ∉ pruned

def names : Entries → List Text
  | .nil => []
  | .cons n _ _ _ r => n :: names r

/-- No two entries of a directory have one name. -/
def Distinct : Entries → Prop
  | .nil => True
  | .cons n _ _ k r => n ∉ names r ∧ Distinct k ∧ Distinct r

/-- Neither is inside the other. -/
def Apart (a b : Path) : Prop := ¬ a <+: b ∧ ¬ b <+: a

end Verif.ProjectRoots
