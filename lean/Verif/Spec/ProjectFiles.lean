import Verif.Model.ProjectFiles
/-!
What it means that every file of a project is indexed once, and in time.
-/
namespace Verif.ProjectFiles

mutual
/-- The paths of the files below a directory. -/
def filesOf (here : Path) : Node → List Path
  | .file name => [here ++ [name]]
  | .link _ => []
  | .dir name kids => filesOfAll (here ++ [name]) kids

def filesOfAll (here : Path) : List Node → List Path
  | [] => []
  | n :: ns => filesOf here n ++ filesOfAll here ns
end

def Node.name : Node → String
  | .file n => n
  | .link n => n
  | .dir n _ => n

mutual
/-- No directory has two entries of the same name. -/
def Node.Distinct : Node → Prop
  | .file _ => True
  | .link _ => True
  | .dir _ kids => DistinctAll kids

def DistinctAll : List Node → Prop
  | [] => True
  | n :: ns => n.Distinct ∧ (∀ n' ∈ ns, n'.name ≠ n.name) ∧ DistinctAll ns
end

/-- Each key that a batch reports as completed matches a file, and every file of the project that it matches is in this or an earlier batch. -/
def InTime {F K : Type} (m : F → K → Bool) (files : List F) (es : List (Entry F K)) : Prop :=
  ∀ before e after, es = before ++ e :: after → ∀ k ∈ e.completed,
    (∃ f ∈ files, m f k = true) ∧ ∀ f ∈ files, m f k = true → ∃ b ∈ before ++ [e], f ∈ b.files

end Verif.ProjectFiles
