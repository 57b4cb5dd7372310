import Verif.Model.CheckReport
/-! Absolute paths, and where the entries of a report come from. -/
namespace Verif.CheckReport

/-- A path from the root directory. -/
def Absolute (p : Path) : Prop := ∃ ts : List Text, p = none :: ts.map some

def Under (root p : Path) : Prop := ∃ rest, p = root ++ rest

/-- The files that are checked: those selected, or all under the root, when they belong to the project or are signatures. -/
def IsChecked (root : Path) (selected : Option Path) (f : File) : Prop :=
  f.kind ≠ .other ∧ (selected = some f.path ∨ (selected = none ∧ Under root f.path))

/-- The diagnostics that have to be in a report. -/
def Reported (root : Path) (selected : Option Path) (ws : List Workspace) (d : Diagnostic) : Prop :=
  (∃ w ∈ ws, ∃ f ∈ w.files, ∃ s ∈ f.parsed, IsChecked root selected f ∧ f.kind = .project ∧
    d = ⟨reportPath root f.path, checkRange s.range, s.severity.getD .error, s.code, s.message⟩) ∨
  ∃ w ∈ ws, ∃ x ∈ w.facts, (selected = none ∨ selected = some x.path) ∧
    d = ⟨reportPath root x.path, checkRange x.range, x.severity, some x.code, x.message⟩

end Verif.CheckReport
