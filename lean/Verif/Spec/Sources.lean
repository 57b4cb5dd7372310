import Verif.Model.Sources
/-! Specification vocabulary for C36: which registrations a history contains. -/
namespace Verif.Sources
variable {p : Params}

/-- The registration a call makes, if it makes one: a conditional registration only counts when its condition holds. -/
def stored (e : Engine p) : Op p → Option (Record p)
  | .register raw content kind package => some (mkRecord raw content kind package)
  | .registerIf raw content kind expected =>
    if snapshotForPath e raw = expected then some (mkRecord raw content kind none) else none
  | .replace _ _ => none
  | .replaceIf _ _ => none

/-- All registrations made by a sequence of calls. -/
def registrations (e : Engine p) : List (Op p) → List (Record p)
  | [] => []
  | op :: ops => (stored e op).toList ++ (match step e op with | .ok e' => registrations e' ops | _ => [])

/-- `r` is what is currently registered for the file at `raw`. -/
def Current (e : Engine p) (raw : p.RawPath) (r : Record p) : Prop :=
  ∃ id f, e.byPath (p.norm raw) = some id ∧ e.files id = some f ∧ f.record = r

end Verif.Sources
