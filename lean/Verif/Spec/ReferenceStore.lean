import Verif.Model.ReferenceStore
/-!
What a reference index should answer: the references supplied so far and not withdrawn, in order of arrival.
-/
namespace Verif.ReferenceStore

/-- The references present, with their targets, after one call. -/
def logOp (log : List (Nat × Fact)) : Op → List (Nat × Fact)
  | .add t a => log ++ [(t, a)]
  | .addSorted t a => log ++ [(t, a)]
  | .sortAll => log
  | .remove f => log.filter (fun x => decide (x.2.file ≠ f))
  | .clear => []
  | .replace f facts => log.filter (fun x => decide (x.2.file ≠ f)) ++ facts

def logOf (ops : List Op) : List (Nat × Fact) := ops.foldl logOp []

/-- Whether references were added since the last sort. -/
def dirtyOp (d : Bool) : Op → Bool
  | .add _ _ => true
  | .addSorted _ _ => false
  | .sortAll => false
  | .remove _ => d
  | .clear => false
  | .replace _ _ => false

def dirty (ops : List Op) : Bool := ops.foldl dirtyOp false

/-- Replacement facts belong to the file they replace (the contract asserted by `replace_file`). -/
def Op.Valid : Op → Prop
  | .replace f facts => ∀ x ∈ facts, x.2.file = f
  | _ => True

/-- `a` comes no later than `b` in file and position order. -/
def before (a b : Fact) : Bool :=
  decide (a.file < b.file ∨ (a.file = b.file ∧ (a.start < b.start ∨ (a.start = b.start ∧ a.stop ≤ b.stop))))

/-- The references of a target, in order of arrival. -/
def refsOf (log : List (Nat × Fact)) (t : Nat) : List Fact := (log.filter (fun x => decide (x.1 = t))).map (·.2)

/-- The references of a file, in order of arrival. -/
def refsIn (log : List (Nat × Fact)) (f : Nat) : List Fact := (log.filter (fun x => decide (x.2.file = f))).map (·.2)

/-- `l` lists `facts`, each as often as it occurs there, in file and position order, equal positions in order of arrival. -/
structure Lists (l facts : List Fact) : Prop where
  same : l.Perm facts
  ordered : l.Pairwise (fun a b => before a b = true)
  stable : ∀ k, l.filter (fun a => before a k && before k a) = facts.filter (fun a => before a k && before k a)

/-- The candidates last supplied for a file. -/
def latest (ops : List (Nat × List Cand)) (f : Nat) : List Cand :=
  ops.foldl (fun acc x => if x.1 = f then x.2 else acc) []

end Verif.ReferenceStore
