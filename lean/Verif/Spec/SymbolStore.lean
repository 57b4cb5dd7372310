import Verif.Model.SymbolStore
/-!
What a symbol index should answer: the facts supplied so far and not withdrawn, in the order they arrived.
Nothing here mentions ids, slots or buckets.
-/
namespace Verif.SymbolStore

/-- The facts present after one call. -/
def logOp (log : List Fact) : Op → List Fact
  | .add a => log ++ [a]
  | .remove f => log.filter (fun a => decide (a.file ≠ f))
  | .replace f facts => log.filter (fun a => decide (a.file ≠ f)) ++ facts

/-- The facts present after a history. -/
def logOf (ops : List Op) : List Fact := ops.foldl logOp []

/-- Replacement facts belong to the file they replace (the contract asserted by `replace_file`). -/
def Op.Valid : Op → Prop
  | .replace f facts => ∀ a ∈ facts, a.file = f
  | _ => True

/-- `a` comes no later than `b` in the documented order of a name's facts: by file, then by position, then by kind. -/
def beforeInName (a b : Fact) : Bool :=
  decide (a.file < b.file ∨ (a.file = b.file ∧ (a.start < b.start ∨ (a.start = b.start ∧ (a.stop < b.stop ∨
    (a.stop = b.stop ∧ a.kind ≤ b.kind))))))

/-- `a` comes no later than `b` in the documented order of a file's facts: by position, then by kind. -/
def beforeInFile (a b : Fact) : Bool :=
  decide (a.start < b.start ∨ (a.start = b.start ∧ (a.stop < b.stop ∨ (a.stop = b.stop ∧ a.kind ≤ b.kind))))

/-- `l` lists the facts of `facts` each exactly as often as it occurs there, in the order `le`, facts that compare equal in
order of arrival. -/
structure Lists (le : Fact → Fact → Bool) (l facts : List Fact) : Prop where
  same : l.Perm facts
  ordered : l.Pairwise (fun a b => le a b = true)
  stable : ∀ k, l.filter (fun a => le a k && le k a) = facts.filter (fun a => le a k && le k a)

/-- The file a call concerns. -/
def Op.file : Op → Nat
  | .add a => a.file
  | .remove f => f
  | .replace f _ => f

end Verif.SymbolStore
