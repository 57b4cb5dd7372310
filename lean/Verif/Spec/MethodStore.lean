import Verif.Model.MethodStore
/-! What a method index should answer, from the facts present in order of arrival. -/
namespace Verif.MethodStore

/-- The facts present after one call. -/
def logOp (log : List Fact) : Op → List Fact
  | .add a => log ++ [a]
  | .remove f => log.filter (fun a => decide (a.file ≠ f))
  | .replace _ f facts => log.filter (fun a => decide (a.file ≠ f)) ++ facts

/-- The facts present after a history. -/
def logOf (ops : List Op) : List Fact := ops.foldl logOp []

/-- Replacement facts belong to the file they replace, and the iteration orders are orders of the sets. -/
def Op.Valid : Op → Prop
  | .replace π f facts => (∀ a ∈ facts, a.file = f) ∧ (∀ l, (π.fqns l).Perm l) ∧ (∀ l, (π.owners l).Perm l) ∧
      (∀ l, (π.ownerNames l).Perm l)
  | _ => True

/-- By file, then position, then `tie`. -/
def inOrder (tie : Fact → Nat) (a b : Fact) : Bool :=
  decide (a.file < b.file ∨ (a.file = b.file ∧ (a.start < b.start ∨ (a.start = b.start ∧ (a.stop < b.stop ∨
    (a.stop = b.stop ∧ tie a ≤ tie b))))))

/-- By position. -/
def inFileOrder (a b : Fact) : Bool := decide (a.start < b.start ∨ (a.start = b.start ∧ a.stop ≤ b.stop))

/-- `l` lists the facts of `facts` each exactly as often as it occurs there, in the order `le`, facts that compare equal in
order of arrival. -/
structure Lists (le : Fact → Fact → Bool) (l facts : List Fact) : Prop where
  same : l.Perm facts
  ordered : l.Pairwise (fun a b => le a b = true)
  stable : ∀ k, l.filter (fun a => le a k && le k a) = facts.filter (fun a => le a k && le k a)

/-- The facts about method `m` of `owner`. -/
def about (log : List Fact) (owner m : Nat) : List Fact :=
  log.filter (fun a => decide (a.owner = owner ∧ a.method = some m))

/-- The facts that decide what `owner#m` is: the unavailable ones if there are any, otherwise all. -/
def Deciding (log : List Fact) (owner m : Nat) (a : Fact) : Prop :=
  a ∈ about log owner m ∧ ((∃ b ∈ about log owner m, ∃ r, b.avail = .unavailable r) → ∃ r, a.avail = .unavailable r)

/-- `owner#m` is masked. -/
def Masked (log : List Fact) (owner m : Nat) : Prop := ∃ a ∈ about log owner m, ∃ r, a.avail = .absent r

end Verif.MethodStore
