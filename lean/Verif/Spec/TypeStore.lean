import Verif.Model.TypeStore
/-!
What a type index should answer, from the facts supplied so far and not withdrawn.  Nothing here mentions ids or buckets.
-/
namespace Verif.TypeStore

/-- Give the facts satisfying `c` the type `ty`. -/
def retype (c : Fact → Bool) (ty : Nat) (log : List Fact) : List Fact :=
  log.map fun a => if c a then { a with ty := ty } else a

/-- The facts present after one call. -/
def logOp (log : List Fact) : Op → List Fact
  | .add a => log ++ [a]
  | .remove f => log.filter (fun a => decide (a.file ≠ f))
  | .replace f facts => log.filter (fun a => decide (a.file ≠ f)) ++ facts
  | .updateInferred f n ty => retype (fun a => decide (a.subject = .named n ∧ a.file = f ∧ a.prov = inferred)) ty log
  | .updateEquation n f i j ty =>
    retype (fun a => decide (a.subject = .named n ∧ a.file = f ∧ a.start = i ∧ a.stop = j)) ty log
  | .updateLocal isLocal f i j ty =>
    retype (fun a => decide (a.file = f ∧ a.start = i ∧ a.stop = j) &&
      match a.subject with
      | .named n => isLocal n
      | .expr _ _ _ => false) ty log

def logOf (ops : List Op) : List Fact := ops.foldl logOp []

/-- An expression fact is about its own range. -/
def Fact.Valid (a : Fact) : Prop := ∀ f i j, a.subject = .expr f i j → f = a.file ∧ i = a.start ∧ j = a.stop

/-- The contract asserted by the store. -/
def Op.Valid : Op → Prop
  | .add a => a.Valid
  | .replace f facts => ∀ a ∈ facts, a.file = f ∧ a.Valid
  | _ => True

/-- `a` is a fact about `subj` in file `f` that starts at or before `off`. -/
def Before (log : List Fact) (subj : Subject) (f off : Nat) (a : Fact) : Prop :=
  a ∈ log ∧ a.subject = subj ∧ a.file = f ∧ a.start ≤ off

/-- … and none of them starts later. -/
def Latest (log : List Fact) (subj : Subject) (f off : Nat) (a : Fact) : Prop :=
  Before log subj f off a ∧ ∀ b, Before log subj f off b → b.start ≤ a.start

/-- Two facts say the same: the same type from the same kind of source. -/
def Agree (a b : Fact) : Prop := a.ty = b.ty ∧ a.prov = b.prov

/-- What the type of a subject at an offset must be. -/
def SpecTypeAt (log : List Fact) (subj : Subject) (f off : Nat) : Resolution → Prop
  | .unresolved => ∀ a, ¬ Before log subj f off a
  | .resolved a => Latest log subj f off a ∧ ∀ b, Latest log subj f off b → Agree b a
  | .ambiguous l => (∃ a b, Latest log subj f off a ∧ Latest log subj f off b ∧ ¬ Agree a b) ∧
      (∀ a ∈ l, Latest log subj f off a) ∧ (∀ b, Latest log subj f off b → ∃ a ∈ l, Agree a b)

/-- A fact about a subject accepted by `p`, in file `f`, starting at or before `off`. -/
def NamedBefore (log : List Fact) (p : Nat → Nat → Nat → Bool) (f off : Nat) (a : Fact) : Prop :=
  a ∈ log ∧ a.file = f ∧ a.start ≤ off ∧ ∃ n, a.subject = .named n ∧ p n a.start a.stop = true

def NamedLatest (log : List Fact) (p : Nat → Nat → Nat → Bool) (f off : Nat) (a : Fact) : Prop :=
  NamedBefore log p f off a ∧ ∀ b, NamedBefore log p f off b → b.start ≤ a.start

def SpecNamed (log : List Fact) (p : Nat → Nat → Nat → Bool) (f off : Nat) : NamedResolution → Prop
  | .unresolved => ∀ a, ¬ NamedBefore log p f off a
  | .resolved ty => (∃ a, NamedLatest log p f off a) ∧ ∀ a, NamedLatest log p f off a → a.ty = ty
  | .ambiguous => ∃ a b, NamedLatest log p f off a ∧ NamedLatest log p f off b ∧ a.ty ≠ b.ty

/-- `a` comes no later than `b` by file, position and provenance. -/
def before (a b : Fact) : Prop :=
  a.file < b.file ∨ (a.file = b.file ∧ (a.start < b.start ∨ (a.start = b.start ∧ (a.stop < b.stop ∨
    (a.stop = b.stop ∧ a.prov ≤ b.prov)))))

end Verif.TypeStore
