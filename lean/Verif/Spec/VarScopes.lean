import Verif.Model.VarScopes
/-! Which variable a name stands for in a scope, and which places belong to it. -/
namespace Verif.VarScopes

/-- From inside scope `a` the variables of scope `b` can be used: only block-like scopes lie in between. -/
inductive Visible (scopes : List Scope) : Nat → Nat → Prop where
  | here {a : Nat} : a < scopes.length → Visible scopes a a
  | up {a p b : Nat} {x : Scope} : scopes[a]? = some x → x.kind.hard = false → x.parent = some p → Visible scopes p b → Visible scopes a b

/-- Scope `b` has a variable of that name. -/
def Defines (scopes : List Scope) (b name : Nat) : Prop := ∃ x, scopes[b]? = some x ∧ ∃ v ∈ x.vars, v.name = name

/-- In scope `a` the name stands for the variable of scope `b`: it is visible, and no visible variable of that name is nearer. -/
def Binds (scopes : List Scope) (a name b : Nat) : Prop :=
  Visible scopes a b ∧ Defines scopes b name ∧ ∀ c, Visible scopes a c → Defines scopes c name → Visible scopes b c

/-- Variable `v` belongs to scope `b`. -/
def In (scopes : List Scope) (b : Nat) (v : Var) : Prop := ∃ x, scopes[b]? = some x ∧ v ∈ x.vars

/-- The states passed through, with what was done next. -/
def trace : State → List Op → List (State × Op)
  | _, [] => []
  | s, op :: ops => (s, op) :: trace (apply s op) ops

/-- The assignments of a name in a scope, in order. -/
def assignments (b name : Nat) (t : List (State × Op)) : List Range :=
  t.filterMap fun x => match x.2 with
    | .define n loc => if n = name ∧ x.1.current = some b then some loc else none
    | _ => none

open Classical in
/-- The places where a name was read while it stood for the variable of a scope, in order. -/
noncomputable def readings (b name : Nat) (t : List (State × Op)) : List Range :=
  t.filterMap fun x => match x.2 with
    | .reference n loc => if n = name ∧ ∃ c, x.1.current = some c ∧ Binds x.1.scopes c name b then some loc else none
    | _ => none

/-- `b` is `a` or lies inside it. -/
inductive Inside (scopes : List Scope) : Nat → Nat → Prop where
  | refl {a : Nat} : a < scopes.length → Inside scopes a a
  | step {a c b : Nat} {x : Scope} : scopes[a]? = some x → c ∈ x.children → Inside scopes c b → Inside scopes a b

/-- The text of scope `b` contains the offset. -/
def Contains (scopes : List Scope) (b file offset : Nat) : Prop := ∃ x, scopes[b]? = some x ∧ x.range.contains file offset = true

end Verif.VarScopes
