import Verif.Model.Rename
/-! Which variable every occurrence of a name belongs to. -/
namespace Verif.Rename

/-- An occurrence of a variable: its name, the scope it is defined in (`none` is the file), and where it stands. -/
structure Occ where
  name : Nat
  scope : Option Nat
  start : Nat
  stop : Nat
  deriving DecidableEq

/-- The occurrence of a name that the parser found `depth` scopes further out, if there are so many. -/
def occ (env : List (Option Nat)) (name depth start stop : Nat) : List Occ :=
  match env[depth]? with
  | some d => [⟨name, d, start, stop⟩]
  | none => []

mutual
/-- The occurrences in a piece of syntax, in order; `env` lists the scopes around it, innermost first.  What a class inherits from,
the object of `class <<` and the receiver of a definition are evaluated in the scope around. -/
def occs (env : List (Option Nat)) : Node → List Occ
  | .use name depth start stop => occ env name depth start stop
  | .write name depth start stop value => occ env name depth start stop ++ occsAll env value
  | .param name start stop default => occ env name 0 start stop ++ occsAll env default
  | .silent name start stop default => occ env name 0 start stop ++ occsAll env default
  | .scope label head body => occsAll env head ++ occsAll (some label :: env) body
  | .other children => occsAll env children

def occsAll (env : List (Option Nat)) : List Node → List Occ
  | [] => []
  | n :: l => occs env n ++ occsAll env l
end

mutual
/-- The scopes in a piece of syntax. -/
def labels : Node → List Nat
  | .use _ _ _ _ => []
  | .write _ _ _ _ value => labelsAll value
  | .param _ _ _ default => labelsAll default
  | .silent _ _ _ default => labelsAll default
  | .scope label head body => label :: (labelsAll head ++ labelsAll body)
  | .other children => labelsAll children

def labelsAll : List Node → List Nat
  | [] => []
  | n :: l => labels n ++ labelsAll l
end

mutual
/-- Nothing the visitor gets wrong: no keyword parameters or block-local variables, and what is evaluated around a class, `class <<`
or definition uses no local variables other than those of blocks inside it (whatever the scopes around, the occurrences are the
same). -/
def Plain : Node → Prop
  | .use _ _ _ _ => True
  | .write _ _ _ _ value => PlainAll value
  | .param _ _ _ default => PlainAll default
  | .silent _ _ _ _ => False
  | .scope _ head body => (∀ env, occsAll env head = occsAll [] head) ∧ PlainAll head ∧ PlainAll body
  | .other children => PlainAll children

def PlainAll : List Node → Prop
  | [] => True
  | n :: l => Plain n ∧ PlainAll l
end

/-- Two occurrences of the same variable. -/
def Same (a b : Occ) : Prop := a.name = b.name ∧ a.scope = b.scope

instance (a b : Occ) : Decidable (Same a b) := inferInstanceAs (Decidable (_ ∧ _))

/-- What renaming the variable under the cursor should change: the places of all occurrences of that variable. -/
def renamed (cursor : Nat) (root : Node) : List (Nat × Nat) :=
  match (occs [none] root).find? fun o => decide (o.start ≤ cursor) && decide (cursor < o.stop) with
  | none => []
  | some t => ((occs [none] root).filter fun o => decide (Same o t)).map fun o => (o.start, o.stop)

end Verif.Rename
