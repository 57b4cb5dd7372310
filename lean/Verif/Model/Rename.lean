/-!
Model of the rename visitor for local variables (crates/ruby-analysis/src/indexer/rename.rs).

The syntax tree is Prism's, reduced to what the visitor distinguishes.  Simplifications: names are numbers; offsets fit in `u32`
(the code panics otherwise); a node lists its children in the order Prism's `visit_*` functions visit them.
-/
namespace Verif.Rename

/-- Prism's nodes.  `label` tells the scope nodes apart (their place in the file). -/
inductive Node where
  /-- `LocalVariableReadNode`, `LocalVariableTargetNode`: leaves -/
  | use (name depth start stop : Nat)
  /-- `LocalVariableWriteNode` and the `&&=`, `||=`, operator writes: the name, then the value -/
  | write (name depth start stop : Nat) (value : List Node)
  /-- `RequiredParameterNode`, `OptionalParameterNode`, `RestParameterNode`, `BlockParameterNode`, `KeywordRestParameterNode` -/
  | param (name start stop : Nat) (default : List Node)
  /-- `RequiredKeywordParameterNode`, `OptionalKeywordParameterNode`, `BlockLocalVariableNode`: not handled by the visitor -/
  | silent (name start stop : Nat) (default : List Node)
  /-- a definition, class, module, block, lambda or `class <<` with the children that are evaluated outside of it (the receiver
  of the definition, the superclass, the object) and those inside -/
  | scope (label : Nat) (head body : List Node)
  /-- anything else -/
  | other (children : List Node)

inductive Phase where
  | findTarget | collect
  deriving DecidableEq

/-- L41-53 `RenameVisitor`; the top of the stack comes first. -/
structure St where
  cursor : Nat
  stack : List Nat
  next : Nat
  targetName : Option Nat
  targetScope : Option Nat
  ranges : List (Nat × Nat)
  phase : Phase

/-- L92-96 `push_scope`. -/
def push (s : St) : St := { s with next := s.next + 1, stack := s.next :: s.stack }

/-- L98-100 `pop_scope`. -/
def pop (s : St) : St := { s with stack := s.stack.tail }

/-- L112-152 `process_local_var`, with L102-107 `defining_scope_id`. -/
def process (s : St) (name depth start stop : Nat) : St :=
  match s.stack[depth]? with
  | none => s
  | some defining =>
    match s.phase with
    | .findTarget =>
      if s.targetName.isNone && (decide (start ≤ s.cursor) && decide (s.cursor < stop)) then
        { s with targetName := some name, targetScope := some defining }
      else s
    | .collect =>
      match s.targetName, s.targetScope with
      | some n, some d => if name = n ∧ defining = d then { s with ranges := s.ranges ++ [(start, stop)] } else s
      | _, _ => s

mutual
/-- L160-262: the overridden `visit_*` functions. -/
def visit : Node → St → St
  | .use name depth start stop, s => process s name depth start stop
  | .write name depth start stop value, s => visitAll value (process s name depth start stop)
  | .param name start stop default, s => visitAll default (process s name 0 start stop)
  | .silent _ _ _ default, s => visitAll default s
  | .scope _ head body, s => pop (visitAll body (visitAll head (push s)))
  | .other children, s => visitAll children s

def visitAll : List Node → St → St
  | [], s => s
  | n :: l, s => visitAll l (visit n s)
end

/-- L58-90 `find_rename_targets`. -/
def findRenameTargets (cursor : Nat) (root : Node) : List (Nat × Nat) :=
  let s := visit root { cursor, stack := [0], next := 1, targetName := none, targetScope := none, ranges := [], phase := .findTarget }
  if s.targetName.isNone || s.targetScope.isNone then []
  else (visit root { s with phase := .collect, stack := [0], next := 1 }).ranges

end Verif.Rename
