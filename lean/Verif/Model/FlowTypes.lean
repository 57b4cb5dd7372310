import Verif.Model.Types
import Verif.Model.ControlFlow
/-!
Model of the types of local variables along the control flow (crates/ruby-analysis/src/inference/type_tracker/mod.rs and
type_tracker/narrow.rs).

Simplifications: a missing part of a node (a body, an `else`) is the literal `nil`, which the tracker treats alike; a list of
statements is nested pairs; the arguments of a call are one expression; classes are named by one constant.  No type is a shape, so
the bookkeeping about aliases of hashes and about procs does nothing.  What is known about methods, constants and `self` is a
parameter (`Know`).  A stack of rescue accumulators (L1275-1282, L1380-1382, L1901-1905), each of which sees every observation made
while it is on the stack, is the list of all observations made in a piece of code.  Calls have no blocks, and a method does not call
itself.  Every read is recorded; the code records a read only once it has seen some branching (L2904-2907).
-/
namespace Verif.FlowTypes
open Verif.Types

mutual
/-- Prism's nodes, as far as the tracker distinguishes them. -/
inductive Expr where
  /-- a literal that is neither an array nor a hash, with the class the literal analysis assigns to it -/
  | lit (t : Ty)
  /-- a local variable is read; `site` identifies the node -/
  | read (x : Nat) (site : Nat)
  | write (x : Nat) (value : Expr)
  | const (c : String)
  /-- the receiver of a call without receiver -/
  | self
  | call0 (recv : Expr) (name : String)
  | call (recv : Expr) (name : String) (args : Expr)
  | seq (first rest : Expr)
  | paren (body : Expr)
  | ifE (cond body els : Expr)
  | unlessE (cond body els : Expr)
  | caseE (subject : Expr) (whens : Clauses) (els : Expr)
  /-- `while` and `until` -/
  | loopE (isWhile : Bool) (cond body : Expr)
  | andE (left right : Expr)
  | orE (left right : Expr)
  | beginE (body : Expr) (rescues : Clauses) (ens : Expr)
  | beginElse (body : Expr) (rescues : Clauses) (els ens : Expr)
  | rescueMod (body rescue : Expr)
  | ret (value : Expr)
  | brk
  | nxt
  /-- `x ||= e`, `x &&= e`, `x += e` -/
  | opWrite (x : Nat) (value : Expr)
  /-- every other node that writes no variable itself -/
  | other (children : Expr)
/-- The clauses of `case` and of `rescue`: what is compared, and the body. -/
inductive Clauses where
  | nil
  | cons (cond body : Expr) (rest : Clauses)
end

mutual
/-- The tree that the control flow analysis sees. -/
def toNode : Expr → ControlFlow.Node
  | .lit _ => .other []
  | .read _ _ => .other []
  | .write _ e => .other [toNode e]
  | .const c => .const c
  | .self => .other []
  | .call0 .self m => .call none m [] none
  | .call0 r m => .call (some (toNode r)) m [] none
  | .call .self m a => .call none m [toNode a] none
  | .call r m a => .call (some (toNode r)) m [toNode a] none
  | .seq a b => .stmts [toNode a, toNode b]
  | .paren e => .other [toNode e]
  | .ifE c t e => .ifN (toNode c) [toNode t] (some (.elseN [toNode e]))
  | .unlessE c t e => .unlessN (toNode c) [toNode t] (some [toNode e])
  | .caseE s ws e => .caseN [toNode s] (toClauses ws) (some [toNode e])
  | .loopE _ c b => .whileN (toNode c) [toNode b]
  | .andE a b => .other [toNode a, toNode b]
  | .orE a b => .other [toNode a, toNode b]
  | .beginE b rs n => .beginN [toNode b] (toClauses rs) [] [toNode n]
  | .beginElse b rs e n => .beginN [toNode b] (toClauses rs) [toNode e] [toNode n]
  | .rescueMod a b => .other [toNode a, toNode b]
  | .ret e => .ret [toNode e]
  | .brk => .brk []
  | .nxt => .nxt []
  | .opWrite _ e => .other [toNode e]
  | .other e => .other [toNode e]
def toClauses : Clauses → List (List ControlFlow.Node × List ControlFlow.Node)
  | .nil => []
  | .cons c b l => ([toNode c], [toNode b]) :: toClauses l
end

/-- `control_flow::diverges`. -/
def diverges (e : Expr) : Bool := ControlFlow.diverges (toNode e)

/-- What the tracker asks the rest of the program for: the type a method returns (L3988-4062, L3961-3986), the type of a constant
(L2937-2942, L4403-4421), the type of `self` (L3050-3055). -/
structure Know where
  resolve : Ty → String → Option Ty
  const : String → Ty
  self : Ty

/-- L148: the types of `FlowEnvironment`. -/
abbrev Env := Nat → Option Ty

def Env.set (E : Env) (x : Nat) (t : Ty) : Env := fun y => if y = x then some t else E y

/-- One piece of code has been tracked: its type (the result of `track_node`), the environment after it (`self.vars`), the calls of
`observe_rescue_entry_type`, the pushes to `explicit_return_types` and to `local_read_types`. -/
structure Res where
  ty : Ty
  env : Env
  obs : List (Nat × Ty)
  rets : List Ty
  reads : List (Nat × Ty)

/-- L4507-4551 `merge_env`: the part about types. -/
def merge (a b : Env) : Env := fun x =>
  match a x, b x with
  | some t, some u => if t = u then some t else some (mkUnion [t, u])
  | none, some u => some (mkUnion [u, nilTy])
  | some t, none => some (mkUnion [t, nilTy])
  | none, none => none

/-- L5579-5590 `join_branch_types`. -/
def joinTypes (branches : List (Ty × Bool)) : Ty :=
  let surviving := (branches.filter (fun b => !b.2)).map Prod.fst
  if surviving.isEmpty then .unknown else mkUnion surviving

/-- L2307-2322, L2634-2646: the environments that reach the join. -/
def joinEnvs (before : Env) (branches : List (Env × Ty × Bool)) : Env :=
  match (branches.filter (fun b => !b.2.2)).map Prod.fst with
  | [] => before
  | e :: l => l.foldl merge e

/-- core/ruby_type.rs L402-413 `remove_nil`. -/
def removeNil : Ty → Ty
  | .union ts => mkUnion (ts.filter (fun t => decide (t ≠ nilTy)))
  | t => if t = nilTy then .unknown else t

/-- type_tracker/narrow.rs L23-79 `narrow`, with L82-89 for a single constant. -/
def narrow (E : Env) : Expr → Bool → Env
  | .call0 p "!", truth => narrow E p (!truth)
  | .call0 (.read x _) "nil?", truth =>
    if truth then E.set x nilTy
    else match E x with
      | some t => E.set x (removeNil t)
      | none => E
  | .call (.read x _) m (.const c), truth =>
    if m = "is_a?" ∨ m = "kind_of?" ∨ m = "instance_of?" then
      if truth then E.set x (.cls (nameOf c))
      else match E x with
        | some t => E.set x (subtract t (.cls (nameOf c)))
        | none => E
    else E
  | _, _ => E

inductive Truth where
  | truthy | falsy | conditional
  deriving DecidableEq

/-- L5499-5512 `is_falsy_type`. -/
def isFalsy : Ty → Bool
  | .cls n => n == nameOf "FalseClass" || n == nameOf "NilClass"
  | _ => false

/-- L5468-5497 `ruby_truthiness`. -/
def truthiness : Ty → Truth
  | .unknown => .conditional
  | .union ts =>
    match ts.any (fun t => !isFalsy t), ts.any isFalsy with
    | true, false => .truthy
    | false, true => .falsy
    | _, _ => .conditional
  | t => if isFalsy t then .falsy else .truthy

/-- L5514-5541 `short_circuit_result_type`; the panic for other types is `unknown`. -/
def shortCircuit (isAnd : Bool) (left right : Ty) : Ty :=
  match left with
  | .union ts => mkUnion (ts.filter (fun t => if isAnd then isFalsy t else !isFalsy t) ++ [right])
  | _ => .unknown

/-- L3058-3061, L3077-3100: the type of a call, given the type of its receiver. -/
def callTy (K : Know) (recv : Ty) (m : String) : Ty :=
  match recv with
  | .unknown => .unknown
  | .union ts => (unionFromProven (ts.map (fun t => K.resolve t m))).getD .unknown
  | t => (K.resolve t m).getD .unknown

/-- The nodes that `infer_expression` handles itself (L2882-2957); for the others it answers `Unknown` and looks no further. -/
def isExpr : Expr → Bool
  | .lit _ => true
  | .read _ _ => true
  | .const _ => true
  | .self => true
  | .call0 _ _ => true
  | .call _ _ _ => true
  | .paren _ => true
  | .ret _ => true
  | _ => false

/-- L492-508 `observe`, `environment_from`: the types observed for `x`, if there are any. -/
def observed (obs : List (Nat × Ty)) (x : Nat) : Option Ty :=
  match (obs.filter (fun o => o.1 == x)).map Prod.snd with
  | [] => none
  | t :: l => some (l.foldl (fun a b => mkUnion [a, b]) t)

def rescueEnv (before : Env) (obs : List (Nat × Ty)) : Env := fun x =>
  match observed obs x with
  | some t => some t
  | none => before x

/-- L2706-2717: the body of a loop is tracked `n` times. -/
def repeatTrack (f : Env → Res) : Nat → Res → Res
  | 0, r => r
  | n + 1, r =>
    let b := f r.env
    repeatTrack f n { b with obs := r.obs ++ b.obs, rets := r.rets ++ b.rets, reads := r.reads ++ b.reads }

/-- L754: passes over the body of an outermost loop, and L2701-2705 over the others. -/
def passes (depth : Nat) : Nat := if depth = 0 then 10 else 1

/-- L2187-2204, L2814-2830: the environment after `if` and `unless`; the flags are the values of `diverges`, `truth` says when the first branch runs. -/
def branchEnv (cond : Expr) (truth : Bool) (d₁ d₂ : Bool) (before e₁ e₂ : Env) : Env :=
  match d₁, d₂ with
  | true, true => before
  | true, false => narrow e₂ cond (!truth)
  | false, true => narrow e₁ cond truth
  | false, false => merge e₁ e₂

/-- L2131-2208 `track_if`, L2767-2833 `track_unless`, after the condition has been tracked. -/
def branchRes (cond : Expr) (truth d₁ d₂ : Bool) (p r₁ r₂ : Res) : Res :=
  ⟨joinTypes [(r₁.ty, d₁), (r₂.ty, d₂)], branchEnv cond truth d₁ d₂ p.env r₁.env r₂.env, p.obs ++ r₁.obs ++ r₂.obs,
   p.rets ++ r₁.rets ++ r₂.rets, p.reads ++ r₁.reads ++ r₂.reads⟩

/-- The tracked clauses of `case` or `rescue`. -/
structure Branches where
  list : List (Env × Ty × Bool)
  obs : List (Nat × Ty)
  rets : List Ty
  reads : List (Nat × Ty)

/-- L2214-2328 `track_case`: branches come together. -/
def caseRes (before : Env) (p : Res) (bs : Branches) (last : Res) (d : Bool) : Res :=
  let all := bs.list ++ [(last.env, last.ty, d)]
  ⟨joinTypes (all.map Prod.snd), joinEnvs before all, p.obs ++ bs.obs ++ last.obs, p.rets ++ bs.rets ++ last.rets,
   p.reads ++ bs.reads ++ last.reads⟩

/-- L2575-2659 `track_begin`: the part before `ensure`; `normal` is the path without exceptions. -/
def beginRes (before : Env) (normal : Res) (d : Bool) (bs : Branches) : Res :=
  let all := (normal.env, normal.ty, d) :: bs.list
  ⟨joinTypes (all.map Prod.snd), joinEnvs before all, normal.obs ++ bs.obs, normal.rets ++ bs.rets, normal.reads ++ bs.reads⟩

/-- One after the other; the type is that of the second. -/
def andThen (a b : Res) : Res := ⟨b.ty, b.env, a.obs ++ b.obs, a.rets ++ b.rets, a.reads ++ b.reads⟩

/-- One after the other; the type is that of the first: L2648-2652 for `ensure`. -/
def withEnsure (a b : Res) : Res := ⟨a.ty, b.env, a.obs ++ b.obs, a.rets ++ b.rets, a.reads ++ b.reads⟩

/-- L2843-2876 `track_short_circuit`, after the left operand. -/
def shortRes (isAnd : Bool) (l r : Res) : Res :=
  match truthiness l.ty, isAnd with
  | .truthy, true => andThen l r
  | .falsy, false => andThen l r
  | .truthy, false => l
  | .falsy, true => l
  | .conditional, _ =>
    ⟨shortCircuit isAnd l.ty r.ty, merge l.env r.env, l.obs ++ r.obs, l.rets ++ r.rets, l.reads ++ r.reads⟩

/-- L2661-2685 `track_rescue_modifier`. -/
def rescueModRes (e r : Res) (de dr : Bool) : Res :=
  ⟨joinTypes [(e.ty, de), (r.ty, dr)], merge e.env r.env, e.obs ++ r.obs, e.rets ++ r.rets, e.reads ++ r.reads⟩

/-- L1265-1390 `track_assignment`, after the value. -/
def writeRes (x : Nat) (prior : Ty) (r : Res) : Res :=
  ⟨r.ty, r.env.set x r.ty, (x, prior) :: r.obs ++ [(x, r.ty)], r.rets, r.reads⟩

/-- The receiver of a call and the value of `return` are handed to `infer_expression`. -/
def inferOf (e : Expr) (E : Env) (r : Res) : Res := if isExpr e then r else ⟨.unknown, E, [], [], []⟩

/-- L3025-3043: `C.new`, and the other calls. -/
def callRes (K : Know) (recv : Expr) (m : String) (E : Env) (r : Res) : Res :=
  match recv, m with
  | .const c, "new" => ⟨.cls (nameOf c), E, [], [], []⟩
  | _, _ => { r with ty := callTy K r.ty m }

/-- L2691-2727 `track_while`, L2730-2764 `track_until`, after the condition. -/
def loopRes (p l : Res) : Res := ⟨l.ty, merge p.env l.env, p.obs ++ l.obs, p.rets ++ l.rets, p.reads ++ l.reads⟩

mutual
/-- L1118-1233 `track_node`, with L2882-2957 `infer_expression`; `d` is `loop_depth`. -/
def track (K : Know) (d : Nat) : Expr → Env → Res
  | .lit t, E => ⟨t, E, [], [], []⟩
  | .read x i, E => ⟨(E x).getD .unknown, E, [], [], [(i, (E x).getD .unknown)]⟩
  | .write x e, E => writeRes x ((E x).getD nilTy) (track K d e E)
  | .const c, E => ⟨K.const c, E, [], [], []⟩
  | .self, E => ⟨K.self, E, [], [], []⟩
  | .call0 r m, E => callRes K r m E (inferOf r E (track K d r E))
  | .call r m _, E => callRes K r m E (inferOf r E (track K d r E))
  | .seq a b, E => andThen (track K d a E) (track K d b (track K d a E).env)
  | .paren e, E => track K d e E
  | .ifE c t e, E =>
    branchRes c true (diverges t) (diverges e) (track K d c E) (track K d t (track K d c E).env) (track K d e (track K d c E).env)
  | .unlessE c t e, E =>
    branchRes c false (diverges t) (diverges e) (track K d c E) (track K d t (track K d c E).env) (track K d e (track K d c E).env)
  | .caseE s ws e, E =>
    caseRes (track K d s E).env (track K d s E) (trackClauses K d ws (track K d s E).env) (track K d e (track K d s E).env) (diverges e)
  | .loopE _ c b, E =>
    loopRes (track K d c E) (repeatTrack (track K (d + 1) b) (passes d) ⟨nilTy, (track K d c E).env, [], [], []⟩)
  | .andE l r, E => shortRes true (track K d l E) (track K d r (track K d l E).env)
  | .orE l r, E => shortRes false (track K d l E) (track K d r (track K d l E).env)
  | .beginE b rs n, E =>
    withEnsure (beginRes E (track K d b E) (diverges b) (trackClauses K d rs (rescueEnv E (track K d b E).obs)))
      (track K d n (beginRes E (track K d b E) (diverges b) (trackClauses K d rs (rescueEnv E (track K d b E).obs))).env)
  | .beginElse b rs e n, E =>
    withEnsure
      (beginRes E (andThen (track K d b E) (track K d e (track K d b E).env)) (diverges b || diverges e)
        (trackClauses K d rs (rescueEnv E (track K d b E).obs)))
      (track K d n
        (beginRes E (andThen (track K d b E) (track K d e (track K d b E).env)) (diverges b || diverges e)
          (trackClauses K d rs (rescueEnv E (track K d b E).obs))).env)
  | .rescueMod e r, E =>
    rescueModRes (track K d e E) (track K d r (rescueEnv E (track K d e E).obs)) (diverges e) (diverges r)
  | .ret e, E => { inferOf e E (track K d e E) with rets := (inferOf e E (track K d e E)).rets ++ [(inferOf e E (track K d e E)).ty] }
  | .brk, E => ⟨.unknown, E, [], [], []⟩
  | .nxt, E => ⟨.unknown, E, [], [], []⟩
  | .opWrite _ _, E => ⟨.unknown, E, [], [], []⟩
  | .other _, E => ⟨.unknown, E, [], [], []⟩
/-- L2260-2281, L2614-2632: every clause is tracked from the same environment; what it is compared with is not tracked. -/
def trackClauses (K : Know) (d : Nat) : Clauses → Env → Branches
  | .nil, _ => ⟨[], [], [], []⟩
  | .cons _ b l, E =>
    ⟨((track K d b E).env, (track K d b E).ty, diverges b) :: (trackClauses K d l E).list,
     (track K d b E).obs ++ (trackClauses K d l E).obs, (track K d b E).rets ++ (trackClauses K d l E).rets,
     (track K d b E).reads ++ (trackClauses K d l E).reads⟩
end

/-- L5553-5571 `join_recursive_return_approximations` over the explicit returns and the end of the body (L1054-1093);
`none` is `Bottom`. -/
def joinReturns (ts : List Ty) : Option Ty :=
  if ts.any Ty.isUnknown then some .unknown
  else if ts.isEmpty then none
  else some (mkUnion ts)

/-- L1011-1105 `track_method_once` for a method that does not call itself: the type of the method. -/
def methodType (K : Know) (params : Env) (body : Expr) : Option Ty :=
  joinReturns ((track K 0 body params).rets ++ (if diverges body then [] else [(track K 0 body params).ty]))

/-- L877-893 `take_local_read_types`: the last type recorded for a read. -/
def readType (reads : List (Nat × Ty)) (site : Nat) : Option Ty :=
  (reads.reverse.find? (fun r => r.1 == site)).map Prod.snd

end Verif.FlowTypes
