import Verif.Model.ShapeReads
/-!
Model of the summaries of lambda and proc bodies and of their evaluation (crates/ruby-analysis/src/core/callable_body.rs and
crates/ruby-analysis/src/inference/callable_body.rs).

Simplifications: names are `String`; `binary_search` in the strictly ascending list of captures (checked by `validate`) is the position
of the name; counters are unbounded (they stop at 64 and 16); a resolver given by the caller, which may keep state, is a
function that also gets the number of the call.  Not modelled: heap estimates, `ConstantCallableBodyFact`, who calls the evaluation.
-/
namespace Verif.CallableBody
open Verif.Types Verif.ShapeReads

/-- core/callable_body.rs L39-53 `CallableBodyExpression`. -/
inductive Expr where
  | lit (t : Ty)
  | param (i : Nat)
  | capture (x : String)
  | array (es : List Expr)
  | shape (fs : List (Lit × Expr))
  | call (r : Expr) (m : String) (args : List Expr) (keys : List (Option Lit))
  | union (es : List Expr)

/-- core/callable_body.rs L23-28. -/
inductive Kind where
  | required | optional | rest
  deriving DecidableEq

/-- core/callable_body.rs L30-37. -/
structure Param where
  name : String
  kind : Kind
  dflt : Option Expr

/-- core/callable_body.rs L55-62 `CallableBodySummary`. -/
structure Summary where
  strict : Bool
  params : List Param
  captures : List String
  result : Expr
  nodes : Nat

/-- core/callable_body.rs L14-21. -/
def maxParams : Nat := 4
def maxNodes : Nat := 64
def maxCaptures : Nat := 8
def maxSolve : Nat := 16
def maxUnion : Nat := 8
def maxTypeDepth : Nat := 8

/-! ### validation -/

/-- `windows(2).any(|pair| pair[0] >= pair[1])`, negated. -/
def ascending {α : Type} (le : α → α → Bool) : List α → Bool
  | a :: b :: l => !le b a && ascending le (b :: l)
  | _ => true

def strLe (a b : String) : Bool := decide (a ≤ b)

/-- The number of nodes so far, checked: core/callable_body.rs L205-212. -/
def countNode (d nodes : Nat) : Out Nat :=
  if d > maxTypeDepth then .err .bound
  else if nodes + 1 > maxNodes then .err .bound
  else .ok (nodes + 1)

mutual
/-- core/callable_body.rs L196-275 `validate_expression`. -/
def validExpr (s : Summary) : Expr → Nat → Nat → Out Nat
  | .lit t, d, n => (countNode d n).bind fun n => if hasUnknown t then .err .unsupported else .ok n
  | .param i, d, n => (countNode d n).bind fun n => if i ≥ s.params.length then .err .unsupported else .ok n
  | .capture x, d, n => (countNode d n).bind fun n => if s.captures.contains x then .ok n else .err .unsupported
  | .array es, d, n => (countNode d n).bind fun n => validList s es (d + 1) n
  | .shape fs, d, n => (countNode d n).bind fun n =>
      if ascending litLe (fs.map (·.1)) then validFields s fs (d + 1) n else .err .unsupported
  | .call r _ args keys, d, n => (countNode d n).bind fun n =>
      if args.length ≠ keys.length then .err .unsupported
      else (validExpr s r (d + 1) n).bind fun n => validList s args (d + 1) n
  | .union es, d, n => (countNode d n).bind fun n =>
      if es.isEmpty || decide (es.length > maxUnion) then .err .bound else validList s es (d + 1) n
def validList (s : Summary) : List Expr → Nat → Nat → Out Nat
  | [], _, n => .ok n
  | e :: l, d, n => (validExpr s e d n).bind fun n => validList s l d n
def validFields (s : Summary) : List (Lit × Expr) → Nat → Nat → Out Nat
  | [], _, n => .ok n
  | (_, e) :: l, d, n => (validExpr s e d n).bind fun n => validFields s l d n
end

/-- core/callable_body.rs L103-126: the parameters; `seen` are the names before. -/
def validParams : List String → List Param → Bool
  | _, [] => true
  | seen, p :: l =>
    p.name != "" && !seen.contains p.name &&
      (match p.kind, p.dflt with
      | .required, none => true
      | .optional, some _ => true
      | .rest, none => l.isEmpty
      | _, _ => false) && validParams (p.name :: seen) l

/-- core/callable_body.rs L127-134: the defaults. -/
def validDefaults (s : Summary) : List Param → Nat → Out Nat
  | [], n => .ok n
  | p :: l, n =>
    match p.dflt with
    | some e => (validExpr s e 0 n).bind fun n => validDefaults s l n
    | none => validDefaults s l n

/-- core/callable_body.rs L90-141 `validate`. -/
def validate (s : Summary) : Out Unit :=
  if s.params.length > maxParams ∨ s.captures.length > maxCaptures ∨ s.nodes > maxNodes then .err .bound
  else if !ascending strLe s.captures then .err .unsupported
  else if !validParams [] s.params then .err .unsupported
  else
    (validDefaults s s.params 0).bind fun n => (validExpr s s.result 0 n).bind fun n =>
      if n ≠ s.nodes then .err .unsupported else .ok ()

/-! ### evaluation -/

/-- What the evaluation is given: the types of the parameters bound so far, the captures with their types, and the two resolvers. -/
structure Env where
  params : List Ty
  names : List String
  captures : List Ty
  resolveCapture : Nat → String → List Ty → Option (Except Reason Ty)
  resolveMethod : Nat → Ty → String → List Ty → Option Ty

/-- inference/callable_body.rs L388-420 `evaluate_shape_call`. -/
def shapeCall (recv : Ty) (m : String) (ts : List Ty) (keyArgs : List (Option Lit)) : Option (Out Ty) :=
  if m = "[]" ∧ ts.length = 1 then some (indexedRead recv keyArgs.head?.join)
  else if m = "fetch" ∧ (ts.length = 1 ∨ ts.length = 2) then some (fetch recv keyArgs.head?.join ts[1]?)
  else if m = "dig" ∧ ts ≠ [] then some (dig recv keyArgs)
  else if (m = "key?" ∨ m = "has_key?" ∨ m = "include?" ∨ m = "member?") ∧ ts.length = 1 then some (keyPresence recv keyArgs.head?.join)
  else if m = "keys" ∧ ts = [] then some (keys recv)
  else if m = "values" ∧ ts = [] then some (values recv)
  else none

/-- L348-356: `call` on a captured callable. -/
def capturedCall (E : Env) (i : Nat) (r : Expr) (m : String) (ts : List Ty) : Option (Except Reason Ty) :=
  match r with
  | .capture x => if m = "call" then E.resolveCapture i x ts else none
  | _ => none

/-- L367-384: a call with the types of receiver and arguments. -/
def finishCall (E : Env) (i : Nat) (recv : Ty) (m : String) (ts : List Ty) (keyArgs : List (Option Lit)) : Out Ty :=
  if hasUnknown recv || ts.any hasUnknown then .err .input
  else
    match (if shapeOnly recv then shapeCall recv m ts keyArgs else none) with
    | some r => r
    | none =>
      if m = "freeze" ∧ ts = [] then .ok recv
      else
        match E.resolveMethod i recv m ts with
        | some t => .ok t
        | none => .err .methodReturn

/-- L247-256: the type of a capture. -/
def captureOf (E : Env) (x : String) : Out Ty :=
  match E.names.idxOf? x with
  | none => .err .capture
  | some i =>
    match E.captures[i]? with
    | some t => .ok t
    | none => .err .capture

mutual
/-- inference/callable_body.rs L216-386 `evaluate_expression`, with the depth and the number of calls so far. -/
def eval (E : Env) : Expr → Nat → Nat → Out (Ty × Nat)
  | .lit t, d, n => if d > maxTypeDepth then .err .bound else if hasUnknown t then .err .unsupported else .ok (t, n)
  | .param i, d, n => if d > maxTypeDepth then .err .bound else
      match E.params[i]? with
      | some t => .ok (t, n)
      | none => .err .input
  | .capture x, d, n => if d > maxTypeDepth then .err .bound else (captureOf E x).bind fun t => .ok (t, n)
  | .array es, d, n => if d > maxTypeDepth then .err .bound else (evalList E es (d + 1) n).bind fun p => .ok (.array (members p.1), p.2)
  | .shape fs, d, n => if d > maxTypeDepth then .err .bound else (evalFields E fs (d + 1) n).bind fun p =>
      match tryNew p.1 none false false with
      | .ok t => .ok (t, p.2)
      | .error _ => .err .bound
  | .union es, d, n => if d > maxTypeDepth ∨ es.length > maxUnion then .err .bound else (evalList E es (d + 1) n).bind fun p =>
      if hasUnknown (mkUnion p.1) then .err .input else .ok (mkUnion p.1, p.2)
  | .call r m args keyArgs, d, n => if d > maxTypeDepth ∨ n + 1 > maxSolve then .err .bound else
      (evalList E args (d + 1) (n + 1)).bind fun p =>
        match capturedCall E (n + 1) r m p.1 with
        | some (.ok t) => .ok (t, p.2)
        | some (.error e) => .err e
        | none => (eval E r (d + 1) p.2).bind fun q => (finishCall E (n + 1) q.1 m p.1 keyArgs).bind fun t => .ok (t, q.2)
def evalList (E : Env) : List Expr → Nat → Nat → Out (List Ty × Nat)
  | [], _, n => .ok ([], n)
  | e :: l, d, n => (eval E e d n).bind fun p => (evalList E l d p.2).bind fun q => .ok (p.1 :: q.1, q.2)
def evalFields (E : Env) : List (Lit × Expr) → Nat → Nat → Out (List Field × Nat)
  | [], _, n => .ok ([], n)
  | (k, e) :: l, d, n => (eval E e d n).bind fun p => (evalFields E l d p.2).bind fun q => .ok ((k, false, p.1) :: q.1, q.2)
end

mutual
/-- inference/callable_body.rs L151-180 `exceeds_callable_type_depth`. -/
def tooDeep : Ty → Nat → Bool
  | .array ts, d => decide (d > maxTypeDepth) || anyTooDeep ts (d + 1)
  | .union ts, d => decide (d > maxTypeDepth) || anyTooDeep ts (d + 1)
  | .hash ks vs, d => decide (d > maxTypeDepth) || anyTooDeep ks (d + 1) || anyTooDeep vs (d + 1)
  | .shape fs r _ _ _, d => decide (d > maxTypeDepth) || fieldTooDeep fs (d + 1) || restTooDeep r (d + 1)
  | _, d => decide (d > maxTypeDepth)
def anyTooDeep : List Ty → Nat → Bool
  | [], _ => false
  | t :: l, d => tooDeep t d || anyTooDeep l d
def fieldTooDeep : List (Lit × Bool × Ty) → Nat → Bool
  | [], _ => false
  | (_, _, t) :: l, d => tooDeep t d || fieldTooDeep l d
def restTooDeep : Option (Ty × Ty) → Nat → Bool
  | none, _ => false
  | some (k, v), d => tooDeep k d || tooDeep v d
end

mutual
/-- inference/callable_body.rs L182-214 `exceeds_callable_union_bound`. -/
def tooWide : Ty → Bool
  | .union ts => decide (ts.length > maxUnion) || anyTooWide ts
  | .array ts => anyTooWide ts
  | .hash ks vs => anyTooWide ks || anyTooWide vs
  | .shape fs r _ _ _ => fieldTooWide fs || restTooWide r
  | _ => false
def anyTooWide : List Ty → Bool
  | [] => false
  | t :: l => tooWide t || anyTooWide l
def fieldTooWide : List (Lit × Bool × Ty) → Bool
  | [] => false
  | (_, _, t) :: l => tooWide t || fieldTooWide l
def restTooWide : Option (Ty × Ty) → Bool
  | none => false
  | some (k, v) => tooWide k || tooWide v
end

/-- inference/callable_body.rs L83-121: the types of the parameters; `args` are the arguments not yet used. -/
def bindParams (E : Env) : List Param → List Ty → List Ty → Nat → Out (List Ty × Nat)
  | [], _, ps, n => .ok (ps, n)
  | p :: l, args, ps, n =>
    match p.kind with
    | .required => bindParams E l args.tail (ps ++ [args.head?.getD nilTy]) n
    | .optional =>
      match args with
      | a :: rest => bindParams E l rest (ps ++ [a]) n
      | [] =>
        match p.dflt with
        | some e => (eval { E with params := ps } e 0 n).bind fun q => bindParams E l [] (ps ++ [q.1]) q.2
        | none => bindParams E l [] (ps ++ [nilTy]) n
    | .rest => bindParams E l [] (ps ++ [.array (members args)]) n

/-- inference/callable_body.rs L48-58: the types of the captures. -/
def captureTypes (captureType : String → Option Ty) : List String → Out (List Ty)
  | [] => .ok []
  | x :: l =>
    match captureType x with
    | none => .err .capture
    | some t => if hasUnknown t then .err .capture else (captureTypes captureType l).bind fun ts => .ok (t :: ts)

/-- L64-82: is the number of arguments refused? -/
def arityRefused (s : Summary) (given : Nat) : Bool :=
  let required := (s.params.filter fun p => p.kind = .required).length
  let optional := (s.params.filter fun p => p.kind = .optional).length
  s.strict && (decide (given < required) || (!(s.params.any fun p => p.kind = .rest) && decide (given > required + optional)))

/-- inference/callable_body.rs L32-149 `instantiate_callable_body`. -/
def instantiate (s : Summary) (args : List Ty) (captureType : String → Option Ty)
    (resolveCapture : Nat → String → List Ty → Option (Except Reason Ty)) (resolveMethod : Nat → Ty → String → List Ty → Option Ty) : Out Ty :=
  (validate s).bind fun _ =>
    if args.any hasUnknown then .err .input
    else
      (captureTypes captureType s.captures).bind fun captures =>
        if arityRefused s args.length then .err .input
        else
          let E : Env := ⟨[], s.captures, captures, resolveCapture, resolveMethod⟩
          (bindParams E s.params args [] 0).bind fun p => (eval { E with params := p.1 } s.result 0 p.2).bind fun q =>
            if !hasUnknown q.1 && !tooWide q.1 && !tooDeep q.1 0 then .ok q.1
            else if tooWide q.1 || tooDeep q.1 0 then .err .bound
            else .err .input

end Verif.CallableBody
