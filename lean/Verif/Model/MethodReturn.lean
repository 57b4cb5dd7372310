import Verif.Model.RbsTypes
import Verif.Model.ShapeReads
/-!
Model of the type given to a method call: crates/ruby-analysis/src/inference/method/return_type.rs L75-149, L185-220 and L297-345,
with crates/ruby-analysis/src/inference/type/shape.rs L120-165, engine/lookup.rs L305-337 and `TypeInferenceOutcome::proven` and
`from_optional` (core/type_inference_outcome.rs L598-624).

Simplifications: a path `A::B` is one text; what the project says about a method (`method_return_type_for_receiver` and the two
others) and which names `RubyMethod::new` accepts are parameters; a panic is `none` or `panic`.  `rbs_method_return_type` is not
called with a union, which has been taken apart before.
-/
namespace Verif.MethodReturn
open Verif.Types
open Verif.RbsTypes (Loader returnTy returnTyWith)
open Verif.ShapeReads (shapeOnly)
open Verif.Yard (Unicode)

/-- How the method is called: `self.m`, from inside a class, or from anywhere. -/
inductive Access where
  | priv
  | prot (caller : Name)
  | pub

/-- What is asked: the RBS index, what the project says about a method of a namespace (whether it is a singleton one, its path), and
which names are names of methods. -/
structure Env where
  rbs : Loader
  query : Option (Access → Bool → Name → Name → Option Ty)
  valid : Name → Bool

/-- The reasons of core/type_inference_outcome.rs that are used here. -/
inductive Reason where
  | unionMember | receiver | methodReturn | name | shape (r : ShapeReads.Reason)
  deriving DecidableEq

inductive Outcome where
  | proven (t : Ty)
  | unknown (r : Reason)
  | panic
  deriving DecidableEq

mutual
/-- core/ruby_type.rs L205-234 `nested_union_contains_unknown`. -/
def nested : Ty → Bool
  | .union ts => ts.any Ty.isUnknown || nestedList ts
  | .array ts => nestedList ts
  | .hash ks vs => nestedList ks || nestedList vs
  | .shape fs r _ _ _ => nestedFields fs || nestedRest r
  | _ => false
def nestedList : List Ty → Bool
  | [] => false
  | t :: l => nested t || nestedList l
def nestedFields : List (Lit × Bool × Ty) → Bool
  | [] => false
  | (_, _, t) :: l => nested t || nestedFields l
def nestedRest : Option (Ty × Ty) → Bool
  | none => false
  | some (k, v) => nested k || nested v
end

/-- core/ruby_type.rs L144-172 `union_members_contain_unknown`, which differs only for `Unknown` itself. -/
def unionUnknown (t : Ty) : Bool := t.isUnknown || nested t

/-- core/type_inference_outcome.rs L598-609 `proven`. -/
def proven (t : Ty) : Outcome := if unionUnknown t then .panic else .proven t

/-- core/type_inference_outcome.rs L619-624 `from_optional`. -/
def fromOptional (t : Option Ty) (r : Reason) : Outcome :=
  match t with
  | none => .unknown r
  | some t => if t.isUnknown then .unknown r else proven t

variable (U : Unicode)

/-- return_type.rs L193-205: the keys and the values of a hash. -/
def hashReturn (L : Loader) (m : Name) (ks vs : List Ty) : Option Ty :=
  returnTyWith U L (nameOf "Hash") m false [mkUnion ks, mkUnion vs]

/-- return_type.rs L185-219 `generic_rbs_method_return_type`; `none` is a panic of `generic_hash_type`. -/
def generic (L : Loader) (m : Name) : Ty → Option (Option Ty)
  | .array ts => some (returnTyWith U L (nameOf "Array") m false ts)
  | .hash ks vs => some (hashReturn U L m ks vs)
  | .shape fs r o _ _ =>
    (genericHash fs r o).map fun g =>
      match g with
      | .hash ks vs => hashReturn U L m ks vs
      | _ => none
  | _ => some none

/-- `namespace_parts().last()`: the last name of a path. -/
def simpleName (n : Name) : Name := (n.reverse.takeWhile (fun c => decide (c ≠ 58))).reverse

/-- return_type.rs L333-350 `class_names_for_fqn`. -/
def classNames (n : Name) : List Name :=
  if n = [] then [] else if simpleName n = n then [n] else [n, simpleName n]

/-- return_type.rs L316-331 `rbs_method_return_for_fqn`. -/
def rbsNamed (L : Loader) (m : Name) (singleton : Bool) (n : Name) : Option Ty :=
  (classNames n).findSome? fun c => returnTy U L c m singleton

/-- `widened_type` of a literal is a class. -/
def litClass (l : Lit) : Name := if l.isString then nameOf "String" else nameOf "Symbol"

/-- return_type.rs L297-314 `rbs_method_return_type`. -/
def rbsReturn (L : Loader) (m : Name) : Ty → Option Ty
  | .cls n => rbsNamed U L m false n
  | .mod n => rbsNamed U L m false n
  | .clsRef n => rbsNamed U L m true n
  | .modRef n => rbsNamed U L m true n
  | .lit l => rbsNamed U L m false (litClass l)
  | t => (generic U L m t).getD none

/-- engine/lookup.rs L307-319. -/
def instanceSpaces (n : Name) : List (Bool × Name) :=
  if simpleName n = nameOf "Object" then [(false, n), (false, [])] else [(false, n)]

/-- engine/lookup.rs L305-337 `receiver_type_to_method_namespaces`. -/
def namespaces : Ty → List (Bool × Name)
  | .cls n => instanceSpaces n
  | .mod n => instanceSpaces n
  | .clsRef n => [(true, n)]
  | .modRef n => [(true, n)]
  | .lit l => instanceSpaces (litClass l)
  | _ => []

/-- shape.rs L120-133 `each_return` without a block. -/
def enumeratorTy : Ty := .cls (nameOf "Enumerator")

/-- shape.rs L139-148 `argument_free_method_return`; the receiver is a shape. -/
def argumentFree (t : Ty) (m : Name) : Option (ShapeReads.Out Ty) :=
  if m = nameOf "keys" then some (ShapeReads.keys t)
  else if m = nameOf "values" then some (ShapeReads.values t)
  else if m ∈ [nameOf "each", nameOf "each_pair", nameOf "each_key", nameOf "each_value"] then some (.ok enumeratorTy)
  else none

/-- shape.rs L150-166 `operation_requires_call_arguments`. -/
def needsArguments : List Name :=
  [nameOf "[]", nameOf "fetch", nameOf "dig", nameOf "key?", nameOf "has_key?", nameOf "include?", nameOf "member?", nameOf "[]=",
    nameOf "delete", nameOf "merge", nameOf "merge!", nameOf "update"]

/-- return_type.rs L110-114. -/
def fromOut : ShapeReads.Out Ty → Outcome
  | .ok t => proven t
  | .err r => .unknown (.shape r)
  | .panic => .panic

/-- return_type.rs L129-143: the first namespace for which the project has an answer. -/
def asked (E : Env) (acc : Access) (m : Name) (t : Ty) : Option Ty :=
  match E.query with
  | none => none
  | some q => (namespaces t).findSome? fun p => q acc p.1 p.2 m

/-- return_type.rs L121-148. -/
def lookUp (E : Env) (acc : Access) (m : Name) (t : Ty) : Outcome :=
  match generic U E.rbs m t with
  | none => .panic
  | some (some u) => fromOptional (some u) .methodReturn
  | some none =>
    if E.valid m = false then .unknown .name
    else
      match asked E acc m t with
      | some u => fromOptional (some u) .methodReturn
      | none => fromOptional (rbsReturn U E.rbs m t) .methodReturn

/-- return_type.rs L115-148. -/
def afterShapes (E : Env) (acc : Access) (m : Name) (t : Ty) : Outcome :=
  match t with
  | .clsRef n => if m = nameOf "new" then proven (.cls n) else lookUp U E acc m (.clsRef n)
  | t => lookUp U E acc m t

/-- return_type.rs L101-148: the receiver is not a union. -/
def callOne (E : Env) (acc : Access) (m : Name) (t : Ty) : Outcome :=
  if t.isUnknown then .unknown .receiver
  else if shapeOnly t then
    match argumentFree t m with
    | some o => fromOut o
    | none => if m ∈ needsArguments then .unknown .methodReturn else afterShapes U E acc m t
  else afterShapes U E acc m t

mutual
/-- return_type.rs L75-149 `method_call_type_outcome_with_visibility`. -/
def call (E : Env) (acc : Access) (m : Name) : Ty → Outcome
  | .union ts =>
    match callAll E acc m ts with
    | none => .panic
    | some none => .unknown .unionMember
    | some (some us) => fromOptional (if us.isEmpty then none else some (mkUnion us)) .unionMember
  | t => callOne U E acc m t
/-- return_type.rs L83-96: the types of all members, nothing when one has none; `none` is a panic. -/
def callAll (E : Env) (acc : Access) (m : Name) : List Ty → Option (Option (List Ty))
  | [] => some (some [])
  | t :: l =>
    match call E acc m t with
    | .panic => none
    | .unknown _ => some none
    | .proven u => (callAll E acc m l).map fun r => r.map fun us => u :: us
end

/-- return_type.rs L49-63 and L131-137: which of the three questions is asked. -/
def access (allowPrivate : Bool) (caller : Option Name) : Access :=
  if allowPrivate then .priv
  else
    match caller with
    | some c => .prot c
    | none => .pub

end Verif.MethodReturn
