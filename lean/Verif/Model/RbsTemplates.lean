import Verif.Model.HigherOrder
import Verif.Model.RbsTypes
/-!
Model of how a method declared in RBS becomes the signature of a call with a block: crates/ruby-analysis/src/inference/higher_order.rs
L340-378 and L437-519, with `normalized_type_parameter_name` and `callable_owner_from_method` of inference/rbs.rs (L294-305, L459-496).

Simplifications: those of HigherOrder and RbsTypes; the set of type parameters is a list; whether a block is required, which is not
used, is left out; the kinds of parameters are those of HigherOrder.
-/
namespace Verif.RbsTemplates
open Verif.Types
open Verif.Yard (Text Unicode ws)
open Verif.RbsTypes (Rbs code strip conv tArray tHash)
open Verif.HigherOrder (Out Tmpl Sig Var Reason collect validate maxTmplDepth maxUnion)

/-- crates/rbs-parser/src/types.rs L282-337 `MethodParam` (its name, type and kind; a keyword or block parameter is of the kind
`other`), `Block` (the types of its parameters and what it returns) and L265-271 `MethodType`. -/
structure Overload where
  params : List Text
  args : List (Option Text × Rbs × HigherOrder.Kind)
  ret : Rbs
  block : Option (List Rbs × Rbs)

/-- types.rs L223-247 `MethodDecl`. -/
structure Method where
  name : Name
  singleton : Bool
  overloads : List Overload

variable (U : Unicode)

/-- higher_order.rs L506-513 `concrete_template`. -/
def concrete (t : Rbs) : Out Tmpl := if hasUnknown (conv U t) then .err .unsupported else .ok (.concrete (conv U t))

mutual
/-- higher_order.rs L437-504 `type_template_from_rbs`. -/
def template (ps : List Text) (d : Nat) : Rbs → Out Tmpl
  | .var n => if d > maxTmplDepth then .err .bound else .ok (.var (code n))
  | .cls n =>
    if d > maxTmplDepth then .err .bound
    else if n ∈ ps then .ok (.var (code n))
    else if n = "boolish".toList then .ok .unconstrained
    else concrete U (.cls n)
  | .app n args =>
    if d > maxTmplDepth then .err .bound
    else if args = [] ∧ strip n ∈ ps then .ok (.var (code (strip n)))
    else
      match args with
      | [e] =>
        if strip n = tArray then (template ps (d + 1) e).bind fun e => .ok (.array e)
        else if strip n = tHash then .err .unsupported
        else concrete U (.app n [e])
      | [k, v] =>
        if strip n = tHash then (template ps (d + 1) k).bind fun k => (template ps (d + 1) v).bind fun v => .ok (.hash k v)
        else if strip n = tArray then .err .unsupported
        else concrete U (.app n [k, v])
      | args => if strip n = tArray ∨ strip n = tHash then .err .unsupported else concrete U (.app n args)
  | .union ts =>
    if d > maxTmplDepth then .err .bound
    else if ts.length > maxUnion then .err .bound
    else (templates ps (d + 1) ts).bind fun ms => .ok (.union ms)
  | .opt t =>
    if d > maxTmplDepth then .err .bound
    else (template ps (d + 1) t).bind fun m => .ok (.union [.concrete nilTy, m])
  | .untyped => if d > maxTmplDepth then .err .bound else .ok .unconstrained
  | .top => if d > maxTmplDepth then .err .bound else .ok .unconstrained
  | .bot => if d > maxTmplDepth then .err .bound else .ok .unconstrained
  | .selfTy => if d > maxTmplDepth then .err .bound else .ok .receiver
  | .proc => if d > maxTmplDepth then .err .bound else .err .unsupported
  | .instTy => if d > maxTmplDepth then .err .bound else .err .unsupported
  | .classTy => if d > maxTmplDepth then .err .bound else .err .unsupported
  | .inter _ => if d > maxTmplDepth then .err .bound else .err .unsupported
  | .tuple _ => if d > maxTmplDepth then .err .bound else .err .unsupported
  | .iface _ => if d > maxTmplDepth then .err .bound else .err .unsupported
  | t => if d > maxTmplDepth then .err .bound else concrete U t
def templates (ps : List Text) (d : Nat) : List Rbs → Out (List Tmpl)
  | [] => .ok []
  | t :: l => (template ps d t).bind fun m => (templates ps d l).bind fun ms => .ok (m :: ms)
end

/-- rbs.rs L294-305 `normalized_type_parameter_name`: the last word; `none` is a panic. -/
def lastWord (s : Text) : Option Text :=
  let r := (s.reverse.dropWhile ws).takeWhile fun c => !ws c
  if r = [] then none else some r.reverse

/-- The last words of all. -/
def lastWords (l : List Text) : Out (List Text) :=
  collect (fun s => match lastWord s with
    | some n => .ok n
    | none => .panic) l

/-- higher_order.rs L340-378 `callable_signature_from_rbs`, for an overload with a block. -/
def signature (owner own : List Text) (o : Overload) (block : List Rbs × Rbs) : Out Sig :=
  (collect (fun (a : Option Text × Rbs × HigherOrder.Kind) => (template U (owner ++ own) 1 a.2.1).bind fun t => .ok (a.2.2, t)) o.args).bind fun args =>
  (collect (template U (owner ++ own) 1) block.1).bind fun bp =>
  (template U (owner ++ own) 1 block.2).bind fun br =>
  (template U (owner ++ own) 1 o.ret).bind fun ret =>
  (validate ⟨owner.map code, (owner ++ own).map code, args, bp, br, ret⟩).bind fun _ =>
    .ok ⟨owner.map code, (owner ++ own).map code, args, bp, br, ret⟩

/-- rbs.rs L469-486: the loop over the overloads; those without a block are left out. -/
def signatures (owner : List Text) : List Overload → Out (List Sig)
  | [] => .ok []
  | o :: l =>
    match o.block with
    | none => signatures owner l
    | some b => (lastWords o.params).bind fun own => (signature U owner own o b).bind fun g => (signatures owner l).bind fun gs => .ok (g :: gs)

/-- rbs.rs L459-496 `callable_owner_from_method`, its signatures. -/
def methodSigs (params : List Text) (m : Method) : Out (List Sig) :=
  (lastWords params).bind fun owner =>
  (signatures U owner m.overloads).bind fun gs => if gs = [] then .err .unsupported else .ok gs

end Verif.RbsTemplates
