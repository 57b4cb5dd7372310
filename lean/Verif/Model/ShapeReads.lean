import Verif.Model.Subtype
import Verif.Props.Subtype
/-!
Model of reading from hashes whose keys are known (crates/ruby-analysis/src/inference/type/shape.rs L11-345).

Simplifications: `read_literal_key` and `read_dynamic_key` are only called with `missing_is_nil`, which is left out; a panic (of
`widen_literals`, or a subtype test that does not end) is `panic`.  Not modelled: `each_return`, `generic_hash_projection`,
`argument_free_method_return` and `operation_requires_call_arguments`, which only name cases.
-/
namespace Verif.ShapeReads
open Verif.Types

/-- The reasons of core/type_inference_outcome.rs that are used here and in `Verif.CallableBody`. -/
inductive Reason where
  | methodReturn | unionMember | shapeBound | assignment | bound | unsupported | input | capture | flow
  deriving DecidableEq

/-- `Result`, or a panic. -/
inductive Out (α : Type) where
  | ok (a : α)
  | err (r : Reason)
  | panic
  deriving DecidableEq

def Out.bind {α β : Type} (o : Out α) (f : α → Out β) : Out β :=
  match o with
  | .ok a => f a
  | .err r => .err r
  | .panic => .panic

/-- `for` with `?`, collecting the results. -/
def collect {α β : Type} (f : α → Out β) : List α → Out (List β)
  | [] => .ok []
  | a :: l => (f a).bind fun b => (collect f l).bind fun bs => .ok (b :: bs)

/-- core/ruby_type.rs L65-69 `boolean`; L57-63. -/
def trueTy : Ty := .cls (nameOf "TrueClass")
def falseTy : Ty := .cls (nameOf "FalseClass")
def booleanTy : Ty := .union [falseTy, trueTy]

/-- `is_subtype_of`; the bound is one for which `sub` ends (`c43_ends`). -/
def subtype (a b : Ty) : Out Bool :=
  match sub (hgt a + hgt b) a b with
  | .ok b => .ok b
  | _ => .panic

/-- L317-325 `proven_union`. -/
def provenUnion (ts : List Ty) : Out Ty :=
  if ts.isEmpty || ts.any Ty.isUnknown then .err .methodReturn
  else if mkUnion ts = .unknown then .err .shapeBound
  else .ok (mkUnion ts)

/-- L327-332 `union_members`. -/
def unionMembers : Ty → List Ty
  | .union us => us
  | t => [t]

mutual
/-- L334-347 `type_is_shape_only`. -/
def shapeOnly : Ty → Bool
  | .shape _ _ _ _ _ => true
  | .union ts => allShapeOnly ts
  | _ => false
def allShapeOnly : List Ty → Bool
  | [] => true
  | t :: l => shapeOnly t && allShapeOnly l
end

/-- A shape: its fields, the rest and whether it is open. -/
structure Shape where
  fields : List Field
  rest : Option (Ty × Ty)
  isOpen : Bool

/-- `let RubyType::Shape(shape) = alternative else { return Err(IncompleteUnionMember) }`. -/
def asShape : Ty → Out Shape
  | .shape fs r o _ _ => .ok ⟨fs, r, o⟩
  | _ => .err .unionMember

/-- L202-215 `resolve_shape_variants`. -/
def resolveVariants (t : Ty) (f : Shape → Out Ty) : Out Ty :=
  (collect (fun a => (asShape a).bind f) (unionMembers t)).bind provenUnion

/-- L238-271 `read_literal_key`. -/
def readLiteral (k : Lit) (s : Shape) : Out Ty :=
  match field s.fields k with
  | some f => if f.2.1 = false then provenUnion [f.2.2] else provenUnion [f.2.2, nilTy]
  | none =>
    if s.isOpen = false then provenUnion [nilTy]
    else
      match s.rest with
      | some (kt, vt) => (subtype k.generic kt).bind fun b => provenUnion (if b then [vt, nilTy] else [nilTy])
      | none => .err .methodReturn

/-- The values of the fields and of the rest: L274-283 and L306-315. -/
def valueTypes (s : Shape) : Out (List Ty) :=
  match s.rest with
  | some (_, vt) => .ok (s.fields.map (fun f => f.2.2) ++ [vt])
  | none => if s.isOpen then .err .methodReturn else .ok (s.fields.map fun f => f.2.2)

/-- L273-288 `read_dynamic_key`. -/
def readDynamic (s : Shape) : Out Ty := (valueTypes s).bind fun ts => provenUnion (ts ++ [nilTy])

/-- L11-19 `indexed_read`. -/
def indexedRead (t : Ty) (key : Option Lit) : Out Ty :=
  resolveVariants t fun s =>
    match key with
    | some k => readLiteral k s
    | none => readDynamic s

/-- L290-304 `fetch_literal_key`: the types, and whether the default is reachable. -/
def fetchLiteral (k : Lit) (s : Shape) : Out (List Ty × Bool) :=
  match field s.fields k with
  | some f => .ok ([f.2.2], f.2.1)
  | none =>
    if s.isOpen = false then .ok ([], true)
    else
      match s.rest with
      | some (kt, vt) => (subtype k.generic kt).bind fun b => .ok (if b then [vt] else [], true)
      | none => .err .methodReturn

/-- L27-33: the types without the default. -/
def fetchParts (key : Option Lit) (s : Shape) : Out (List Ty × Bool) :=
  match key with
  | some k => fetchLiteral k s
  | none => (valueTypes s).bind fun ts => .ok (ts, true)

/-- L34-40: the default, when it is reachable. -/
def fetchDone (dflt : Option Ty) (r : List Ty × Bool) : Out Ty :=
  match dflt with
  | some d => if r.2 then (if d = .unknown then .err .assignment else provenUnion (r.1 ++ [d])) else provenUnion r.1
  | none => provenUnion r.1

/-- L21-41 `fetch`. -/
def fetch (t : Ty) (key : Option Lit) (dflt : Option Ty) : Out Ty :=
  resolveVariants t fun s => (fetchParts key s).bind (fetchDone dflt)

/-- L178-200 `dig_at`, from one key on; L187-198 are the alternatives of the value. -/
def digAt : List (Option Lit) → Ty → Out Ty
  | [], _ => .panic
  | k :: ks, t =>
    (indexedRead t k).bind fun v =>
      if ks.isEmpty then .ok v
      else
        (collect (fun a => if a = nilTy then .ok nilTy else if shapeOnly a then digAt ks a else .err .unionMember) (unionMembers v)).bind
          provenUnion

/-- L43-51 `dig`. -/
def dig (t : Ty) (keys : List (Option Lit)) : Out Ty :=
  if keys.isEmpty then .err .methodReturn else digAt keys t

/-- L217-236 `project_shape_variants_to_array`. -/
def project (t : Ty) (f : Shape → Out (List Ty)) : Out Ty :=
  (collect (fun a => (asShape a).bind fun s => if s.isOpen && s.rest.isNone then .err .methodReturn else f s) (unionMembers t)).bind fun es =>
    if (es.flatten).any hasUnknown then .err .methodReturn else .ok (.array (members es.flatten))

/-- `widen_literals` of each. -/
def widenAll (ts : List Ty) : Out (List Ty) :=
  match widenList ts with
  | some l => .ok l
  | none => .panic

/-- L53-62 `keys`. -/
def keys (t : Ty) : Out Ty :=
  project t fun s => .ok (s.fields.map (fun f => f.1.generic) ++ (match s.rest with | some (kt, _) => [kt] | none => []))

/-- L64-73 `values`. -/
def values (t : Ty) : Out Ty :=
  project t fun s => widenAll (s.fields.map (fun f => f.2.2) ++ (match s.rest with | some (_, vt) => [vt] | none => []))

/-- L88-117: what one alternative says: may the key be present, may it be absent? -/
def presence (k : Lit) (s : Shape) : Out (Bool × Bool) :=
  match field s.fields k with
  | some f => if f.2.1 = false then .ok (true, false) else .ok (true, true)
  | none =>
    if s.isOpen = false then .ok (false, true)
    else
      match s.rest with
      | some (kt, _) => (subtype k.generic kt).bind fun b => if b then .ok (true, true) else .ok (false, true)
      | none => .ok (true, true)

/-- L75-124 `key_presence`; `always_present` is that no alternative may lack the key, `always_absent` that none may have it. -/
def keyPresence (t : Ty) (key : Option Lit) : Out Ty :=
  match key with
  | none => .ok booleanTy
  | some k =>
    (collect (fun a => (asShape a).bind (presence k)) (unionMembers t)).bind fun ps =>
      match ps.all (fun p => !p.2), ps.all (fun p => !p.1) with
      | true, false => .ok trueTy
      | false, true => .ok falseTy
      | false, false => .ok booleanTy
      | true, true => .err .methodReturn

end Verif.ShapeReads
