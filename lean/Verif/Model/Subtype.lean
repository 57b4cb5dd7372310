import Verif.Model.Types
/-!
Model of subtyping: core/ruby_type.rs L297-341 and core/shape_type.rs L346-439.

The recursion of the code is bounded by a number of calls; `stuck` means that the bound was too small (Props/Subtype.lean shows
which bound is enough), `panic` that the `expect` of `widen_literals` failed.
-/
namespace Verif.Types

inductive Res where
  | stuck | panic | ok (b : Bool)
  deriving DecidableEq

/-- `&&`: the second operand is only evaluated when the first one is true. -/
def Res.and : Res → Res → Res
  | .ok true, r => r
  | r, _ => r

/-- `||`. -/
def Res.or : Res → Res → Res
  | .ok false, r => r
  | r, _ => r

def allR {α : Type} (f : α → Res) : List α → Res
  | [] => .ok true
  | a :: l => (f a).and (allR f l)

def anyR {α : Type} (f : α → Res) : List α → Res
  | [] => .ok false
  | a :: l => (f a).or (anyR f l)

/-- core/shape_type.rs L346-375 `generic_hash_type`. -/
def genericHash (fs : List Field) (r : Option (Ty × Ty)) (o : Bool) : Option Ty :=
  (widenList (fs.map fun f => f.2.2)).bind fun values =>
    let keys := fs.map fun f => f.1.generic
    match r with
    | some (k, v) =>
      (widen k).bind fun k => (widen v).map fun v => .hash (members (keys ++ [k])) (members (values ++ [v]))
    | none =>
      if o then some (.hash (members (keys ++ [.unknown])) (members (values ++ [.unknown])))
      else some (.hash (members keys) (members values))

/-- core/shape_type.rs L380-401: one target field. -/
def fieldOk (sub : Ty → Ty → Res) (fs : List Field) (r : Option (Ty × Ty)) (o : Bool) (t : Field) : Res :=
  match field fs t.1 with
  | some s =>
    if t.2.1 = false then (if s.2.1 = false then sub s.2.2 t.2.2 else .ok false)
    else sub s.2.2 t.2.2
  | none =>
    if t.2.1 = false then .ok false
    else
      match r with
      | some (k, v) =>
        match sub t.1.generic k with
        | .ok true => sub v t.2.2
        | .ok false => .ok true
        | res => res
      | none => .ok (!o)

/-- core/shape_type.rs L378-439 `ShapeType::is_subtype_of`. -/
def shapeSub (sub : Ty → Ty → Res) (fs : List Field) (r : Option (Ty × Ty)) (o : Bool) (fs' : List Field) (r' : Option (Ty × Ty))
    (o' : Bool) : Res :=
  (allR (fieldOk sub fs r o) fs').and
    (if o' = false then .ok (!o && r.isNone && decide (fs.length = fs'.length))
    else
      match r' with
      | none => .ok true
      | some (k', v') =>
        (allR (fun f => (sub f.1.generic k').and (sub f.2.2 v')) (fs.filter fun f => (field fs' f.1).isNone)).and
          (match r with
          | some (k, v) => (sub k k').and (sub v v')
          | none => .ok (!o)))

/-- core/ruby_type.rs L297-335 `is_subtype_of`. -/
def sub : Nat → Ty → Ty → Res
  | 0, _, _ => .stuck
  | n + 1, a, b =>
    if a = .unknown then .ok (decide (b = .unknown))
    else if a = b then .ok true
    else
      match a, b with
      | .union ts, b => allR (fun t => sub n t b) ts
      | a, .union ts => anyR (fun t => sub n a t) ts
      | .array es, .array es' => allR (fun e => anyR (fun e' => sub n e e') es') es
      | .hash ks vs, .hash ks' vs' =>
        (allR (fun k => anyR (fun k' => sub n k k') ks') ks).and (allR (fun v => anyR (fun v' => sub n v v') vs') vs)
      | .lit v, b => sub n v.generic b
      | .shape fs r o _ _, .shape fs' r' o' _ _ => shapeSub (sub n) fs r o fs' r' o'
      | .shape fs r o _ _, .hash ks vs =>
        match genericHash fs r o with
        | none => .panic
        | some g => sub n g (.hash ks vs)
      | _, _ => .ok false

end Verif.Types
