import Verif.Model.MethodReturn
import Verif.Spec.RbsTypes
import Verif.Spec.ShapeReads
/-!
What calls of methods give, and when what the code asks is right about them.  `Calls v m x`: a call of `m` on `v`, without a block and
with any arguments, may give `x`.
-/
namespace Verif.MethodReturn
open Verif.Types
open Verif.RbsTypes (Loader Reading Rooted Sat Bounded Closed paramName Rbs)
open Verif.ShapeReads (KeysOf ValuesOf)
open Verif.Yard (Unicode Text)

variable (W : World) (Calls : W.V → Name → W.V → Prop)

/-- What a union is made of, also when it is inside another one. -/
inductive Branch : Ty → Ty → Prop where
  | self {t} : Simple t → Branch t t
  | member {ts t x} : t ∈ ts → Branch t x → Branch (.union ts) x

/-- The value is an instance of the class or module, or it is the class or module itself. -/
def Receiver (singleton : Bool) (c : Name) (v : W.V) : Prop :=
  if singleton then W.clsRef c v ∨ W.modRef c v else W.inst c v ∨ W.modInst c v

/-- What the project says about its methods is right; the methods of the top level are in every object. -/
def QueryTrue (q : Bool → Name → Name → Option Ty) : Prop :=
  ∀ s c m t v x, q s c m = some t → Receiver W s c v ∨ (s = false ∧ c = []) → Calls v m x → Desc W t x

/-- The values a generic class is about: with no arguments an instance; with arguments, an array of values of the argument, a hash
with keys and values of the arguments. -/
inductive Generic : Name → Bool → List (W.V → Prop) → W.V → Prop where
  | plain {c s v} : Receiver W s c v → Generic c s [] v
  | array {P v} : W.isArr v → (∀ x, W.elem v x → P x) → Generic (nameOf "Array") false [P] v
  | hash {P Q v} : W.isHash v → (∀ k x, W.entry v k x → P k ∧ Q x) → Generic (nameOf "Hash") false [P, Q] v

/-- The names that are type parameters in a signature. -/
def Params (L : Loader) (c : Name) (own : List Text) (n : Text) : Prop := n ∈ (L.params c).map paramName ∨ n ∈ own

/-- The calls give what the signatures of RBS say: one of the overloads, read with the type parameters of the class standing for
what the receiver is about. -/
def Obeys (U : Unicode) (L : Loader) : Prop :=
  ∀ c s m meth Ps v x, L.methods c s m = some meth → Generic W c s Ps v → Calls v m x →
    ∃ p ∈ meth.overloads, ∃ R : Reading W, Rooted U W R (Params L c p.1) ∧ Sat R p.2 x ∧
      ∀ (i : Nat) q P y, (L.params c)[i]? = some q → Ps[i]? = some P → R.name (paramName q) y ∨ R.var (paramName q) y → P y

/-- The signatures of a method are read correctly (C68): all give the same type, in which the type parameters are bound. -/
def Clear (L : Loader) (c : Name) (s : Bool) (m : Name) (args : Nat) : Prop :=
  ∀ meth, L.methods c s m = some meth → ∃ t, ∀ p ∈ meth.overloads, p.2 = t ∧
    if args = 0 then Closed (Params L c p.1) t
    else Bounded (Params L c p.1) (fun n => n ∈ ((L.params c).take args).map paramName) t

/-- `new` makes instances of the class. -/
def NewMakes : Prop := ∀ n v x, W.clsRef n v → Calls v (nameOf "new") x → W.inst n x

/-- The methods of hashes that need no arguments. -/
structure HashCalls : Prop where
  keys : ∀ v x, W.isHash v → Calls v (nameOf "keys") x → KeysOf W v x
  values : ∀ v x, W.isHash v → Calls v (nameOf "values") x → ValuesOf W v x
  each : ∀ v m x, W.isHash v → m ∈ ["each", "each_pair", "each_key", "each_value"].map nameOf → Calls v m x → W.inst (nameOf "Enumerator") x

/-- RBS knows the method of the class by its path, or it knows no method of a class with the last name of the path. -/
def ByPath (L : Loader) (n : Name) (s : Bool) (m : Name) : Prop :=
  Clear L n s m 0 ∧ ∀ pre last, n = pre ++ 58 :: last → 58 ∉ last → L.returnType n m s ≠ none ∨ L.returnType last m s = none

/-- Receivers for which RBS is asked the right question. -/
def Direct (L : Loader) (m : Name) : Ty → Prop
  | .cls n => ByPath L n false m
  | .mod n => ByPath L n false m
  | .clsRef n => m = nameOf "new" ∨ ByPath L n true m
  | .modRef n => ByPath L n true m
  | .lit l => Clear L (if l.isString then nameOf "String" else nameOf "Symbol") false m 0
  | .array ts => ts.length = 1 ∧ Clear L (nameOf "Array") false m 1
  | .hash _ _ => Clear L (nameOf "Hash") false m 2
  | .shape _ _ _ _ _ => Clear L (nameOf "Hash") false m 2
  | .union _ => True
  | .unknown => True

/-- Somewhere in the type there is a union with an unknown member. -/
inductive BadUnion : Ty → Prop where
  | here {ts} : .unknown ∈ ts → BadUnion (.union ts)
  | union {ts t} : t ∈ ts → BadUnion t → BadUnion (.union ts)
  | array {ts t} : t ∈ ts → BadUnion t → BadUnion (.array ts)
  | key {ks vs t} : t ∈ ks → BadUnion t → BadUnion (.hash ks vs)
  | value {ks vs t} : t ∈ vs → BadUnion t → BadUnion (.hash ks vs)
  | field {fs r o z d f} : f ∈ fs → BadUnion f.2.2 → BadUnion (.shape fs r o z d)
  | restKey {fs k v o z d} : BadUnion k → BadUnion (.shape fs (some (k, v)) o z d)
  | restValue {fs k v o z d} : BadUnion v → BadUnion (.shape fs (some (k, v)) o z d)

end Verif.MethodReturn
