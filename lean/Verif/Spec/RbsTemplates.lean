import Verif.Model.RbsTemplates
import Verif.Spec.RbsTypes
import Verif.Spec.RbsAncestors
import Verif.Spec.HigherOrder
/-!
What a method with a block that is declared in RBS may be given, and what it may return, in terms of the written types.
-/
namespace Verif.RbsTemplates
open Verif.Types
open Verif.Yard (Text Unicode)
open Verif.RbsTypes (Rbs Reading Sat Rooted Exactly Closed Crisp OneRoot code strip)
open Verif.HigherOrder (Meth Var rubyParam)

/-- The reading of the types in a signature: the type parameters stand for the given values, `self` for some of the receiver's type,
`boolish` for all values, and the other names are written from the root. -/
structure Reads (U : Unicode) (W : World) (P : Text → Prop) (θ : Text → W.V → Prop) (slf : W.V → Prop) (R : Reading W) : Prop where
  rooted : Rooted U W R P
  exactly : Exactly U W R P
  name : ∀ n v, P n → (R.name n v ↔ θ n v)
  var : ∀ n v, R.var n v ↔ θ n v
  self : ∀ v, R.slf v → slf v
  boolish : ¬ P "boolish".toList → ∀ v, R.name "boolish".toList v

/-- The types that do not have a form of their own in a template. -/
def Leaf (t : Rbs) : Prop := (∀ n args, t ≠ .app n args) ∧ (∀ ts, t ≠ .union ts) ∧ (∀ t', t ≠ .opt t')

/-- A type of something that the block or the caller is given: no `void`, no type parameters in records, and none written with `::`. -/
inductive Fair (P : Text → Prop) : Rbs → Prop
  | leaf {t} : Leaf t → Closed P t → Fair P t
  | param {n} : P n → Fair P (.cls n)
  | bare {n} : P n → strip n = n → Fair P (.app n [])
  | app {n args} : ¬ P n → ¬ P (strip n) → OneRoot n → (∀ t ∈ args, Fair P t) → Fair P (.app n args)
  | union {ts} : (∀ t ∈ ts, Fair P t) → Fair P (.union ts)
  | opt {t} : Fair P t → Fair P (.opt t)

/-- A type of something that the method is given: it can be said exactly.  (`self` cannot: it is the class of the receiver.) -/
inductive Sharp (P : Text → Prop) : Rbs → Prop
  | crisp {t} : Leaf t → Closed P t → Crisp t → Sharp P t
  | param {n} : P n → Sharp P (.cls n)
  | boolish : Sharp P (.cls "boolish".toList)
  | var {n} : Sharp P (.var n)
  | bare {n} : (P n ∨ P (strip n) → strip n = n) → OneRoot n → Sharp P (.app n [])
  | array {n t} : Rbs.isArrayName n → Sharp P t → Sharp P (.app n [t])
  | hash {n k t} : Rbs.isHashName n → Sharp P k → Sharp P t → Sharp P (.app n [k, t])
  | union {ts} : (∀ t ∈ ts, Sharp P t) → Sharp P (.union ts)
  | opt {t} : Sharp P t → Sharp P (.opt t)
  | untyped : Sharp P .untyped
  | top : Sharp P .top
  | void : Sharp P .void

/-- A type of classes, type parameters, `self` and `untyped`, in arrays, hashes, options and unions of at most 8, at most `k` deep. -/
inductive Simple (U : Unicode) (P : Text → Prop) : Nat → Rbs → Prop
  | param {k n} : P n → Simple U P k (.cls n)
  | cls {k n path} : RbsTypes.IsPath U n path → Simple U P k (.cls n)
  | selfTy {k} : Simple U P k .selfTy
  | untyped {k} : Simple U P k .untyped
  | array {k n t} : Rbs.isArrayName n → Simple U P k t → Simple U P (k + 1) (.app n [t])
  | hash {k n a t} : Rbs.isHashName n → Simple U P k a → Simple U P k t → Simple U P (k + 1) (.app n [a, t])
  | union {k ts} : ts.length ≤ 8 → (∀ t ∈ ts, Simple U P k t) → Simple U P (k + 1) (.union ts)
  | opt {k t} : Simple U P k t → Simple U P (k + 1) (.opt t)

/-- The name occurs in the type (and not only in a record). -/
inductive Mentions (x : Text) : Rbs → Prop
  | var : Mentions x (.var x)
  | cls : Mentions x (.cls x)
  | bare {n} : strip n = x → Mentions x (.app n [])
  | app {n t args} : t ∈ args → Mentions x t → Mentions x (.app n args)
  | union {t ts} : t ∈ ts → Mentions x t → Mentions x (.union ts)
  | opt {t} : Mentions x t → Mentions x (.opt t)

/-- The positional parameters of an overload. -/
def positionals (o : Overload) : List (HigherOrder.Kind × Rbs) :=
  (o.args.map fun a => (a.2.2, a.2.1)).filter fun a => decide (a.1 ≠ .other)

variable {W : World}

/-- The method keeps an overload with a block: if the arguments are of the types of the parameters and the block, given values of the
types of its parameters, answers with one of its type, then what the method returns is of the return type. -/
def Keeps (R : Reading W) (o : Overload) (b : List Rbs × Rbs) (m : Meth W) : Prop :=
  ∀ args blk r,
    (∀ i v t, args[i]? = some v → rubyParam (positionals o) args.length i = some t → Sat R t v) →
    (∀ vs w, List.Forall₂ (Sat R) b.1 vs → blk vs w → Sat R b.2 w) →
    m args blk r → Sat R o.ret r

/-- The method `x` of the declaration `c`, called on `v`, keeps its overloads with a block, whatever the type parameters of the method
stand for, and the type parameters of the declaration for what they stand for in `v`, or more. -/
def Works (U : Unicode) (L : RbsAncestors.Loader) (I : RbsAncestors.Instances W) (slf : W.V → Prop) (c : Name) (x : Method) (v : W.V) (m : Meth W) : Prop :=
  ∀ o ∈ x.overloads, ∀ b own, o.block = some b → List.Forall₂ RbsAncestors.ParamName o.params own → ∀ θ : Text → W.V → Prop,
    (∃ θ0, I v c θ0 ∧ ∀ n, RbsAncestors.ParamOf L c n → ∀ y, θ0 n y → θ n y) →
    ∃ R, Reads U W (fun n => RbsAncestors.ParamOf L c n ∨ n ∈ own) θ slf R ∧ Keeps R o b m

/-- The types of an overload are such that they can be read: those the method gives are fair, and those it is given can be said exactly. -/
structure Neat (P : Text → Prop) (o : Overload) (b : List Rbs × Rbs) : Prop where
  ret : Fair P o.ret
  blockParams : ∀ t ∈ b.1, Fair P t
  args : ∀ a ∈ positionals o, Sharp P a.2
  blockRet : Sharp P b.2

end Verif.RbsTemplates
