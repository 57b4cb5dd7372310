import Verif.Model.RbsTypes
import Verif.Spec.Subtype
import Verif.Spec.YardTypes
/-!
What a type of RBS says about Ruby values (docs/syntax.md of RBS).
-/
namespace Verif.RbsTypes
open Verif.Types
open Verif.Yard (Text Unicode Constant joinPath)

/-- Where a type is written: what the names in it mean (a class, a module, an alias, or a type parameter), what the type variables,
interfaces, integer literals and generic types mean, and what `self`, `instance` and `class` are. -/
structure Reading (W : World) where
  name : Text → W.V → Prop
  var : Text → W.V → Prop
  iface : Text → W.V → Prop
  int : Int → W.V → Prop
  gen : Text → List Rbs → W.V → Prop
  slf : W.V → Prop
  inst : W.V → Prop
  cls : W.V → Prop

variable {W : World}

/-- `Array` or `Hash`, from the root. -/
def Rbs.isArrayName (n : Text) : Prop := n = "Array".toList ∨ n = "::Array".toList
def Rbs.isHashName (n : Text) : Prop := n = "Hash".toList ∨ n = "::Hash".toList

mutual
/-- The value is one of the type.  Of a tuple it is only said which values are in it, not at which places.  A method that returns
`void` may return anything. -/
inductive Sat (R : Reading W) : Rbs → W.V → Prop
  | cls {n v} : R.name n v → Sat R (.cls n) v
  | bare {n v} : R.name n v → Sat R (.app n []) v
  | array {n t v} : Rbs.isArrayName n → W.isArr v → (∀ x, W.elem v x → Sat R t x) → Sat R (.app n [t]) v
  | hash {n k t v} : Rbs.isHashName n → W.isHash v → (∀ x y, W.entry v x y → Sat R k x) → (∀ x y, W.entry v x y → Sat R t y) →
      Sat R (.app n [k, t]) v
  | gen {n args v} : R.gen n args v → (Rbs.isArrayName n → args.length ≠ 1) → (Rbs.isHashName n → args.length ≠ 2) → args ≠ [] →
      Sat R (.app n args) v
  | iface {n v} : R.iface n v → Sat R (.iface n) v
  | var {n v} : R.var n v → Sat R (.var n) v
  | union {t ts v} : t ∈ ts → Sat R t v → Sat R (.union ts) v
  | inter {ts v} : (∀ t ∈ ts, Sat R t v) → Sat R (.inter ts) v
  | optNil {t v} : W.inst (nameOf "NilClass") v → Sat R (.opt t) v
  | opt {t v} : Sat R t v → Sat R (.opt t) v
  | tuple {ts v} : W.isArr v → (∀ x, W.elem v x → SatAny R ts x) → Sat R (.tuple ts) v
  | record {fs v} : W.isHash v → (∀ f ∈ fs, f.2.1 = false → ∃ x, W.entry v (W.lit ⟨false, code f.1⟩) x) →
      (∀ f ∈ fs, ∀ x, W.entry v (W.lit ⟨false, code f.1⟩) x → Sat R f.2.2 x) →
      (∀ k x, W.entry v k x → ∃ f ∈ fs, k = W.lit ⟨false, code f.1⟩) → Sat R (.record fs) v
  | proc {v} : W.inst (nameOf "Proc") v → Sat R .proc v
  | litStr {s} : Sat R (.litStr s) (W.lit ⟨true, code s⟩)
  | litSym {s} : Sat R (.litSym s) (W.lit ⟨false, code s⟩)
  | litInt {i v} : R.int i v → Sat R (.litInt i) v
  | litTrue {v} : W.inst (nameOf "TrueClass") v → Sat R .litTrue v
  | litFalse {v} : W.inst (nameOf "FalseClass") v → Sat R .litFalse v
  | selfTy {v} : R.slf v → Sat R .selfTy v
  | instTy {v} : R.inst v → Sat R .instTy v
  | classTy {v} : R.cls v → Sat R .classTy v
  | void {v} : Sat R .void v
  | nil {v} : W.inst (nameOf "NilClass") v → Sat R .nil v
  | true {v} : W.inst (nameOf "TrueClass") v → Sat R .bool v
  | false {v} : W.inst (nameOf "FalseClass") v → Sat R .bool v
  | untyped {v} : Sat R .untyped v
  | top {v} : Sat R .top v
inductive SatAny (R : Reading W) : List Rbs → W.V → Prop
  | any {t ts v} : t ∈ ts → Sat R t v → SatAny R ts v
end

/-- The path of a class from the root, with or without `::` before it. -/
def IsPath (U : Unicode) (n : Text) (path : List Text) : Prop :=
  path ≠ [] ∧ (∀ p ∈ path, Constant U p) ∧ (n = joinPath path ∨ n = ':' :: ':' :: joinPath path)

/-- A reading in which names are written from the root: a path of constants that is no type parameter is that class, `Array` and
`Hash` are arrays and hashes, integer literals are integers, and a generic class is a class. -/
structure Rooted (U : Unicode) (W : World) (R : Reading W) (params : Text → Prop) : Prop where
  name : ∀ n path v, ¬ params n → IsPath U n path → R.name n v → W.inst (code (joinPath path)) v
  gen : ∀ n args v, R.gen n args v → R.name n v
  array : ∀ n v, ¬ params n → Rbs.isArrayName n → R.name n v → W.isArr v
  hash : ∀ n v, ¬ params n → Rbs.isHashName n → R.name n v → W.isHash v
  int : ∀ i v, R.int i v → W.inst (nameOf "Integer") v

/-- The name begins with at most one `::`. -/
def OneRoot (n : Text) : Prop := ∀ s, n ≠ "::::".toList ++ s

/-- The type has no `void`, no interface that is spelled like a class, and none of the given names. -/
inductive Closed (params : Text → Prop) : Rbs → Prop
  | cls {n} : ¬ params n → Closed params (.cls n)
  | app {n args} : ¬ params n → OneRoot n → (∀ t ∈ args, Closed params t) → Closed params (.app n args)
  | iface {n} : n.head? = some '_' → Closed params (.iface n)
  | var {n} : Closed params (.var n)
  | union {ts} : (∀ t ∈ ts, Closed params t) → Closed params (.union ts)
  | inter {ts} : Closed params (.inter ts)
  | opt {t} : Closed params t → Closed params (.opt t)
  | tuple {ts} : (∀ t ∈ ts, Closed params t) → Closed params (.tuple ts)
  | record {fs} : (∀ f ∈ fs, Closed params f.2.2) → Closed params (.record fs)
  | proc : Closed params .proc
  | litStr {s} : Closed params (.litStr s)
  | litSym {s} : Closed params (.litSym s)
  | litInt {i} : Closed params (.litInt i)
  | litTrue : Closed params .litTrue
  | litFalse : Closed params .litFalse
  | selfTy : Closed params .selfTy
  | instTy : Closed params .instTy
  | classTy : Closed params .classTy
  | nil : Closed params .nil
  | bool : Closed params .bool
  | untyped : Closed params .untyped
  | top : Closed params .top
  | bot : Closed params .bot

/-- The type has no `void`; the type parameters in it are bound ones, and none is below a tuple; no other name is bound. -/
inductive Bounded (params bound : Text → Prop) : Rbs → Prop
  | cls {n} : (params n ↔ bound n) → Bounded params bound (.cls n)
  | bare {n} : (params n ↔ bound (strip n)) → (params n → strip n = n) → OneRoot n → Bounded params bound (.app n [])
  | app {n args} : ¬ params n → args ≠ [] → OneRoot n → (∀ t ∈ args, Bounded params bound t) → Bounded params bound (.app n args)
  | var {n} : Bounded params bound (.var n)
  | union {ts} : (∀ t ∈ ts, Bounded params bound t) → Bounded params bound (.union ts)
  | opt {t} : Bounded params bound t → Bounded params bound (.opt t)
  | record {fs} : (∀ f ∈ fs, Bounded params bound f.2.2) → Bounded params bound (.record fs)
  | closed {t} : Closed params t → (∀ n, t ≠ .cls n) → (∀ n args, t ≠ .app n args) → (∀ n, t ≠ .var n) → (∀ ts, t ≠ .union ts) →
      (∀ t', t ≠ .opt t') → (∀ fs, t ≠ .record fs) → Bounded params bound t

/-- The type can be said exactly: it has no integer literals, and no generic types but arrays and hashes. -/
inductive Crisp : Rbs → Prop
  | cls {n} : Crisp (.cls n)
  | bare {n} : Crisp (.app n [])
  | array {n t} : Rbs.isArrayName n → Crisp t → Crisp (.app n [t])
  | hash {n k t} : Rbs.isHashName n → Crisp k → Crisp t → Crisp (.app n [k, t])
  | var {n} : Crisp (.var n)
  | union {ts} : (∀ t ∈ ts, Crisp t) → Crisp (.union ts)
  | opt {t} : Crisp t → Crisp (.opt t)
  | tuple {ts} : (∀ t ∈ ts, Crisp t) → Crisp (.tuple ts)
  | record {fs} : (∀ f ∈ fs, Crisp f.2.2) → Crisp (.record fs)
  | proc : Crisp .proc
  | litStr {s} : Crisp (.litStr s)
  | litSym {s} : Crisp (.litSym s)
  | litTrue : Crisp .litTrue
  | litFalse : Crisp .litFalse
  | nil : Crisp .nil
  | bool : Crisp .bool

/-- The other direction of `Rooted`. -/
def Exactly (U : Unicode) (W : World) (R : Reading W) (params : Text → Prop) : Prop :=
  ∀ n path v, ¬ params n → IsPath U n path → W.inst (code (joinPath path)) v → R.name n v

/-- The given types describe what the names and the type variables they are given for mean. -/
def Binds (W : World) (R : Reading W) (σ : Text → Option Ty) : Prop :=
  ∀ n t v, σ n = some t → (R.name n v ∨ R.var n v) → Desc W t v

/-- The given types describe nothing else. -/
def BindsExactly (W : World) (R : Reading W) (σ : Text → Option Ty) : Prop :=
  ∀ n t v, σ n = some t → Desc W t v → R.name n v ∧ R.var n v

/-- The declaration of a method that counts: the last one in the last class or module that has one. -/
def Declares (d : Decl) (c : Name) (s : Bool) (m : Name) (meth : Method) : Prop :=
  d.kind ≠ .other ∧ d.name = c ∧ ∃ pre post, d.methods = pre ++ meth :: post ∧ meth.singleton = s ∧ meth.name = m ∧
    ∀ o ∈ post, ¬ (o.singleton = s ∧ o.name = m)

end Verif.RbsTypes
