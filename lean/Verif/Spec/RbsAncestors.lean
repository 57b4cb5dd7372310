import Verif.Model.RbsAncestors
import Verif.Spec.RbsTypes
import Mathlib.Logic.Relation
import Mathlib.Data.List.Forall2
/-!
What the declarations of RBS say about which methods a class has, in terms of the declarations alone.
-/
namespace Verif.RbsAncestors
open Verif.Types
open Verif.Yard (Text Unicode)
open Verif.RbsTypes (Rbs Reading Sat Rooted Bounded code)
open Verif.RbsTemplates (Method)

/-- The declaration of a class or module that counts: the last one of the name (see C68), unless that is one of another kind. -/
def Declared (L : Loader) (c : Name) (d : Decl) : Prop :=
  d.kind ≠ .other ∧ ∃ pre post, L = pre ++ d :: post ∧ d.name = c ∧ ∀ o ∈ post, o.name ≠ c

/-- The class or module that a superclass or an included module is, written with or without `::` before it. -/
def Names (t : Rbs) (c : Name) : Prop :=
  ∃ n, (t = .cls n ∨ ∃ args, t = .app n args) ∧ ((∃ r, n = ':' :: ':' :: r ∧ c = code r) ∨ ((∀ r, n ≠ ':' :: ':' :: r) ∧ c = code n))

/-- The modules that are included, in the order they are declared in. -/
inductive Includes : List Member → List Rbs → Prop
  | nil : Includes [] []
  | here {t ms ts} : Includes ms ts → Includes (.incl t :: ms) (t :: ts)
  | skip {m ms ts} : (∀ t, m ≠ .incl t) → Includes ms ts → Includes (m :: ms) ts

/-- The superclass: a class that has none declared is an `Object`, unless it is `BasicObject`; a module has none. -/
inductive Super (d : Decl) : List Rbs → Prop
  | some {t} : d.kind = .cls → d.superclass = .some t → Super d [t]
  | object : d.kind = .cls → d.superclass = none → d.name ≠ nameOf "BasicObject" → Super d [.cls "Object".toList]
  | basic : d.kind = .cls → d.superclass = none → d.name = nameOf "BasicObject" → Super d []
  | mod : d.kind = .mod → Super d []

/-- The class or module `c'` is included in `c` or is its superclass. -/
def Inherits (L : Loader) (c c' : Name) : Prop :=
  ∃ d ts us t, Declared L c d ∧ Includes d.members ts ∧ Super d us ∧ t ∈ ts ++ us ∧ Names t c'

/-- The class or module `c'` is `c`, or what `c` inherits from. -/
def Reach (L : Loader) : Name → Name → Prop := Relation.ReflTransGen (Inherits L)

mutual
/-- The ancestors of a class or module in the order their methods are looked up, with the included modules in the declared order, or
with the last one first, as Ruby has it.  (`prepend` is left out.)  Circles have none. -/
inductive Lin (L : Loader) (rev : Bool) : Name → List Name → Prop
  | missing {c} : (∀ d, ¬ Declared L c d) → Lin L rev c []
  | node {c d ts us l} : Declared L c d → Includes d.members ts → Super d us → LinAll L rev ((if rev then ts.reverse else ts) ++ us) l →
      Lin L rev c (c :: l)
inductive LinAll (L : Loader) (rev : Bool) : List Rbs → List Name → Prop
  | nil : LinAll L rev [] []
  | cons {t c l ts ls} : Names t c → Lin L rev c l → LinAll L rev ts ls → LinAll L rev (t :: ts) (l ++ ls)
  | skip {t ts ls} : (∀ c, ¬ Names t c) → LinAll L rev ts ls → LinAll L rev (t :: ts) ls
end

/-- The declaration has the instance method; of two of the same name the first one counts. -/
def Defines (L : Loader) (c m : Name) (ps : List Text) (x : Method) : Prop :=
  ∃ d, Declared L c d ∧ d.params = ps ∧ ∃ pre post, d.methods = pre ++ x :: post ∧ x.singleton = false ∧ x.name = m ∧
    ∀ y ∈ pre, ¬ (y.singleton = false ∧ y.name = m)

/-- The first of the list with a property. -/
def First {α : Type} (P : α → Prop) (l : List α) (a : α) : Prop := ∃ l1 l2, l = l1 ++ a :: l2 ∧ P a ∧ ∀ b ∈ l1, ¬ P b

/-- The class or module declares the method or an alias of that name; singleton methods only if they are asked for. -/
def Offers (L : Loader) (incl : Bool) (c m : Name) : Prop :=
  ∃ d, Declared L c d ∧ ((∃ x ∈ d.methods, x.name = m ∧ (x.singleton = true → incl = true)) ∨
    ∃ old s, .alias m old s ∈ d.members ∧ (s = true → incl = true))

/-- What is said about a method in the list of all methods of a class: its first signature, with type parameters read as classes. -/
def infoOf (U : Unicode) (m : Name) (s : Bool) (x : Option Method) : Info :=
  match x.bind fun x => x.overloads.head? with
  | some o => ⟨m, some (RbsTypes.conv U o.ret), s, o.args.map fun a => a.1.getD []⟩
  | none => ⟨m, none, s, []⟩

/-- A declaration says this about the name: by the first method of this name, if there is one, or else by the first alias, which is
what the first method of the old name is. -/
inductive Says (U : Unicode) (incl : Bool) (d : Decl) (m : Name) : Info → Prop
  | method {pre x post} : d.methods = pre ++ x :: post → x.name = m → (x.singleton = true → incl = true) →
      (∀ y ∈ pre, y.name = m → y.singleton = true ∧ incl = false) → Says U incl d m (infoOf U m x.singleton (some x))
  | other {pre old s post x} : (∀ y ∈ d.methods, y.name = m → y.singleton = true ∧ incl = false) →
      d.members = pre ++ .alias m old s :: post → (s = true → incl = true) →
      (∀ o s', .alias m o s' ∈ pre → s' = true ∧ incl = false) →
      (∀ y, x = some y ↔ First (fun z : Method => z.name = old) d.methods y) → Says U incl d m (infoOf U m s x)

/-- The name of a type parameter: what is written after the last white space. -/
def ParamName (s n : Text) : Prop := ∃ pre post, s = pre ++ n ++ post ∧ n ≠ [] ∧ (∀ c ∈ n, Verif.Yard.ws c = false) ∧
  (∀ c ∈ post, Verif.Yard.ws c = true) ∧ ∀ c ∈ pre.getLast?, Verif.Yard.ws c = true

variable (W : World)

/-- The value is an instance of the class or module, whose type parameters stand for the given values. -/
abbrev Instances := W.V → Name → (Text → W.V → Prop) → Prop

/-- What a name of a type parameter, or of a class, means in the declaration of `c` whose type parameters stand for `θ`. -/
abbrev Scopes := Name → (Text → W.V → Prop) → Reading W

/-- The type parameters of the declaration of `c`. -/
def ParamOf (L : Loader) (c : Name) (n : Text) : Prop := ∃ d s, Declared L c d ∧ s ∈ d.params ∧ ParamName s n

/-- Names are written from the root, but for the type parameters. -/
def Scoped (U : Unicode) (L : Loader) (S : Scopes W) : Prop :=
  ∀ c θ, Rooted U W (S c θ) (ParamOf L c) ∧ (∀ n v, ParamOf L c n → (S c θ).name n v → θ n v) ∧ ∀ n v, (S c θ).var n v → θ n v

/-- Instances of a class are instances of its superclass and of its included modules, with the arguments given there. -/
def Inherited (L : Loader) (I : Instances W) (S : Scopes W) : Prop :=
  ∀ v c θ d ts us t c' d', I v c θ → Declared L c d → Includes d.members ts → Super d us → t ∈ ts ++ us → Names t c' → Declared L c' d' →
    ∃ θ', I v c' θ' ∧ ∀ n args (i : Nat) s p a, t = .app n args → d'.params[i]? = some s → ParamName s p → args[i]? = some a →
      ∀ x, θ' p x → Sat (S c θ) a x

/-- The types in the arguments of superclasses and included modules have no `void` and no type parameters below tuples. -/
def Plain (L : Loader) : Prop :=
  ∀ c d ts us t n args, Declared L c d → Includes d.members ts → Super d us → t ∈ ts ++ us → t = .app n args →
    ∀ a ∈ args, Bounded (ParamOf L c) (ParamOf L c) a

/-- Arrays, hashes, literals and instances of classes are what their declarations say. -/
structure Core (L : Loader) (I : Instances W) : Prop where
  array : ∀ v d, W.isArr v → Declared L (nameOf "Array") d →
    ∃ θ, I v (nameOf "Array") θ ∧ ∀ s p x, d.params = [s] → ParamName s p → θ p x → W.elem v x
  hash : ∀ v d, W.isHash v → Declared L (nameOf "Hash") d →
    ∃ θ, I v (nameOf "Hash") θ ∧ ∀ s s', d.params = [s, s'] → (∀ p x, ParamName s p → θ p x → ∃ y, W.entry v x y) ∧
      ∀ p y, ParamName s' p → θ p y → ∃ x, W.entry v x y
  lit : ∀ l, ∃ θ, I (W.lit l) (if l.isString then nameOf "String" else nameOf "Symbol") θ
  inst : ∀ n v d, W.inst n v → Declared L n d → ∃ θ, I v n θ

/-- A type of instances whose class has a name at the top level. -/
inductive AnInstance : Ty → Prop
  | array (ts) : AnInstance (.array ts)
  | hash (ks vs) : AnInstance (.hash ks vs)
  | shape (fs r o z d) : AnInstance (.shape fs r o z d)
  | lit (l) : AnInstance (.lit l)
  | cls {n} : 58 ∉ n → AnInstance (.cls n)

/-- The class whose methods are looked for; of a path only the last name counts. -/
inductive ClassOf : Ty → Name → Prop
  | array (ts) : ClassOf (.array ts) (nameOf "Array")
  | hash (ks vs) : ClassOf (.hash ks vs) (nameOf "Hash")
  | shape (fs r o z d) : ClassOf (.shape fs r o z d) (nameOf "Hash")
  | string (s) : ClassOf (.lit ⟨true, s⟩) (nameOf "String")
  | symbol (s) : ClassOf (.lit ⟨false, s⟩) (nameOf "Symbol")
  | named {t n c} : t = .cls n ∨ t = .mod n ∨ t = .clsRef n ∨ t = .modRef n → 58 ∉ c → (n = c ∨ ∃ pre, n = pre ++ 58 :: c) → ClassOf t c

/-- The type is a class, a type parameter, an array, a hash or a tuple, of such types. -/
inductive Sure (U : Unicode) (P : Text → Prop) : Rbs → Prop
  | param {n} : P n → Sure U P (.cls n)
  | cls {n path} : RbsTypes.IsPath U n path → Sure U P (.cls n)
  | array {t} : Sure U P t → Sure U P (.app "Array".toList [t])
  | hash {k t} : Sure U P k → Sure U P t → Sure U P (.app "Hash".toList [k, t])

/-- Everything that is inherited from is declared, with as many type parameters as there are arguments, and these are plain. -/
structure Complete (U : Unicode) (L : Loader) : Prop where
  names : ∀ c d, Declared L c d → ∃ ns, List.Forall₂ ParamName d.params ns ∧ ns.Nodup
  edges : ∀ c d ts us t, Declared L c d → Includes d.members ts → Super d us → t ∈ ts ++ us →
    ∃ c' d', Names t c' ∧ Declared L c' d' ∧ ∃ n args, (t = .cls n ∧ args = [] ∨ t = .app n args) ∧ args.length = d'.params.length ∧
      ∀ a ∈ args, Sure U (ParamOf L c) a

end Verif.RbsAncestors
