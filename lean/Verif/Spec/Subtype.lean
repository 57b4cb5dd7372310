import Verif.Model.Types
/-!
What a type says about Ruby values.
-/
namespace Verif.Types

/-- A world of Ruby values: which values are instances of a class or a module, which value a literal stands for, what the elements
of an array and the entries of a hash are.  Nothing is assumed about classes, except that string and symbol literals are
instances of `String` and of `Symbol`, and that a literal is neither an array nor a hash. -/
structure World where
  V : Type
  inst : Name → V → Prop
  modInst : Name → V → Prop
  clsRef : Name → V → Prop
  modRef : Name → V → Prop
  lit : Lit → V
  isArr : V → Prop
  elem : V → V → Prop
  isHash : V → Prop
  entry : V → V → V → Prop
  lit_inj : ∀ a b, lit a = lit b → a = b
  string : ∀ l, inst (nameOf "String") (lit l) ↔ l.isString = true
  symbol : ∀ l, inst (nameOf "Symbol") (lit l) ↔ l.isString = false
  lit_arr : ∀ l, ¬ isArr (lit l)
  lit_hash : ∀ l, ¬ isHash (lit l)

variable (W : World)

mutual
/-- The value is described by the type.  Whether the value is frozen is not part of it. -/
def Desc : Ty → W.V → Prop
  | .cls n, v => W.inst n v
  | .mod n, v => W.modInst n v
  | .clsRef n, v => W.clsRef n v
  | .modRef n, v => W.modRef n v
  | .lit l, v => v = W.lit l
  | .array ts, v => W.isArr v ∧ ∀ x, W.elem v x → DescAny ts x
  | .hash ks vs, v => W.isHash v ∧ ∀ k x, W.entry v k x → DescAny ks k ∧ DescAny vs x
  | .shape fs r o _ _, v => W.isHash v ∧ DescFields fs v ∧
      ∀ k x, W.entry v k x → (∀ f ∈ fs, k ≠ W.lit f.1) → DescRest r o k x
  | .union ts, v => DescAny ts v
  | .unknown, _ => True
/-- One of the types describes the value. -/
def DescAny : List Ty → W.V → Prop
  | [], _ => False
  | t :: l, v => Desc t v ∨ DescAny l v
/-- Required keys are there, and the values under the listed keys have the listed types. -/
def DescFields : List (Lit × Bool × Ty) → W.V → Prop
  | [], _ => True
  | (k, p, t) :: l, v => ((p = false → ∃ x, W.entry v (W.lit k) x) ∧ ∀ x, W.entry v (W.lit k) x → Desc t x) ∧ DescFields l v
/-- An entry under a key that is not listed. -/
def DescRest : Option (Ty × Ty) → Bool → W.V → W.V → Prop
  | some (kt, vt), _, k, x => Desc kt k ∧ Desc vt x
  | none, o, _, _ => o = true
end

/-- A type of rest keys for which "not reported to contain all strings (symbols)" means that it contains no string (symbol)
literal: no literal types, and no classes or modules other than `String` and `Symbol` that have strings or symbols as instances. -/
inductive PlainKey : Ty → Prop where
  | string : PlainKey stringTy
  | symbol : PlainKey symbolTy
  | cls {n} : (∀ l, ¬ W.inst n (W.lit l)) → PlainKey (.cls n)
  | mod {n} : (∀ l, ¬ W.modInst n (W.lit l)) → PlainKey (.mod n)
  | clsRef {n} : (∀ l, ¬ W.clsRef n (W.lit l)) → PlainKey (.clsRef n)
  | modRef {n} : (∀ l, ¬ W.modRef n (W.lit l)) → PlainKey (.modRef n)
  | array (ts) : PlainKey (.array ts)
  | hash (ks vs) : PlainKey (.hash ks vs)
  | shape (fs r o z d) : PlainKey (.shape fs r o z d)
  | union {ts} : (∀ t ∈ ts, PlainKey t) → PlainKey (.union ts)

/-- The shapes in the type have plain rest keys, and exact shapes have no optional fields. -/
inductive Plain : Ty → Prop where
  | cls (n) : Plain (.cls n)
  | mod (n) : Plain (.mod n)
  | clsRef (n) : Plain (.clsRef n)
  | modRef (n) : Plain (.modRef n)
  | unknown : Plain .unknown
  | lit (v) : Plain (.lit v)
  | array {ts} : (∀ t ∈ ts, Plain t) → Plain (.array ts)
  | hash {ks vs} : (∀ t ∈ ks, Plain t) → (∀ t ∈ vs, Plain t) → Plain (.hash ks vs)
  | union {ts} : (∀ t ∈ ts, Plain t) → Plain (.union ts)
  | shape {fs r o z d} : (∀ f ∈ fs, Plain f.2.2) → (∀ k v, r = some (k, v) → Plain k) → (∀ k v, r = some (k, v) → Plain v) →
      (∀ k v, r = some (k, v) → PlainKey W k) → (o = false → ∀ f ∈ fs, f.2.1 = false) → Plain (.shape fs r o z d)

end Verif.Types
