import Verif.Spec.Types
import Verif.Spec.Subtype
/-!
What reading from a Ruby hash gives, said with the entries of the hash.  The hash has no default value or default block, and does not
compare keys by identity.
-/
namespace Verif.ShapeReads
open Verif.Types

variable (W : World)

/-- A value is `nil`, `true`, `false`. -/
def IsNil (v : W.V) : Prop := W.inst (nameOf "NilClass") v
def IsTrue (v : W.V) : Prop := W.inst (nameOf "TrueClass") v
def IsFalse (v : W.V) : Prop := W.inst (nameOf "FalseClass") v

/-- `x` is the value of `v[k]`. -/
def Got (v k x : W.V) : Prop := W.entry v k x ∨ (IsNil W x ∧ ∀ y, ¬ W.entry v k y)

/-- `x` is the value of `v.fetch(k)`, which raises when the key is missing. -/
def Fetched (v k x : W.V) : Prop := W.entry v k x

/-- `x` is the value of `v.fetch(k, d)`. -/
def FetchedOr (v k d x : W.V) : Prop := W.entry v k x ∨ (x = d ∧ ∀ y, ¬ W.entry v k y)

/-- `x` is the value of `v.dig(k1, k2, …)`: of what is neither a hash nor nil, nothing is said. -/
inductive Dug : W.V → List W.V → W.V → Prop where
  | last {v k x : W.V} : Got W v k x → Dug v [k] x
  | nil {v k y x : W.V} {k' : W.V} {ks : List W.V} : Got W v k y → IsNil W y → IsNil W x → Dug v (k :: k' :: ks) x
  | hash {v k y x : W.V} {k' : W.V} {ks : List W.V} : Got W v k y → W.isHash y → Dug y (k' :: ks) x → Dug v (k :: k' :: ks) x
  | other {v k y x : W.V} {k' : W.V} {ks : List W.V} : Got W v k y → ¬ W.isHash y → ¬ IsNil W y → Dug v (k :: k' :: ks) x

/-- `x` is the value of `v.keys`, of `v.values`. -/
def KeysOf (v x : W.V) : Prop := W.isArr x ∧ ∀ k, W.elem x k ↔ ∃ y, W.entry v k y
def ValuesOf (v x : W.V) : Prop := W.isArr x ∧ ∀ y, W.elem x y ↔ ∃ k, W.entry v k y

/-- `x` is the value of `v.key?(k)`. -/
def HasKey (v k x : W.V) : Prop := (IsTrue W x ∧ ∃ y, W.entry v k y) ∨ (IsFalse W x ∧ ∀ y, ¬ W.entry v k y)

/-- What is known about the value of an argument: that it is this string or symbol, or nothing. -/
def KeyIs (key : Option Lit) (k : W.V) : Prop := ∀ l, key = some l → k = W.lit l

/-- The types the code makes: no union directly inside a union, well formed shapes, and plain types of rest keys (`PlainKey`, as for
subtyping). -/
inductive Tidy : Ty → Prop where
  | cls (n) : Tidy (.cls n)
  | mod (n) : Tidy (.mod n)
  | clsRef (n) : Tidy (.clsRef n)
  | modRef (n) : Tidy (.modRef n)
  | unknown : Tidy .unknown
  | lit (v) : Tidy (.lit v)
  | array {ts} : (∀ t ∈ ts, Tidy t) → Tidy (.array ts)
  | hash {ks vs} : (∀ t ∈ ks, Tidy t) → (∀ t ∈ vs, Tidy t) → Tidy (.hash ks vs)
  | union {ts} : (∀ t ∈ ts, Tidy t) → (∀ t ∈ ts, Simple t) → Tidy (.union ts)
  | shape {fs r o z d} : (∀ f ∈ fs, Tidy f.2.2) → (∀ k v, r = some (k, v) → Tidy k) → (∀ k v, r = some (k, v) → Tidy v) →
      (∀ k v, r = some (k, v) → PlainKey W k) → WellFormed fs r o → Tidy (.shape fs r o z d)

/-- Worlds in which a hash is not `nil`, and `nil` is not a literal. -/
def NilApart : Prop := ∀ v, IsNil W v → ¬ W.isHash v

/-- The key is in every hash of the type, or in none, as far as the type says. -/
def AlwaysHas (t : Ty) (k : Lit) : Prop :=
  ∀ x, AltOf t x → ∃ fs r o z d, x = .shape fs r o z d ∧ ∃ f ∈ fs, f.1 = k ∧ f.2.1 = false
def NeverHas (t : Ty) (k : Lit) : Prop :=
  ∀ x, AltOf t x → ∃ fs r z d, x = .shape fs r false z d ∧ ∀ f ∈ fs, f.1 ≠ k

end Verif.ShapeReads
