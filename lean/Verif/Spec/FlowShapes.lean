import Verif.Model.FlowShapes
import Verif.Spec.Types
/-!
What the shapes of local variables should satisfy.
-/
namespace Verif.FlowShapes
open Verif.Types

variable {n : Nat}

/-- The identities that an edge connects with each other, directly or through others. -/
inductive Connected (links : List Link) : Id → Id → Prop where
  | refl (i) : Connected links i i
  | down {i l} : Connected links i l.parent → l ∈ links → Connected links i l.child
  | up {i l} : Connected links i l.child → l ∈ links → Connected links i l.parent

/-- The entries of an environment belong together. -/
structure Consistent (S : Tracker n) : Prop where
  /-- a name with identities has a type, and the identities exist -/
  names : ∀ x ids, S.env.binds x = some ids → (∃ t, S.env.types x = some t) ∧ ∀ i ∈ ids, S.env.states i ≠ none
  /-- an identity that is known has only shapes as alternatives, and at least one -/
  shapes : ∀ i t, S.env.states i = some (.proven t) → (∃ u, DeepAlt t u) ∧ ∀ u, DeepAlt t u → ∃ fs r o z d, u = .shape fs r o z d
  /-- edges are between two different identities that exist -/
  edges : ∀ l ∈ S.env.links, S.env.states l.parent ≠ none ∧ S.env.states l.child ≠ none ∧ l.parent ≠ l.child
  /-- there is at most one child under a key -/
  keys : ∀ l ∈ S.env.links, ∀ m ∈ S.env.links, l.parent = m.parent → l.key = m.key → l.child = m.child
  /-- a name with positions of an array is an array, has no identities itself, and the identities in it exist -/
  arrays : ∀ x a, S.env.arrays x = some a → (∃ ts, S.env.types x = some (.array ts)) ∧ S.env.binds x = none ∧
    (∀ i ∈ a.contained, S.env.states i ≠ none) ∧ ∀ p ∈ a.positions, ∀ i ∈ p.2, i ∈ a.contained
  /-- new identities are new -/
  fresh : ∀ i, S.env.states i ≠ none → i < S.next

/-- At most eight names and edges lead to an identity that is known. -/
def Few (E : Env n) : Prop := ∀ i t, E.states i = some (.proven t) →
  (Finset.univ.filter fun x => ∃ s, E.binds x = some s ∧ i ∈ s).card + (E.links.filter fun l => l.child = i).length ≤ 8

/-- A name is not known, or its shapes are those of its identities. -/
def Agrees (E : Env n) : Prop := ∀ x ids t, E.binds x = some ids → E.types x = some t → t = .unknown ∨
  ∀ u, u.isShape = true → (DeepAlt t u ↔ ∃ i ∈ ids, ∃ s, E.states i = some (.proven s) ∧ DeepAlt s u)

/-- Every shape among the alternatives of a name belongs to an identity of the name. -/
def Owned (E : Env n) (x : Fin n) : Prop := E.binds x = none → ∀ t u, E.types x = some t → DeepAlt t u → u.isShape = false

/-- The function leaves shapes of shapes. -/
def Keeps (f : Ty → Except Reason (Option Ty)) : Prop := ∀ t u, isShapeOnly t = true → f t = .ok (some u) → isShapeOnly u = true

/-- The two things that make the analysis panic do not happen: an array literal with an element that is a hash literal that is too
large, and a variable with positions of an array that is narrowed to something else. -/
def Safe : Code n → Tracker n → Prop
  | .assign _ v, S => ∀ es, v = .array es → ∃ ts, elemTypes S.env es = .ok ts
  | .narrow x t, S => S.env.arrays x = none ∨ ∃ ts, t = .array ts
  | .guard _ f, _ => Keeps f
  | .seq a b, S => Safe a S ∧ ∀ S', run a S = some S' → Safe b S'
  | .branch a b, S => Safe a S ∧ ∀ A, run a S = some A → Safe b ⟨S.env, A.next⟩
  | .scratch a, S => Safe a S
  | _, _ => True

/-- Code without conditions about classes, and without hash literals in array literals. -/
inductive Plain : Code n → Prop where
  | skip : Plain .skip
  | assign {x v} : (∀ es, v = .array es → ∀ e ∈ es, ∃ p, e = .part p) → Plain (.assign x v)
  | insert (x t) : Plain (.insert x t)
  | setField (y k v) : Plain (.setField y k v)
  | change (y m) : Plain (.change y m)
  | escape (p) : Plain (.escape p)
  | guard {y k b} : Plain (.guard y (presence k b))
  | seq {a b} : Plain a → Plain b → Plain (.seq a b)
  | branch {a b} : Plain a → Plain b → Plain (.branch a b)
  | scratch {a} : Plain a → Plain (.scratch a)

/-- The identities of `y` can all be changed: they are known, or there is only one, and no other hash contains them. -/
def Separate (E : Env n) (y : Fin n) : Prop := ∀ ids, E.binds y = some ids →
  ((∀ i ∈ ids, ∃ t, E.states i = some (.proven t)) ∨ ids.card ≤ 1) ∧ ∀ l ∈ E.links, l.child ∉ ids

/-- Hashes are only changed if that is possible for all that are meant, and names with identities are not narrowed. -/
def Regular : Code n → Tracker n → Prop
  | .setField y _ _, S => Separate S.env y
  | .change y _, S => Separate S.env y
  | .narrow x _, S => S.env.binds x = none
  | .seq a b, S => Regular a S ∧ ∀ S', run a S = some S' → Regular b S'
  | .branch a b, S => Regular a S ∧ ∀ A, run a S = some A → Regular b ⟨S.env, A.next⟩
  | .scratch a, S => Regular a S
  | _, _ => True

/-- No shape is an alternative. -/
def NoShape (t : Ty) : Prop := ∀ u, DeepAlt t u → u.isShape = false

/-- The types that come from outside are of hashes only, or of no hash. -/
def TameValue : Value n → Prop
  | .index _ _ t => isShapeOnly t = true ∨ NoShape t
  | .keyed _ _ t => isShapeOnly t = true ∨ NoShape t
  | .other t => isShapeOnly t = true ∨ NoShape t
  | _ => True

/-- Types that come from outside do not mix hashes with other things. -/
def Tame : Code n → Prop
  | .assign _ v => TameValue v
  | .insert _ t => NoShape t
  | .narrow _ t => NoShape t
  | .seq a b => Tame a ∧ Tame b
  | .branch a b => Tame a ∧ Tame b
  | .scratch a => Tame a
  | _ => True

/-- One hash before and after `h[:k] = v` with a value of type `t`: a frozen hash stays, another has the field now. -/
def Written (k : Lit) (t : Ty) (u w : Ty) : Prop := ∃ fs r o z d, u = .shape fs r o z d ∧
  (z = true ∧ w = u ∨ z = false ∧ ∃ gs d', w = .shape gs r o false d' ∧ ∀ g, g ∈ gs ↔ g = (k, false, t) ∨ g ∈ fs ∧ g.1 ≠ k)

/-- One hash before and after another change. -/
def Mutated (m : Mutation) (u w : Ty) : Prop := ∃ fs r o z d, u = .shape fs r o z d ∧
  match m with
  | .delete k => z = true ∧ w = u ∨ z = false ∧ ∃ gs d', w = .shape gs r o false d' ∧ ∀ g, g ∈ gs ↔ g ∈ fs ∧ g.1 ≠ k
  | .clear => z = true ∧ w = u ∨ z = false ∧ ∃ d', w = .shape [] none false false d'
  | .freeze => ∃ gs d', w = .shape gs r o true d' ∧ ∀ g, g ∈ gs ↔ g ∈ fs

/-! ### programs for the examples -/

/-- The key `:c`. -/
def sym (c : Char) : Lit := ⟨false, [c.toNat]⟩

def int : Ty := .cls (nameOf "Integer")

def seqs : List (Code n) → Code n
  | [] => .skip
  | c :: l => .seq c (seqs l)

/-- The type that a variable has after a method body. -/
def typeAfter (c : Code n) (x : Fin n) : Option (Option Ty) := (runMethod c).map fun S => S.env.types x

/-- `{a: 1, b: 1}`. -/
def lit (ks : List Char) : Value n := .hash (ks.map fun k => (sym k, .typed int))

/-- The type of `{a: 1, b: 1}`. -/
def shapeOf (ks : List Char) : Ty := match tryNew (ks.map fun k => (sym k, false, int)) none false false with
  | .ok t => t
  | .error _ => .unknown

end Verif.FlowShapes
