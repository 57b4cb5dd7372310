import Verif.Model.HigherOrder
import Verif.Spec.Types
/-!
What the signature of a method with a block says about Ruby values, and what a call tells about its type variables.
-/
namespace Verif.HigherOrder
open Verif.Types

/-- The variable occurs in the template. -/
inductive Occ (x : Var) : Tmpl → Prop where
  | var : Occ x (.var x)
  | array {e} : Occ x e → Occ x (.array e)
  | key {k v} : Occ x k → Occ x (.hash k v)
  | value {k v} : Occ x v → Occ x (.hash k v)
  | union {m ms} : m ∈ ms → Occ x m → Occ x (.union ms)

/-- One member of a union template takes an alternative for itself (`self` stands for the type of the receiver). -/
inductive Takes (recv : Option Ty) : Tmpl → Ty → Prop where
  | concrete {e y} : compat e y = .ok true → Takes recv (.concrete e) y
  | self {t y} : recv = some t → compat t y = .ok true → Takes recv .receiver y
  | unconstrained {y} : Takes recv .unconstrained y

/-- Comparing a type with a template tells the variable `x` that it stands for (at least) the values of `z`. -/
inductive Gives (recv : Option Ty) (x : Var) : Tmpl → Ty → Ty → Prop where
  | var {a} : Gives recv x (.var x) a a
  | array {e es z} : Gives recv x e (mkUnion es) z → Gives recv x (.array e) (.array es) z
  | key {k v ks vs z} : Gives recv x k (mkUnion ks) z → Gives recv x (.hash k v) (.hash ks vs) z
  | value {k v ks vs z} : Gives recv x v (mkUnion vs) z → Gives recv x (.hash k v) (.hash ks vs) z
  | shape {k v fs r o s d g z} : genericHash fs r o = some g → Gives recv x (.hash k v) g z → Gives recv x (.hash k v) (.shape fs r o s d) z
  | union {ms a y} : .var x ∈ ms → AltOf a y → (∀ m ∈ ms, ¬ Takes recv m y) → Gives recv x (.union ms) a y

/-- `i` is the last place at which the variable itself is the template. -/
def Last (x : Var) (ts : List Tmpl) (i : Nat) : Prop := ts[i]? = some (.var x) ∧ ∀ j, i < j → ts[j]? ≠ some (.var x)

variable (W : World)

mutual
/-- The value is described by the template, if `self` stands for the values `R` and each variable `x` for the values `θ x`. -/
def TDesc (R : W.V → Prop) (θ : Var → W.V → Prop) : Tmpl → W.V → Prop
  | .concrete t, v => Desc W t v
  | .receiver, v => R v
  | .var x, v => θ x v
  | .array e, v => W.isArr v ∧ ∀ x, W.elem v x → TDesc R θ e x
  | .hash k w, v => W.isHash v ∧ ∀ a b, W.entry v a b → TDesc R θ k a ∧ TDesc R θ w b
  | .union ms, v => TDescAny R θ ms v
  | .unconstrained, _ => True
def TDescAny (R : W.V → Prop) (θ : Var → W.V → Prop) : List Tmpl → W.V → Prop
  | [], _ => False
  | m :: ms, v => TDesc R θ m v ∨ TDescAny R θ ms v
end

/-- The values of the type of the receiver. -/
def Self (recv : Option Ty) (v : W.V) : Prop := ∃ t, recv = some t ∧ Desc W t v

/-- What is known about the variables when the block is entered: the bindings of the receiver and what the arguments give. -/
def Before (recv : Option Ty) (binds : List (Var × Ty)) (args : List Ty) (g : Sig) (x : Var) (v : W.V) : Prop :=
  (x ∈ g.params ∧ ∃ t, (x, t) ∈ binds ∧ Desc W t v) ∨
  ∃ i a t z, args[i]? = some a ∧ paramAt (positional g.args) i = some t ∧ Gives recv x t a z ∧ Desc W z v

/-- The same, after the block has left the objects it was given in the state `post`. -/
def Start (recv : Option Ty) (binds : List (Var × Ty)) (args : List Ty) (g : Sig) (post : Option (List Ty)) (x : Var) (v : W.V) : Prop :=
  match post with
  | none => Before W recv binds args g x v
  | some as => (∃ i a, Last x g.blockParams i ∧ as[i]? = some a ∧ Desc W a v) ∨
      ((∀ i, ¬ Last x g.blockParams i) ∧ Before W recv binds args g x v)

/-- What is known about the variables in the end: also what the result of the block gives. -/
def After (recv : Option Ty) (binds : List (Var × Ty)) (args : List Ty) (g : Sig) (ret : Ty) (post : Option (List Ty)) (x : Var) (v : W.V) : Prop :=
  Start W recv binds args g post x v ∨ ∃ z, Gives recv x g.blockRet ret z ∧ Desc W z v

/-- Where a type is compared with a concrete type, its values are values of that type. -/
def Honest (recv : Option Ty) : Tmpl → Ty → Prop
  | .concrete e, a => ∀ v, Desc W a v → Desc W e v
  | .receiver, a => ∀ v, Desc W a v → Self W recv v
  | .var _, _ => True
  | .array e, a => ∀ es, a = .array es → Honest recv e (mkUnion es)
  | .hash k w, a => ∀ ks vs, (a = .hash ks vs ∨ ∃ fs r o s d, a = .shape fs r o s d ∧ genericHash fs r o = some (.hash ks vs)) →
      Honest recv k (mkUnion ks) ∧ Honest recv w (mkUnion vs)
  | .union ms, a => ∀ y, AltOf a y → (∃ m ∈ ms, Takes recv m y) →
      .unconstrained ∈ ms ∨ (∃ e, .concrete e ∈ ms ∧ ∀ v, Desc W y v → Desc W e v) ∨ (.receiver ∈ ms ∧ ∀ v, Desc W y v → Self W recv v)
  | .unconstrained, _ => True

/-! ### Ruby -/

/-- The parameter of a method that takes argument `i` of `n` in Ruby: required parameters in front take the first arguments,
required parameters behind optional ones or a rest parameter take the last ones, what is between goes to the optional parameters
from the left and then to the rest parameter. -/
def rubyParam {α : Type} (ps : List (Kind × α)) (n i : Nat) : Option α :=
  let front := ps.takeWhile (fun p => decide (p.1 = .required))
  let others := ps.drop front.length
  let back := others.filter (fun p => decide (p.1 = .required))
  let optional := others.filter (fun p => decide (p.1 = .optional))
  if i < front.length then (front[i]?).map (·.2)
  else if n - back.length ≤ i then (back[i - (n - back.length)]?).map (·.2)
  else match optional[i - front.length]? with
    | some p => some p.2
    | none => (others.find? (fun p => decide (p.1 = .rest))).map (·.2)

/-- A method: given the arguments and how the block may answer the values it is given, what it may return. -/
def Meth : Type := List W.V → (List W.V → W.V → Prop) → W.V → Prop

/-- The method keeps its signature: whatever the type variables stand for, if they contain what the receiver binds them to, the
arguments are as the parameters say and the block answers as declared when it is called as declared, then the method returns a
value as declared. -/
def Conforms (recv : Option Ty) (binds : List (Var × Ty)) (g : Sig) (m : Meth W) : Prop :=
  ∀ θ : Var → W.V → Prop, (∀ x t, x ∈ g.params → (x, t) ∈ binds → ∀ v, Desc W t v → θ x v) →
  ∀ args blk r,
    (∀ i v t, args[i]? = some v → rubyParam (positional g.args) args.length i = some t → TDesc W (Self W recv) θ t v) →
    (∀ vs w, List.Forall₂ (TDesc W (Self W recv) θ) g.blockParams vs → blk vs w → TDesc W (Self W recv) θ g.blockRet w) →
    m args blk r → TDesc W (Self W recv) θ g.ret r

/-- Positional parameters are written as required ones, then optional ones, then at most one rest parameter. -/
def InOrder (ps : List (Kind × Tmpl)) : Prop :=
  ∃ req opt rest, ps = req ++ opt ++ rest ∧ (∀ p ∈ req, p.1 = .required) ∧ (∀ p ∈ opt, p.1 = .optional) ∧
    (∀ p ∈ rest, p.1 = .rest) ∧ rest.length ≤ 1

end Verif.HigherOrder
