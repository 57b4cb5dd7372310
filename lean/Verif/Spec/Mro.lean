import Verif.Model.Mro
import Verif.Spec.GraphStore
/-! What a method lookup chain should contain, from the facts present. -/
namespace Verif.Mro
open Verif.GraphStore Verif.Store

/-- An edge may be followed from `n`: from one of the universal roots only if it is allowed for the whole chain or the edge
comes from a language-owned file. -/
def Permitted (C : Cfg) (allow : Bool) (n : Nat) (e : Edge) : Prop :=
  C.universal n = true → allow = true ∨ C.languageOwned e.file = true

/-- `n` mixes in `m` by an edge of kind `k`. -/
def Mixin (C : Cfg) (l : Log) (allow : Bool) (k : Kind) (n m : Nat) : Prop :=
  ∃ e ∈ l.edges, e.source = n ∧ e.target = m ∧ e.kind = k ∧ Permitted C allow n e

/-- The singleton `n` gains `m` because a module its instances include or prepend extends the includer. -/
def HookLink (C : Cfg) (l : Log) (allow : Bool) (n m : Nat) : Prop :=
  C.singleton n = true ∧ ∃ e ∈ l.edges, e.source = C.inst n ∧ (e.kind = .incl ∨ e.kind = .prep) ∧ Permitted C allow n e ∧
    ∃ h ∈ l.edges, h.source = e.target ∧ h.kind = .extend ∧ h.target = m ∧ Permitted C allow n h

/-- `m` is the one proven superclass of `n`. -/
def SuperLink (C : Cfg) (l : Log) (allow : Bool) (n m : Nat) : Prop :=
  (¬ ∃ u ∈ l.unresolved, u.source = (if C.singleton n then C.inst n else n) ∧ u.kind = .superclass ∧ u.prov = .explicit) ∧
    ∃ e, SpecResolution l.edges n (.unique e) ∧ e.target = m ∧ Permitted C allow n e

/-- The permitted links. -/
def Link (C : Cfg) (l : Log) (allow : Bool) (n m : Nat) : Prop :=
  Mixin C l allow .prep n m ∨ Mixin C l allow .incl n m ∨ HookLink C l allow n m ∨ SuperLink C l allow n m

/-- `m` can be reached from `n` without entering `V`. -/
inductive Avoid (R : Nat → Nat → Prop) (V : Nat → Prop) : Nat → Nat → Prop
  | refl {n : Nat} (h : ¬ V n) : Avoid R V n n
  | step {n m k : Nat} (h : Avoid R V n m) (r : R m k) (hk : ¬ V k) : Avoid R V n k

/-- `m` can be reached from `n`. -/
def Reach (R : Nat → Nat → Prop) : Nat → Nat → Prop := Avoid R (fun _ => False)

/-- `a` stands somewhere before `b` in `l`. -/
def Before (l : List Nat) (a b : Nat) : Prop := ∃ x y, l = x ++ b :: y ∧ a ∈ x

/-! ### the whole chain -/

/-- The facts define `n`. -/
def Known (l : Log) (n : Nat) : Prop := ∃ x ∈ l.nodes, x.1 = n

/-- The kind of the first definition of `n` in source order. -/
def firstKind (l : Log) (n : Nat) : Option Nat :=
  ((stableSort (leBy fun d => [d.file, d.start, d.stop])
    ((l.nodes.filter (fun x => decide (x.1 = n))).map (·.2))).head?).map (·.kind)

/-- Some inheritance link leads from `n` to `m`. -/
def DepLink (l : Log) (n m : Nat) : Prop := ∃ e ∈ l.edges, e.source = n ∧ e.target = m ∧ e.kind ≠ .context

/-- The ancestry of `n` itself is in doubt: two superclasses are claimed, or an explicit link is unresolved. -/
def Doubt (C : Cfg) (l : Log) (n : Nat) : Prop :=
  SpecResolution l.edges n .ambiguous ∨
    ∃ u ∈ l.unresolved, u.prov = .explicit ∧ u.source = if C.singleton n then C.inst n else n

/-- Something `n` inherits from, or `n` itself, is in doubt. -/
def Unproven (C : Cfg) (l : Log) (n : Nat) : Prop := ∃ x, Reach (DepLink l) n x ∧ Doubt C l x

/-- The ancestors by the links of `n` itself; a namespace nothing is known about has no ancestor but itself, and the
top level has those of `Object`. -/
def Own (C : Cfg) (l : Log) (n x : Nat) : Prop :=
  (Known l n ∧ Reach (Link C l (C.universal n)) n x) ∨
  (¬ Known l n ∧ C.noParts n = false ∧ x = n) ∨
  (¬ Known l n ∧ C.noParts n = true ∧
    (Reach (Link C l true) C.root x ∨ Known l C.object ∧ Reach (Link C l true) C.object x))

/-- The ancestors every module and every singleton has through `Object`, when its own ancestry is not in doubt. -/
def ByObject (C : Cfg) (l : Log) (n x : Nat) : Prop :=
  Known l n ∧ ¬ Reach (Link C l (C.universal n)) n C.root ∧ C.noParts n = false ∧
    (C.singleton n = true ∨ ∃ y ∈ l.nodes, y.1 = n ∧ y.2.kind = kindModule) ∧ ¬ Unproven C l n ∧
    Known l C.object ∧ Reach (Link C l false) C.object x

/-- The ancestors a singleton has as an object: those of `Class` or `Module`. -/
def ByMetaclass (C : Cfg) (l : Log) (n x : Nat) : Prop :=
  C.singleton n = true ∧ ∃ k, firstKind l n = some k ∧ Known l (if k = kindClass then C.cls else C.modl) ∧
    Reach (Link C l false) (if k = kindClass then C.cls else C.modl) x

end Verif.Mro
