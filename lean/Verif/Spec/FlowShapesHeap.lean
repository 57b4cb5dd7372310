import Verif.Spec.FlowShapes
/-!
What happens when code is executed: variables hold values or hashes, hashes are objects that several variables and the world outside
may share.  Hashes contain values that are not hashes.
-/
namespace Verif.FlowShapes
open Verif.Types

variable {n : Nat} {V : Type}

abbrev Addr := Nat

/-- What a variable holds. -/
inductive Val (V : Type) where
  | imm (v : V)
  | obj (a : Addr)

/-- A hash: the values under literal keys, whether it has other keys, and whether it is frozen. -/
structure Obj (V : Type) where
  fields : Lit → Option V
  others : Bool
  frozen : Bool

/-- The variables, the hashes, and which of them are known outside of the method. -/
structure World (n : Nat) (V : Type) where
  vars : Fin n → Val V
  heap : Addr → Option (Obj V)
  shared : Addr → Prop

/-- What is assumed of values: which value is nil, and which types other than shapes describe a value or a hash. -/
structure Values (V : Type) where
  nil : V
  has : Val V → Ty → Prop
  has_nil : has (.imm nil) nilTy
  has_hash : ∀ a, has (.obj a) (.hash [.unknown] [.unknown])

variable (L : Values V)

/-- A value is described by an alternative of a type that is not a shape. -/
def Values.Holds (v : Val V) (t : Ty) : Prop := ∃ u, DeepAlt t u ∧ u.isShape = false ∧ (u = .unknown ∨ L.has v u)

/-- A hash is as a shape says. -/
def Values.Fits (u : Ty) (o : Obj V) : Prop := ∃ fs r isOpen z d, u = .shape fs r isOpen z d ∧
  (z = true → o.frozen = true) ∧
  (∀ f ∈ fs, (o.fields f.1 = none → f.2.1 = true) ∧ ∀ v, o.fields f.1 = some v → L.Holds (.imm v) f.2.2) ∧
  (isOpen = false → o.others = false ∧ ∀ k, o.fields k ≠ none → ∃ f ∈ fs, f.1 = k) ∧
  (∀ k v, o.fields k = some v → (∀ f ∈ fs, f.1 ≠ k) → ∀ kt vt, r = some (kt, vt) → L.Holds (.imm v) vt)

/-- A type describes what a variable holds. -/
def Values.Describes (σ : World n V) (t : Ty) (v : Val V) : Prop :=
  L.Holds v t ∨ ∃ u a o, DeepAlt t u ∧ v = .obj a ∧ σ.heap a = some o ∧ L.Fits u o

/-- Other code runs: it may change the hashes it knows and create new ones. -/
structure Foreign (σ τ : World n V) : Prop where
  vars : τ.vars = σ.vars
  shared : ∀ a, σ.shared a → τ.shared a
  alloc : ∀ a, (σ.heap a).isSome = true → (τ.heap a).isSome = true
  own : ∀ a o, σ.heap a = some o → ¬ σ.shared a → τ.heap a = some o ∧ ¬ τ.shared a

def World.set (σ : World n V) (x : Fin n) (v : Val V) : World n V := ⟨put σ.vars x v, σ.heap, σ.shared⟩

def World.store (σ : World n V) (a : Addr) (o : Obj V) : World n V := ⟨σ.vars, put σ.heap a (some o), σ.shared⟩

/-- A part of a literal has a value. -/
def Values.Eval (σ : World n V) : Part n → V → Prop
  | .var y, v => σ.vars y = .imm v
  | .typed t, v => L.Holds (.imm v) t

/-- The fields of a literal are evaluated from the left; the last with a key counts. -/
inductive Values.Build (L : Values V) (σ : World n V) : (Lit → Option V) → List (Lit × Part n) → (Lit → Option V) → Prop where
  | nil (m) : Build L σ m [] m
  | cons {m m' k p v l} : L.Eval σ p v → Build L σ (put m k (some v)) l m' → Build L σ m ((k, p) :: l) m'

/-- What a call gives, of which the analysis knows that it is of a type: a value or a hash that is known outside, or a new hash. -/
def Values.Given (σ τ : World n V) (t : Ty) (v : Val V) : Prop :=
  (L.Holds v t ∧ ∀ a, v = .obj a → τ.shared a) ∨
  ∃ u a o, DeepAlt t u ∧ L.Fits u o ∧ v = .obj a ∧ σ.heap a = none ∧ τ.heap a = some o ∧ ¬ τ.shared a

def Mutation.on (m : Mutation) (o : Obj V) : Obj V :=
  match m with
  | .delete k => ⟨put o.fields k none, o.others, o.frozen⟩
  | .clear => ⟨fun _ => none, false, o.frozen⟩
  | .freeze => ⟨o.fields, o.others, true⟩

/-- Code is executed to its end.  A frozen hash that is written raises an error. -/
inductive Values.Exec (L : Values V) : Code n → World n V → World n V → Prop where
  | skip (σ) : Exec L .skip σ σ
  | read (x y σ) : Exec L (.assign x (.read y)) σ (σ.set x (σ.vars y))
  | hash {x fs σ m a} : L.Build σ (fun _ => none) fs m → σ.heap a = none → ¬ σ.shared a →
      Exec L (.assign x (.hash fs)) σ ((σ.store a ⟨m, false, false⟩).set x (.obj a))
  | other {x t σ τ v} : Foreign σ τ → L.Given σ τ t v → Exec L (.assign x (.other t)) σ (τ.set x v)
  | insert {x t σ v} : L.Holds v t → (∀ a, v = .obj a → σ.shared a) → Exec L (.insert x t) σ (σ.set x v)
  | write {y k p σ a o v} : σ.vars y = .obj a → σ.heap a = some o → o.frozen = false → L.Eval σ p v →
      Exec L (.setField y k p) σ (σ.store a ⟨put o.fields k (some v), o.others, o.frozen⟩)
  | writeOther {y k p σ τ v} : σ.vars y = .imm v → Foreign σ τ → Exec L (.setField y k p) σ τ
  | change {y m σ a o} : σ.vars y = .obj a → σ.heap a = some o → (o.frozen = false ∨ m = .freeze) → Exec L (.change y m) σ (σ.store a (m.on o))
  | changeOther {y m σ τ v} : σ.vars y = .imm v → Foreign σ τ → Exec L (.change y m) σ τ
  | escape {y σ τ a} : σ.vars y = .obj a → Foreign ⟨σ.vars, σ.heap, fun b => b = a ∨ σ.shared b⟩ τ → Exec L (.escape (.var y)) σ τ
  | escapeOther {p σ τ} : (∀ y a, p = .var y → σ.vars y ≠ .obj a) → Foreign σ τ → Exec L (.escape p) σ τ
  | guard {y k b σ a o} : σ.vars y = .obj a → σ.heap a = some o → (o.fields k).isSome = b → Exec L (.guard y (presence k b)) σ σ
  | guardOther {y f σ v} : σ.vars y = .imm v → Exec L (.guard y f) σ σ
  | seq {a b σ τ υ} : Exec L a σ τ → Exec L b τ υ → Exec L (.seq a b) σ υ
  | left {a b σ τ} : Exec L a σ τ → Exec L (.branch a b) σ τ
  | right {a b σ τ} : Exec L b σ τ → Exec L (.branch a b) σ τ
  /-- a branch that does not reach the end is not the one that was taken -/
  | scratch (a σ) : Exec L (.scratch a) σ σ

/-! ### the code that the theorem is about -/

/-- All that the variable may be is one hash that is known, or it is not tracked at all. -/
def Sole (E : Env n) (y : Fin n) : Prop := ∀ ids, E.binds y = some ids → ids.card ≤ 1 ∧
  ∀ i ∈ ids, ∀ s, E.states i = some (.proven s) → ∃ t, E.types y = some t ∧ isShapeOnly t = true

/-- What is put into a hash is no hash. -/
def FlatPart (E : Env n) : Part n → Prop
  | .var y => E.binds y = none
  | .typed t => NoShape t

/-- A type of hashes in which there are no hashes, made as all shapes are. -/
def FlatType (t : Ty) : Prop := ∀ u, DeepAlt t u → ∃ fs r o z, tryNew fs r o z = .ok u ∧ ∀ f ∈ fs, isShapeOnly f.2.2 = false

/-- Code with hashes that contain no hashes, in which only single hashes are changed or asked for keys. -/
def Flat : Code n → Tracker n → Prop
  | .skip, _ => True
  | .assign _ (.read _), _ => True
  | .assign _ (.hash fs), S => ∀ f ∈ fs, FlatPart S.env f.2
  | .assign _ (.other t), _ => NoShape t ∨ isShapeOnly t = true ∧ FlatType t
  | .assign _ _, _ => False
  | .insert _ t, _ => NoShape t
  | .setField y _ v, S => Sole S.env y ∧ FlatPart S.env v
  | .change y _, S => Sole S.env y
  | .escape _, _ => True
  | .guard y f, S => Sole S.env y ∧ ∃ k b, f = presence k b
  | .narrow _ _, _ => False
  | .seq a b, S => Flat a S ∧ ∀ S', run a S = some S' → Flat b S'
  | .branch a b, S => Flat a S ∧ ∀ A, run a S = some A → Flat b ⟨S.env, A.next⟩
  | .scratch a, S => Flat a S

end Verif.FlowShapes
