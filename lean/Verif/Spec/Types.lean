import Verif.Model.Types
/-!
What unions and shapes should be, said with sets of alternatives.
-/
namespace Verif.Types

/-- The alternatives of a type: the members of a union, otherwise the type itself. -/
inductive AltOf : Ty → Ty → Prop where
  | member {us : List Ty} {x : Ty} : x ∈ us → AltOf (.union us) x
  | self {t : Ty} : (∀ us, t ≠ .union us) → AltOf t t

/-- The alternatives of a list of types. -/
def Alts (ts : List Ty) (x : Ty) : Prop := ∃ t ∈ ts, AltOf t x

/-- Not a union. -/
def Simple (t : Ty) : Prop := ∀ us, t ≠ .union us

/-- No union among the alternatives. -/
def Flat (t : Ty) : Prop := ∀ x, AltOf t x → Simple x

/-- More than eight different shapes satisfy `P`. -/
def ManyShapes (P : Ty → Prop) : Prop :=
  ∃ l : List Ty, l.Nodup ∧ l.length = 9 ∧ ∀ x ∈ l, P x ∧ ∃ fs r o z d, x = .shape fs r o z d

/-- The form in which a type stands for its set of alternatives: a single alternative, or a strictly ascending list of at least
two alternatives, none of them a union or unknown, at most eight of them shapes. -/
inductive Canonical : Ty → Prop where
  | simple {t : Ty} : Simple t → Canonical t
  | union {us : List Ty} : (∀ x ∈ us, Simple x ∧ x ≠ .unknown) → 2 ≤ us.length →
      us.Pairwise (fun a b => tyLe a b = true ∧ a ≠ b) → ¬ ManyShapes (· ∈ us) → Canonical (.union us)

/-- A type without literals (keys of shapes are not types and stay). -/
inductive NoLit : Ty → Prop where
  | cls (n) : NoLit (.cls n)
  | mod (n) : NoLit (.mod n)
  | clsRef (n) : NoLit (.clsRef n)
  | modRef (n) : NoLit (.modRef n)
  | unknown : NoLit .unknown
  | array {ts} : (∀ t ∈ ts, NoLit t) → NoLit (.array ts)
  | hash {ks vs} : (∀ t ∈ ks, NoLit t) → (∀ t ∈ vs, NoLit t) → NoLit (.hash ks vs)
  | union {ts} : (∀ t ∈ ts, NoLit t) → NoLit (.union ts)
  | shape {fs r o z d} : (∀ f ∈ fs, NoLit f.2.2) → (∀ k v, r = some (k, v) → NoLit k) →
      (∀ k v, r = some (k, v) → NoLit v) → NoLit (.shape fs r o z d)

/-- Unknown occurs somewhere in the type. -/
inductive OccursUnknown : Ty → Prop where
  | here : OccursUnknown .unknown
  | array {ts t} : t ∈ ts → OccursUnknown t → OccursUnknown (.array ts)
  | key {ks vs t} : t ∈ ks → OccursUnknown t → OccursUnknown (.hash ks vs)
  | value {ks vs t} : t ∈ vs → OccursUnknown t → OccursUnknown (.hash ks vs)
  | union {ts t} : t ∈ ts → OccursUnknown t → OccursUnknown (.union ts)
  | field {fs r o z d f} : f ∈ fs → OccursUnknown f.2.2 → OccursUnknown (.shape fs r o z d)
  | restKey {fs k v o z d} : OccursUnknown k → OccursUnknown (.shape fs (some (k, v)) o z d)
  | restValue {fs k v o z d} : OccursUnknown v → OccursUnknown (.shape fs (some (k, v)) o z d)

/-- `ShapeNest t n`: the type contains `n` shapes one inside the other. -/
inductive ShapeNest : Ty → Nat → Prop where
  | zero (t) : ShapeNest t 0
  | array {ts t n} : t ∈ ts → ShapeNest t n → ShapeNest (.array ts) n
  | key {ks vs t n} : t ∈ ks → ShapeNest t n → ShapeNest (.hash ks vs) n
  | value {ks vs t n} : t ∈ vs → ShapeNest t n → ShapeNest (.hash ks vs) n
  | union {ts t n} : t ∈ ts → ShapeNest t n → ShapeNest (.union ts) n
  | leaf {fs r o z d} : ShapeNest (.shape fs r o z d) 1
  | field {fs r o z d f n} : f ∈ fs → ShapeNest f.2.2 n → ShapeNest (.shape fs r o z d) (n + 1)
  | restKey {fs k v o z d n} : ShapeNest k n → ShapeNest (.shape fs (some (k, v)) o z d) (n + 1)
  | restValue {fs k v o z d n} : ShapeNest v n → ShapeNest (.shape fs (some (k, v)) o z d) (n + 1)

/-- A well formed shape, given the types in it. -/
structure WellFormed (fs : List Field) (r : Option (Ty × Ty)) (isOpen : Bool) : Prop where
  bound : fs.length ≤ 32
  sorted : fs.Pairwise (fun a b => litLe a.1 b.1 = true ∧ a.1 ≠ b.1)
  exact : isOpen = false → r = none
  fields : ∀ f ∈ fs, ¬ OccursUnknown f.2.2
  rest : ∀ k v, r = some (k, v) → ¬ OccursUnknown k ∧ ¬ OccursUnknown v

/-- Every shape inside the type was made by `try_new` (the only way the code makes shapes). -/
inductive Built : Ty → Prop where
  | cls (n) : Built (.cls n)
  | mod (n) : Built (.mod n)
  | clsRef (n) : Built (.clsRef n)
  | modRef (n) : Built (.modRef n)
  | unknown : Built .unknown
  | lit (v) : Built (.lit v)
  | array {ts} : (∀ t ∈ ts, Built t) → Built (.array ts)
  | hash {ks vs} : (∀ t ∈ ks, Built t) → (∀ t ∈ vs, Built t) → Built (.hash ks vs)
  | union {ts} : (∀ t ∈ ts, Built t) → Built (.union ts)
  | shape {fs r o z t} : (∀ f ∈ fs, Built f.2.2) → (∀ k v, r = some (k, v) → Built k) →
      (∀ k v, r = some (k, v) → Built v) → tryNew fs r o z = .ok t → Built t

/-- The alternatives of a type, unions inside unions opened. -/
inductive DeepAlt : Ty → Ty → Prop where
  | self {t : Ty} : Simple t → DeepAlt t t
  | member {us : List Ty} {u x : Ty} : u ∈ us → DeepAlt u x → DeepAlt (.union us) x

/-- An admissible list of alternatives: not empty, at most eight different shapes. -/
def TameList (ts : List Ty) : Prop := ts ≠ [] ∧ ¬ ManyShapes (fun x => ∃ t ∈ ts, DeepAlt t x)

/-- A type whose lists of alternatives are all admissible. -/
inductive Tame : Ty → Prop where
  | cls (n) : Tame (.cls n)
  | mod (n) : Tame (.mod n)
  | clsRef (n) : Tame (.clsRef n)
  | modRef (n) : Tame (.modRef n)
  | unknown : Tame .unknown
  | lit (v) : Tame (.lit v)
  | array {ts} : TameList ts → (∀ t ∈ ts, Tame t) → Tame (.array ts)
  | hash {ks vs} : TameList ks → TameList vs → (∀ t ∈ ks, Tame t) → (∀ t ∈ vs, Tame t) → Tame (.hash ks vs)
  | union {ts} : TameList ts → (∀ t ∈ ts, Tame t) → Tame (.union ts)
  | shape {fs r o z d} : (∀ f ∈ fs, Tame f.2.2) → (∀ k v, r = some (k, v) → Tame k) → (∀ k v, r = some (k, v) → Tame v) →
      Tame (.shape fs r o z d)

/-- Every shape in the type is tame; outside shapes anything goes. -/
inductive ShapesTame : Ty → Prop where
  | cls (n) : ShapesTame (.cls n)
  | mod (n) : ShapesTame (.mod n)
  | clsRef (n) : ShapesTame (.clsRef n)
  | modRef (n) : ShapesTame (.modRef n)
  | unknown : ShapesTame .unknown
  | lit (v) : ShapesTame (.lit v)
  | array {ts} : (∀ t ∈ ts, ShapesTame t) → ShapesTame (.array ts)
  | hash {ks vs} : (∀ t ∈ ks, ShapesTame t) → (∀ t ∈ vs, ShapesTame t) → ShapesTame (.hash ks vs)
  | union {ts} : (∀ t ∈ ts, ShapesTame t) → ShapesTame (.union ts)
  | shape {fs r o z d} : Tame (.shape fs r o z d) → ShapesTame (.shape fs r o z d)

end Verif.Types
