import Verif.Model.Common
import Verif.Model.Arena
import Verif.Model.Sort
/-!
Model of `RubyType` and `ShapeType` (crates/ruby-analysis/src/core/ruby_type.rs and shape_type.rs).

Simplifications: a fully qualified name is a list of numbers, of which only equality and the lexicographic order matter; the texts
of literals and keys are lists of numbers (UTF-8 bytes, the order of `String`); `Box` is left out; `usize` and `u8` are
unbounded (a depth never exceeds 8); a panic is `none`.
-/
namespace Verif.Types
open Verif.Store

/-- core/fully_qualified_name.rs L20-21. -/
abbrev Name := List Nat

/-- core/shape_type.rs L24-27 `LiteralValue` and L60-63 `LiteralKey`, which have the same shape. -/
structure Lit where
  isString : Bool
  text : List Nat
  deriving DecidableEq

/-- core/ruby_type.rs L8-33 `RubyType`; `shape` has the fields of `ShapeType` (core/shape_type.rs L186-193), each field being a
key, whether it is optional, and its type (L107-112). -/
inductive Ty where
  | cls (n : Name)
  | mod (n : Name)
  | clsRef (n : Name)
  | modRef (n : Name)
  | lit (v : Lit)
  | array (ts : List Ty)
  | hash (ks vs : List Ty)
  | shape (fields : List (Lit × Bool × Ty)) (rest : Option (Ty × Ty)) (isOpen : Bool) (frozen : Bool) (depth : Nat)
  | union (ts : List Ty)
  | unknown

abbrev Field := Lit × Bool × Ty

def natOfBool (b : Bool) : Nat := if b then 1 else 0

/-- Tokens of a list of numbers: a mark before each element, an end mark after the last. -/
def encNats : List Nat → List Nat
  | [] => [0]
  | a :: l => 1 :: a :: encNats l

/-- Tokens of a literal or key. -/
def Lit.enc (v : Lit) : List Nat := natOfBool v.isString :: encNats v.text

mutual
/-- The tokens that the derived `Ord` of `RubyType`, `ShapeType`, `ShapeField` and `ShapeRest` compares one after the other: the
index of the variant, then its fields in order; the elements of a vector each after a mark, then an end mark smaller than
the mark.  The derived order is the lexicographic order of these token lists. -/
def Ty.enc : Ty → List Nat
  | .cls n => 0 :: encNats n
  | .mod n => 1 :: encNats n
  | .clsRef n => 2 :: encNats n
  | .modRef n => 3 :: encNats n
  | .lit v => 4 :: v.enc
  | .array ts => 5 :: encList ts
  | .hash ks vs => 6 :: (encList ks ++ encList vs)
  | .shape fs r o z d => 7 :: (encFields fs ++ encRest r ++ [natOfBool o, natOfBool z, d])
  | .union ts => 8 :: encList ts
  | .unknown => [9]
def encList : List Ty → List Nat
  | [] => [0]
  | t :: l => 1 :: (t.enc ++ encList l)
def encFields : List (Lit × Bool × Ty) → List Nat
  | [] => [0]
  | (k, p, t) :: l => 1 :: (k.enc ++ (natOfBool p :: t.enc) ++ encFields l)
def encRest : Option (Ty × Ty) → List Nat
  | none => [0]
  | some (k, v) => 1 :: (k.enc ++ v.enc)
end

theorem encNats_inj : ∀ {a b r s : List Nat}, encNats a ++ r = encNats b ++ s → a = b ∧ r = s := by
  intro a
  induction a with
  | nil => intro b r s h; cases b <;> simp_all [encNats]
  | cons x a ih =>
    intro b r s h
    cases b with
    | nil => simp [encNats] at h
    | cons y b =>
      simp only [encNats, List.cons_append, List.cons.injEq, true_and] at h
      have := ih h.2
      exact ⟨by rw [h.1, this.1], this.2⟩

theorem natOfBool_inj {a b : Bool} (h : natOfBool a = natOfBool b) : a = b := by
  cases a <;> cases b <;> simp_all [natOfBool]

theorem Lit.enc_inj {a b : Lit} {r s : List Nat} (h : a.enc ++ r = b.enc ++ s) : a = b ∧ r = s := by
  cases a; cases b
  simp only [Lit.enc, List.cons_append, List.cons.injEq] at h
  have h1 := natOfBool_inj h.1
  have h2 := encNats_inj h.2
  simp [h1, h2.1, h2.2]

mutual
theorem Ty.enc_inj : ∀ (a b : Ty) (r s : List Nat), a.enc ++ r = b.enc ++ s → a = b ∧ r = s := by
  intro a b r s h
  cases a with
  | cls n => cases b <;> simp [Ty.enc] at h ⊢; exact encNats_inj h
  | mod n => cases b <;> simp [Ty.enc] at h ⊢; exact encNats_inj h
  | clsRef n => cases b <;> simp [Ty.enc] at h ⊢; exact encNats_inj h
  | modRef n => cases b <;> simp [Ty.enc] at h ⊢; exact encNats_inj h
  | lit n => cases b <;> simp [Ty.enc] at h ⊢; exact Lit.enc_inj h
  | array ts => cases b <;> simp [Ty.enc] at h ⊢; exact encList_inj ts _ _ _ h
  | hash ks vs =>
    cases b <;> simp [Ty.enc] at h ⊢
    have h1 := encList_inj ks _ _ _ h
    have h2 := encList_inj vs _ _ _ h1.2
    exact ⟨⟨h1.1, h2.1⟩, h2.2⟩
  | shape fs rst o z d =>
    cases b <;> simp [Ty.enc] at h ⊢
    have h1 := encFields_inj fs _ _ _ h
    have h2 := encRest_inj rst _ _ _ h1.2
    simp only [List.cons.injEq] at h2
    exact ⟨⟨h1.1, h2.1, natOfBool_inj h2.2.1, natOfBool_inj h2.2.2.1, h2.2.2.2.1⟩, h2.2.2.2.2⟩
  | union ts => cases b <;> simp [Ty.enc] at h ⊢; exact encList_inj ts _ _ _ h
  | unknown => cases b <;> simp [Ty.enc] at h ⊢; exact h
theorem encList_inj : ∀ (a b : List Ty) (r s : List Nat), encList a ++ r = encList b ++ s → a = b ∧ r = s := by
  intro a b r s h
  cases a with
  | nil => cases b <;> simp [encList] at h ⊢; exact h
  | cons t l =>
    cases b with
    | nil => simp [encList] at h
    | cons t' l' =>
      simp only [encList, List.cons_append, List.append_assoc, List.cons.injEq, true_and] at h
      have h1 := Ty.enc_inj t _ _ _ h
      have h2 := encList_inj l _ _ _ h1.2
      exact ⟨by rw [h1.1, h2.1], h2.2⟩
theorem encFields_inj : ∀ (a b : List (Lit × Bool × Ty)) (r s : List Nat), encFields a ++ r = encFields b ++ s → a = b ∧ r = s := by
  intro a b r s h
  match a, b with
  | [], [] => simp [encFields] at h ⊢; exact h
  | [], (_, _, _) :: _ => simp [encFields] at h
  | (_, _, _) :: _, [] => simp [encFields] at h
  | (k, p, t) :: l, (k', p', t') :: l' =>
    simp only [encFields, List.cons_append, List.append_assoc, List.cons.injEq, true_and] at h
    have h0 := Lit.enc_inj h
    simp only [List.cons.injEq] at h0
    have h1 := Ty.enc_inj t _ _ _ h0.2.2
    have h2 := encFields_inj l _ _ _ h1.2
    exact ⟨by rw [h0.1, natOfBool_inj h0.2.1, h1.1, h2.1], h2.2⟩
theorem encRest_inj : ∀ (a b : Option (Ty × Ty)) (r s : List Nat), encRest a ++ r = encRest b ++ s → a = b ∧ r = s := by
  intro a b r s h
  match a, b with
  | none, none => simp [encRest] at h ⊢; exact h
  | none, some (_, _) => simp [encRest] at h
  | some (_, _), none => simp [encRest] at h
  | some (k, v), some (k', v') =>
    simp only [encRest, List.cons_append, List.append_assoc, List.cons.injEq, true_and] at h
    have h1 := Ty.enc_inj k _ _ _ h
    have h2 := Ty.enc_inj v _ _ _ h1.2
    exact ⟨by rw [h1.1, h2.1], h2.2⟩
end

theorem enc_injective {a b : Ty} (h : a.enc = b.enc) : a = b :=
  (Ty.enc_inj a b [] [] (by simpa using h)).1

/-- The derived `==`. -/
instance : DecidableEq Ty := fun a b =>
  if h : a.enc = b.enc then isTrue (enc_injective h) else isFalse (fun e => h (by rw [e]))

/-- The derived `<=`. -/
def tyLe (a b : Ty) : Bool := lexLe a.enc b.enc

def Ty.isUnknown : Ty → Bool
  | .unknown => true
  | _ => false

def Ty.isShape : Ty → Bool
  | .shape _ _ _ _ _ => true
  | _ => false

/-! ### unions -/

/-- core/shape_type.rs L11-20. -/
def maxFields : Nat := 32
def maxDepth : Nat := 8
def maxVariants : Nat := 8

/-- core/ruby_type.rs L258-270: flatten one level. -/
def flatten (ts : List Ty) : List Ty :=
  ts.flatMap fun t => match t with
    | .union inner => inner
    | other => [other]

/-- core/ruby_type.rs L255-294 `union`. -/
def mkUnion (ts : List Ty) : Ty :=
  let v := flatten ts
  if v.any Ty.isUnknown then .unknown
  else
    let v := dedupAdj (stableSort tyLe v)
    if (v.filter Ty.isShape).length > maxVariants then .unknown
    else
      match v with
      | [] => .unknown
      | [t] => t
      | v => .union v

/-- core/ruby_type.rs L111-134 `canonical_union_members`. -/
def members (ts : List Ty) : List Ty :=
  match ts with
  | [] => [.unknown]
  | [.union us] =>
    match mkUnion [.union us] with
    | .union vs => vs
    | t => [t]
  | [t] => [t]
  | ts =>
    match mkUnion ts with
    | .union vs => vs
    | t => [t]

def nameOf (s : String) : Name := s.toList.map Char.toNat

/-- core/ruby_type.rs L37-61: classes the code names (a single constant). -/
def symbolTy : Ty := .cls (nameOf "Symbol")
def stringTy : Ty := .cls (nameOf "String")
def nilTy : Ty := .cls (nameOf "NilClass")

/-- core/ruby_type.rs L76-94 `optional`. -/
def optional (t : Ty) : Ty :=
  match t with
  | .unknown => .unknown
  | .union ts => mkUnion (ts ++ [nilTy])
  | t => if t = nilTy then t else if tyLe t nilTy then .union [t, nilTy] else .union [nilTy, t]

/-- core/ruby_type.rs L417-444 `union_with`. -/
def unionWith (a b : Ty) : Ty :=
  if a = b then a
  else
    match a, b with
    | .unknown, _ => .unknown
    | _, .unknown => .unknown
    | .union ts, .union us => mkUnion (ts ++ us)
    | .union ts, b => mkUnion (ts ++ [b])
    | a, .union us => mkUnion (us ++ [a])
    | a, b => mkUnion [a, b]

/-- core/ruby_type.rs L236-252 `union_from_proven`, after `resolve` has been applied to the alternatives. -/
def unionFromProven (ts : List (Option Ty)) : Option Ty :=
  let rec go : List (Option Ty) → List Ty → Option Ty
    | [], acc => if acc.isEmpty then none else some (mkUnion acc)
    | none :: _, _ => none
    | some t :: l, acc => if t.isUnknown then none else go l (acc ++ [t])
  go ts []

/-- core/ruby_type.rs L447-458 `subtract`. -/
def subtract (a b : Ty) : Ty :=
  match a with
  | .union ts => mkUnion (ts.filter (fun t => decide (t ≠ b)))
  | t => if t = b then .unknown else t

/-! ### shapes -/

mutual
/-- core/ruby_type.rs L178-203 `contains_unknown`. -/
def hasUnknown : Ty → Bool
  | .unknown => true
  | .array ts => hasUnknownList ts
  | .union ts => hasUnknownList ts
  | .hash ks vs => hasUnknownList ks || hasUnknownList vs
  | .shape fs r _ _ _ => hasUnknownFields fs || hasUnknownRest r
  | _ => false
def hasUnknownList : List Ty → Bool
  | [] => false
  | t :: l => hasUnknown t || hasUnknownList l
def hasUnknownFields : List (Lit × Bool × Ty) → Bool
  | [] => false
  | (_, _, t) :: l => hasUnknown t || hasUnknownFields l
def hasUnknownRest : Option (Ty × Ty) → Bool
  | none => false
  | some (k, v) => hasUnknown k || hasUnknown v
end

mutual
/-- core/shape_type.rs L506-525 `shape_depth_in_type`. -/
def depthIn : Ty → Nat
  | .shape _ _ _ _ d => d
  | .array ts => depthList ts
  | .union ts => depthList ts
  | .hash ks vs => max (depthList ks) (depthList vs)
  | _ => 0
def depthList : List Ty → Nat
  | [] => 0
  | t :: l => max (depthIn t) (depthList l)
end

/-- The order of `LiteralKey`. -/
def litLe (a b : Lit) : Bool := lexLe a.enc b.enc

/-- core/shape_type.rs L253-255: `sort_by` on the keys. -/
def fieldLe (a b : Field) : Bool := litLe a.1 b.1

/-- core/shape_type.rs L256-261: is there a pair of neighbours with one key? -/
def hasDup : List Field → Bool
  | a :: b :: l => decide (a.1 = b.1) || hasDup (b :: l)
  | _ => false

/-- core/shape_type.rs L277-288: the depth below the new shape. -/
def nestedDepth (fields : List Field) (rest : Option (Ty × Ty)) : Nat :=
  max (depthList (fields.map fun f => f.2.2))
    (match rest with
    | none => 0
    | some (k, v) => max (depthIn k) (depthIn v))

/-- core/shape_type.rs L196-203 `ShapeConstructionError`. -/
inductive ShapeError where
  | fieldBound | exactHasRest | duplicateField | unprovenField | unprovenRest | depthBound
  deriving DecidableEq

/-- core/shape_type.rs L238-309 `try_new`. -/
def tryNew (fields : List Field) (rest : Option (Ty × Ty)) (isOpen frozen : Bool) : Except ShapeError Ty :=
  if fields.length > maxFields then .error .fieldBound
  else if !isOpen && rest.isSome then .error .exactHasRest
  else
    let fields := stableSort fieldLe fields
    if hasDup fields then .error .duplicateField
    else if fields.any (fun f => hasUnknown f.2.2) then .error .unprovenField
    else if rest.any (fun r => hasUnknown r.1 || hasUnknown r.2) then .error .unprovenRest
    else
      let depth := nestedDepth fields rest + 1
      if depth > maxDepth then .error .depthBound
      else .ok (.shape fields rest isOpen frozen depth)

/-- The standard library's `binary_search_by` (library/core/src/slice/mod.rs): `n` bounds the number of halvings. -/
def searchStep (fields : List Field) (k : Lit) : Nat → Nat → Nat → Nat
  | 0, base, _ => base
  | n + 1, base, size =>
    if size ≤ 1 then base
    else
      let half := size / 2
      let mid := base + half
      let base' := match fields[mid]? with
        | none => base
        | some f => if litLe f.1 k then mid else base
      searchStep fields k n base' (size - half)

/-- core/shape_type.rs L315-320 `field`. -/
def field (fields : List Field) (k : Lit) : Option Field :=
  if fields.isEmpty then none
  else
    match fields[searchStep fields k fields.length 0 fields.length]? with
    | none => none
    | some f => if f.1 = k then some f else none

/-- core/shape_type.rs L40-45 `widened_type` (and L75-80 `generic_type`). -/
def Lit.generic (v : Lit) : Ty := if v.isString then stringTy else symbolTy

mutual
/-- core/ruby_type.rs L462-486 `widen_literals`, with core/shape_type.rs L443-461 `try_map_types`; `none` is the panic of its
`expect`. -/
def widen : Ty → Option Ty
  | .lit v => some v.generic
  | .array ts => (widenList ts).map fun l => .array (members l)
  | .hash ks vs => (widenList ks).bind fun k => (widenList vs).map fun v => .hash (members k) (members v)
  | .shape fs r o z _ =>
    (widenFields fs).bind fun fs => (widenRest r).bind fun r => (tryNew fs r o z).toOption
  | .union ts => (widenList ts).map mkUnion
  | .cls n => some (.cls n)
  | .mod n => some (.mod n)
  | .clsRef n => some (.clsRef n)
  | .modRef n => some (.modRef n)
  | .unknown => some .unknown
def widenList : List Ty → Option (List Ty)
  | [] => some []
  | t :: l => (widen t).bind fun t => (widenList l).map fun l => t :: l
def widenFields : List (Lit × Bool × Ty) → Option (List (Lit × Bool × Ty))
  | [] => some []
  | (k, p, t) :: l => (widen t).bind fun t => (widenFields l).map fun l => (k, p, t) :: l
def widenRest : Option (Ty × Ty) → Option (Option (Ty × Ty))
  | none => some none
  | some (k, v) => (widen k).bind fun k => (widen v).map fun v => some (k, v)
end

end Verif.Types
