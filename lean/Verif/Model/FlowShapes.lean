import Mathlib.Data.Finset.Lattice.Fold
import Mathlib.Data.Fintype.Basic
import Mathlib.Data.Finset.Union
import Verif.Model.Types
/-!
Model of the aliases of hashes that the flow analysis keeps for the local variables of a method: `FlowEnvironment` and its use in
`/repo/crates/ruby-analysis/src/inference/type_tracker/mod.rs`.

A method has `n` local variables.  Maps are functions; `BTreeSet`s of identities are finite sets and run through in ascending order;
the set of containment edges is a list of which only the elements matter.  Left out: constant dependencies, callables, the
statistics `max_live_shape_aliases`, splats in literals, `merge` and `merge!`, paths of more than one key.  `none` is a panic.
-/
namespace Verif.FlowShapes
open Verif.Types

/-- L83 `ShapeIdentity`. -/
abbrev Id := Nat

/-- The values of `UnknownReason` that occur here. -/
inductive Reason where
  | boundExceeded | invalidated | unresolved
  deriving DecidableEq

/-- L142-146 `ShapeIdentityState`. -/
inductive State where
  | proven (t : Ty)
  | invalid (r : Reason)
  deriving DecidableEq

/-- L91-96 `ShapeContainment`. -/
structure Link where
  parent : Id
  key : Lit
  child : Id
  deriving DecidableEq

/-- L110-116 `ArrayShapeAliases`. -/
structure Arrays where
  length : Nat
  positions : List (Nat × Finset Id)
  contained : Finset Id
  reason : Option Reason
  deriving DecidableEq

/-- L148-159 `FlowEnvironment`. -/
structure Env (n : Nat) where
  types : Fin n → Option Ty
  binds : Fin n → Option (Finset Id)
  states : Id → Option State
  links : List Link
  arrays : Fin n → Option Arrays
  reasons : Fin n → Option Reason

variable {n : Nat}

/-- The environment at the beginning of a method (L219-229 `clear`). -/
def Env.empty : Env n := ⟨fun _ => none, fun _ => none, fun _ => none, [], fun _ => none, fun _ => none⟩

/-- A map is changed at one key. -/
def put {α β : Type} [DecidableEq α] (f : α → β) (x : α) (v : β) : α → β := fun y => if y = x then v else f y

/-! ### types -/

mutual
/-- L4790-4803 `type_is_shape_only`. -/
def isShapeOnly : Ty → Bool
  | .shape _ _ _ _ _ => true
  | .union ts => !ts.isEmpty && allShapeOnly ts
  | _ => false
def allShapeOnly : List Ty → Bool
  | [] => true
  | t :: l => isShapeOnly t && allShapeOnly l
end

mutual
/-- L4805-4825 `shape_alternatives`. -/
def shapeAlts : Ty → Except Reason (List Ty)
  | .shape fs r o z d => .ok [.shape fs r o z d]
  | .union ts => shapeAltsList ts
  | _ => .error .invalidated
def shapeAltsList : List Ty → Except Reason (List Ty)
  | [] => .ok []
  | t :: l =>
    match shapeAlts t, shapeAltsList l with
    | .ok a, .ok b => .ok (a ++ b)
    | .error r, _ => .error r
    | .ok _, .error r => .error r
end

mutual
/-- L4827-4840 `non_shape_alternatives`. -/
def nonShape : Ty → List Ty
  | .shape _ _ _ _ _ => []
  | .union ts => nonShapeList ts
  | t => [t]
def nonShapeList : List Ty → List Ty
  | [] => []
  | t :: l => nonShape t ++ nonShapeList l
end

mutual
/-- L455-476 `array_element_alternatives`. -/
def arrayElems : Ty → Option (List Ty)
  | .array ts => some ts
  | .union ts => arrayElemsList ts
  | _ => none
def arrayElemsList : List Ty → Option (List Ty)
  | [] => some []
  | t :: l =>
    match arrayElems t, arrayElemsList l with
    | some a, some b => some (a ++ b)
    | _, _ => none
end

/-- The elements of a `BTreeSet`, ascending. -/
def asc (s : Finset Id) : List Id := (List.range (s.sup id + 1)).filter fun i => i ∈ s

/-- L374-376, L400-402: the alternatives of some identities, one identity after the other. -/
def collect (states : Id → Option State) : List Id → Option (Except Reason (List Ty))
  | [] => some (.ok [])
  | i :: l =>
    match states i with
    | none => none
    | some (.invalid r) => some (.error r)
    | some (.proven t) =>
      match shapeAlts t, collect states l with
      | .error r, _ => some (.error r)
      | .ok a, some (.ok b) => some (.ok (a ++ b))
      | .ok _, some (.error r) => some (.error r)
      | .ok _, none => none

/-- L408-412, L3697-3700: a union that may have become too large. -/
def joined (ts : List Ty) : Except Reason Ty :=
  if mkUnion ts = .unknown then .error .boundExceeded else .ok (mkUnion ts)

/-- L388-413 `type_for_shape_identities`. -/
def typeForIds (states : Id → Option State) (current : Ty) (ids : Finset Id) : Option (Except Reason Ty) :=
  (collect states (asc ids)).map fun r =>
    match r with
    | .ok a => joined (nonShape current ++ a)
    | .error e => .error e

/-- L354-386 `type_for_array_shape_aliases`. -/
def typeForArray (states : Id → Option State) (current : Ty) (a : Arrays) : Option (Except Reason Ty) :=
  match a.reason with
  | some r => some (.error r)
  | none =>
    (arrayElems current).bind fun es =>
    (collect states (asc a.contained)).bind fun r =>
      match r with
      | .error e => some (.error e)
      | .ok b =>
        let elems := es.flatMap nonShape ++ b
        if elems.isEmpty then none else some (.ok (.array (members elems)))

/-- L3680-3701 `shape_identity_type`. -/
def identityType (states : Id → Option State) (ids : Finset Id) : Option (Except Reason Ty) :=
  (collect states (asc ids)).map fun r =>
    match r with
    | .ok a => joined a
    | .error e => .error e

/-! ### the environment -/

/-- L303-324: what becomes of a name; `some none` if it has no alias. -/
def bindResult (E : Env n) (x : Fin n) : Option (Option (Except Reason Ty)) :=
  match E.binds x with
  | none => some none
  | some ids => (E.types x).bind fun t => (typeForIds E.states t ids).map some

/-- L326-351. -/
def arrayResult (E : Env n) (x : Fin n) : Option (Option (Except Reason Ty)) :=
  match E.arrays x with
  | none => some none
  | some a => (E.types x).bind fun t => (typeForArray E.states t a).map some

/-- Types and reasons are changed for the names with an alias. -/
def applyResult (E : Env n) (res : Fin n → Option (Option (Except Reason Ty))) (bad : Ty) : Option (Env n) :=
  if ∀ x, (res x).isSome then
    some { E with
      types := fun x => match res x with
        | some (some (.ok t)) => some t
        | some (some (.error _)) => some bad
        | _ => E.types x
      reasons := fun x => match res x with
        | some (some (.ok _)) => none
        | some (some (.error r)) => some r
        | _ => E.reasons x }
  else none

/-- L301-352 `synchronize_shape_aliases`. -/
def sync (E : Env n) : Option (Env n) :=
  (applyResult E (bindResult E) .unknown).bind fun E => applyResult E (arrayResult E) (.array [.unknown])

/-- L162-168 `insert`. -/
def insert (E : Env n) (x : Fin n) (t : Ty) : Env n :=
  { E with binds := put E.binds x none, arrays := put E.arrays x none, reasons := put E.reasons x none, types := put E.types x (some t) }

/-- L170-176 `insert_unknown`. -/
def insertUnknown (E : Env n) (x : Fin n) (r : Reason) : Env n :=
  { E with binds := put E.binds x none, arrays := put E.arrays x none, reasons := put E.reasons x (some r), types := put E.types x (some .unknown) }

/-- L209-214: one pass over the edges. -/
def closeStep (links : List Link) (s : Finset Id) : Finset Id :=
  links.foldl (fun s l => if l.parent ∈ s ∨ l.child ∈ s then Insert.insert l.parent (Insert.insert l.child s) else s) s

/-- L207-219: passes until nothing is added; every pass but the last adds an end of an edge. -/
def close (links : List Link) : Nat → Finset Id → Finset Id
  | 0, s => s
  | k + 1, s => if closeStep links s = s then s else close links k (closeStep links s)

def closure (links : List Link) (s : Finset Id) : Finset Id := close links (2 * links.length + 1) s

/-- L202-231 `invalidate_identities`. -/
def invalidate (E : Env n) (ids : Finset Id) (r : Reason) : Option (Env n) :=
  let affected := closure E.links ids
  if ∀ i ∈ affected, (E.states i).isSome then
    sync { E with states := fun i => if i ∈ affected then some (.invalid r) else E.states i }
  else none

def maxAliases : Nat := 8

/-- L419-428: the aliases of an identity. -/
def aliasCount (E : Env n) (i : Id) : Nat :=
  (Finset.univ.filter fun x => ∃ s ∈ E.binds x, i ∈ s).card + (E.links.filter fun l => l.child = i).length

/-- The identities that have aliases. -/
def aliased (E : Env n) : Finset Id :=
  (Finset.univ.biUnion fun x => (E.binds x).getD ∅) ∪ (E.links.map Link.child).toFinset

/-- L415-437 `enforce_alias_bound`; identities without aliases do not exceed the bound. -/
def enforce (E : Env n) : Option (Env n) :=
  let exceeded := (aliased E).filter fun i => (E.states i).isSome ∧ aliasCount E i > maxAliases
  if exceeded = ∅ then some E else invalidate E exceeded .boundExceeded

/-- L178-194 `bind_shape_identities`. -/
def bindIds (E : Env n) (x : Fin n) (t : Ty) (ids : Finset Id) : Option (Env n) :=
  if ids = ∅ then none
  else enforce { E with reasons := put E.reasons x none, arrays := put E.arrays x none, types := put E.types x (some t), binds := put E.binds x (some ids) }

/-- L246-253 `bind_array_shape_aliases`. -/
def bindArrays (E : Env n) (x : Fin n) (a : Arrays) : Option (Env n) :=
  if a.contained = ∅ ∧ a.reason = none then sync { E with arrays := put E.arrays x none }
  else sync { E with arrays := put E.arrays x (some a) }

/-- L255-267 `contained_child`. -/
def containedChild (E : Env n) (p : Id) (k : Lit) : Option (Option Id) :=
  match (E.links.filter fun l => l.parent = p ∧ l.key = k).dedup with
  | [] => some none
  | [l] => some (some l.child)
  | _ => none

/-- L269-290 `link_contained_shape`. -/
def link (E : Env n) (p : Id) (k : Lit) (c : Id) : Option (Env n) :=
  if p = c then none
  else if (E.states p).isNone ∨ (E.states c).isNone then none
  else
    (containedChild E p k).bind fun existing =>
      match existing with
      | some e => if e = c then some E else none
      | none => some { E with links := ⟨p, k, c⟩ :: E.links }

/-- L292-299 `detach_contained_shapes`. -/
def detach (E : Env n) (parents : Finset Id) (key : Option Lit) : Env n :=
  { E with links := E.links.filter fun l => l.parent ∉ parents ∨ ∃ k ∈ key, k ≠ l.key }

/-! ### control flow -/

/-- L4507-4551. -/
def mergeTypes (a b : Option Ty) : Option Ty :=
  match a, b with
  | some t, some u => if t = u then some t else some (mkUnion [t, u])
  | none, some u => some (mkUnion [u, nilTy])
  | some t, none => some (mkUnion [t, nilTy])
  | none, none => none

/-- L4595-4623. -/
def mergeStates (a b : Option State) : Option State :=
  match a, b with
  | some (.invalid r), some (.invalid s) =>
    some (.invalid (if r = s then r else if r = .boundExceeded ∨ s = .boundExceeded then .boundExceeded else .invalidated))
  | some (.invalid r), some (.proven _) => some (.invalid r)
  | some (.proven _), some (.invalid r) => some (.invalid r)
  | some (.proven t), some (.proven u) =>
    if mkUnion [t, u] = .unknown then some (.invalid .boundExceeded) else some (.proven (mkUnion [t, u]))
  | some s, none => some s
  | none, b => b

/-- L4629-4644. -/
def mergeBinds (a b : Option (Finset Id)) : Option (Finset Id) :=
  let ids := a.getD ∅ ∪ b.getD ∅
  if ids = ∅ then none else some ids

/-- L4646-4675. -/
def mergeReasons (t : Option Ty) (a b : Option Reason) : Option Reason :=
  if a = none ∧ b = none then none
  else if t ≠ some .unknown then none
  else if a = b then a
  else if a = some .boundExceeded ∨ b = some .boundExceeded then some .boundExceeded
  else if a = some .invalidated ∨ b = some .invalidated then some .invalidated
  else match a, b with
    | some r, none => some r
    | none, some r => some r
    | _, _ => some .unresolved

/-- L4677-4696: the ends of edges that only one side has. -/
def dangling (a b : List Link) : Finset Id :=
  (((a.filter fun l => l ∉ b) ++ (b.filter fun l => l ∉ a)).flatMap fun l => [l.parent, l.child]).toFinset

/-- L4697-4724: the summaries of arrays that agree, and the identities of those that do not. -/
def mergeArrays (a b : Option Arrays) : Option Arrays := if a = b then a else none

def inconsistent (a b : Option Arrays) : Finset Id :=
  if a = b then ∅
  else (a.map Arrays.contained).getD ∅ ∪ (b.map Arrays.contained).getD ∅

/-- L4507-4772 `merge_env`. -/
def merge (A B : Env n) : Option (Env n) :=
  let types := fun x => mergeTypes (A.types x) (B.types x)
  let d := dangling A.links B.links
  let E : Env n :=
    { types := types
      binds := fun x => mergeBinds (A.binds x) (B.binds x)
      states := fun i =>
        let s := mergeStates (A.states i) (B.states i)
        if i ∈ d ∧ s.isSome then some (.invalid .invalidated) else s
      links := A.links.filter fun l => l ∈ B.links
      arrays := fun x => mergeArrays (A.arrays x) (B.arrays x)
      reasons := fun x => mergeReasons (types x) (A.reasons x) (B.reasons x) }
  let bad := Finset.univ.biUnion fun x => inconsistent (A.arrays x) (B.arrays x)
  (if bad = ∅ then some E else invalidate E bad .invalidated).bind fun E => (enforce E).bind sync

/-! ### the tracker -/

/-- The environment and `next_shape_identity`. -/
structure Tracker (n : Nat) where
  env : Env n
  next : Nat

/-- L1392-1411 `allocate_shape_identity`. -/
def allocate (S : Tracker n) (t : Ty) : Option (Id × Tracker n) :=
  if !isShapeOnly t then none
  else if (S.env.states S.next).isSome then none
  else some (S.next, ⟨{ S.env with states := put S.env.states S.next (some (.proven t)) }, S.next + 1⟩)

/-- L5090-5103 `precise_contained_shape_field`. -/
def preciseField (t : Ty) (k : Lit) : Option Ty :=
  match t with
  | .shape fs _ _ _ _ => (field fs k).bind fun f => if !f.2.1 && isShapeOnly f.2.2 then some f.2.2 else none
  | _ => none

def stateField (s : Option State) (k : Lit) : Option Ty :=
  match s with
  | some (.proven t) => preciseField t k
  | _ => none

/-- L1888-1896: children are created for the fields that are shapes. -/
def materializeAll (p : Id) : List Field → Tracker n → Option (Tracker n)
  | [], S => some S
  | f :: l, S =>
    (containedChild S.env p f.1).bind fun c =>
      match c with
      | some _ => materializeAll p l S
      | none =>
        (allocate S f.2.2).bind fun a =>
        (link a.2.env p f.1 a.1).bind fun E => materializeAll p l ⟨E, a.2.next⟩

/-- L1868-1899 `materialize_direct_shape_children`. -/
def materialize (S : Tracker n) (p : Id) : Option (Except Reason Unit × Tracker n) :=
  match S.env.states p with
  | none => none
  | some (.invalid r) => some (.error r, S)
  | some (.proven (.shape fs _ _ _ _)) =>
    (materializeAll p (fs.filter fun f => !f.2.1 && isShapeOnly f.2.2) S).bind fun S =>
    (enforce S.env).map fun E => (.ok (), ⟨E, S.next⟩)
  | some (.proven _) => some (.error .invalidated, S)

/-- What stands in a literal: a local variable, or something with a type. -/
inductive Part (n : Nat) where
  | var (y : Fin n)
  | typed (t : Ty)

/-- L2899-2901: the type of a part. -/
def Part.type (E : Env n) : Part n → Ty
  | .var y => (E.types y).getD .unknown
  | .typed t => t

/-- L1413-1460 `shape_identities_for_alias_expression` for such a part. -/
def Part.ids (E : Env n) : Part n → Finset Id
  | .var y => (E.binds y).getD ∅
  | .typed _ => ∅

/-- L3645-3655 `shape_identities_in_escape_expression`. -/
def Part.escaped (E : Env n) : Part n → Finset Id
  | .var y => if (E.binds y).getD ∅ = ∅ then ((E.arrays y).map Arrays.contained).getD ∅ else (E.binds y).getD ∅
  | .typed _ => ∅

/-- L340, L360: a `BTreeMap` of fields, of which the last with a key counts. -/
def putField (fs : List Field) (k : Lit) (t : Ty) : List Field := fs.filter (fun f => f.1 ≠ k) ++ [(k, false, t)]

/-- inference/type/literal.rs L336-436 `infer_hash_literal_type_fallible` for literal keys; the members of the generic `Hash` are left out. -/
def hashLiteral (E : Env n) (fields : List (Lit × Part n)) : Except ShapeError Ty :=
  if fields.any fun f => hasUnknown (f.2.type E) then .ok (.hash [.unknown] [.unknown])
  else tryNew (fields.foldl (fun fs f => putField fs f.1 (f.2.type E)) []) none false false

/-- An element of an array literal. -/
inductive Elem (n : Nat) where
  | hash (fields : List (Lit × Part n))
  | part (p : Part n)

def elemType (E : Env n) : Elem n → Except ShapeError Ty
  | .hash fs => hashLiteral E fs
  | .part p => .ok (p.type E)

def elemTypes (E : Env n) : List (Elem n) → Except ShapeError (List Ty)
  | [] => .ok []
  | e :: l =>
    match elemType E e, elemTypes E l with
    | .ok t, .ok ts => .ok (t :: ts)
    | .error r, _ => .error r
    | .ok _, .error r => .error r

/-- L282-299 `infer_array_literal_type_fallible`. -/
def arrayLiteral (E : Env n) (elems : List (Elem n)) : Except ShapeError Ty :=
  match elemTypes E elems with
  | .error r => .error r
  | .ok ts => if ts.isEmpty then .ok (.array [.unknown]) else .ok (.array (members ts))

/-- L1611-1684: the children of a literal; `none` if one has several identities. -/
def literalChildren (E : Env n) : List (Lit × Part n) → List (Lit × Id) → Option (List (Lit × Id))
  | [], links => some links
  | f :: l, links =>
    let links := links.filter fun x => x.1 ≠ f.1
    let ids := f.2.ids E
    if ids = ∅ then literalChildren E l links
    else match (asc ids) with
      | [c] => literalChildren E l (links ++ [(f.1, c)])
      | _ => none

/-- L1686-1705. -/
def linkAll (p : Id) : List (Lit × Id) → Env n → Option (Env n)
  | [], E => enforce E
  | f :: l, E =>
    (identityType E.states {f.2}).bind fun t =>
      match stateField (E.states p) f.1, t with
      | some u, .ok t => if u = t then (link E p f.1 f.2).bind (linkAll p l) else invalidate E {p} .invalidated
      | _, _ => invalidate E {p} .invalidated

/-- L1599-1705 `link_shape_literal_children`. -/
def linkLiteral (E : Env n) (p : Id) (fields : List (Lit × Part n)) : Option (Env n) :=
  match literalChildren E fields [] with
  | none => invalidate E {p} .invalidated
  | some links => linkAll p links E

/-- L1515-1518. -/
def Arrays.add (a : Arrays) (i : Nat) (ids : Finset Id) : Arrays :=
  { a with positions := if ids = ∅ then a.positions else a.positions ++ [(i, ids)], contained := a.contained ∪ ids }

/-- L1492-1533: the aliases of an array literal, element by element. -/
def arrayAliases : Nat → List (Elem n) → Arrays → Tracker n → Option (Arrays × Tracker n)
  | _, [], a, S => some (a, S)
  | i, e :: l, a, S =>
    let add := fun (ids : Finset Id) (S : Tracker n) =>
      let a := a.add i ids
      if a.positions.length > maxAliases ∨ a.contained.card > maxAliases then
        (invalidate S.env a.contained .boundExceeded).map fun E => (⟨a.length, [], ∅, some .boundExceeded⟩, ⟨E, S.next⟩)
      else arrayAliases (i + 1) l a S
    match e with
    | .part p => add (p.escaped S.env) S
    | .hash fs =>
      match hashLiteral S.env fs with
      | .error _ => add ∅ S
      | .ok t =>
        if isShapeOnly t then
          (allocate S t).bind fun al =>
          (linkLiteral al.2.env al.1 fs).bind fun E =>
          (materialize ⟨E, al.2.next⟩ al.1).bind fun m =>
            match m.1 with
            | .ok _ => add {al.1} m.2
            | .error r => (invalidate m.2.env {al.1} r).map fun E => (⟨a.length, [], ∅, some r⟩, ⟨E, m.2.next⟩)
        else add ∅ S

/-- L118-139 `identities_at`. -/
def idsAt (a : Arrays) (i : Int) : Finset Id :=
  let p := if 0 ≤ i then i else (a.length : Int) + i
  if p < 0 ∨ (a.length : Int) ≤ p then ∅
  else ((a.positions.find? fun x => (x.1 : Int) = p).map Prod.snd).getD ∅

/-- The value of an assignment. -/
inductive Value (n : Nat) where
  | read (y : Fin n)
  /-- `y[i]`, of the type `t` -/
  | index (y : Fin n) (i : Int) (t : Ty)
  /-- `y[:k]`, of the type `t` -/
  | keyed (y : Fin n) (k : Lit) (t : Ty)
  | hash (fields : List (Lit × Part n))
  | array (elems : List (Elem n))
  /-- anything else, of the type `t` -/
  | other (t : Ty)

/-- L1285-1303: the type of the value, and why it is unknown if a literal is too large. -/
def Value.type (E : Env n) : Value n → Except ShapeError Ty
  | .read y => .ok ((E.types y).getD .unknown)
  | .index _ _ t => .ok t
  | .keyed _ _ t => .ok t
  | .hash fs => hashLiteral E fs
  | .array es => arrayLiteral E es
  | .other t => .ok t

/-- L1285. -/
def Value.ids (E : Env n) : Value n → Finset Id
  | .read y => (E.binds y).getD ∅
  | .index y i _ => ((E.arrays y).map fun a => idsAt a i).getD ∅
  | _ => ∅

/-- L1462-1534 `array_shape_aliases_for_assignment`. -/
def Value.arrays (S : Tracker n) : Value n → Option (Option Arrays × Tracker n)
  | .read y => some (S.env.arrays y, S)
  | .array es => (arrayAliases 0 es ⟨es.length, [], ∅, none⟩ S).map fun r => (some r.1, r.2)
  | _ => some (none, S)

/-- L1552-1586: the children under a key, for the parents one after the other; `pending` have none yet. -/
def childrenOf (E : Env n) (k : Lit) : List Id → Option (Option (Finset Id × List (Id × Ty)))
  | [] => some (some (∅, []))
  | p :: l =>
    (containedChild E p k).bind fun c =>
      match c with
      | some c => (childrenOf E k l).map fun r => r.map fun r => (Insert.insert c r.1, r.2)
      | none =>
        if (E.states p).isNone then none
        else match stateField (E.states p) k with
          | none => some none
          | some t => (childrenOf E k l).map fun r => r.map fun r => (r.1, (p, t) :: r.2)

def allocateChildren (k : Lit) : List (Id × Ty) → Finset Id → Tracker n → Option (Finset Id × Tracker n)
  | [], cs, S => some (cs, S)
  | (p, t) :: l, cs, S =>
    (allocate S t).bind fun a => (link a.2.env p k a.1).bind fun E => allocateChildren k l (Insert.insert a.1 cs) ⟨E, a.2.next⟩

/-- L1536-1597 `shape_identities_for_contained_alias_expression`. -/
def keyedIds (S : Tracker n) (y : Fin n) (k : Lit) (t : Ty) : Option (Finset Id × Tracker n) :=
  let roots := (S.env.binds y).getD ∅
  let give := fun (S : Tracker n) => (invalidate S.env roots .invalidated).map fun E => ((∅ : Finset Id), (⟨E, S.next⟩ : Tracker n))
  if roots = ∅ then some (∅, S)
  else
    (childrenOf S.env k (asc roots)).bind fun r =>
      match r with
      | none => give S
      | some r =>
        (allocateChildren k r.2 r.1 S).bind fun a =>
          if a.1 = ∅ then some a
          else (identityType a.2.env.states a.1).bind fun u =>
            match u with
            | .ok u => if u = t then some a else give a.2
            | .error _ => if t = .unknown then some a else give a.2

/-- L1351: the values of a hash literal are linked to it. -/
def linkFresh (E : Env n) (i : Id) : Value n → Option (Env n)
  | .hash fs => linkLiteral E i fs
  | _ => some E

/-- L1350-1361: a new identity for a value that is a shape. -/
def freshIds (S : Tracker n) (v : Value n) (t : Ty) : Option (Finset Id × Tracker n) :=
  (allocate S t).bind fun a =>
  (linkFresh a.2.env a.1 v).bind fun E =>
  if t.isShape then
    (materialize ⟨E, a.2.next⟩ a.1).bind fun m =>
      match m.1 with
      | .ok _ => some ({a.1}, m.2)
      | .error _ => (invalidate m.2.env {a.1} .invalidated).map fun E => ({a.1}, ⟨E, m.2.next⟩)
  else some ({a.1}, ⟨E, a.2.next⟩)

/-- L1347-1348: identities of a keyed read. -/
def keyedOrNone (S : Tracker n) (t : Ty) : Value n → Option (Finset Id × Tracker n)
  | .keyed y k _ => keyedIds S y k t
  | _ => some (∅, S)

/-- L1339-1371: the variable is bound. -/
def bindValue (S : Tracker n) (x : Fin n) (v : Value n) (t : Ty) (reason : Option Reason) (ids : Finset Id) : Option (Tracker n) :=
  if ids ≠ ∅ then (bindIds S.env x t ids).bind fun E => (sync E).map fun E => ⟨E, S.next⟩
  else if isShapeOnly t then
    (keyedOrNone S t v).bind fun r =>
    (if r.1 = ∅ then freshIds r.2 v t else some r).bind fun r =>
    (bindIds r.2.env x t r.1).bind fun E => (sync E).map fun E => ⟨E, r.2.next⟩
  else match reason with
    | some r => some ⟨insertUnknown S.env x r, S.next⟩
    | none => some ⟨insert S.env x t, S.next⟩

def Ty.isArray : Ty → Bool
  | .array _ => true
  | _ => false

/-- L1291-1302: the type of the value, or unknown with a reason. -/
def typeOr : Except ShapeError Ty → Ty
  | .ok t => t
  | .error _ => .unknown

def reasonOf : Except ShapeError Ty → Option Reason
  | .ok _ => none
  | .error _ => some .boundExceeded

/-- L1265-1390 `track_assignment`. -/
def assign (S : Tracker n) (x : Fin n) (v : Value n) : Option (Tracker n) :=
  let ids := v.ids S.env
  let t : Ty := typeOr (v.type S.env)
  let reason : Option Reason := reasonOf (v.type S.env)
  (v.arrays S).bind fun a =>
  (bindValue a.2 x v t reason ids).bind fun S =>
    match a.1 with
    | none => some S
    | some a => if Ty.isArray t then (bindArrays S.env x a).map fun E => ⟨E, S.next⟩ else none

/-- L98-102 `ShapeAlternativeTransition`. -/
abbrev Transitions := List (Ty × Ty)

/-- L3720-3734. -/
def transitionsOf (f : Ty → Except Reason Ty) : List Ty → Except Reason Transitions
  | [] => .ok []
  | b :: l =>
    match f b with
    | .error r => .error r
    | .ok a =>
      if a = .unknown then .error .boundExceeded
      else match transitionsOf f l with
        | .ok ts => .ok ((b, a) :: ts)
        | .error r => .error r

/-- L3708-3750: the states of the identities are replaced, one after the other. -/
def transformAll (ids : Finset Id) (f : Ty → Except Reason Ty) :
    List Id → List (Id × Transitions) → Env n → Option (Except Reason (List (Id × Transitions)) × Env n)
  | [], acc, E => some (.ok acc, E)
  | i :: l, acc, E =>
    match E.states i with
    | none => none
    | some (.invalid r) => some (.error r, E)
    | some (.proven t) =>
      match shapeAlts t with
      | .error r => some (.error r, E)
      | .ok alts =>
        match transitionsOf f alts with
        | .error r => (invalidate E ids r).map fun E => (.error r, E)
        | .ok ts =>
          if mkUnion (ts.map Prod.snd) = .unknown then (invalidate E ids .boundExceeded).map fun E => (.error .boundExceeded, E)
          else transformAll ids f l ((i, ts) :: acc) { E with states := put E.states i (some (.proven (mkUnion (ts.map Prod.snd)))) }

/-- L4891-4904. -/
def transitioned (ts : Transitions) : List Ty → Except Reason (List Ty)
  | [] => .ok []
  | b :: l =>
    match ts.filter fun t => t.1 = b with
    | [t] =>
      match transitioned ts l with
      | .ok r => .ok (t.2 :: r)
      | .error e => .error e
    | _ => .error .invalidated

/-- L4883-4921 `shape_with_contained_transitions`. -/
def withTransitions (t : Ty) (k : Lit) (ts : Transitions) : Except Reason Ty :=
  match t with
  | .shape fs r o z _ =>
    match field fs k with
    | none => .error .invalidated
    | some f =>
      if f.2.1 || !isShapeOnly f.2.2 then .error .invalidated
      else match shapeAlts f.2.2 with
        | .error e => .error e
        | .ok alts =>
          match transitioned ts alts with
          | .error e => .error e
          | .ok vs =>
            if mkUnion vs = .unknown then .error .boundExceeded
            else match tryNew (fs.map fun g => if g.1 = k then (k, false, mkUnion vs) else g) r o z with
              | .ok u => .ok u
              | .error _ => .error .boundExceeded
  | _ => .error .invalidated

/-- L3785-3797: all edges from one parent. -/
def throughLinks (changed : List (Id × Transitions)) : List Link → Ty → Option (Except Reason Ty)
  | [], t => some (.ok t)
  | l :: ls, t =>
    match changed.find? (fun c => c.1 = l.child) with
    | none => none
    | some c =>
      match withTransitions t l.key c.2 with
      | .ok u => throughLinks changed ls u
      | .error e => some (.error e)

def parentTransitions (changed : List (Id × Transitions)) (ls : List Link) : List Ty → Option (Except Reason Transitions)
  | [] => some (.ok [])
  | b :: l =>
    (throughLinks changed ls b).bind fun a =>
      match a with
      | .error e => some (.error e)
      | .ok a =>
        (parentTransitions changed ls l).map fun r =>
          match r with
          | .ok ts => .ok ((b, a) :: ts)
          | .error e => .error e

/-- L3772-3815: the parents, one after the other. -/
def propagateParents (changed : List (Id × Transitions)) (links : List Link) :
    List Id → List (Id × Transitions) → Env n → Option (Except Reason (List (Id × Transitions)) × Env n)
  | [], acc, E => some (.ok acc, E)
  | p :: l, acc, E =>
    match E.states p with
    | none => none
    | some (.invalid r) => some (.error r, E)
    | some (.proven t) =>
      match shapeAlts t with
      | .error r => some (.error r, E)
      | .ok alts =>
        match parentTransitions changed (links.filter fun x => x.parent = p) alts with
        | none => none
        | some (.error r) => some (.error r, E)
        | some (.ok ts) =>
          if mkUnion (ts.map Prod.snd) = .unknown then (invalidate E {p} .boundExceeded).map fun E => (.error .boundExceeded, E)
          else propagateParents changed links l ((p, ts) :: acc) { E with states := put E.states p (some (.proven (mkUnion (ts.map Prod.snd)))) }

/-- L3755-3824 `propagate_contained_shape_updates`; the number bounds the rounds. -/
def propagate : Nat → List (Id × Transitions) → Env n → Option (Except Reason Unit × Env n)
  | 0, changed, E => (invalidate E (changed.map Prod.fst).toFinset .boundExceeded).map fun E => (.error .boundExceeded, E)
  | k + 1, changed, E =>
    if changed.isEmpty then some (.ok (), E)
    else
      let links := E.links.filter fun l => l.child ∈ changed.map Prod.fst
      (propagateParents changed links (asc (links.map Link.parent).toFinset) [] E).bind fun r =>
        match r.1 with
        | .ok next => propagate k next r.2
        | .error e => some (.error e, r.2)

/-- core/shape_type.rs L20. -/
def maxRounds : Nat := 16

/-- L3703-3753 `transform_shape_identities`. -/
def transform (E : Env n) (ids : Finset Id) (f : Ty → Except Reason Ty) : Option (Except Reason Unit × Env n) :=
  (transformAll ids f (asc ids) [] E).bind fun r =>
    match r.1 with
    | .error e => some (.error e, r.2)
    | .ok changed =>
      (propagate maxRounds changed r.2).bind fun q =>
        match q.1 with
        | .error e => some (.error e, q.2)
        | .ok _ => (sync q.2).bind fun E => (identityType E.states ids).map fun t =>
          match t with
          | .ok _ => (.ok (), E)
          | .error e => (.error e, E)

/-- L4868-4884 `shape_with_required_field` for one alternative. -/
def withField (k : Lit) (v : Ty) (t : Ty) : Except Reason Ty :=
  match t with
  | .shape fs r o z d =>
    if z then .ok (.shape fs r o z d)
    else match tryNew (putField fs k v) r o z with
      | .ok u => .ok u
      | .error _ => .error .boundExceeded
  | _ => .error .invalidated

/-- L3860-3863. -/
def linkParents (k : Lit) (c : Id) : List Id → Env n → Option (Env n)
  | [], E => some E
  | p :: l, E => (link E p k c).bind (linkParents k c l)

/-- L3826-3868 `link_assigned_shape_child`; `false` is an error. -/
def linkAssigned (E : Env n) (parents : Finset Id) (k : Lit) (children : Finset Id) (t : Ty) : Option (Bool × Env n) :=
  match (asc children) with
  | [c] =>
    if c ∈ parents ∨ !isShapeOnly t then some (false, E)
    else (identityType E.states children).bind fun u =>
      match u with
      | .error _ => some (false, E)
      | .ok u =>
        if u ≠ t then some (false, E)
        else if (asc parents).any (fun p => (E.states p).isNone) then none
        else if (asc parents).any (fun p => stateField (E.states p) k ≠ some t) then some (false, E)
        else (linkParents k c (asc parents) E).bind fun E => (enforce E).bind fun E => (sync E).map fun E => (true, E)
  | _ => some (false, E)

/-- L3422-3428, L3484-3530: `y[:k] = v`. -/
def setField (E : Env n) (y : Fin n) (k : Lit) (v : Part n) : Option (Env n) :=
  let ids := (E.binds y).getD ∅
  let esc := v.escaped E
  let t := v.type E
  if ids = ∅ then (if esc = ∅ then some E else invalidate E esc .invalidated)
  else if t = .unknown then invalidate E (ids ∪ esc) .invalidated
  else
    (transform (detach E ids (some k)) ids (withField k t)).bind fun r =>
      match r.1 with
      | .error _ => some r.2
      | .ok _ =>
        if esc = ∅ then some r.2
        else (linkAssigned r.2 ids k esc t).bind fun q => if q.1 then some q.2 else invalidate q.2 (ids ∪ esc) .invalidated

/-- The other calls that change a hash. -/
inductive Mutation where
  | delete (k : Lit) | clear | freeze

/-- L4931-4968 `shape_without_field`, `shape_cleared` and `shape_frozen` for one alternative. -/
def Mutation.apply (m : Mutation) (t : Ty) : Except Reason Ty :=
  match t with
  | .shape fs r o z d =>
    match m with
    | .delete k =>
      if z then .ok (.shape fs r o z d)
      else match tryNew (fs.filter fun f => f.1 ≠ k) r o z with
        | .ok u => .ok u
        | .error _ => .error .boundExceeded
    | .clear =>
      if z then .ok (.shape fs r o z d)
      else match tryNew [] none false false with
        | .ok u => .ok u
        | .error _ => .error .boundExceeded
    | .freeze =>
      match tryNew fs r o true with
      | .ok u => .ok u
      | .error _ => .error .boundExceeded
  | _ => .error .invalidated

/-- L3551-3552, L3564-3565: the edges that a call removes. -/
def Mutation.detached (m : Mutation) (E : Env n) (ids : Finset Id) : Env n :=
  match m with
  | .delete k => detach E ids (some k)
  | .clear => detach E ids none
  | .freeze => E

/-- L3540-3569, L3620-3625. -/
def change (E : Env n) (y : Fin n) (m : Mutation) : Option (Env n) :=
  let ids := (E.binds y).getD ∅
  if ids = ∅ then some E
  else (transform (m.detached E ids) ids m.apply).map Prod.snd

/-- L2081-2112: the identities that remain, and their new types. -/
def guardAll (f : Ty → Except Reason (Option Ty)) (states : Id → Option State) : List Id → Option (Except Reason (Finset Id × List (Id × Ty)))
  | [] => some (.ok (∅, []))
  | i :: l =>
    match states i with
    | none => none
    | some (.invalid _) => (guardAll f states l).map fun r => r.map fun r => (Insert.insert i r.1, r.2)
    | some (.proven t) =>
      match f t with
      | .error r => some (.error r)
      | .ok none => guardAll f states l
      | .ok (some u) => (guardAll f states l).map fun r => r.map fun r => (Insert.insert i r.1, (i, u) :: r.2)

/-- L5375-5443: one alternative, if a key is said to be there; an open shape keeps its fields (the type of the rest is left out). -/
def presentIn (k : Lit) (truth : Bool) (t : Ty) : Except Reason (List Ty) :=
  match t with
  | .shape fs r o z d =>
    match field fs k with
    | some f =>
      if truth then
        if !f.2.1 then .ok [t]
        else match tryNew (putField fs k f.2.2) r o z with
          | .ok u => .ok [u]
          | .error _ => .error .boundExceeded
      else if !f.2.1 then .ok []
      else match Mutation.apply (.delete k) (.shape fs r o z d) with
        | .ok u => .ok [u]
        | .error e => .error e
    | none => if truth && !o then .ok [] else .ok [t]
  | _ => .error .invalidated

def presentAll (k : Lit) (truth : Bool) : List Ty → Except Reason (List Ty)
  | [] => .ok []
  | t :: l =>
    match presentIn k truth t, presentAll k truth l with
    | .ok a, .ok b => .ok (a ++ b)
    | .error e, _ => .error e
    | .ok _, .error e => .error e

/-- L5375-5443 `narrow_shape_presence_type`. -/
def presence (k : Lit) (truth : Bool) (t : Ty) : Except Reason (Option Ty) :=
  match shapeAlts t with
  | .error e => .error e
  | .ok alts =>
    match presentAll k truth alts with
    | .error e => .error e
    | .ok kept => if kept.isEmpty then .ok none else if mkUnion kept = .unknown then .error .boundExceeded else .ok (some (mkUnion kept))

/-- L2076-2125 `apply_shape_identity_narrowing`, for the identities of a variable. -/
def guardVar (E : Env n) (y : Fin n) (f : Ty → Except Reason (Option Ty)) : Option (Env n) :=
  let ids := (E.binds y).getD ∅
  if ids = ∅ then some E
  else (guardAll f E.states (asc ids)).bind fun r =>
    match r with
    | .error e => invalidate E ids e
    | .ok r =>
      if r.1 = ∅ then some E
      else sync { E with
        states := fun i => match r.2.find? (fun u => u.1 = i) with
          | some u => some (.proven u.2)
          | none => E.states i
        binds := fun x => (E.binds x).map fun s => s.filter fun i => i ∉ ids ∨ i ∈ r.1 }

/-- Code, as far as it concerns the environment. -/
inductive Code (n : Nat) where
  | skip
  | assign (x : Fin n) (v : Value n)
  /-- a type is put into the environment: a parameter, a pattern variable, what `rescue` knows (L501-508) -/
  | insert (x : Fin n) (t : Ty)
  /-- `y[:k] = v` -/
  | setField (y : Fin n) (k : Lit) (v : Part n)
  | change (y : Fin n) (m : Mutation)
  /-- the variable is passed to a method that is not known, or an array is changed (L3298-3328) -/
  | escape (p : Part n)
  /-- a condition about the keys or values of a hash -/
  | guard (y : Fin n) (f : Ty → Except Reason (Option Ty))
  /-- type_tracker/narrow.rs: `x` is known to have a type; its entry in the map of types is overwritten -/
  | narrow (x : Fin n) (t : Ty)
  | seq (a b : Code n)
  /-- both branches may reach the end -/
  | branch (a b : Code n)
  /-- the environment is restored: a block (L4112-4124), a branch that does not reach the end -/
  | scratch (a : Code n)

/-- The environment after a piece of code. -/
def run : Code n → Tracker n → Option (Tracker n)
  | .skip, S => some S
  | .assign x v, S => assign S x v
  | .insert x t, S => some ⟨insert S.env x t, S.next⟩
  | .setField y k v, S => (setField S.env y k v).map fun E => ⟨E, S.next⟩
  | .change y m, S => (change S.env y m).map fun E => ⟨E, S.next⟩
  | .escape p, S => (if p.escaped S.env = ∅ then some S.env else invalidate S.env (p.escaped S.env) .invalidated).map fun E => ⟨E, S.next⟩
  | .guard y f, S => (guardVar S.env y f).map fun E => ⟨E, S.next⟩
  | .narrow x t, S => some ⟨{ S.env with types := put S.env.types x (some t) }, S.next⟩
  | .seq a b, S => (run a S).bind (run b)
  | .branch a b, S => (run a S).bind fun A => (run b ⟨S.env, A.next⟩).bind fun B => (merge A.env B.env).map fun E => ⟨E, B.next⟩
  | .scratch a, S => (run a S).map fun A => ⟨S.env, A.next⟩

/-- A method. -/
def runMethod (c : Code n) : Option (Tracker n) := run c ⟨.empty, 0⟩

end Verif.FlowShapes
