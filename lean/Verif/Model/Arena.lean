import Verif.Model.Common
import Verif.Model.Sort
/-!
The fact arena and the id indexes shared by the analysis stores.

`SymbolStore`, `MethodStore`, `TypeStore` and `SemanticGraph` each contain the same code: a vector of optional facts, a
stack of free slot numbers, and hash maps from a key to a vector of slot numbers.  The copies in the source differ only in
names, so they are modelled once here.

Simplifications: slot numbers are unbounded (`from_index` panics above `u32::MAX` in the code); a hash map from keys to
vectors is a function from keys to lists in which a missing key is the empty list; the sort-key closures of the code panic
only when they are called, here sorting panics whenever one of the ids is dead.
-/
namespace Verif.Store

/-- core/symbol_store.rs L87-89, method_store.rs L441-443, graph_store.rs L240-243, type_store.rs (fields `facts`,
`free_facts`).  The head of `free` is the top of the stack. -/
structure Arena (α : Type) where
  slots : List (Option α)
  free : List Nat

def Arena.empty {α : Type} : Arena α := { slots := [], free := [] }

variable {α : Type}

/-- core/symbol_store.rs L286-288 `fact`. -/
def Arena.get (A : Arena α) (id : Nat) : Option α := A.slots[id]?.join

/-- core/symbol_store.rs L265-284 `insert_fact` (method_store.rs, type_store.rs and graph_store.rs alike). -/
def Arena.insert (A : Arena α) (a : α) : Outcome (Arena α × Nat) :=
  match A.free with
  | id :: rest =>
    match A.slots[id]? with
    | none => .panic
    | some (some _) => .panic
    | some none => .ok ({ slots := A.slots.set id (some a), free := rest }, id)
  | [] => .ok ({ A with slots := A.slots ++ [some a] }, A.slots.length)

/-- core/symbol_store.rs L290-292 `take_fact`, and the `free_facts.push(stale_id)` that follows a successful take
(L166). -/
def Arena.take (A : Arena α) (id : Nat) : Option (α × Arena α) :=
  match A.get id with
  | none => none
  | some a => some (a, { slots := A.slots.set id none, free := id :: A.free })

/-- core/symbol_store.rs L294-296 `clone_facts`. -/
def Arena.clone (A : Arena α) (ids : List Nat) : List α := ids.filterMap A.get

/-- core/symbol_store.rs L134-136 `all_facts`. -/
def Arena.all (A : Arena α) : List α := A.slots.filterMap id

/-- core/symbol_store.rs L299-324 `sort_symbol_ids`, `sort_symbol_ids_by_file` and their counterparts: a stable sort of ids
by a key of the facts they point to; a dead id panics. -/
def Arena.sortIds (le : α → α → Bool) (A : Arena α) (ids : List Nat) : Outcome (List Nat) :=
  if ids.all (fun i => (A.get i).isSome) then
    .ok (stableSort (fun i j => match A.get i, A.get j with
      | some a, some b => le a b
      | _, _ => true) ids)
  else .panic

/-- Change one bucket of an index. -/
def upd {κ ω : Type} [DecidableEq κ] (m : κ → ω) (k : κ) (v : ω) : κ → ω :=
  fun k' => if k' = k then v else m k'

/-- `map.entry(key).or_default().push(id)`, skipped when the fact has no such key. -/
def push {κ : Type} [DecidableEq κ] (m : κ → List Nat) (k : Option κ) (id : Nat) : κ → List Nat :=
  match k with
  | none => m
  | some k => upd m k (m k ++ [id])

/-- `if let Some(ids) = map.get_mut(&key) { ids.retain(|id| *id != stale_id); … }`, skipped when the fact has no such
key. -/
def retain {κ : Type} [DecidableEq κ] (m : κ → List Nat) (k : Option κ) (id : Nat) : κ → List Nat :=
  match k with
  | none => m
  | some k => upd m k ((m k).filter (fun i => decide (i ≠ id)))

/-- Sort one bucket, skipped when there is no key. -/
def Arena.sortKey {κ : Type} [DecidableEq κ] (le : α → α → Bool) (A : Arena α) (k : Option κ) (m : κ → List Nat) :
    Outcome (κ → List Nat) :=
  match k with
  | none => .ok m
  | some k => (A.sortIds le (m k)).bind fun ids => .ok (upd m k ids)

/-- Sort the buckets of several keys one after the other. -/
def Arena.sortKeys {κ : Type} [DecidableEq κ] (le : α → α → Bool) (A : Arena α) : List κ → (κ → List Nat) →
    Outcome (κ → List Nat)
  | [], m => .ok m
  | k :: ks, m => (A.sortKey le (some k) m).bind (A.sortKeys le ks)

/-- `HashSet::insert` of an optional key, the set as the list of its elements in order of insertion. -/
def note {κ : Type} [DecidableEq κ] (ks : List κ) : Option κ → List κ
  | none => ks
  | some k => if k ∈ ks then ks else ks ++ [k]

/-- `slice::partition_point`: the number of leading elements satisfying `q`.  The standard library leaves the result
unspecified unless all elements satisfying `q` come first; this is modelled as a failure, so that a proof that the
operation succeeds also shows that the result was specified. -/
def partitionPoint {T : Type} [DecidableEq T] (q : T → Bool) (l : List T) : Outcome Nat :=
  if l = l.filter q ++ l.filter (fun x => !q x) then .ok (l.filter q).length else .panic

/-- `slice::rotate_right(k)`. -/
def rotateRight {T : Type} (l : List T) (k : Nat) : List T := l.drop (l.length - k) ++ l.take (l.length - k)

/-- core/file_owned_index.rs L5-34 `place_appended_file_facts`.  `fileOf` and `sort` may panic (both look facts up by id
in the arena). -/
def place {T : Type} [DecidableEq T] (ids : List T) (count : Nat) (file : Nat) (fileOf : T → Nat)
    (sort : List T → Outcome (List T)) : Outcome (List T) :=
  if 0 < count ∧ count ≤ ids.length then
    let start := ids.length - count
    (sort (ids.drop start)).bind fun tail =>
    let ids := ids.take start ++ tail
    (partitionPoint (fun id => fileOf id < file) (ids.take start)).bind fun insertion =>
    if ((ids.take start)[insertion]?).any (fun e => fileOf e == file) then .panic
    else if insertion ≠ start then .ok (ids.take insertion ++ rotateRight (ids.drop insertion) count)
    else .ok ids
  else .panic

/-- The calls of `place_appended_file_facts` in core/symbol_store.rs L205-226 and type_store.rs L655-680: ids are compared
by the file of the fact they point to, the appended ids are sorted with the store's own key; a dead id panics. -/
def Arena.place (le : α → α → Bool) (file : α → Nat) (A : Arena α) (ids : List Nat) (count f : Nat) :
    Outcome (List Nat) :=
  if ids.all (fun i => (A.get i).isSome) then
    Store.place ids count f (fun i => ((A.get i).map file).getD 0) (A.sortIds le)
  else .panic

/-- Lexicographic comparison of sort keys (Rust tuples of integers compare this way). -/
def lexLe : List Nat → List Nat → Bool
  | [], _ => true
  | _ :: _, [] => false
  | a :: l, b :: m => if a < b then true else if a = b then lexLe l m else false

/-- `sort_by_key`. -/
def leBy (key : α → List Nat) (a b : α) : Bool := lexLe (key a) (key b)

end Verif.Store
