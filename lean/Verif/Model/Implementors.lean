import Verif.Model.Mro
/-!
Model of the implementor search (crates/ruby-analysis/src/engine/hierarchy.rs L389-459) and of `module_includers`
(crates/ruby-analysis/src/engine/resolution.rs L2250-2285) on top of the graph store.

Simplifications: as in `Model/Mro`; the text of a name is a list of numbers compared like a string; the loops carry fuel, and
`none` means the fuel ran out (proved impossible).
-/
namespace Verif.Implementors
open Verif.GraphStore Verif.Store Verif.Mro

/-- `for x in l { if visited.insert(x) { .. } }`: the names inserted, in order, and the set afterwards. -/
def enqueue : List Nat → List Nat → List Nat × List Nat
  | [], seen => ([], seen)
  | x :: l, seen =>
    if x ∈ seen then enqueue l seen
    else
      let r := enqueue l (x :: seen)
      (x :: r.1, r.2)

/-- The sources of the superclass edges to `n`. -/
def subclasses (s : State) (n : Nat) : List Nat :=
  ((edgesTo s n).filter (fun e => decide (e.kind = .superclass))).map (·.source)

/-- engine/hierarchy.rs L449-456: the loop of `descendants`. -/
def descLoop (s : State) : Nat → List Nat → List Nat → List Nat → Option (List Nat)
  | _, [], _, result => some result
  | 0, _ :: _, _, _ => none
  | fuel + 1, n :: queue, seen, result =>
    let r := enqueue (subclasses s n) seen
    descLoop s fuel (queue ++ r.1) r.2 (result ++ r.1)

/-- Enough fuel for every loop here. -/
def enough (s : State) : Nat := s.edges.slots.length + 1

/-- engine/hierarchy.rs L439-459 `descendants`. -/
def descendants (s : State) (n : Nat) : Option (List Nat) := descLoop s (enough s) [n] [n] []

/-- engine/hierarchy.rs L418-437 `mixers`. -/
def mixers (C : Cfg) (text : Nat → List Nat) (s : State) (n : Nat) : List Nat :=
  dedupAdj (stableSort (leBy text) (((edgesTo s n).filter fun e =>
    (decide (e.kind = .incl) || decide (e.kind = .prep) || decide (e.kind = .extend)) &&
      (decide (e.kind = .extend) || !C.singleton e.source)).map (·.source)))

/-- engine/hierarchy.rs L399-412: the loop of `collect_all_implementors`; the head of the list is the top of the stack. -/
def collectLoop (C : Cfg) (text : Nat → List Nat) (s : State) : Nat → List Nat → List Nat → List Nat → Option (List Nat)
  | _, [], _, result => some result
  | 0, _ :: _, _, _ => none
  | fuel + 1, n :: stack, visited, result =>
    (descendants s n).bind fun ds =>
    let d := enqueue ds visited
    let m := enqueue (mixers C text s n) d.2
    collectLoop C text s fuel (m.1.reverse ++ stack) m.2 (result ++ d.1 ++ m.1)

/-- engine/hierarchy.rs L389-416 `collect_all_implementors`. -/
def implementors (C : Cfg) (text : Nat → List Nat) (s : State) (n : Nat) : Option (List Nat) :=
  (collectLoop C text s (enough s) [n] [n] []).map (stableSort (leBy text))

/-- The sources of the include and prepend edges to `n`. -/
def includers (s : State) (n : Nat) : List Nat :=
  ((edgesTo s n).filter (fun e => decide (e.kind = .incl) || decide (e.kind = .prep))).map (·.source)

/-- engine/resolution.rs L2266-2281: the loop of `module_includers`. -/
def includersLoop (s : State) : Nat → List Nat → List Nat → List Nat → Option (List Nat)
  | _, [], _, result => some result
  | 0, _ :: _, _, _ => none
  | fuel + 1, n :: queue, visited, result =>
    if nodeKind s n = some kindClass then includersLoop s fuel queue visited (result ++ [n])
    else if nodeKind s n = some kindModule then
      let r := enqueue (includers s n) visited
      includersLoop s fuel (queue ++ r.1) r.2 result
    else includersLoop s fuel queue visited result

/-- engine/resolution.rs L2250-2285 `module_includers`. -/
def moduleIncluders (text : Nat → List Nat) (s : State) (n : Nat) : Option (List Nat) :=
  let r := enqueue (includers s n) []
  (includersLoop s (enough s) r.1 r.2 []).map (stableSort (leBy text))

end Verif.Implementors
