import Verif.Model.Sort
/-!
Model of `strongly_connected_components` (crates/ruby-analysis/src/inference/method/recursive.rs L244-328), Tarjan's algorithm.

Simplifications: methods are numbers in the order of their names; the maps from methods to numbers are functions, the set
`on_stack` is a predicate; the dependencies of a method are given by a function (the code looks them up in a map that has them for
every method of the graph); the counter is unbounded; the recursion carries fuel.  `none` is a failed `expect` or fuel that ran
out, both proved impossible.
-/
namespace Verif.Tarjan

/-- L247-255 `Tarjan`; the top of the stack comes first. -/
structure T where
  next : Nat
  index : Nat → Option Nat
  low : Nat → Option Nat
  stack : List Nat
  on : Nat → Bool
  comps : List (List Nat)

def put {α : Type} (f : Nat → α) (k : Nat) (a : α) : Nat → α := fun x => if x = k then a else f x

/-- L259-266: give the method its number and put it on the stack. -/
def enter (v : Nat) (t : T) : T :=
  { t with next := t.next + 1, index := put t.index v (some t.next), low := put t.low v (some t.next), stack := v :: t.stack,
           on := put t.on v true }

/-- `*lowlink = (*lowlink).min(a)` -/
def lower (v : Nat) (a : Option Nat) (t : T) : Option T :=
  a.bind fun a => (t.low v).bind fun b => some { t with low := put t.low v (some (min b a)) }

/-- L271-290: the loop over the dependencies; `f` is the recursive call. -/
def loop (f : Nat → T → Option T) (v : Nat) : List Nat → T → Option T
  | [], t => some t
  | d :: ds, t =>
    (if (t.index d).isNone then (f d t).bind fun t => lower v (t.low d) t
      else if t.on d then lower v (t.index d) t
      else some t).bind (loop f v ds)

/-- L297-307: pop up to the method; the members popped and the rest of the stack. -/
def popTo (v : Nat) : List Nat → Option (List Nat × List Nat)
  | [] => none
  | x :: l => if x = v then some ([x], l) else (popTo v l).map fun r => (x :: r.1, r.2)

/-- L292-310. -/
def finish (v : Nat) (t : T) : Option T :=
  if t.low v ≠ t.index v then some t
  else
    (popTo v t.stack).map fun r =>
      { t with stack := r.2, on := fun x => t.on x && !r.1.contains x, comps := t.comps ++ [stableSort Nat.ble r.1] }

/-- L258-311 `visit`. -/
def visit (g : Nat → List Nat) : Nat → Nat → T → Option T
  | 0, _, _ => none
  | fuel + 1, v, t => (loop (visit g fuel) v (g v) (enter v t)).bind (finish v)

def T.init : T := { next := 0, index := fun _ => none, low := fun _ => none, stack := [], on := fun _ => false, comps := [] }

/-- L322-326: start from every method that has no number yet. -/
def visitAll (g : Nat → List Nat) (fuel : Nat) : List Nat → T → Option T
  | [], t => some t
  | v :: vs, t => (if (t.index v).isNone then visit g fuel v t else some t).bind (visitAll g fuel vs)

/-- L244-328 `strongly_connected_components`; `keys` are the methods in order. -/
def components (g : Nat → List Nat) (keys : List Nat) : Option (List (List Nat)) :=
  (visitAll g (keys.length + 1) keys T.init).map (·.comps)

end Verif.Tarjan
