import Mathlib.Data.List.Basic
/-!
Shared building blocks of the models: Rust standard-library operations used by several components, and the
three-way result of a state-machine step.
-/
namespace Verif

/-- Result of one operation of a modelled state machine.
`ok` – the operation happened; `disabled` – the calling task is not at a point of its program where this operation
can happen; `panic` – an `assert!`/`expect` of the code fired. -/
inductive Outcome (σ : Type) where
  | ok (s : σ)
  | disabled
  | panic
  deriving DecidableEq

/-- The state after an operation, if it happened. -/
def Outcome.state? {σ : Type} : Outcome σ → Option σ
  | .ok s => some s
  | _ => none

/-- Run the next operation on the result of this one. -/
def Outcome.bind {σ τ : Type} (x : Outcome σ) (f : σ → Outcome τ) : Outcome τ :=
  match x with
  | .ok s => f s
  | .disabled => .disabled
  | .panic => .panic

instance : Monad Outcome where
  pure := Outcome.ok
  bind := Outcome.bind

/-- Rust `Vec::swap_remove(i)` (the remaining vector): the last element takes the place of element `i`. -/
def swapRemove {α : Type} (l : List α) (i : Nat) : List α :=
  match l.getLast? with
  | none => []
  | some z => (l.set i z).dropLast

/-- Rust `Iterator::min_by(_key)`: the first minimal element.  `lt x y` is "`x` compares less than `y`"; the fold keeps
the earlier element unless the later one is strictly smaller. -/
def minBy {α : Type} (lt : α → α → Bool) : List α → Option α
  | [] => none
  | a :: l => some (l.foldl (fun acc x => if lt x acc then x else acc) a)

/-- Rust `iter().enumerate()`. -/
def enumerate {α : Type} (l : List α) : List (Nat × α) := l.zipIdx.map fun p => (p.2, p.1)

end Verif
