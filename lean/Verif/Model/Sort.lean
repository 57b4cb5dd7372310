/-!
Rust's stable `sort_by_key` / `sort_by`: the result of a stable sort is a function of the list and the order, so insertion
sort models it exactly.  `Vec::dedup` removes an element equal to the one before it.
-/
namespace Verif

/-- Insert before the first element that is not smaller. -/
def insertSorted {α : Type} (le : α → α → Bool) (a : α) : List α → List α
  | [] => [a]
  | b :: l => if le a b then a :: b :: l else b :: insertSorted le a l

/-- `sort_by` with `le` = "compares less or equal". -/
def stableSort {α : Type} (le : α → α → Bool) : List α → List α
  | [] => []
  | a :: l => insertSorted le a (stableSort le l)

/-- `Vec::dedup`. -/
def dedupAdj {α : Type} [DecidableEq α] : List α → List α
  | [] => []
  | a :: l =>
    match dedupAdj l with
    | [] => [a]
    | b :: l' => if a = b then b :: l' else a :: b :: l'

end Verif
