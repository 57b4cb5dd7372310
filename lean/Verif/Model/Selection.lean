import Verif.Model.Sort
/-!
Model of `/repo/crates/ruby-analysis/src/indexer/selection_ranges.rs` (L1-110).

Not modelled: the prism parser and the visit of its tree.  The input is the list of source locations handed to
`collect_location` (node locations and name locations, L29-54) in visiting order; it may be any list.  Offsets are `Nat`
(the code: `u32`, panicking beyond).  The file id, the same for all ranges of a call, is left out.
-/
namespace Verif.Selection

/-- `TextRange` within one file. -/
structure Range where
  start : Nat
  stop : Nat
  deriving DecidableEq, Repr

/-- `collect_location` for one cursor, L56-67. -/
def collect (offset : Nat) (locations : List Range) : List Range :=
  locations.filter fun r => r.start ≠ r.stop && r.start ≤ offset && offset < r.stop

/-- Comparison by the sort key `(end - start, Reverse(start), end)`, L71-77. -/
def keyLe (a b : Range) : Bool :=
  let la := a.stop - a.start
  let lb := b.stop - b.start
  la < lb || (la == lb && (b.start < a.start || (b.start == a.start && a.stop ≤ b.stop)))

/-- One round of the chain loop, L81-89. -/
def chainStep (chain : List Range) (range : Range) : List Range :=
  match chain.getLast? with
  | none => chain ++ [range]
  | some inner => if range.start ≤ inner.start && range.stop ≥ inner.stop then chain ++ [range] else chain

/-- `finish` for one cursor, L69-97. -/
def finish (offset : Nat) (candidates : List Range) : List Range :=
  let chain := (dedupAdj (stableSort keyLe candidates)).foldl chainStep []
  if chain = [] then [{ start := offset, stop := offset }] else chain

/-- `selection_range_chains`, L5-20, for the locations of a parse tree. -/
def selectionRangeChains (locations : List Range) (offsets : List Nat) : List (List Range) :=
  offsets.map fun offset => finish offset (collect offset locations)

end Verif.Selection
