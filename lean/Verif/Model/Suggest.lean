/-!
Model of the suggestions in diagnostics: edit distance and nearest name
(crates/ruby-analysis/src/engine/diagnostic_helpers.rs L66-72, L150-197, engine/diagnostics.rs L1990-2019).

Simplifications: a string is its list of characters; the two rows of the table are lists, and the row that is overwritten from left
to right is built from left to right; counters do not overflow.
-/
namespace Verif.Suggest

/-- L187-193: the rest of a row; `prev` starts with `previous[j]`, `left` is `current[j]`. -/
def row (ca : Char) : List Char → List Nat → Nat → List Nat
  | cb :: bs, p0 :: p1 :: ps, left =>
    let cost := if ca ≠ cb then 1 else 0
    let c := min (min (p1 + 1) (left + 1)) (p0 + cost)
    c :: row ca bs (p1 :: ps) c
  | _, _, _ => []

/-- L185-195: the loop over the characters of `a`, starting with number `i`. -/
def rows (b : List Char) : List Char → Nat → List Nat → List Nat
  | [], _, prev => prev
  | ca :: a, i, prev => rows b a (i + 1) ((i + 1) :: row ca b prev (i + 1))

/-- L169-197 `levenshtein`. -/
def levenshtein (a b : List Char) : Nat :=
  if a = b then 0
  else if a.isEmpty then b.length
  else if b.isEmpty then a.length
  else (rows b a 0 (List.range (b.length + 1)))[b.length]?.getD 0

/-- `str::len`: the number of bytes in UTF-8. -/
def byteLen (s : List Char) : Nat := (s.map Char.utf8Size).sum

/-- L66-72 `suggestion_threshold`. -/
def threshold (len : Nat) : Nat :=
  if len ≤ 2 then 0 else if len ≤ 8 then 2 else 3

/-- L156-165: one round of the loop. -/
def better (target : List Char) (t : Nat) (best : Option (List Char × Nat)) (c : List Char) : Option (List Char × Nat) :=
  let dist := levenshtein c target
  if t < dist then best
  else match best with
    | some (x, d) => if d ≤ dist then some (x, d) else some (c, dist)
    | none => some (c, dist)

/-- L150-167 `closest_keyword`. -/
def closestKeyword (target : List Char) (declared : List (List Char)) : Option (List Char) :=
  let t := threshold (byteLen target)
  if t = 0 then none else (declared.foldl (better target t) none).map (·.1)

/-- `abs_diff`. -/
def absDiff (a b : Nat) : Nat := if a < b then b - a else a - b

/-- diagnostics.rs L2001-2007: which candidates are looked at. -/
def considered (target : List Char) (t : Nat) (c : List Char) : Bool :=
  c ≠ target && !decide (t < absDiff (byteLen c) (byteLen target))

/-- L1990-2019 `find_method_suggestion`, with the names of the methods of the owner. -/
def findMethodSuggestion (target : List Char) (names : List (List Char)) : Option (List Char) :=
  let t := threshold (byteLen target)
  if t = 0 then none else ((names.filter (considered target t)).foldl (better target t) none).map (·.1)

end Verif.Suggest
