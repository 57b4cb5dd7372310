import Verif.Model.Utf8
/-!
Model of ERB masking: `/repo/crates/ruby-analysis/src/indexer/erb.rs` L3-102.  A template is a list of Unicode scalar values, the
code works on its UTF-8 bytes.  `none` is a panic: a slice or index out of bounds, or masked bytes that are not valid UTF-8 (the
`expect` at L77), or a changed length (the `assert_eq!` at L80).
-/
namespace Verif.Erb

/-- `find_bytes`, L94-102, for a non-empty needle: position of the first window equal to the needle. -/
def findBytes (needle : List UInt8) : List UInt8 → Option Nat
  | [] => none
  | b :: bs => if needle.isPrefixOf (b :: bs) then some 0 else (findBytes needle bs).map (· + 1)

/-- L35-39: the initial mask of one byte. -/
def blank (b : UInt8) : UInt8 := if b = 0x0A || b = 0x0D then b else 0x20

def openTag : List UInt8 := [0x3C, 0x25]
def closeTag : List UInt8 := [0x25, 0x3E]

/-- `masked[a..b].copy_from_slice(&bytes[a..b])`, L71. -/
def copySlice (masked bytes : List UInt8) (a b : Nat) : Option (List UInt8) :=
  if a ≤ b ∧ b ≤ masked.length ∧ b ≤ bytes.length then some (masked.take a ++ (bytes.drop a).take (b - a) ++ masked.drop b) else none

/-- `masked[i] = x`, L72. -/
def setByte (masked : List UInt8) (i : Nat) (x : UInt8) : Option (List UInt8) :=
  if i < masked.length then some (masked.set i x) else none

theorem findBytes_lt {needle hay : List UInt8} {k : Nat} (h : findBytes needle hay = some k) : k < hay.length := by
  induction hay generalizing k with
  | nil => simp [findBytes] at h
  | cons b bs ih =>
    simp only [findBytes] at h
    split at h
    · simp only [Option.some.injEq] at h; subst h; simp
    · rw [Option.map_eq_some_iff] at h
      obtain ⟨j, hj, rfl⟩ := h
      have := ih hj
      simp; omega

/-- L56-63: `body_start` of a tag opened at `opn`. -/
def bodyStart (bytes : List UInt8) (opn : Nat) : Nat :=
  let s := opn + 2
  let s := if bytes[s]? = some 0x2D then s + 1 else s
  if bytes[s]? = some 0x3D then s + 1 else s

/-- L64-67: `body_end` of a tag closed at `close`. -/
def bodyEnd (bytes : List UInt8) (start close : Nat) : Nat :=
  if close > start ∧ bytes[close - 1]? = some 0x2D then close - 1 else close

/-- The `while let` loop of `mask_erb`, L44-74. -/
def maskLoop (bytes : List UInt8) (cursor : Nat) (masked : List UInt8) (ranges : List (Nat × Nat)) :
    Option (List UInt8 × List (Nat × Nat) × Option Nat) :=
  if cursor > bytes.length then none
  else
    match _h : findBytes openTag (bytes.drop cursor) with
    | none => some (masked, ranges, none)
    | some relativeOpen =>
      let opn := cursor + relativeOpen
      let marker := bytes[opn + 2]?
      let searchStart := min (opn + 3) bytes.length
      match findBytes closeTag (bytes.drop searchStart) with
      | none => some (masked, ranges, some opn)
      | some relativeClose =>
        let close := searchStart + relativeClose
        if marker = some 0x25 ∨ marker = some 0x23 then maskLoop bytes (close + 2) masked ranges
        else
          let start := bodyStart bytes opn
          let stop := bodyEnd bytes start close
          if start ≥ stop then maskLoop bytes (close + 2) masked ranges
          else
            match (copySlice masked bytes start stop).bind (setByte · close 0x3B) with
            | none => none
            | some masked' => maskLoop bytes (close + 2) masked' (ranges ++ [(start, stop)])
termination_by bytes.length - cursor
decreasing_by
  all_goals
    have h1 := findBytes_lt (by assumption)
    simp only [List.length_drop] at h1
    omega

structure Embedded where
  source : List UInt8
  ranges : List (Nat × Nat)
  unclosed : Option Nat

open Classical in
/-- `mask_erb`, L32-92. -/
noncomputable def maskErb (template : List Char) : Option Embedded :=
  let bytes := utf8 template
  match maskLoop bytes 0 (bytes.map blank) [] with
  | none => none
  | some (masked, ranges, unclosed) =>
    if ValidUtf8 masked ∧ masked.length = bytes.length then some { source := masked, ranges, unclosed } else none

/-- `EmbeddedRuby::is_ruby_offset`, L15-19. -/
def Embedded.isRubyOffset (e : Embedded) (offset : Nat) : Bool := e.ranges.any (fun r => r.1 ≤ offset && offset < r.2)

end Verif.Erb
