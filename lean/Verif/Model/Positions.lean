import Verif.Model.Utf8
/-!
Model of the offset/position conversions: `/repo/crates/ruby-analysis/src/indexer/source_document.rs` (L39-99, L113-126)
and the engine's own copy, `/repo/crates/ruby-analysis/src/engine/state.rs` (`SourceLineIndex` L161-191,
`byte_offset_to_line_character` L211-244).

A text is a list of Unicode scalar values (Rust `str`).  Offsets, lines and columns are `Nat` (the code: `usize`/`u32`, panicking
when a value does not fit `u32`).  `none` is a panic: a subtraction below zero, an index out of bounds, or a string slice
off a char boundary.  The document's stored `line_offsets` are those of the content passed in (`SourceDocument::new` /
`update` and the callers keep them together).
-/
namespace Verif.Positions

abbrev Text := List Char

/-- `char::len_utf16`. -/
def utf16Len (c : Char) : Nat := if c.toNat < 0x10000 then 1 else 2

/-- `str::len`. -/
def byteLen (t : Text) : Nat := (t.map Char.utf8Size).sum

def utf16Sum (t : Text) : Nat := (t.map utf16Len).sum

/-- `&t[n..]`; `none` off a char boundary or beyond the end. -/
def dropBytes : Nat → Text → Option Text
  | 0, t => some t
  | _ + 1, [] => none
  | n + 1, c :: t => if c.utf8Size ≤ n + 1 then dropBytes (n + 1 - c.utf8Size) t else none

/-- `&t[..n]`. -/
def takeBytes : Nat → Text → Option Text
  | 0, _ => some []
  | _ + 1, [] => none
  | n + 1, c :: t => if c.utf8Size ≤ n + 1 then (takeBytes (n + 1 - c.utf8Size) t).map (c :: ·) else none

/-- `&t[a..b]`. -/
def slice (t : Text) (a b : Nat) : Option Text := if a ≤ b then (dropBytes a t).bind (takeBytes (b - a)) else none

/-- `str::is_char_boundary`. -/
def isCharBoundary (t : Text) (n : Nat) : Bool := (dropBytes n t).isSome

/-- The loop of `compute_line_offsets`, L115-120, from byte position `offset` on. -/
def lineStarts (offset : Nat) : Text → List Nat
  | [] => []
  | c :: t =>
    let offset := offset + c.utf8Size
    if c = '\n' then offset :: lineStarts offset t else lineStarts offset t

/-- `compute_line_offsets`, L112-126. -/
def computeLineOffsets (content : Text) : List Nat :=
  let offsets := 0 :: lineStarts 0 content
  if offsets.getLast? ≠ some (byteLen content) then offsets ++ [byteLen content] else offsets

/-- `slice::binary_search` on a strictly increasing list: `Sum.inl i` = found at `i`, `Sum.inr i` = insertion point. -/
def binarySearch (l : List Nat) (x : Nat) : Nat ⊕ Nat :=
  match l.findIdx? (· == x) with
  | some i => .inl i
  | none => .inr (l.takeWhile (· < x)).length

/-- `while offset > 0 && !content.is_char_boundary(offset) { offset -= 1 }`, L41-43. -/
def roundDown (content : Text) : Nat → Nat
  | 0 => 0
  | n + 1 => if isCharBoundary content (n + 1) then n + 1 else roundDown content n

/-- `SourceDocument::offset_to_line_character`, L39-66. -/
def offsetToLineCharacter (content : Text) (offset : Nat) : Option (Nat × Nat) :=
  let lineOffsets := computeLineOffsets content
  let offset := roundDown content (min offset (byteLen content))
  let lineIndex : Option Nat :=
    match binarySearch lineOffsets offset with
    | .inl exact => some exact
    | .inr after => if after = 0 then none else some (after - 1)
  lineIndex.bind fun lineIndex =>
    lineOffsets[lineIndex]?.bind fun lineStart =>
      (slice content lineStart offset).map fun chars => (lineIndex, utf16Sum chars)

/-- The loop of `line_character_to_offset`, L88-96: bytes consumed of the line, given the units already used. -/
def scan (target : Nat) : Nat → Text → Nat
  | _, [] => 0
  | units, c :: t =>
    if units + utf16Len c > target || c = '\n' then 0
    else c.utf8Size + scan target (units + utf16Len c) t

/-- `SourceDocument::line_character_to_offset`, L68-99. -/
def lineCharacterToOffset (content : Text) (line character : Nat) : Option Nat :=
  let lineOffsets := computeLineOffsets content
  if line ≥ lineOffsets.length - 1 then some (byteLen content)
  else
    lineOffsets[line]?.bind fun lineStart =>
      lineOffsets[line + 1]?.bind fun lineEnd =>
        (slice content lineStart lineEnd).map fun chars => lineStart + scan character 0 chars

/-- The loop of `SourceLineIndex::new`, state.rs L175-184, over the bytes of the source from byte position `offset` on. -/
def lineStartsBytes (offset : Nat) : List UInt8 → List Nat
  | [] => []
  | b :: bs => if b = 0x0A then (offset + 1) :: lineStartsBytes (offset + 1) bs else lineStartsBytes (offset + 1) bs

/-- `SourceLineIndex::new`, state.rs L168-191: the line offsets. -/
def engineLineOffsets (source : Text) : List Nat :=
  let offsets := 0 :: lineStartsBytes 0 (utf8 source)
  if offsets.getLast? ≠ some (utf8 source).length then offsets ++ [(utf8 source).length] else offsets

/-- The engine's `SourceFile::byte_offset_to_line_character`, state.rs L211-244, for a file registered with `content`.
Outer `none` = panic; inner `none` = the `None` the code returns.  The ASCII shortcut (L221-222) subtracts instead of
counting UTF-16 units. -/
def engineOffsetToLineCharacter (content : Text) (byteOffset : Nat) : Option (Option (Nat × Nat)) :=
  if byteOffset > (utf8 content).length then some none
  else
    let lineOffsets := engineLineOffsets content
    let lineIndex :=
      match binarySearch lineOffsets byteOffset with
      | .inl exact => exact
      | .inr after => after - 1
    match lineOffsets[lineIndex]? with
    | none => some none
    | some lineStart =>
      if content.all (fun c => c.toNat < 128) then
        if lineStart ≤ byteOffset then some (some (lineIndex, byteOffset - lineStart)) else some none
      else if !isCharBoundary content byteOffset then some none
      else match slice content lineStart byteOffset with
        | none => none
        | some chars => some (some (lineIndex, utf16Sum chars))

end Verif.Positions
