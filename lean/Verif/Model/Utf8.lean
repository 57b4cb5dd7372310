/-!
Rust's `str` as used by the modelled code: a text is a list of Unicode scalar values, its bytes are the UTF-8 encoding
(the definition in Lean's own library), and a byte position is a char boundary exactly when Rust's
`str::is_char_boundary` says so: at either end, or at a byte that is not a continuation byte.
-/
namespace Verif

/-- The bytes of a Rust `str`. -/
def utf8 (t : List Char) : List UInt8 := t.flatMap String.utf8EncodeChar

/-- A continuation byte `10xxxxxx`; Rust tests `(b as i8) < -0x40`. -/
def isCont (b : UInt8) : Bool := 0x80 ≤ b && b < 0xC0

/-- `is_char_boundary` at the position where `suffix` begins. -/
def boundaryBefore (suffix : List UInt8) : Bool :=
  match suffix with
  | [] => true
  | b :: _ => !isCont b

/-- Valid UTF-8: the encoding of some text (Rust: `String::from_utf8` succeeds). -/
def ValidUtf8 (bs : List UInt8) : Prop := ∃ t, bs = utf8 t

end Verif
