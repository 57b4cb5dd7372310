/-!
Byte-level helpers of the standard library used by the cache formats: little-endian integers, slices, hexadecimal text.
-/
namespace Verif.Bytes

/-- `to_le_bytes` of a `k`-byte integer. -/
def toLe : Nat → Nat → List UInt8
  | 0, _ => []
  | k + 1, n => UInt8.ofNat (n % 256) :: toLe k (n / 256)

/-- `from_le_bytes`. -/
def fromLe : List UInt8 → Nat
  | [] => 0
  | b :: bs => b.toNat + 256 * fromLe bs

/-- `&bytes[a..b]`; every use is guarded by a length check. -/
def slice (bs : List UInt8) (a b : Nat) : List UInt8 := (bs.drop a).take (b - a)

def hexDigit (n : Nat) : Char := if n < 10 then Char.ofNat (48 + n) else Char.ofNat (87 + n)

/-- Lower-case hexadecimal, two digits per byte (`{:x}` of a digest, and dependency_product.rs L662-670 `encode_hex`). -/
def hex (bs : List UInt8) : List Char := bs.flatMap fun b => [hexDigit (b.toNat / 16), hexDigit (b.toNat % 16)]

end Verif.Bytes
