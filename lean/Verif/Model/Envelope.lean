import Verif.Model.Bytes
/-!
The file formats of the persistent cache: src/persistent_cache.rs. The digest and the compressor are parameters. All errors are
`none`; the reasons given to the user are not modelled. `usize` is 64 bits.
-/
namespace Verif.Envelope
open Verif.Bytes

/-- Sha256 and zstd. `stream z` is what decompressing `z` yields: the bytes produced and whether an error follows them. -/
structure Codec where
  sha : List UInt8 → List UInt8
  compress : List UInt8 → List UInt8
  stream : List UInt8 → List UInt8 × Bool

/-- persistent_cache.rs L22-30. -/
def envelopeSchema : Nat := 1
def headerBytes : Nat := 8 + 4 + 8 + 8 + 32
def maxCompressed : Nat := 256 * 1024 * 1024
def wasmSchema : Nat := 1
def wasmHeaderBytes : Nat := 4 + 8 + 32 + 8 + 8 + 32
def u64Max : Nat := 2 ^ 64 - 1

/-- L1044-1074 `encode_envelope`. -/
def encode (C : Codec) (magic : List UInt8) (maxLogical : Nat) (payload : List UInt8) : Option (List UInt8) :=
  if payload.length > u64Max then none
  else if payload.length > maxLogical then none
  else
    let compressed := C.compress payload
    if headerBytes + compressed.length > u64Max then none
    else some (magic ++ (toLe 4 envelopeSchema ++ (toLe 8 payload.length ++ (toLe 8 compressed.length ++ (C.sha payload ++ compressed)))))

/-- `decoder.take(limit).read_to_end`: an error behind the limit is not seen. -/
def readLimited (s : List UInt8 × Bool) (limit : Nat) : Option (List UInt8) :=
  if limit ≤ s.1.length then some (s.1.take limit) else if s.2 then none else some s.1

/-- L1152-1161 `encoded_payload_logical_len`. -/
def logicalLen (encoded : List UInt8) : Option Nat :=
  if encoded.length < 20 then none else some (fromLe (slice encoded 12 20))

/-- L1076-1150 `decode_envelope`. -/
def decode (C : Codec) (magic : List UInt8) (maxLogical : Nat) (encoded : List UInt8) : Option (List UInt8) :=
  if encoded.length < headerBytes then none
  else if slice encoded 0 8 ≠ magic then none
  else if fromLe (slice encoded 8 12) ≠ envelopeSchema then none
  else
    match logicalLen encoded with
    | none => none
    | some logical =>
      let compressed := fromLe (slice encoded 20 28)
      if logical > maxLogical then none
      else if compressed > maxCompressed then none
      else if headerBytes + compressed > u64Max then none
      else if encoded.length ≠ headerBytes + compressed then none
      else if logical + 1 > u64Max then none
      else
        match readLimited (C.stream (encoded.drop headerBytes)) (logical + 1) with
        | none => none
        | some payload =>
          if payload.length ≠ logical then none
          else if C.sha payload ≠ slice encoded 28 60 then none
          else some payload

/-- L117-146 `CompiledWasmProductKey`; the cache id is computed from the other fields. -/
structure Key where
  sourceLength : Nat
  sourceSha : List UInt8
  compiler : Nat
  deriving DecidableEq

/-- The bytes hashed by L131-135 into the cache id. -/
def keyBytes (k : Key) : List UInt8 :=
  "ruby-fast-lsp-compiled-wasm-product-v1\x00".toList.map (fun c => UInt8.ofNat c.toNat) ++
    (toLe 8 k.sourceLength ++ (k.sourceSha ++ toLe 8 k.compiler))

/-- L124-143 `CompiledWasmProductKey::new`. -/
def newKey (C : Codec) (wasm : List UInt8) (compiler : Nat) : Key := { sourceLength := wasm.length, sourceSha := C.sha wasm, compiler }

/-- L136. -/
def cacheId (C : Codec) (k : Key) : List Char := hex (C.sha (keyBytes k))

/-- L897-908 `validate_cache_id`. -/
def validId (id : List Char) : Bool :=
  decide (id.length = 64) && id.all fun c => decide ('0' ≤ c ∧ c ≤ '9') || decide ('a' ≤ c ∧ c ≤ 'f')

/-- L963-980 `encode_compiled_wasm_payload`. -/
def encodeWasm (C : Codec) (k : Key) (artifact : List UInt8) : Option (List UInt8) :=
  if artifact.length > u64Max then none
  else if wasmHeaderBytes + artifact.length > u64Max then none
  else some (toLe 4 wasmSchema ++ (toLe 8 k.sourceLength ++ (k.sourceSha ++ (toLe 8 k.compiler ++ (toLe 8 artifact.length ++ (C.sha artifact ++ artifact))))))

/-- L982-1042 `decode_compiled_wasm_payload`. -/
def decodeWasm (C : Codec) (k : Key) (payload : List UInt8) : Option (List UInt8) :=
  if payload.length < wasmHeaderBytes then none
  else if fromLe (slice payload 0 4) ≠ wasmSchema then none
  else if fromLe (slice payload 4 12) ≠ k.sourceLength ∨ slice payload 12 44 ≠ k.sourceSha ∨ fromLe (slice payload 44 52) ≠ k.compiler then none
  else
    let len := fromLe (slice payload 52 60)
    if wasmHeaderBytes + len > u64Max then none
    else if payload.length ≠ wasmHeaderBytes + len then none
    else if C.sha (payload.drop wasmHeaderBytes) ≠ slice payload 60 92 then none
    else some (payload.drop wasmHeaderBytes)

/-- L19-21: the three magics. -/
inductive Kind where
  | gem | java | wasm
  deriving DecidableEq

/-- L826-832 `magic`. -/
def Kind.magic : Kind → List UInt8
  | .gem => "RFLSPG01".toList.map (fun c => UInt8.ofNat c.toNat)
  | .java => "RFLSPJ01".toList.map (fun c => UInt8.ofNat c.toNat)
  | .wasm => "RFLSPW01".toList.map (fun c => UInt8.ofNat c.toNat)

/-- L842-847 `max_logical_entry_bytes`. -/
def Kind.maxLogical : Kind → Nat
  | .gem => 1024 * 1024 * 1024
  | .java => 1024 * 1024 * 1024
  | .wasm => 64 * 1024 * 1024

/-- L720-733: what `publish_inner` writes for a payload, if anything. -/
def publishBytes (C : Codec) (kind : Kind) (payload : List UInt8) : Option (List UInt8) :=
  match encode C kind.magic kind.maxLogical payload with
  | none => none
  | some e => if e.length > maxCompressed then none else some e

/-- L486-539 `lookup_disk`, once the file is open: `none` is `Corrupt`. -/
def readProduct (C : Codec) (kind : Kind) (file : List UInt8) : Option (List UInt8) :=
  if file.length > maxCompressed then none else decode C kind.magic kind.maxLogical file

end Verif.Envelope
