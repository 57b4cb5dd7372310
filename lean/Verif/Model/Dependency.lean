import Verif.Model.Arena
import Verif.Model.Sort
import Verif.Model.Bytes
/-!
Identity, validation and binding of dependency products: src/dependency_product.rs.

Strings are their UTF-8 bytes. Sha256 is a parameter, as are the constants compiled into the program. Facts of a file are an opaque
type `F`; postcard and the snapshot conversion of facts are outside the model. All errors are `none`. Lengths fit in `u64` (the code
panics otherwise), batch numbers are `u32`: both are hypotheses of the theorems that need them.
-/
namespace Verif.Dependency
open Verif.Bytes Verif.Store

abbrev Str := List UInt8

/-- L60-68 `GemDependencySource`; the digest is computed from the content (L104). -/
structure Source where
  batch : Nat
  logical : Str
  physical : Str
  content : Str
  package : Str × Str
  deriving DecidableEq

/-- L18-21 and L181-182: what is compiled into the program. -/
structure Build where
  schema : Nat
  version : Str
  parser : Str
  lockSha : Str

/-- L23-32 `GemDependencyProductKey`. -/
structure Key where
  schema : Nat
  version : Str
  parser : Str
  lockSha : Str
  producerSha : Str
  seed : Str
  closureSha : Str
  deriving DecidableEq

/-- L651-660 `hash_field`. -/
def field (s : Str) : List UInt8 := toLe 8 s.length ++ s

/-- L36-46: the bytes hashed into the cache id. -/
def keyBytes (k : Key) : List UInt8 :=
  toLe 4 k.schema ++ (field k.version ++ (field k.parser ++ (k.lockSha ++ (k.producerSha ++ (k.seed ++ k.closureSha)))))

/-- L35-46 `cache_id`, L662-670 `encode_hex`. -/
def cacheId (sha : Str → Str) (k : Key) : List Char := hex (sha (keyBytes k))

/-- L187-193. -/
def providerBytes : Option Str → List UInt8
  | some f => 1 :: field f
  | none => [0]

/-- L206-217: one source. -/
def sourceBytes (sha : Str → Str) (s : Source) : List UInt8 :=
  toLe 4 s.batch ++ (field s.logical ++ (sha s.content ++ toLe 8 s.content.length))

/-- L178-217: the bytes hashed into `closure_sha256`. -/
def closureBytes (sha : Str → Str) (b : Build) (producerSha : Str) (provider : Option Str) (identities : List Str) (sources : List Source) :
    List UInt8 :=
  toLe 4 b.schema ++ (field b.version ++ (field b.parser ++ (b.lockSha ++ (producerSha ++ (providerBytes provider ++
    (toLe 8 identities.length ++ (identities.flatMap field ++ sources.flatMap (sourceBytes sha))))))))

/-- L163-167: compare batches, then logical paths. -/
def sourceKey (s : Source) : List Nat := s.batch :: s.logical.map UInt8.toNat

def sortSources (sources : List Source) : List Source := stableSort (leBy sourceKey) sources

structure Manifest where
  key : Key
  sources : List Source

/-- L168-176: the set of paths seen so far; `false` at the first repetition. -/
def noRepeats : List Str → List Str → Bool
  | _, [] => true
  | seen, p :: ps => if seen.contains p then false else noRepeats (p :: seen) ps

/-- L156-229 `new_with_semantic_producer_identity`. -/
def newManifest (sha : Str → Str) (b : Build) (producerSha seed : Str) (provider : Option Str) (identities : List Str) (sources : List Source) :
    Option Manifest :=
  let sorted := sortSources sources
  if noRepeats [] (sorted.map Source.logical) then
    some { key := { schema := b.schema, version := b.version, parser := b.parser, lockSha := b.lockSha, producerSha, seed,
                    closureSha := sha (closureBytes sha b producerSha provider identities sorted) },
           sources := sorted }
  else none

/-! ### logical paths -/

/-- `split('/')`. -/
def splitSlash : Str → Str → List Str
  | cur, [] => [cur]
  | cur, c :: s => if c = 47 then cur :: splitSlash [] s else splitSlash (cur ++ [c]) s

inductive Component where
  | rootDir | curDir | parentDir
  | normal (s : Str)
  deriving DecidableEq

/-- `Path::components` on Unix: repeated slashes and `.` segments are skipped, except a `.` at the very beginning. -/
def components (p : Str) : List Component :=
  let segs := splitSlash [] p
  let head := match p, segs with
    | 47 :: _, _ => [.rootDir]
    | _, [46] :: _ => [.curDir]
    | _, _ => []
  head ++ segs.filterMap fun s => if s = [] ∨ s = [46] then none else if s = [46, 46] then some .parentDir else some (.normal s)

/-- L672-693 `validate_logical_path`. -/
def validLogical (p : Str) : Bool :=
  !p.isEmpty && !(match p with | 47 :: _ => true | _ => false) &&
    (components p).all fun c => match c with | .normal _ => true | _ => false

/-! ### products -/

/-- L241-245 `GemDependencyFileTemplate`. -/
structure File (F : Type) where
  logical : Str
  sha : Str
  facts : F

/-- L263-267 `GemDependencyProduct` (the weight is not modelled). -/
structure Product (F : Type) where
  key : Key
  files : List (File F)

def fileKey {F : Type} (f : File F) : List Nat := f.logical.map UInt8.toNat

/-- L350-383 `GemDependencyProduct::new`. -/
def newProduct {F : Type} (sha : Str → Str) (m : Manifest) (files : List (File F)) : Option (Product F) :=
  let files := stableSort (leBy fileKey) files
  let expected := stableSort (leBy fun (e : Str × Str) => e.1.map UInt8.toNat) (m.sources.map fun s => (s.logical, sha s.content))
  if files.map (fun f => (f.logical, f.sha)) ≠ expected then none else some { key := m.key, files }

/-- What postcard stores (L269-293); the schema constant is 6. -/
structure Persisted (F : Type) where
  schema : Nat
  cacheId : List Char
  key : Key
  files : List (File F)

def persistentSchema : Nat := 6

/-- L393-416 `encode_persistent_payload` before postcard. -/
def persist {F : Type} (sha : Str → Str) (p : Product F) : Persisted F :=
  { schema := persistentSchema, cacheId := cacheId sha p.key, key := p.key, files := p.files }

/-- L418-461 `decode_persistent_payload` after postcard. -/
def restore {F : Type} (sha : Str → Str) (m : Manifest) (p : Persisted F) : Option (Product F) :=
  if p.schema ≠ persistentSchema then none
  else if p.cacheId ≠ cacheId sha m.key then none
  else if p.key ≠ m.key then none
  else if p.files.length ≠ m.sources.length then none
  else newProduct sha m p.files

/-! ### binding -/

/-- What the binding asks of the engine. -/
inductive Action (F : Type) where
  | register (physical content : Str) (package : Str × Str)
  | facts (f : F)
  | resolve

/-- The engine is the sequence of calls made to it. -/
abbrev Engine (F : Type) := List (Action F)

/-- A `HashMap` from logical path to template: the last of equal paths wins. -/
def findTemplate {F : Type} (files : List (File F)) (p : Str) : Option (File F) := (files.filter fun f => f.logical = p).getLast?

/-- The number of keys of that map. -/
def templateCount {F : Type} (files : List (File F)) : Nat := (files.map File.logical).eraseDups.length

/-- L493-517: every source is matched before anything is done. -/
def prepare {F : Type} (sha : Str → Str) (toUri : Str → Option Str) (files : List (File F)) : List Source → Option (List (Source × File F × Str))
  | [] => some []
  | s :: rest =>
    match findTemplate files s.logical with
    | none => none
    | some t =>
      if t.sha ≠ sha s.content then none
      else
        match toUri s.physical with
        | none => none
        | some u => (prepare sha toUri files rest).map fun l => (s, t, u) :: l

/-- L519-538: register the prepared sources one by one. -/
def insertAll {F : Type} : List (Source × File F × Str) → Engine F → List Str → Engine F × List Str
  | [], e, uris => (e, uris)
  | (s, t, u) :: rest, e, uris => insertAll rest (e ++ [.register s.physical s.content s.package] ++ [.facts t.facts]) (uris ++ [u])

/-- L471-546 `bind_into_measured` (`doResolve` is true) and L562-646 `bind_owned_into_measured_with_resolution`: the engine
afterwards and the URIs, if the binding succeeds. -/
def bind {F : Type} (sha : Str → Str) (toUri : Str → Option Str) (doResolve : Bool) (p : Product F) (m : Manifest) (e : Engine F) :
    Engine F × Option (List Str) :=
  if p.key ≠ m.key then (e, none)
  else if templateCount p.files ≠ p.files.length ∨ templateCount p.files ≠ m.sources.length then (e, none)
  else
    match prepare sha toUri p.files m.sources with
    | none => (e, none)
    | some l =>
      let (e, uris) := insertAll l e []
      if doResolve && !uris.isEmpty then (e ++ [.resolve], some uris) else (e, some uris)

end Verif.Dependency
