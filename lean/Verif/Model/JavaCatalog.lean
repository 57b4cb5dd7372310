import Verif.Model.CheckReport
/-!
Which class of the class path a name stands for, and when the stored metadata of an artifact are used (/repo/src/runtime/jruby/java_catalog.rs).

Simplified: a class is its name and a number; a map is the list of its entries in the order of insertion; the estimates of memory and the memory
cache are left out (the cache is C29), and so are reading files, SHA-256 (a function that is a parameter) and the encoding of records by postcard;
`none` stands for a panic or an error.
-/
namespace Verif.JavaCatalog
open Verif.CheckReport (Text Path natLe listLe pairLe pathLe)

/-- A parsed class. -/
structure Class where
  name : Text
  content : Nat
deriving DecidableEq, Repr

/-- `ArchiveClass`. -/
structure Archived where
  cls : Class
  entry : Text
  release : Option Nat
deriving DecidableEq, Repr

/-- `ArchiveMetadata`. -/
structure Archive where
  fingerprint : Text
  classes : List Archived
deriving DecidableEq, Repr

inductive Kind where
  | jar | jmod
deriving DecidableEq, Repr

/-- `ClasspathArtifact`. -/
structure Artifact where
  path : Path
  fingerprint : Text
  kind : Kind
deriving DecidableEq, Repr

/-- java_catalog.rs 57-64 `JavaArtifactProductKey`. -/
structure Key where
  cacheId : Text
  fingerprint : Text
  kind : Kind
  jdk : Nat
  limits : Text
deriving DecidableEq, Repr

/-- java_catalog.rs 66-71 `JavaArtifactProduct`. -/
structure Product where
  key : Key
  archive : Archive
deriving DecidableEq, Repr

/-- java_catalog.rs 20-27 `JavaClassDeclaration`. -/
structure Declaration where
  cls : Class
  path : Path
  fingerprint : Text
  entry : Text
  release : Option Nat
deriving DecidableEq, Repr

/-- java_catalog.rs 29-34 `DuplicateJavaClass`. -/
structure Duplicate where
  name : Text
  winner : Path
  shadowed : Path
deriving DecidableEq, Repr

structure Building where
  classes : List (Text × Declaration)
  duplicates : List Duplicate
deriving DecidableEq, Repr

def get (classes : List (Text × Declaration)) (name : Text) : Option Declaration := (classes.find? (fun p => decide (p.1 = name))).map (·.2)

/-- java_catalog.rs 424-442: one class of an artifact. -/
def addClass (a : Artifact) (b : Building) (x : Archived) : Building :=
  match get b.classes x.cls.name with
  | some old => ⟨b.classes, b.duplicates ++ [⟨x.cls.name, old.path, a.path⟩]⟩
  | none => ⟨b.classes ++ [(x.cls.name, ⟨x.cls, a.path, a.fingerprint, x.entry, x.release⟩)], b.duplicates⟩

/-- java_catalog.rs 406-444 `add_artifact_product`. -/
def addProduct (a : Artifact) (p : Product) (b : Building) : Option Building :=
  if p.key.fingerprint ≠ a.fingerprint then none
  else if p.key.kind ≠ a.kind then none
  else some (p.archive.classes.foldl (addClass a) b)

/-- java_catalog.rs 318-327 `push` for one product after the other; too many or too few products are a panic (319-323, 330-336, 391-398). -/
def addAll : List Artifact → List Product → Building → Option Building
  | [], [], b => some b
  | a :: as, p :: ps, b => (addProduct a p b).bind (addAll as ps)
  | _, _, _ => none

def Duplicate.key (d : Duplicate) : Text × Path × Path := (d.name, d.winner, d.shadowed)

def dupLe (a b : Duplicate) : Bool := pairLe (listLe natLe) (pairLe pathLe pathLe) a.key b.key

/-- java_catalog.rs 329-348 `finish`, 387-404 `build_project_java_catalog_from_products`. -/
def catalog (as : List Artifact) (ps : List Product) : Option Building :=
  (addAll as ps ⟨[], []⟩).map (fun b => ⟨b.classes, stableSort dupLe b.duplicates⟩)

/-! ### Identities -/

/-- `to_le_bytes` of a number of `n` bytes. -/
def leBytes : Nat → Nat → List Nat
  | 0, _ => []
  | n + 1, v => v % 256 :: leBytes n (v / 256)

/-- java_catalog.rs 460-471 `hash_field`. -/
def field (t : Text) : List Nat := leBytes 8 t.length ++ t

/-- java_catalog.rs 453-458 `artifact_kind_tag`. -/
def Kind.tag : Kind → Nat
  | .jar => 1
  | .jmod => 2

/-- java_catalog.rs 473-500 `archive_limits_fingerprint`: the twelve limits. -/
def limitBytes (limits : List Nat) : List Nat := limits.flatMap (leBytes 8)

/-- java_catalog.rs 132-139: what the identity is the hash of. -/
def identityBytes (schema : Nat) (package version fingerprint : Text) (kind : Kind) (jdk : Nat) (limits : Text) : List Nat :=
  leBytes 4 schema ++ field package ++ field version ++ field fingerprint ++ [kind.tag] ++ leBytes 2 jdk ++ field limits

/-- What does not depend on the artifact: the hash, the schema, the version of the package and of the archive reader. -/
structure Build where
  hash : List Nat → Text
  schema : Nat
  package : Text
  version : Text

/-- java_catalog.rs 130-147 `JavaArtifactProductKey::new`. -/
def newKey (c : Build) (a : Artifact) (jdk : Nat) (limits : List Nat) : Key :=
  ⟨c.hash (identityBytes c.schema c.package c.version a.fingerprint a.kind jdk (c.hash (limitBytes limits))), a.fingerprint, a.kind, jdk, c.hash (limitBytes limits)⟩

/-- java_catalog.rs 118-127 `PersistentJavaArtifactProduct`. -/
structure Persistent where
  schema : Nat
  cacheId : Text
  fingerprint : Text
  kind : Nat
  jdk : Nat
  limits : Text
  archive : Archive
deriving DecidableEq, Repr

/-- java_catalog.rs 209-220 `encode_persistent_payload`. -/
def encode (schema : Nat) (p : Product) : Persistent := ⟨schema, p.key.cacheId, p.key.fingerprint, p.key.kind.tag, p.key.jdk, p.key.limits, p.archive⟩

/-- java_catalog.rs 222-252 `decode_persistent_payload`. -/
def decode (schema : Nat) (k : Key) (s : Persistent) : Option Product :=
  if s.schema ≠ schema then none
  else if s.cacheId ≠ k.cacheId ∨ s.fingerprint ≠ k.fingerprint ∨ s.kind ≠ k.kind.tag ∨ s.jdk ≠ k.jdk ∨ s.limits ≠ k.limits ∨
      s.archive.fingerprint ≠ k.fingerprint then none
  else some ⟨k, s.archive⟩

/-- java_catalog.rs 159-203 `JavaArtifactProduct::build`, for the bytes of the file and the archive in them. -/
def build (c : Build) (a : Artifact) (k : Key) (limits : List Nat) (bytes : List Nat) (parse : List Nat → Kind → Nat → Option Archive) : Option Product :=
  if k ≠ newKey c a k.jdk limits then none
  else if c.hash bytes ≠ a.fingerprint then none
  else
    match parse bytes a.kind k.jdk with
    | none => none
    | some r => if r.fingerprint ≠ a.fingerprint then none else some ⟨k, r⟩

end Verif.JavaCatalog
