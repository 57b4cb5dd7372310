import Verif.Model.Envelope
import Verif.Model.Owners
/-!
Publishing and looking up products of the persistent cache on a file system that can stop at any moment:
src/persistent_cache.rs L486-539 `lookup_disk`, L653-666 `product_path`, L720-777 `publish_inner`.

The file system (trusted, POSIX): a directory maps paths to inodes; `rename` and `unlink` change it at once for every process; what
is on disk lags behind: directory changes are pending until the directory is synced and the contents of an inode are unspecified
until it is synced. A process can stop at any step; the machine can stop at any step, and then any subset of the pending directory
changes has reached the disk and every inode that was not synced has arbitrary contents.

Locks are not used here: every other process may publish, read and remove files at any time. Removal (eviction, `clear`, corrupt
files, rejected extensions, a lost directory) is allowed at every path at every moment.

Processes are identified by `pid`; two live processes never share one. `TEMP_SEQUENCE` does not wrap.
-/
namespace Verif.CacheFs
open Verif.Envelope Verif.Owners

/-- A path below the namespace root: product namespace, shard directory, file name. -/
structure Path where
  kind : Kind
  shard : List Char
  file : List Char
  deriving DecidableEq

/-- L653-657 `product_path`, L17 `PRODUCT_EXTENSION`. -/
def productPath (kind : Kind) (id : List Char) : Path := { kind, shard := id.take 2, file := id ++ ".rflsp-product".toList }

/-- L744-749: the temporary path of a publication. -/
def tempPath (kind : Kind) (id : List Char) (pid seq : Nat) : Path :=
  { kind, shard := id.take 2, file := '.' :: (id ++ ('.' :: (decimal pid ++ ('.' :: (decimal seq ++ ".tmp".toList))))) }

/-- Rust's `Path::extension` of a file name: what follows the last dot, unless that dot is the first character. -/
def extension (file : List Char) : Option (List Char) :=
  let after := (file.reverse.takeWhile (· ≠ '.')).reverse
  if after.length + 1 < file.length then some after else none

/-- L1163-1205 `scan_product_entries`: is this file counted (and therefore a candidate for eviction)? -/
def scanned (p : Path) : Bool := decide (extension p.file = some "rflsp-product".toList)

/-- A pending directory change, atomic on disk. -/
abbrev Op := List (Path × Option Nat)

def applyUpdate (d : Path → Option Nat) (u : Path × Option Nat) : Path → Option Nat := fun p => if p = u.1 then u.2 else d p
def applyOp (d : Path → Option Nat) (op : Op) : Path → Option Nat := op.foldl applyUpdate d
def applyOps (d : Path → Option Nat) (ops : List Op) : Path → Option Nat := ops.foldl applyOp d

/-- Does an operation touch this directory? -/
def inDir (p : Path) (op : Op) : Bool := op.any fun u => decide (u.1.kind = p.kind ∧ u.1.shard = p.shard)

/-- A publication, by the call it is about to make. -/
inductive Pub where
  | idle
  | ready (kind : Kind) (id : List Char) (bytes : List UInt8)
  | writing (kind : Kind) (id : List Char) (bytes : List UInt8) (ino written : Nat)
  | synced (kind : Kind) (id : List Char) (bytes : List UInt8) (ino : Nat)
  | renamed (kind : Kind) (id : List Char)
  deriving DecidableEq

/-- A lookup: the file is open, what has been read so far; or everything has been read. -/
inductive Reader where
  | idle
  | reading (kind : Kind) (id : List Char) (ino : Nat) (got : List UInt8)
  | done (kind : Kind) (id : List Char) (got : List UInt8)

structure State where
  data : Nat → List UInt8
  isSynced : Nat → Bool
  next : Nat
  dir : Path → Option Nat
  durable : Path → Option Nat
  pend : List Op
  pubs : Nat × Nat → Pub
  seq : Nat → Nat
  readers : Nat → Reader
  /-- every payload handed to `publish_inner` so far -/
  log : List (Kind × List Char × List UInt8)

def set {α β : Type} [DecidableEq α] (f : α → β) (a : α) (b : β) : α → β := fun x => if x = a then b else f x

/-- Change the directory now and remember the change as pending. -/
def State.change (s : State) (op : Op) : State := { s with dir := applyOp s.dir op, pend := s.pend ++ [op] }

/-- One step of one actor. -/
inductive Step (C : Codec) : State → State → Prop where
  /-- L720-749: encode, check the size, take the next temporary name. -/
  | start {s : State} (pid : Nat) (kind : Kind) (id : List Char) (payload bytes : List UInt8) :
      validId id = true → publishBytes C kind payload = some bytes →
      Step C s { s with pubs := set s.pubs (pid, s.seq pid) (.ready kind id bytes), seq := set s.seq pid (s.seq pid + 1),
                        log := s.log ++ [(kind, id, payload)] }
  /-- L750-759: `create_new`. -/
  | create {s : State} (i : Nat × Nat) (kind : Kind) (id : List Char) (bytes : List UInt8) :
      s.pubs i = .ready kind id bytes → s.dir (tempPath kind id i.1 i.2) = none →
      Step C s { s.change [(tempPath kind id i.1 i.2, some s.next)] with
                  data := set s.data s.next [], isSynced := set s.isSynced s.next false, next := s.next + 1,
                  pubs := set s.pubs i (.writing kind id bytes s.next 0) }
  /-- L757-759: the file exists, or any other error. -/
  | createFail {s : State} (i : Nat × Nat) (kind : Kind) (id : List Char) (bytes : List UInt8) :
      s.pubs i = .ready kind id bytes → Step C s { s with pubs := set s.pubs i .idle }
  /-- L761: one `write` of `write_all`, of any size. -/
  | write {s : State} (i : Nat × Nat) (kind : Kind) (id : List Char) (bytes : List UInt8) (ino n m : Nat) :
      s.pubs i = .writing kind id bytes ino n → n + m ≤ bytes.length →
      Step C s { s with data := set s.data ino (bytes.take (n + m)), isSynced := set s.isSynced ino false,
                        pubs := set s.pubs i (.writing kind id bytes ino (n + m)) }
  /-- L763: `sync_all`. -/
  | sync {s : State} (i : Nat × Nat) (kind : Kind) (id : List Char) (bytes : List UInt8) (ino : Nat) :
      s.pubs i = .writing kind id bytes ino bytes.length →
      Step C s { s with isSynced := set s.isSynced ino true, pubs := set s.pubs i (.synced kind id bytes ino) }
  /-- L765: `rename`, of whatever is at the temporary path. -/
  | rename {s : State} (i : Nat × Nat) (kind : Kind) (id : List Char) (bytes : List UInt8) (ino j : Nat) :
      s.pubs i = .synced kind id bytes ino → s.dir (tempPath kind id i.1 i.2) = some j →
      Step C s { s.change [(productPath kind id, some j), (tempPath kind id i.1 i.2, none)] with
                  pubs := set s.pubs i (.renamed kind id) }
  /-- L771-774: an error while writing, syncing or renaming; the temporary file is removed. -/
  | writeFail {s : State} (i : Nat × Nat) (kind : Kind) (id : List Char) (bytes : List UInt8) (ino n : Nat) :
      s.pubs i = .writing kind id bytes ino n →
      Step C s { s.change [(tempPath kind id i.1 i.2, none)] with pubs := set s.pubs i .idle }
  | renameFail {s : State} (i : Nat × Nat) (kind : Kind) (id : List Char) (bytes : List UInt8) (ino : Nat) :
      s.pubs i = .synced kind id bytes ino →
      Step C s { s.change [(tempPath kind id i.1 i.2, none)] with pubs := set s.pubs i .idle }
  /-- L770: `sync_directory`. -/
  | syncDir {s : State} (i : Nat × Nat) (kind : Kind) (id : List Char) :
      s.pubs i = .renamed kind id →
      Step C s { s with durable := applyOps s.durable (s.pend.filter (inDir (productPath kind id))),
                        pend := s.pend.filter (fun op => !inDir (productPath kind id) op), pubs := set s.pubs i .idle }
  | syncDirFail {s : State} (i : Nat × Nat) (kind : Kind) (id : List Char) :
      s.pubs i = .renamed kind id →
      Step C s { s.change [(tempPath kind id i.1 i.2, none)] with pubs := set s.pubs i .idle }
  /-- Removal of any file by anybody. -/
  | unlink {s : State} (p : Path) : Step C s (s.change [(p, none)])
  /-- L492-494: `File::open` of a product. -/
  | open_ {s : State} (r : Nat) (kind : Kind) (id : List Char) (ino : Nat) :
      s.dir (productPath kind id) = some ino → Step C s { s with readers := set s.readers r (.reading kind id ino []) }
  /-- L522: one `read` of `read_to_end`, of any size. -/
  | read {s : State} (r : Nat) (kind : Kind) (id : List Char) (ino n : Nat) (got : List UInt8) :
      s.readers r = .reading kind id ino got →
      Step C s { s with readers := set s.readers r (.reading kind id ino (got ++ ((s.data ino).drop got.length).take n)) }
  | readEnd {s : State} (r : Nat) (kind : Kind) (id : List Char) (ino : Nat) (got : List UInt8) :
      s.readers r = .reading kind id ino got → (s.data ino).drop got.length = [] →
      Step C s { s with readers := set s.readers r (.done kind id got) }
  /-- A lookup gives up or its process stops. -/
  | readStop {s : State} (r : Nat) : Step C s { s with readers := set s.readers r .idle }
  /-- A process stops; its publications stop where they are. A later process may have the same pid. -/
  | crash {s : State} (pid : Nat) :
      Step C s { s with pubs := fun i => if i.1 = pid then .idle else s.pubs i, seq := set s.seq pid 0 }
  /-- The machine stops and restarts: any subset of the pending changes is on disk; contents that were not synced are lost. -/
  | powerLoss {s : State} (ops : List Op) (data : Nat → List UInt8) :
      ops.Sublist s.pend → (∀ j, s.isSynced j = true → data j = s.data j) →
      Step C s { s with data := data, isSynced := fun _ => true, dir := applyOps s.durable ops, durable := applyOps s.durable ops,
                        pend := [], pubs := fun _ => .idle, seq := fun _ => 0, readers := fun _ => .idle }

/-- A cache directory at rest with arbitrary contents: nobody is publishing or reading, everything is on disk. -/
structure AtRest (s : State) : Prop where
  pubs : ∀ i, s.pubs i = .idle
  readers : ∀ r, s.readers r = .idle
  pend : s.pend = []
  durable : s.durable = s.dir
  synced : ∀ p j, s.dir p = some j → s.isSynced j = true ∧ j < s.next
  log : s.log = []

inductive Reachable (C : Codec) (s0 : State) : State → Prop where
  | start : Reachable C s0 s0
  | step {s s' : State} : Reachable C s0 s → Step C s s' → Reachable C s0 s'

end Verif.CacheFs
