import Verif.Model.ClassFile
import Verif.Model.Sort
import Verif.Model.Arena
import Verif.Model.Owners

/-!
`crates/jvm-metadata/src/archive.rs`: reading the classes of a JAR or JMOD archive.

Simplified: which error is reported is left out (`none` is any error), and so is the fingerprint of the archive.  The reader of ZIP
archives (crate `zip`) is a parameter: any function from bytes to entries.  So are `str::from_utf8` and the set of white space
characters.  Names are lists of characters, compared by code points (bytes of UTF-8 are in the same order).  Sums do not overflow:
offsets come from 32-bit numbers and `usize` has 64 bits.
-/
namespace Verif.Archive

open ClassFile (Bytes Str)

/-- 15-19 `ArchiveKind`. -/
inductive Kind where
  | jar | jmod
deriving DecidableEq, Repr

/-- 34-42 `ArchiveLimits`. -/
structure Limits where
  archiveBytes : Nat
  entries : Nat
  entryBytes : Nat
  totalBytes : Nat
  classes : Nat
  cls : ClassFile.Limits
deriving DecidableEq, Repr

/-- An entry as the ZIP reader shows it: its name, its declared size and what reading it gives (`none` is an error). -/
structure Entry where
  name : Str
  size : Nat
  content : Option Bytes
deriving DecidableEq, Repr

/-- 21-26 `ArchiveClass`. -/
structure Cls where
  entry : Str
  release : Option Nat
  cls : ClassFile.Class
deriving DecidableEq, Repr

/-! ### The central directory -/

/-- `bytes.get(o..o + n)`. -/
def slice (b : Bytes) (o n : Nat) : Option Bytes := if o + n ≤ b.length then some ((b.drop o).take n) else none

/-- A number of a slice, least byte first. -/
def number (b : Bytes) (o n : Nat) : Option Nat := (slice b o n).map fun l => l.foldr (fun x m => x.toNat + 256 * m) 0

/-- 298-303 `read_u16_le`. -/
def read2 (b : Bytes) (o : Nat) : Option Nat := number b o 2

/-- 305-310 `read_u32_le`. -/
def read4 (b : Bytes) (o : Nat) : Option Nat := number b o 4

/-- 226-233: an end record whose comment reaches to the end. -/
def isEnd (b : Bytes) (o : Nat) : Bool :=
  decide (slice b o 4 = some [0x50, 0x4b, 0x05, 0x06]) &&
    (match read2 b (o + 20) with
    | some n => decide (o + 22 + n = b.length)
    | none => false)

/-- `(start..=n).rev().find(p)`. -/
def findRev (p : Nat → Bool) (start : Nat) : Nat → Option Nat
  | 0 => if start = 0 ∧ p 0 = true then some 0 else none
  | n + 1 => if n + 1 < start then none else if p (n + 1) then some (n + 1) else findRev p start n

/-- 220-234: the offset of the end record. -/
def endRecord (b : Bytes) : Option Nat := findRev (isEnd b) (b.length - (22 + 65535)) (b.length - 22)

/-- 257-289: the offset after the remaining entries; `names` are the names so far. -/
def walk (b : Bytes) (eocd : Nat) : Nat → Nat → List Bytes → Option Nat
  | 0, o, _ => some o
  | n + 1, o, names =>
    if slice b o 4 ≠ some [0x50, 0x4b, 0x01, 0x02] then none
    else
      match read2 b (o + 28), read2 b (o + 30), read2 b (o + 32) with
      | some nameLength, some extraLength, some commentLength =>
        match slice b (o + 46) nameLength with
        | none => none
        | some name =>
          if name ∈ names then none
          else if o + 46 + nameLength + extraLength + commentLength > eocd then none
          else walk b eocd n (o + 46 + nameLength + extraLength + commentLength) (name :: names)
      | _, _, _ => none

/-- 211-296 `validate_central_directory_names`. -/
def directory (b : Bytes) (maxEntries : Nat) : Option Nat :=
  match endRecord b with
  | none => none
  | some eocd =>
    match read2 b (eocd + 4), read2 b (eocd + 6), read2 b (eocd + 8), read2 b (eocd + 10), read4 b (eocd + 16) with
    | some disk, some centralDisk, some onDisk, some total, some central =>
      if disk ≠ 0 ∨ centralDisk ≠ 0 ∨ onDisk ≠ total then none
      else if total = 65535 then none
      else if total > maxEntries then none
      else if walk b eocd total central [] = some eocd then some total
      else none
    | _, _, _, _, _ => none

/-! ### Entries -/

/-- `str::eq_ignore_ascii_case`. -/
def lower (c : Char) : Char := if 'A' ≤ c ∧ c ≤ 'Z' then Char.ofNat (c.toNat + 32) else c
def sameIgnoringCase (s t : Str) : Bool := decide (s.map lower = t.map lower)

def classSuffix : Str := ".class".toList
def manifestName : Str := "META-INF/MANIFEST.MF".toList
def versionsPrefix : Str := "META-INF/versions/".toList
def metaPrefix : Str := "META-INF/".toList
def jmodPrefix : Str := "classes/".toList

/-- `str::split(c)`. -/
def splitOn (c : Char) : Str → List Str
  | [] => [[]]
  | x :: s =>
    if x = c then [] :: splitOn c s
    else
      match splitOn c s with
      | [] => [[x]]
      | w :: l => (x :: w) :: l

/-- 199-209 `validate_entry_name`. -/
def safeName (name : Str) : Bool :=
  !(name.isEmpty || name.head? == some '/' || name.head? == some '\\' || name.contains '\\' || (splitOn '/' name).any (fun w => decide (w = ['.', '.'])))

/-- 190-197 `is_metadata_entry`. -/
def isMetadata (name : Str) : Kind → Bool
  | .jar => classSuffix.isSuffixOf name || sameIgnoringCase name manifestName
  | .jmod => jmodPrefix.isPrefixOf name && classSuffix.isSuffixOf name

/-- 96-135: the entries that matter, with what they contain. -/
def readEntries (kind : Kind) (L : Limits) : List (Option Entry) → List Str → Nat → Option (List (Str × Bytes))
  | [], _, _ => some []
  | none :: _, _, _ => none
  | some e :: l, names, total =>
    if safeName e.name = false then none
    else if e.name ∈ names then none
    else if isMetadata e.name kind = false then readEntries kind L l (e.name :: names) total
    else if e.size > L.entryBytes then none
    else if total + e.size > L.totalBytes then none
    else
      match e.content with
      | none => none
      | some c =>
        if (c.take L.entryBytes).length ≠ e.size then none
        else (readEntries kind L l (e.name :: names) (total + e.size)).map ((e.name, c.take L.entryBytes) :: ·)

/-! ### Releases -/

/-- `str::lines`: the lines are ended by a line feed, before which a carriage return is dropped. -/
def dropReturn (s : Str) : Str :=
  match s.getLast? with
  | some '\r' => s.dropLast
  | _ => s

def linesOf (s : Str) : List Str :=
  ((splitOn '\n' s).dropLast.map dropReturn) ++ (match (splitOn '\n' s).getLast? with | some [] => [] | some w => [w] | none => [])

/-- `str::split_once(c)`. -/
def splitOnce (c : Char) : Str → Option (Str × Str)
  | [] => none
  | x :: s => if x = c then some ([], s) else (splitOnce c s).map fun p => (x :: p.1, p.2)

/-- 312-321 `manifest_is_multi_release`. -/
def manifestMulti (text : Bytes → Option Str) (space : Char → Bool) (b : Bytes) : Bool :=
  match text b with
  | none => false
  | some t =>
    (linesOf t).any fun line =>
      match splitOnce ':' line with
      | some (name, value) => sameIgnoringCase name "Multi-Release".toList && sameIgnoringCase (Owners.trim space value) "true".toList
      | none => false

/-- `str::parse::<u16>`: a plus sign may come first. -/
def digit (c : Char) : Option Nat := if '0' ≤ c ∧ c ≤ '9' then some (c.toNat - 48) else none

def decimal : Nat → Str → Option Nat
  | n, [] => some n
  | n, c :: s =>
    match digit c with
    | none => none
    | some d => if 10 * n + d < 65536 then decimal (10 * n + d) s else none

def parseU16 (s : Str) : Option Nat :=
  match s with
  | [] => none
  | '+' :: [] => none
  | '+' :: s => decimal 0 s
  | s => decimal 0 s

/-- `str::strip_prefix`. -/
def stripPrefix (p s : Str) : Option Str := if p.isPrefixOf s then some (s.drop p.length) else none

/-- 323-362 `class_candidate`: the name and the release, or nothing; the outer `none` is an error. -/
def candidate (kind : Kind) (multi : Bool) (jdk : Nat) (entry : Str) : Option (Option (Str × Option Nat)) :=
  match kind with
  | .jmod =>
    match stripPrefix jmodPrefix entry with
    | none => some none
    | some name => some (if classSuffix.isSuffixOf name then some (name, none) else none)
  | .jar =>
    match stripPrefix versionsPrefix entry with
    | some versioned =>
      match splitOnce '/' versioned with
      | none => none
      | some (release, name) =>
        match parseU16 release with
        | none => none
        | some r =>
          if r < 9 ∨ name = [] then none
          else if multi = false ∨ r > jdk ∨ classSuffix.isSuffixOf name = false then some none
          else some (some (name, some r))
    | none => if metaPrefix.isPrefixOf entry ∨ classSuffix.isSuffixOf entry = false then some none else some (some (entry, none))

/-- Order of names. -/
def nameLe (s t : Str) : Bool := Store.lexLe (s.map Char.toNat) (t.map Char.toNat)

/-- The map of selected entries, by name: release, entry and content. -/
abbrev Map := List (Str × Option Nat × Str × Bytes)

/-- 151-156: insert unless there is one of the same or a later release. -/
def put (k : Str) (v : Option Nat × Str × Bytes) : Map → Map
  | [] => [(k, v)]
  | (k', v') :: m =>
    if k = k' then (if v.1.getD 0 > v'.1.getD 0 then (k, v) :: m else (k', v') :: m)
    else if nameLe k k' then (k, v) :: (k', v') :: m
    else (k', v') :: put k v m

/-- 144-157. -/
def select (kind : Kind) (multi : Bool) (jdk : Nat) : List (Str × Bytes) → Map → Option Map
  | [], m => some m
  | (entry, content) :: l, m =>
    match candidate kind multi jdk entry with
    | none => none
    | some none => select kind multi jdk l m
    | some (some (name, release)) => select kind multi jdk l (put name (release, entry, content) m)

/-- 162-182: the classes of the selected entries. -/
def classes (L : Limits) : Map → Option (List Cls)
  | [] => some []
  | (name, release, entry, content) :: m =>
    match ClassFile.parseClass L.cls content with
    | none => none
    | some c =>
      if c.name ++ classSuffix = name then (classes L m).map ({ entry := entry, release := release, cls := c } :: ·)
      else none

/-- 138-142: whether versions count. -/
def isMulti (text : Bytes → Option Str) (space : Char → Bool) (kind : Kind) (entries : List (Str × Bytes)) : Bool :=
  decide (kind = .jar) &&
    (match entries.find? (fun e => sameIgnoringCase e.1 manifestName) with
    | some e => manifestMulti text space e.2
    | none => false)

/-- 78-83: the ZIP archive in the bytes. -/
def zipBytes (kind : Kind) (b : Bytes) : Option Bytes :=
  match kind, b with
  | .jar, b => some b
  | .jmod, 0x4a :: 0x4d :: 0x01 :: 0x00 :: b => some b
  | .jmod, _ => none

/-- 69-188 `parse_archive`. -/
def parse (reader : Bytes → Option (List (Option Entry))) (text : Bytes → Option Str) (space : Char → Bool) (kind : Kind) (jdk : Nat) (L : Limits) (b : Bytes) :
    Option (List Cls) :=
  if b.length > L.archiveBytes then none
  else
    match zipBytes kind b with
    | none => none
    | some z =>
      match directory z L.entries, reader z with
      | some n, some l =>
        if l.length ≠ n then none
        else
          match readEntries kind L l [] 0 with
          | none => none
          | some es =>
            let sorted := stableSort (fun a b => nameLe a.1 b.1) es
            match select kind (isMulti text space kind sorted) jdk sorted [] with
            | none => none
            | some m => if m.length > L.classes then none else classes L m
      | _, _ => none

end Verif.Archive
