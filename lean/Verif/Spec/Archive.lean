import Verif.Spec.ClassFile
import Verif.Model.Archive
import Verif.Model.Utf8

/-!
What archives are: the end of a ZIP archive (APPNOTE 4.3.12, 4.3.16), names of entries, and which entry provides a class (JAR
specification, "Multi-release JAR files").  From the model only types are used, and `nameLe`, the order of names.
-/
namespace Verif.Archive

open ClassFile (Bytes Str Seq)

/-! ### The central directory -/

def le2 (n : Nat) : Bytes := [UInt8.ofNat n, UInt8.ofNat (n / 256)]
def le4 (n : Nat) : Bytes := [UInt8.ofNat n, UInt8.ofNat (n / 256), UInt8.ofNat (n / 65536), UInt8.ofNat (n / 16777216)]

/-- The record of an entry in the central directory. -/
def IsHeader (name : Bytes) (w : Bytes) : Prop :=
  ∃ before after extra comment : Bytes, before.length = 24 ∧ after.length = 12 ∧ name.length < 65536 ∧ extra.length < 65536 ∧ comment.length < 65536 ∧
    w = [0x50, 0x4b, 0x01, 0x02] ++ before ++ le2 name.length ++ le2 extra.length ++ le2 comment.length ++ after ++ name ++ extra ++ comment

/-- The end record of an archive on one disk. -/
def IsEndRecord (entries offset : Nat) (w : Bytes) : Prop :=
  ∃ size comment : Bytes, size.length = 4 ∧ comment.length < 65536 ∧ entries < 65536 ∧ offset < 4294967296 ∧
    w = [0x50, 0x4b, 0x05, 0x06] ++ le2 0 ++ le2 0 ++ le2 entries ++ le2 entries ++ size ++ le4 offset ++ le2 comment.length ++ comment

/-- Bytes that may be taken for an end record. -/
def LooksLikeEnd (w : Bytes) : Prop :=
  ∃ x comment : Bytes, x.length = 16 ∧ comment.length < 65536 ∧ w = [0x50, 0x4b, 0x05, 0x06] ++ x ++ le2 comment.length ++ comment

/-- An archive with a directory of entries with these names: before it is anything, after it the end record, which no other end record
follows. -/
def IsZip (names : List Bytes) (b : Bytes) : Prop :=
  ∃ before headers last : Bytes, b = before ++ headers ++ last ∧ Seq IsHeader names headers ∧ IsEndRecord names.length before.length last ∧
    names.Nodup ∧ names.length < 65535 ∧ ∀ u v, last = u ++ v → u ≠ [] → ¬ LooksLikeEnd v

/-! ### Names -/

/-- A name that stays inside of a directory. -/
def Safe (name : Str) : Prop :=
  name ≠ [] ∧ '\\' ∉ name ∧ (∀ s, name ≠ '/' :: s) ∧
    ¬ ∃ u v, name = u ++ "..".toList ++ v ∧ (u = [] ∨ ∃ u', u = u' ++ ['/']) ∧ (v = [] ∨ ∃ v', v = '/' :: v')

/-- Equal but for the case of the letters A to Z. -/
def SameButCase (s t : Str) : Prop := List.Forall₂ (fun c d : Char => c = d ∨ (∃ n < 26, (c.toNat = 65 + n ∧ d.toNat = 97 + n) ∨ (c.toNat = 97 + n ∧ d.toNat = 65 + n))) s t

/-- Entries that are read. -/
def Matters (kind : Kind) (name : Str) : Prop :=
  match kind with
  | .jar => (∃ s, name = s ++ ".class".toList) ∨ SameButCase name "META-INF/MANIFEST.MF".toList
  | .jmod => (∃ s, name = "classes/".toList ++ s) ∧ ∃ s, name = s ++ ".class".toList

open Classical in
/-- What is read of the entries of an archive. -/
def Contents (kind : Kind) (L : Limits) (l : List (Option Entry)) (es : List (Str × Bytes)) : Prop :=
  ∃ entries : List Entry, l = entries.map some ∧ (∀ e ∈ entries, Safe e.name) ∧ (entries.map (·.name)).Nodup ∧
    ((entries.filter fun e => decide (Matters kind e.name)).map (·.size)).sum ≤ L.totalBytes ∧
    List.Forall₂ (fun e p => p.1 = e.name ∧ p.2.length = e.size ∧ e.size ≤ L.entryBytes ∧ ∃ rest, e.content = some (p.2 ++ rest) ∧ (rest ≠ [] → e.size = L.entryBytes))
      (entries.filter fun e => decide (Matters kind e.name)) es

/-! ### Releases -/

/-- A line of a text; a carriage return before the line feed does not belong to it. -/
def IsLine (line text : Str) : Prop :=
  ∃ before raw after, text = before ++ raw ++ after ∧ '\n' ∉ raw ∧ (before = [] ∨ ∃ s, before = s ++ ['\n']) ∧
    ((after = [] ∧ line = raw) ∨ ((∃ s, after = '\n' :: s) ∧ (raw = line ++ ['\r'] ∨ (raw = line ∧ ∀ s, raw ≠ s ++ ['\r']))))

/-- A value in white space. -/
def Padded (space : Char → Bool) (value s : Str) : Prop :=
  ∃ a b, s = a ++ value ++ b ∧ (∀ c ∈ a, space c = true) ∧ (∀ c ∈ b, space c = true) ∧ (∀ c s, value = c :: s → space c = false) ∧ ∀ c s, value = s ++ [c] → space c = false

/-- A manifest in which some line says `Multi-Release: true`. -/
def SaysMulti (space : Char → Bool) (b : Bytes) : Prop :=
  ∃ text line name value v, b = utf8 text ∧ IsLine line text ∧ line = name ++ ':' :: value ∧ SameButCase name "Multi-Release".toList ∧ Padded space v value ∧
    SameButCase v "true".toList

/-- The manifest is the first entry with its name in whatever case. -/
def MultiRelease (space : Char → Bool) (kind : Kind) (es : List (Str × Bytes)) : Prop :=
  kind = .jar ∧ ∃ e ∈ es, SameButCase e.1 "META-INF/MANIFEST.MF".toList ∧ (∀ e' ∈ es, SameButCase e'.1 "META-INF/MANIFEST.MF".toList → nameLe e.1 e'.1 = true) ∧
    SaysMulti space e.2

/-- The value of decimal digits. -/
def Digits (s : Str) (n : Nat) : Prop :=
  s ≠ [] ∧ ∃ ds : List Nat, (∀ d ∈ ds, d < 10) ∧ s = ds.map (fun d => Char.ofNat (48 + d)) ∧ n = ds.foldl (fun n d => 10 * n + d) 0

/-- How a release may be written. -/
def Release (s : Str) (r : Nat) : Prop := r < 65536 ∧ (Digits s r ∨ ∃ t, s = '+' :: t ∧ Digits t r)

/-- A directory of a release: `META-INF/versions/9/name`. -/
def Versioned (entry name : Str) (r : Nat) : Prop :=
  ∃ s, entry = "META-INF/versions/".toList ++ s ++ '/' :: name ∧ Release s r ∧ 9 ≤ r ∧ name ≠ []

/-- An entry provides the class file of a name, for a release. -/
def Provides (kind : Kind) (multi : Prop) (jdk : Nat) (entry name : Str) (release : Option Nat) : Prop :=
  (∃ s, name = s ++ ".class".toList) ∧
  match kind with
  | .jmod => entry = "classes/".toList ++ name ∧ release = none
  | .jar => (entry = name ∧ release = none ∧ ∀ s, entry ≠ "META-INF/".toList ++ s) ∨ (multi ∧ ∃ r, release = some r ∧ r ≤ jdk ∧ Versioned entry name r)

/-- An entry that makes the archive invalid. -/
def Malformed (kind : Kind) (entry : Str) : Prop := kind = .jar ∧ (∃ s, entry = "META-INF/versions/".toList ++ s) ∧ ¬ ∃ name r, Versioned entry name r

/-- The entry that provides a class file: of the latest release, and then the first by name. -/
def Chosen (kind : Kind) (multi : Prop) (jdk : Nat) (es : List (Str × Bytes)) (name : Str) (release : Option Nat) (entry : Str) (content : Bytes) : Prop :=
  (entry, content) ∈ es ∧ Provides kind multi jdk entry name release ∧
    ∀ e ∈ es, ∀ r, Provides kind multi jdk e.1 name r → r.getD 0 ≤ release.getD 0 ∧ (r.getD 0 = release.getD 0 → nameLe entry e.1 = true)

/-- The classes of an archive. -/
def IsResult (L : Limits) (kind : Kind) (multi : Prop) (jdk : Nat) (es : List (Str × Bytes)) (cs : List Cls) : Prop :=
  (∀ e ∈ es, ¬ Malformed kind e.1) ∧ cs.length ≤ L.classes ∧
  cs.Pairwise (fun c d => nameLe (c.cls.name ++ ".class".toList) (d.cls.name ++ ".class".toList) = true ∧ c.cls.name ≠ d.cls.name) ∧
  (∀ c ∈ cs, ∃ content, Chosen kind multi jdk es (c.cls.name ++ ".class".toList) c.release c.entry content ∧ ClassFile.parseClass L.cls content = some c.cls) ∧
  ∀ e ∈ es, ∀ name r, Provides kind multi jdk e.1 name r → ∃ c ∈ cs, c.cls.name ++ ".class".toList = name

end Verif.Archive
