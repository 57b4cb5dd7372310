import Verif.Model.ClassFile
import Verif.Props.Jvm

/-!
The class file format (JVMS §4) as relations between values and the bytes that encode them.  No parser is used: a relation
says how the bytes of a value are put together.  From the model only the types of values and limits are used.
-/
namespace Verif.ClassFile

open Jvm

/-! ### Numbers and sequences -/

def be1 (n : Nat) : Bytes := [UInt8.ofNat n]
def be2 (n : Nat) : Bytes := [UInt8.ofNat (n / 256), UInt8.ofNat n]
def be4 (n : Nat) : Bytes := [UInt8.ofNat (n / 16777216), UInt8.ofNat (n / 65536), UInt8.ofNat (n / 256), UInt8.ofNat n]

/-- The encodings of the values of a list, one after the other. -/
inductive Seq {α : Type} (G : α → Bytes → Prop) : List α → Bytes → Prop where
  | nil : Seq G [] []
  | cons {a : α} {l : List α} {w w' : Bytes} : G a w → Seq G l w' → Seq G (a :: l) (w ++ w')

/-- The same, for values that contain a number of attributes. -/
inductive SeqN {α : Type} (G : α → Nat → Bytes → Prop) : List α → Nat → Bytes → Prop where
  | nil : SeqN G [] 0 []
  | cons {a : α} {l : List α} {n n' : Nat} {w w' : Bytes} : G a n w → SeqN G l n' w' → SeqN G (a :: l) (n + n') (w ++ w')

/-- The length in two bytes, then the values. -/
def Table {α : Type} (maximum : Nat) (G : α → Bytes → Prop) (l : List α) (w : Bytes) : Prop :=
  l.length < 65536 ∧ l.length ≤ maximum ∧ ∃ w', w = be2 l.length ++ w' ∧ Seq G l w'

def TableN {α : Type} (maximum : Nat) (G : α → Nat → Bytes → Prop) (l : List α) (n : Nat) (w : Bytes) : Prop :=
  l.length < 65536 ∧ l.length ≤ maximum ∧ ∃ w', w = be2 l.length ++ w' ∧ SeqN G l n w'

/-- Bytes without further meaning. -/
def Raw (n : Nat) (w : Bytes) : Prop := w.length = n

/-- A number in two bytes. -/
def Num (n : Nat) (w : Bytes) : Prop := n < 65536 ∧ w = be2 n

/-! ### Strings (§4.4.7) -/

/-- The UTF-16 units of a character. -/
def utf16 (c : Char) : List Nat :=
  if c.toNat < 0x10000 then [c.toNat] else [0xd800 + (c.toNat - 0x10000) / 1024, 0xdc00 + (c.toNat - 0x10000) % 1024]

/-- The bytes of a unit. -/
def unitBytes (u : Nat) : Bytes :=
  if 0x01 ≤ u ∧ u ≤ 0x7f then [UInt8.ofNat u]
  else if u ≤ 0x7ff then [UInt8.ofNat (0xc0 + u / 64), UInt8.ofNat (0x80 + u % 64)]
  else [UInt8.ofNat (0xe0 + u / 4096), UInt8.ofNat (0x80 + u / 64 % 64), UInt8.ofNat (0x80 + u % 64)]

/-- Modified UTF-8 of a string. -/
def mutf8 (s : Str) : Bytes := (s.flatMap utf16).flatMap unitBytes

/-- Bytes of units; the string, if the units are those of one. -/
def IsText (o : Option Str) (b : Bytes) : Prop :=
  ∃ us : List Nat, (∀ u ∈ us, u < 65536) ∧ b = us.flatMap unitBytes ∧ ∀ s, o = some s ↔ us = s.flatMap utf16

/-! ### The constant pool (§4.4) -/

/-- The tags and sizes of constants of which nothing is kept, and that take one index. -/
def plainTags : List (Nat × Nat) :=
  [(3, 4), (4, 4), (8, 2), (9, 4), (10, 4), (11, 4), (12, 4), (15, 3), (16, 2), (17, 4), (18, 4), (20, 2)]

inductive IsConst : Const → Bytes → Prop where
  | text {o : Option Str} {b : Bytes} : b.length < 65536 → IsText o b → IsConst (.utf8 o) (be1 1 ++ be2 b.length ++ b)
  | cls {i : Nat} : i < 65536 → IsConst (.cls i) (be1 7 ++ be2 i)
  | module {i : Nat} : i < 65536 → IsConst (.module i) (be1 19 ++ be2 i)
  | plain {tag n : Nat} {b : Bytes} : (tag, n) ∈ plainTags → Raw n b → IsConst .other (be1 tag ++ b)

/-- Constants from index 1 on; a long or double takes two indices. -/
inductive Consts : Pool → Bytes → Prop where
  | nil : Consts [] []
  | one {c : Const} {l : Pool} {w w' : Bytes} : IsConst c w → Consts l w' → Consts (c :: l) (w ++ w')
  | wide {tag : Nat} {b w' : Bytes} {l : Pool} : tag = 5 ∨ tag = 6 → Raw 8 b → Consts l w' → Consts (.other :: .other :: l) (be1 tag ++ b ++ w')

/-- The pool; the count includes the index 0. -/
def IsPool (L : Limits) (cp : Pool) (w : Bytes) : Prop :=
  cp.length < 65536 ∧ cp.length ≤ L.pool ∧ ∃ l w', cp = .unusable :: l ∧ w = be2 cp.length ++ w' ∧ Consts l w'

def TextAt (cp : Pool) (i : Nat) (s : Str) : Prop := 0 < i ∧ cp[i]? = some (.utf8 (some s))
def ClassAt (cp : Pool) (i : Nat) (s : Str) : Prop := 0 < i ∧ ∃ j, cp[i]? = some (.cls j) ∧ TextAt cp j s
def ModuleAt (cp : Pool) (i : Nat) (s : Str) : Prop := 0 < i ∧ ∃ j, cp[i]? = some (.module j) ∧ TextAt cp j s

/-- An index of a value. -/
def Ref {α : Type} (A : Nat → α → Prop) (a : α) (w : Bytes) : Prop := ∃ i, i < 65536 ∧ w = be2 i ∧ A i a

/-- An index of a value, or zero. -/
def OptRef {α : Type} (A : Nat → α → Prop) (o : Option α) (w : Bytes) : Prop :=
  (o = none ∧ w = be2 0) ∨ ∃ a i, o = some a ∧ 0 < i ∧ i < 65536 ∧ w = be2 i ∧ A i a

/-- A field descriptor (§4.3.2). -/
def IsFieldDescriptor (d : Str) : Prop := ∃ t, IsFieldType t ∧ utf8 d = print t

/-- The descriptor of a method (§4.3.3). -/
def IsMethodDescriptor (d : Str) (m : MethodDescriptor) : Prop := IsMethod m ∧ utf8 d = printMethod m

/-! ### Annotations (§4.7.16), with a number of levels of nesting -/

/-- An annotation, over what its values are. -/
def IsAnnotation (L : Limits) (cp : Pool) (V : Nat → Bytes → Prop) (depth : Nat) (d : Str) (w : Bytes) : Prop :=
  depth ≤ L.depth ∧ IsFieldDescriptor d ∧ ∃ w1 w2, w = w1 ++ w2 ∧ Ref (TextAt cp) d w1 ∧
    ∃ names, Table L.annotations (fun name v => ∃ v1 v2, v = v1 ++ v2 ∧ Ref (TextAt cp) name v1 ∧ V depth v2) names w2

/-- The tags of constants: `BCDFIJSZsc`. -/
def constantTags : List Nat := "BCDFIJSZsc".toList.map Char.toNat

/-- A value with at most `n` levels of nesting. -/
def IsValue (L : Limits) (cp : Pool) : Nat → Nat → Bytes → Prop
  | 0, _, _ => False
  | n + 1, depth, w =>
    (∃ tag x, tag ∈ constantTags ∧ w = be1 tag ++ x ∧ Raw 2 x) ∨
    (∃ x, w = be1 'e'.toNat ++ x ∧ Raw 4 x) ∨
    (∃ d x, w = be1 '@'.toNat ++ x ∧ IsAnnotation L cp (IsValue L cp n) (depth + 1) d x) ∨
    (∃ (l : List Unit) (x : Bytes), w = be1 '['.toNat ++ x ∧ Table L.annotations (fun _ v => IsValue L cp n (depth + 1) v) l x)

/-- The contents of an attribute of annotations. -/
def AreAnnotations (L : Limits) (cp : Pool) (ds : List Str) (w : Bytes) : Prop :=
  ∃ n, Table L.annotations (fun d v => IsAnnotation L cp (IsValue L cp n) 0 d v) ds w

/-! ### Attributes (§4.7) -/

def IsAttr (L : Limits) (cp : Pool) (a : Str × Bytes) (w : Bytes) : Prop :=
  a.2.length < 4294967296 ∧ a.2.length ≤ L.attributeBytes ∧ ∃ v, w = v ++ be4 a.2.length ++ a.2 ∧ Ref (TextAt cp) a.1 v

/-- A table of attributes: names and contents. -/
def Attrs (L : Limits) (cp : Pool) (as : List (Str × Bytes)) (w : Bytes) : Prop :=
  as.length < 65536 ∧ ∃ w', w = be2 as.length ++ w' ∧ Seq (IsAttr L cp) as w'

/-- The contents of the attributes of a name, in order. -/
def contents (name : String) (as : List (Str × Bytes)) : List Bytes :=
  (as.filter fun a => decide (a.1 = name.toList)).map (·.2)

/-- The value of an attribute that may occur once. -/
def One {α : Type} (name : String) (G : α → Bytes → Prop) (as : List (Str × Bytes)) (o : Option α) : Prop :=
  (contents name as = [] ∧ o = none) ∨ ∃ c a, contents name as = [c] ∧ o = some a ∧ G a c

/-- All annotations, visible and invisible, in the order of the attributes. -/
def AllAnnotations (L : Limits) (cp : Pool) (as : List (Str × Bytes)) (ds : List Str) : Prop :=
  ∃ ls : List (List Str), ds = ls.flatten ∧
    List.Forall₂ (AreAnnotations L cp) ls
      ((as.filter fun a => decide (a.1 = "RuntimeVisibleAnnotations".toList ∨ a.1 = "RuntimeInvisibleAnnotations".toList)).map (·.2))

/-! ### Members (§4.5, §4.6) -/

/-- The least line of a table of line numbers. -/
def IsLines (L : Limits) (first : Option Nat) (w : Bytes) : Prop :=
  ∃ lines : List Nat, Table L.members (fun line v => ∃ pc v', v = pc ++ v' ∧ Raw 2 pc ∧ Num line v') lines w ∧
    ∀ m, first = some m ↔ m ∈ lines ∧ ∀ x ∈ lines, m ≤ x

/-- A variable: start, length, name, descriptor, slot. -/
def IsLocal (cp : Pool) (x : Local) (w : Bytes) : Prop :=
  ∃ w1 w2 w3 w4 w5 d, w = w1 ++ w2 ++ w3 ++ w4 ++ w5 ∧ Num x.start w1 ∧ Raw 2 w2 ∧ Ref (TextAt cp) x.name w3 ∧ Ref (TextAt cp) d w4 ∧
    IsFieldDescriptor d ∧ Num x.slot w5

/-- Code with a number of attributes: its lines and variables. -/
def IsCode (L : Limits) (cp : Pool) (c : CodeState) (n : Nat) (w : Bytes) : Prop :=
  ∃ (head body handlers wa : Bytes) (k : Nat) (as : List (Str × Bytes)),
    w = head ++ be4 body.length ++ body ++ be2 k ++ handlers ++ wa ∧ Raw 4 head ∧ body.length < 4294967296 ∧
    body.length ≤ L.attributeBytes ∧ k < 65536 ∧ k ≤ L.members ∧ Raw (8 * k) handlers ∧ Attrs L cp as wa ∧ n = as.length ∧
    One "LineNumberTable" (IsLines L) as c.lines ∧ One "LocalVariableTable" (Table L.members (IsLocal cp)) as c.locals

/-- The contents of `MethodParameters`: names may be missing. -/
def IsMethodParameters (L : Limits) (cp : Pool) (ps : List Param) (w : Bytes) : Prop :=
  ∃ (raw : List (Option Str × Nat)) (w' : Bytes), raw.length < 256 ∧ raw.length ≤ L.members ∧ w = be1 raw.length ++ w' ∧
    Seq (fun x v => ∃ v1 v2, v = v1 ++ v2 ∧ OptRef (TextAt cp) x.1 v1 ∧ Num x.2 v2) raw w' ∧
    ps = raw.mapIdx fun i x => { name := x.1.getD (argName i), flags := x.2 }

/-- The slots a type takes (§2.6.1). -/
def slots (t : JvmType) : Nat := if t = .long ∨ t = .double then 2 else 1

/-- The first slot of a parameter; `this` has slot 0. -/
def slotOf (flags : Nat) (types : List JvmType) (i : Nat) : Nat :=
  (if flags.testBit 3 then 0 else 1) + ((types.take i).map slots).sum

/-- The variable that a slot holds at the beginning. -/
def nameAt (locals : List Local) (slot : Nat) : Option Str :=
  (locals.find? fun x => decide (x.slot = slot ∧ x.start = 0)).map (·.name)

/-- The parameters of a method: those of the attribute, then those of the variables, else made-up names. -/
def AreParameters (flags : Nat) (types : List JvmType) (given : List Param) (locals : List Local) (ps : List Param) : Prop :=
  given.length ≤ types.length ∧ ps.length = types.length ∧ ∀ i, i < types.length →
    ps[i]? = if i < given.length then given[i]? else some { name := (nameAt locals (slotOf flags types i)).getD (argName i), flags := 0 }

/-- A field or method with a number of attributes, those of its code included. -/
def IsMember (L : Limits) (cp : Pool) (isMethod : Bool) (m : Member) (n : Nat) (w : Bytes) : Prop :=
  ∃ (w1 w2 w3 wa : Bytes) (as : List (Str × Bytes)) (ex : Option (List Str)) (given : Option (List Param)) (c : Option (CodeState × Nat)),
    w = w1 ++ w2 ++ w3 ++ wa ∧ Num m.flags w1 ∧ Ref (TextAt cp) m.name w2 ∧ Ref (TextAt cp) m.descriptor w3 ∧ Attrs L cp as wa ∧
    One "Signature" (Ref (TextAt cp)) as m.signature ∧
    One "Exceptions" (Table L.members (Ref (ClassAt cp))) as ex ∧ m.exceptions = ex.getD [] ∧
    One "MethodParameters" (IsMethodParameters L cp) as given ∧
    AllAnnotations L cp as m.annotations ∧
    One "Code" (fun x v => IsCode L cp x.1 x.2 v) as c ∧ m.firstLine = c.bind (fun x => x.1.lines.getD none) ∧
    n = as.length + (c.map (·.2)).getD 0 ∧
    (if isMethod then ∃ d, IsMethodDescriptor m.descriptor d ∧
        AreParameters m.flags d.parameters (given.getD []) ((c.bind (·.1.locals)).getD []) m.parameters
      else IsFieldDescriptor m.descriptor ∧ m.parameters = given.getD [])

/-! ### Classes (§4.1) -/

def IsInner (cp : Pool) (x : Inner) (w : Bytes) : Prop :=
  ∃ w1 w2 w3 w4, w = w1 ++ w2 ++ w3 ++ w4 ∧ Ref (ClassAt cp) x.inner w1 ∧ OptRef (ClassAt cp) x.outer w2 ∧ OptRef (TextAt cp) x.name w3 ∧
    Num x.flags w4

def IsComponent (L : Limits) (cp : Pool) (x : Component) (n : Nat) (w : Bytes) : Prop :=
  ∃ w1 w2 wa as, w = w1 ++ w2 ++ wa ∧ Ref (TextAt cp) x.name w1 ∧ Ref (TextAt cp) x.descriptor w2 ∧ IsFieldDescriptor x.descriptor ∧
    Attrs L cp as wa ∧ n = as.length ∧ One "Signature" (Ref (TextAt cp)) as x.signature ∧ AllAnnotations L cp as x.annotations

/-- The contents of `Module` (§4.7.25) with a name. -/
def IsModule (L : Limits) (cp : Pool) (name : Str) (w : Bytes) : Prop :=
  ∃ (w1 w2 w3 w4 w5 w6 w7 w8 : Bytes) (version : Option Str) (requires : List (Option Str)) (exports opens provides : List (List Unit)) (uses : List Unit),
    w = w1 ++ w2 ++ w3 ++ w4 ++ w5 ++ w6 ++ w7 ++ w8 ∧
    Ref (ModuleAt cp) name w1 ∧ Raw 2 w2 ∧ OptRef (TextAt cp) version w3 ∧
    Table L.members (fun o v => ∃ v1 v2, v = v1 ++ v2 ∧ Raw 4 v1 ∧ OptRef (TextAt cp) o v2) requires w4 ∧
    Table L.members (fun l v => ∃ v1 v2, v = v1 ++ v2 ∧ Raw 4 v1 ∧ Table L.members (fun _ => Raw 2) l v2) exports w5 ∧
    Table L.members (fun l v => ∃ v1 v2, v = v1 ++ v2 ∧ Raw 4 v1 ∧ Table L.members (fun _ => Raw 2) l v2) opens w6 ∧
    Table L.members (fun _ => Raw 2) uses w7 ∧
    Table L.members (fun l v => ∃ v1 v2, v = v1 ++ v2 ∧ Raw 2 v1 ∧ Table L.members (fun _ => Raw 2) l v2) provides w8

/-- A class. -/
def IsClass (L : Limits) (c : Class) (w : Bytes) : Prop :=
  ∃ (cp : Pool) (wp w1 w2 w3 w4 w5 wa : Bytes) (as : List (Str × Bytes)) (n1 n2 : Nat) (inner : Option (List Inner)) (cs : Option (List Component × Nat)),
    w = be4 0xcafebabe ++ be2 c.minor ++ be2 c.major ++ wp ++ be2 c.flags ++ w1 ++ w2 ++ w3 ++ w4 ++ w5 ++ wa ∧
    c.minor < 65536 ∧ c.major < 65536 ∧ c.flags < 65536 ∧ IsPool L cp wp ∧ Ref (ClassAt cp) c.name w1 ∧ OptRef (ClassAt cp) c.super w2 ∧
    Table L.members (Ref (ClassAt cp)) c.interfaces w3 ∧
    TableN L.members (IsMember L cp false) c.fields n1 w4 ∧ TableN L.members (IsMember L cp true) c.methods n2 w5 ∧
    Attrs L cp as wa ∧
    One "SourceFile" (Ref (TextAt cp)) as c.sourceFile ∧ One "Signature" (Ref (TextAt cp)) as c.signature ∧
    AllAnnotations L cp as c.annotations ∧
    One "InnerClasses" (Table L.members (IsInner cp)) as inner ∧ c.inner = inner.getD [] ∧
    One "Record" (fun x v => TableN L.members (IsComponent L cp) x.1 x.2 v) as cs ∧ c.components = (cs.map (·.1)).getD [] ∧
    One "Module" (IsModule L cp) as c.moduleName ∧
    n1 + n2 + as.length + (cs.map (·.2)).getD 0 ≤ L.attributes

end Verif.ClassFile
