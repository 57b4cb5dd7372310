import Verif.Model.Jvm

/-!
Model of the parser of JVM class files: `crates/jvm-metadata/src/classfile.rs` 318-1231.

The cursor (1084-1124) is the list of bytes that are not read yet; a sub-cursor over the bytes of an attribute is a parser
that has to read all of them (`whole`).  Simplifications: all errors are one value; numbers are natural numbers and offsets
do not overflow (a slice has less than `usize::MAX` bytes); the sets of attribute names seen so far are the options of the
values read so far; the estimates of heap sizes (167-302) are left out.
-/
namespace Verif.ClassFile

open Jvm

abbrev Bytes := List UInt8
abbrev Str := List Char

/-- 4-13 `ClassLimits`. -/
structure Limits where
  classBytes : Nat
  pool : Nat
  members : Nat
  attributes : Nat
  attributeBytes : Nat
  annotations : Nat
  depth : Nat
deriving DecidableEq, Repr

/-- 15-31: the default limits. -/
def Limits.default : Limits :=
  { classBytes := 16 * 1024 * 1024, pool := 65535, members := 65535, attributes := 65535, attributeBytes := 8 * 1024 * 1024, annotations := 4096, depth := 32 }

/-- 95-99 `MethodParameter`. -/
structure Param where
  name : Str
  flags : Nat
deriving DecidableEq, Repr

/-- 33-43 `MemberInfo`; an annotation (101-104) is its descriptor. -/
structure Member where
  flags : Nat
  name : Str
  descriptor : Str
  signature : Option Str
  exceptions : List Str
  parameters : List Param
  annotations : List Str
  firstLine : Option Nat
deriving DecidableEq, Repr

/-- 106-112 `InnerClassInfo`. -/
structure Inner where
  inner : Str
  outer : Option Str
  name : Option Str
  flags : Nat
deriving DecidableEq, Repr

/-- 114-120 `RecordComponentInfo`. -/
structure Component where
  name : Str
  descriptor : Str
  signature : Option Str
  annotations : List Str
deriving DecidableEq, Repr

/-- 132-148 `ClassFile`. -/
structure Class where
  minor : Nat
  major : Nat
  flags : Nat
  name : Str
  super : Option Str
  interfaces : List Str
  fields : List Member
  methods : List Member
  sourceFile : Option Str
  signature : Option Str
  annotations : List Str
  inner : List Inner
  components : List Component
  moduleName : Option Str
deriving DecidableEq, Repr

/-- 122-130 `ClassKind`. -/
inductive Kind where
  | cls | interface | annotation | enum | record | module
deriving DecidableEq, Repr

/-- 151-165 `ClassFile::kind`. -/
def Class.kind (c : Class) : Kind :=
  if c.flags.testBit 15 then .module
  else if c.flags.testBit 13 then .annotation
  else if c.flags.testBit 14 then .enum
  else if !c.components.isEmpty then .record
  else if c.flags.testBit 9 then .interface
  else .cls

/-! ### The cursor -/

/-- A step that reads bytes, or fails. -/
def P (α : Type) := Bytes → Option (α × Bytes)

instance : Monad P where
  pure a := fun b => some (a, b)
  bind p f := fun b =>
    match p b with
    | none => none
    | some (a, r) => f a r

/-- A step that reads nothing. -/
def lift {α : Type} (o : Option α) : P α := fun b => o.map fun a => (a, b)

/-- A condition, else an error. -/
def must (c : Prop) [Decidable c] : P Unit := fun b => if c then some ((), b) else none

/-- 1108-1119 `take`. -/
def take (n : Nat) : P Bytes := fun b => if n ≤ b.length then some (b.take n, b.drop n) else none

/-- 1094-1096 `u1`. -/
def u1 : P Nat := do
  let x ← take 1
  pure (x.foldl (fun n b => 256 * n + b.toNat) 0)

/-- 1098-1101 `u2`. -/
def u2 : P Nat := do
  let x ← take 2
  pure (x.foldl (fun n b => 256 * n + b.toNat) 0)

/-- 1103-1106 `u4`. -/
def u4 : P Nat := do
  let x ← take 4
  pure (x.foldl (fun n b => 256 * n + b.toNat) 0)

/-- `for _ in 0..n`. -/
def times {α : Type} : Nat → P α → P (List α)
  | 0, _ => pure []
  | n + 1, p => do
    let a ← p
    let l ← times n p
    pure (a :: l)

/-- A sub-cursor that has to be finished (`require_finished`, 940-947). -/
def whole {α : Type} (p : P α) (b : Bytes) : Option α :=
  match p b with
  | some (a, []) => some a
  | _ => none

/-- 620-626 `bounded_count`, 959-969 `bounded_nested_count`. -/
def count (maximum : Nat) : P Nat := do
  let n ← u2
  must (n ≤ maximum)
  pure n

/-! ### Strings -/

/-- 1187-1229: the UTF-16 units of modified UTF-8. -/
def units : Bytes → Option (List Nat)
  | [] => some []
  | x :: b =>
    if 0x01 ≤ x.toNat ∧ x.toNat ≤ 0x7f then (units b).map (x.toNat :: ·)
    else if x.toNat = 0xc0 then
      match b with
      | y :: b => if y.toNat = 0x80 then (units b).map (0 :: ·) else none
      | [] => none
    else if 0xc2 ≤ x.toNat ∧ x.toNat ≤ 0xdf then
      match b with
      | y :: b => if y.toNat / 64 = 2 then (units b).map ((x.toNat % 32 * 64 + y.toNat % 64) :: ·) else none
      | [] => none
    else if 0xe0 ≤ x.toNat ∧ x.toNat ≤ 0xef then
      match b with
      | y :: z :: b =>
        if y.toNat / 64 ≠ 2 ∨ z.toNat / 64 ≠ 2 ∨ (x.toNat = 0xe0 ∧ y.toNat < 0xa0) then none
        else (units b).map ((x.toNat % 16 * 4096 + y.toNat % 64 * 64 + z.toNat % 64) :: ·)
      | _ => none
    else none

/-- `String::from_utf16`, called at 1230. -/
def fromUtf16 : List Nat → Option Str
  | [] => some []
  | u :: l =>
    if u < 0xd800 ∨ 0xe000 ≤ u then (fromUtf16 l).map (Char.ofNat u :: ·)
    else if u < 0xdc00 then
      match l with
      | v :: l => if 0xdc00 ≤ v ∧ v < 0xe000 then (fromUtf16 l).map (Char.ofNat (0x10000 + (u - 0xd800) * 1024 + (v - 0xdc00)) :: ·) else none
      | [] => none
    else none

/-- 1186-1231 `decode_modified_utf8`: `none` is an error, `some none` text that is no string. -/
def decode (b : Bytes) : Option (Option Str) := (units b).map fromUtf16

/-! ### The constant pool -/

/-- 1126-1132 `ConstantPoolEntry`. -/
inductive Const where
  | unusable
  | utf8 (s : Option Str)
  | cls (name : Nat)
  | module (name : Nat)
  | other
deriving DecidableEq, Repr

abbrev Pool := List Const

/-- 447-484: one entry, and whether it takes two indices. -/
def constant : P (Const × Bool) := do
  let tag ← u1
  if tag = 1 then do
    let n ← u2
    let b ← take n
    let s ← lift (decode b)
    pure (.utf8 s, false)
  else if tag = 3 ∨ tag = 4 then do
    let _ ← take 4
    pure (.other, false)
  else if tag = 5 ∨ tag = 6 then do
    let _ ← take 8
    pure (.other, true)
  else if tag = 7 then do
    let i ← u2
    pure (.cls i, false)
  else if tag = 19 then do
    let i ← u2
    pure (.module i, false)
  else if tag = 8 ∨ tag = 16 ∨ tag = 20 then do
    let _ ← take 2
    pure (.other, false)
  else if tag = 9 ∨ tag = 10 ∨ tag = 11 ∨ tag = 12 ∨ tag = 17 ∨ tag = 18 then do
    let _ ← take 4
    pure (.other, false)
  else if tag = 15 then do
    let _ ← take 3
    pure (.other, false)
  else lift none

/-- 445-492: the entries for the remaining indices; a wide entry at the last index exceeds the count. -/
def constants : Nat → P Pool
  | 0 => pure []
  | 1 => do
    let c ← constant
    must (c.2 = false)
    pure [c.1]
  | n + 2 => do
    let c ← constant
    if c.2 then do
      let l ← constants n
      pure (.other :: c.1 :: l)
    else do
      let l ← constants (n + 1)
      pure (c.1 :: l)

/-- 433-494 `parse_constant_pool`. -/
def constantPool (L : Limits) : P Pool := do
  let n ← u2
  must (n ≠ 0)
  must (n ≤ L.pool)
  let l ← constants (n - 1)
  pure (.unusable :: l)

/-- 1139-1146 `entry`. -/
def Pool.entry (cp : Pool) (i : Nat) : Option Const := if i = 0 then none else cp[i]?

/-- 1148-1159 `utf8`. -/
def Pool.utf8 (cp : Pool) (i : Nat) : Option Str :=
  match cp.entry i with
  | some (.utf8 (some s)) => some s
  | _ => none

/-- 1161-1171 `class_name`. -/
def Pool.className (cp : Pool) (i : Nat) : Option Str :=
  match cp.entry i with
  | some (.cls j) => cp.utf8 j
  | _ => none

/-- 1173-1183 `module_name`. -/
def Pool.moduleName (cp : Pool) (i : Nat) : Option Str :=
  match cp.entry i with
  | some (.module j) => cp.utf8 j
  | _ => none

/-- An index of a string. -/
def utf8Ref (cp : Pool) : P Str := do
  let i ← u2
  lift (cp.utf8 i)

/-- An index of a class. -/
def classRef (cp : Pool) : P Str := do
  let i ← u2
  lift (cp.className i)

/-- An index that may be zero. -/
def optionalRef {α : Type} (f : Nat → Option α) : P (Option α) := do
  let i ← u2
  if i = 0 then pure none
  else do
    let a ← lift (f i)
    pure (some a)

/-- A field descriptor, or an error. -/
def isField (d : Str) : Bool :=
  match parseField (utf8 d) with
  | .ok _ => true
  | _ => false

/-- A method descriptor, or an error. -/
def methodType (d : Str) : Option MethodDescriptor :=
  match parseMethod (utf8 d) with
  | .ok m => some m
  | _ => none

/-! ### Annotations -/

/-- 971-990 `parse_annotation`, over the values of its pairs. -/
def annotation (L : Limits) (cp : Pool) (value : Nat → P Unit) (depth : Nat) : P Str := do
  must (depth ≤ L.depth)
  let d ← utf8Ref cp
  must (isField d = true)
  let n ← count L.annotations
  let _ ← times n (do
    let _ ← utf8Ref cp
    value depth)
  pure d

/-- 992-1023 `skip_annotation_value`.  The first argument bounds the nesting; it is the number of bytes, and every level
takes one (`c58_fuel`). -/
def value (L : Limits) (cp : Pool) : Nat → Nat → P Unit
  | 0, _ => lift none
  | f + 1, depth => do
    let tag ← u1
    if tag ∈ [0x42, 0x43, 0x44, 0x46, 0x49, 0x4a, 0x53, 0x5a, 0x73, 0x63] then do
      let _ ← u2
      pure ()
    else if tag = 0x65 then do
      let _ ← u2
      let _ ← u2
      pure ()
    else if tag = 0x40 then do
      let _ ← annotation L cp (value L cp f) (depth + 1)
      pure ()
    else if tag = 0x5b then do
      let n ← count L.annotations
      let _ ← times n (value L cp f (depth + 1))
      pure ()
    else lift none

/-- 705-723 `parse_annotations`. -/
def annotations (L : Limits) (cp : Pool) (b : Bytes) : Option (List Str) :=
  whole (do
    let n ← count L.annotations
    times n (annotation L cp (value L cp b.length) 0)) b

/-! ### Attributes -/

/-- 628-652 `bounded_attribute_count`, `bounded_attribute_count_from` and `record_attribute_count`: the number of attributes, and of all attributes so far. -/
def attributeCount (L : Limits) (seen : Nat) : P (Nat × Nat) := do
  let n ← u2
  must (seen + n ≤ L.attributes)
  pure (n, seen + n)

/-- An attribute: 356-357, 527-528, 752-758, 836-842 with 654-661 `attribute_bytes`. -/
def attr (L : Limits) (cp : Pool) : P (Str × Bytes) := do
  let name ← utf8Ref cp
  let n ← u4
  must (n ≤ L.attributeBytes)
  let b ← take n
  pure (name, b)

/-- A loop over attributes that updates a state. -/
def attributes {σ : Type} (L : Limits) (cp : Pool) (step : σ → Str × Bytes → Option σ) : Nat → σ → P σ
  | 0, s => pure s
  | n + 1, s => do
    let a ← attr L cp
    let s ← lift (step s a)
    attributes L cp step n s

/-- 949-957 `parse_signature_attribute`; also the attribute `SourceFile` (361-363). -/
def signature (cp : Pool) (b : Bytes) : Option Str := whole (utf8Ref cp) b

/-- 663-676 `parse_exceptions`. -/
def exceptions (L : Limits) (cp : Pool) (b : Bytes) : Option (List Str) :=
  whole (do
    let n ← count L.members
    times n (classRef cp)) b

/-- The name `arg0`, `arg1`, … -/
def argName (i : Nat) : Str := "arg".toList ++ (toString i).toList

/-- 689-700: the parameters from an index on. -/
def methodParams (cp : Pool) : Nat → Nat → P (List Param)
  | 0, _ => pure []
  | n + 1, index => do
    let name ← optionalRef cp.utf8
    let flags ← u2
    let l ← methodParams cp n (index + 1)
    pure ({ name := name.getD (argName index), flags := flags } :: l)

/-- 678-703 `parse_method_parameters`. -/
def methodParameters (L : Limits) (cp : Pool) (b : Bytes) : Option (List Param) :=
  whole (do
    let n ← u1
    must (n ≤ L.members)
    methodParams cp n 0) b

/-- 924-928 `LocalVariableInfo`. -/
structure Local where
  start : Nat
  slot : Nat
  name : Str
deriving DecidableEq, Repr

/-- 1025-1036 `parse_first_line`. -/
def firstLine (L : Limits) (b : Bytes) : Option (Option Nat) :=
  whole (do
    let n ← count L.members
    let lines ← times n (do
      let _ ← u2
      u2)
    pure (lines.foldl (fun m x => some (match m with | none => x | some y => min y x)) none)) b

/-- 1038-1065 `parse_local_variables`. -/
def localVariables (L : Limits) (cp : Pool) (b : Bytes) : Option (List Local) :=
  whole (do
    let n ← count L.members
    times n (do
      let start ← u2
      let _ ← u2
      let name ← utf8Ref cp
      let d ← utf8Ref cp
      must (isField d = true)
      let slot ← u2
      pure { start := start, slot := slot, name := name })) b

/-- 747-750, 919-922: what was read of the attributes of code. -/
structure CodeState where
  lines : Option (Option Nat)
  locals : Option (List Local)
deriving DecidableEq, Repr

/-- 759-771. -/
def codeStep (L : Limits) (cp : Pool) (s : CodeState) (a : Str × Bytes) : Option CodeState :=
  if a.1 = "LineNumberTable".toList then
    if s.lines.isSome then none else (firstLine L a.2).map fun x => { s with lines := some x }
  else if a.1 = "LocalVariableTable".toList then
    if s.locals.isSome then none else (localVariables L cp a.2).map fun x => { s with locals := some x }
  else some s

/-- 725-778 `parse_code_metadata`: the first line, the variables, and the number of attributes seen. -/
def code (L : Limits) (cp : Pool) (seen : Nat) (b : Bytes) : Option (CodeState × Nat) :=
  whole (do
    let _ ← u2
    let _ ← u2
    let n ← u4
    must (n ≤ L.attributeBytes)
    let _ ← take n
    let e ← count L.members
    let _ ← take (e * 8)
    let k ← attributeCount L seen
    let s ← attributes L cp (codeStep L cp) k.1 { lines := none, locals := none }
    pure (s, k.2)) b

/-! ### Members -/

/-- 519-525: what was read of the attributes of a member. -/
structure MemberState where
  signature : Option Str
  exceptions : Option (List Str)
  parameters : Option (List Param)
  annotations : List Str
  code : Option CodeState
  seen : Nat
deriving DecidableEq, Repr

def isAnnotations (name : Str) : Bool := decide (name = "RuntimeVisibleAnnotations".toList ∨ name = "RuntimeInvisibleAnnotations".toList)

/-- 529-560. -/
def memberStep (L : Limits) (cp : Pool) (s : MemberState) (a : Str × Bytes) : Option MemberState :=
  if a.1 = "Signature".toList then
    if s.signature.isSome then none else (signature cp a.2).map fun x => { s with signature := some x }
  else if a.1 = "Exceptions".toList then
    if s.exceptions.isSome then none else (exceptions L cp a.2).map fun x => { s with exceptions := some x }
  else if a.1 = "MethodParameters".toList then
    if s.parameters.isSome then none else (methodParameters L cp a.2).map fun x => { s with parameters := some x }
  else if isAnnotations a.1 then (annotations L cp a.2).map fun x => { s with annotations := s.annotations ++ x }
  else if a.1 = "Code".toList then
    if s.code.isSome then none else (code L cp s.seen a.2).map fun x => { s with code := some x.1, seen := x.2 }
  else some s

/-- `Iterator::min_by_key` by `start`: the first least element. -/
def minByStart : List Local → Option Local
  | [] => none
  | x :: l =>
    match minByStart l with
    | none => some x
    | some y => if x.start ≤ y.start then some x else some y

/-- 573-578: the name of the variable that a slot holds from the beginning. -/
def debugName (locals : List Local) (slot : Nat) : Option Str :=
  match minByStart (locals.filter fun x => decide (x.slot = slot)) with
  | some x => if x.start = 0 then some x.name else none
  | none => none

/-- 584-597: slots of a parameter. -/
def width : JvmType → Option Nat
  | .long => some 2
  | .double => some 2
  | .void => none
  | _ => some 1

/-- 571-598: the parameters from an index on; `given` are the remaining ones of the attribute. -/
def fill (locals : List Local) : Nat → Nat → List JvmType → List Param → Option (List Param)
  | _, _, [], given => some given
  | slot, index, t :: ts, given => do
    let w ← width t
    let l ← fill locals (slot + w) (index + 1) ts given.tail
    pure (given.head?.getD { name := (debugName locals slot).getD (argName index), flags := 0 } :: l)

/-- 562-605: the parameters of a method.  The loop 599-604 does nothing: there is a parameter for each type by then. -/
def parameters (flags : Nat) (m : MethodDescriptor) (given : List Param) (locals : List Local) : Option (List Param) :=
  if given.length > m.parameters.length then none
  else fill locals (if flags.testBit 3 then 0 else 1) 0 m.parameters given

/-- 505-615: one member, and the number of attributes seen. -/
def member (L : Limits) (cp : Pool) (isMethod : Bool) (seen : Nat) : P (Member × Nat) := do
  let flags ← u2
  let name ← utf8Ref cp
  let descriptor ← utf8Ref cp
  must (if isMethod then (methodType descriptor).isSome = true else isField descriptor = true)
  let k ← attributeCount L seen
  let s ← attributes L cp (memberStep L cp) k.1 { signature := none, exceptions := none, parameters := none, annotations := [], code := none, seen := k.2 }
  let given := s.parameters.getD []
  let params ← lift (if isMethod then
      (methodType descriptor).bind fun m => parameters flags m given ((s.code.bind (·.locals)).getD [])
    else some given)
  pure ({ flags := flags, name := name, descriptor := descriptor, signature := s.signature, exceptions := s.exceptions.getD [], parameters := params, annotations := s.annotations, firstLine := s.code.bind (fun c => c.lines.getD none) }, s.seen)

/-- A loop whose body counts attributes. -/
def timesSeen {α : Type} (p : Nat → P (α × Nat)) : Nat → Nat → P (List α × Nat)
  | 0, seen => pure ([], seen)
  | n + 1, seen => do
    let a ← p seen
    let l ← timesSeen p n a.2
    pure (a.1 :: l.1, l.2)

/-- 496-618 `parse_members`. -/
def members (L : Limits) (cp : Pool) (isMethod : Bool) (seen : Nat) : P (List Member × Nat) := do
  let n ← count L.members
  timesSeen (member L cp isMethod) n seen

/-! ### Attributes of a class -/

/-- 790-811: one entry. -/
def innerEntry (cp : Pool) : P Inner := do
  let i ← u2
  must (i ≠ 0)
  let outer ← u2
  let name ← u2
  let inner ← lift (cp.className i)
  let outer ← lift (if outer = 0 then some none else (cp.className outer).map some)
  let name ← lift (if name = 0 then some none else (cp.utf8 name).map some)
  let flags ← u2
  pure { inner := inner, outer := outer, name := name, flags := flags }

/-- 780-815 `parse_inner_classes`. -/
def innerClasses (L : Limits) (cp : Pool) (b : Bytes) : Option (List Inner) :=
  whole (do
    let n ← count L.members
    times n (innerEntry cp)) b

/-- 832-834: what was read of the attributes of a component. -/
structure ComponentState where
  signature : Option Str
  annotations : List Str
deriving DecidableEq, Repr

/-- 843-853. -/
def componentStep (L : Limits) (cp : Pool) (s : ComponentState) (a : Str × Bytes) : Option ComponentState :=
  if a.1 = "Signature".toList then
    if s.signature.isSome then none else (signature cp a.2).map fun x => { s with signature := some x }
  else if isAnnotations a.1 then (annotations L cp a.2).map fun x => { s with annotations := s.annotations ++ x }
  else some s

/-- 827-860: one component. -/
def component (L : Limits) (cp : Pool) (seen : Nat) : P (Component × Nat) := do
  let name ← utf8Ref cp
  let descriptor ← utf8Ref cp
  must (isField descriptor = true)
  let k ← attributeCount L seen
  let s ← attributes L cp (componentStep L cp) k.1 { signature := none, annotations := [] }
  pure ({ name := name, descriptor := descriptor, signature := s.signature, annotations := s.annotations }, k.2)

/-- 817-864 `parse_record_components`. -/
def recordComponents (L : Limits) (cp : Pool) (seen : Nat) (b : Bytes) : Option (List Component × Nat) :=
  whole (do
    let n ← count L.members
    timesSeen (component L cp) n seen) b

/-- 1067-1082 `parse_module_exports_or_opens`. -/
def exportsOrOpens (L : Limits) : P Unit := do
  let n ← count L.members
  let _ ← times n (do
    let _ ← u2
    let _ ← u2
    let k ← count L.members
    times k u2)
  pure ()

/-- 866-910 `parse_module_name`. -/
def moduleName (L : Limits) (cp : Pool) (b : Bytes) : Option Str :=
  whole (do
    let i ← u2
    let name ← lift (cp.moduleName i)
    let _ ← u2
    let _ ← optionalRef cp.utf8
    let n ← count L.members
    let _ ← times n (do
      let _ ← u2
      let _ ← u2
      optionalRef cp.utf8)
    let _ ← exportsOrOpens L
    let _ ← exportsOrOpens L
    let n ← count L.members
    let _ ← times n u2
    let n ← count L.members
    let _ ← times n (do
      let _ ← u2
      let k ← count L.members
      times k u2)
    pure name) b

/-- 348-354: what was read of the attributes of a class. -/
structure ClassState where
  sourceFile : Option Str
  signature : Option Str
  annotations : List Str
  inner : Option (List Inner)
  components : Option (List Component)
  moduleName : Option Str
  seen : Nat
deriving DecidableEq, Repr

/-- 358-394. -/
def classStep (L : Limits) (cp : Pool) (s : ClassState) (a : Str × Bytes) : Option ClassState :=
  if a.1 = "SourceFile".toList then
    if s.sourceFile.isSome then none else (signature cp a.2).map fun x => { s with sourceFile := some x }
  else if a.1 = "Signature".toList then
    if s.signature.isSome then none else (signature cp a.2).map fun x => { s with signature := some x }
  else if isAnnotations a.1 then (annotations L cp a.2).map fun x => { s with annotations := s.annotations ++ x }
  else if a.1 = "InnerClasses".toList then
    if s.inner.isSome then none else (innerClasses L cp a.2).map fun x => { s with inner := some x }
  else if a.1 = "Record".toList then
    if s.components.isSome then none else (recordComponents L cp s.seen a.2).map fun x => { s with components := some x.1, seen := x.2 }
  else if a.1 = "Module".toList then
    if s.moduleName.isSome then none else (ClassFile.moduleName L cp a.2).map fun x => { s with moduleName := some x }
  else some s

/-- 322-415: a class. -/
def classFile (L : Limits) : P Class := do
  let magic ← u4
  must (magic = 0xcafebabe)
  let minor ← u2
  let major ← u2
  let cp ← constantPool L
  let flags ← u2
  let this ← u2
  let super ← u2
  let name ← lift (cp.className this)
  let superName ← lift (if super = 0 then some none else (cp.className super).map some)
  let n ← count L.members
  let interfaces ← times n (classRef cp)
  let fields ← members L cp false 0
  let methods ← members L cp true fields.2
  let k ← attributeCount L methods.2
  let s ← attributes L cp (classStep L cp) k.1 { sourceFile := none, signature := none, annotations := [], inner := none, components := none, moduleName := none, seen := k.2 }
  pure { minor := minor, major := major, flags := flags, name := name, super := superName, interfaces := interfaces, fields := fields.1, methods := methods.1, sourceFile := s.sourceFile, signature := s.signature, annotations := s.annotations, inner := s.inner.getD [], components := s.components.getD [], moduleName := s.moduleName }

/-- 318-416 `parse_class`. -/
def parseClass (L : Limits) (b : Bytes) : Option Class :=
  if b.length > L.classBytes then none else whole (classFile L) b

end Verif.ClassFile
