import Verif.Model.Utf8
/-!
Model of `/repo/crates/jvm-metadata/src/descriptor.rs` (L1-120).

The cursor (`source`, `bytes`, `offset`, L57-84) is the list of bytes not yet consumed.  Simplifications: all `Err`
strings are one value `err`; the recursion depth (one stack frame per `[`) is unbounded.
-/
namespace Verif.Jvm

/-- `JvmType`, L1-14; a class name is its bytes (`ValidUtf8` is part of the claim, not of the type). -/
inductive JvmType where
  | byte | char | double | float | int | long | short | boolean | void
  | object (name : List UInt8)
  | array (element : JvmType)
  deriving DecidableEq, Repr

/-- `MethodDescriptor`, L16-20. -/
structure MethodDescriptor where
  parameters : List JvmType
  returns : JvmType
  deriving DecidableEq, Repr

/-- `Result<_, &str>` or a panic (`source[start..end]` off a char boundary, L107). -/
inductive Res (α : Type) where
  | ok (a : α)
  | err
  | panic
  deriving DecidableEq, Repr

/-- The eight primitive tags of `parse_type`, L88-95. -/
def primitive (b : UInt8) : Option JvmType :=
  if b = 0x42 then some .byte
  else if b = 0x43 then some .char
  else if b = 0x44 then some .double
  else if b = 0x46 then some .float
  else if b = 0x49 then some .int
  else if b = 0x4A then some .long
  else if b = 0x53 then some .short
  else if b = 0x5A then some .boolean
  else none

/-- `DescriptorCursor::parse_type`, L86-119. -/
def parseType (allowVoid : Bool) : List UInt8 → Res (JvmType × List UInt8)
  | [] => .err
  | b :: rest =>
    match primitive b with
    | some t => .ok (t, rest)
    | none =>
      if b = 0x56 then (if allowVoid then .ok (.void, rest) else .err)
      else if b = 0x4C then
        -- `while self.peek().is_some_and(|byte| byte != b';')`, L99-101
        match rest.dropWhile (· ≠ 0x3B) with
        | [] => .err
        | semi :: tail =>
          if rest.takeWhile (· ≠ 0x3B) = [] then .err
          else if boundaryBefore rest && boundaryBefore (semi :: tail) then
            .ok (.object (rest.takeWhile (· ≠ 0x3B)), tail)
          else .panic
      else if b = 0x5B then
        match parseType false rest with
        | .ok (element, tail) => .ok (.array element, tail)
        | .err => .err
        | .panic => .panic
      else .err

/-- `parse_field_descriptor`, L22-29. -/
def parseField (d : List UInt8) : Res JvmType :=
  match parseType false d with
  | .ok (ty, []) => .ok ty
  | .ok (_, _ :: _) => .err
  | .err => .err
  | .panic => .panic

theorem parseType_shorter {v : Bool} {l tail : List UInt8} {t : JvmType} (h : parseType v l = .ok (t, tail)) :
    tail.length < l.length := by
  induction l generalizing v t tail with
  | nil => simp [parseType] at h
  | cons b rest ih =>
    rw [parseType] at h
    split at h
    · cases h; simp
    · split at h
      · split at h <;> cases h; simp
      · split at h
        · split at h
          · cases h
          · rename_i semi tail' heq
            split at h
            · cases h
            · split at h <;> cases h
              have := (List.dropWhile_suffix (l := rest) (fun b => decide (b ≠ 0x3B))).length_le
              rw [heq] at this
              simp at this ⊢
              omega
        · split at h
          · split at h
            · rename_i heq
              cases h
              have := ih heq
              simp; omega
            · cases h
            · cases h
          · cases h

/-- The parameter loop of `parse_method_descriptor`, L37-46: everything up to and including `)`. -/
def parseParams (l : List UInt8) : Res (List JvmType × List UInt8) :=
  match l with
  | [] => .err
  | b :: rest =>
    if b = 0x29 then .ok ([], rest)
    else
      match h : parseType false (b :: rest) with
      | .ok (t, tail) =>
        match parseParams tail with
        | .ok (ts, tail') => .ok (t :: ts, tail')
        | .err => .err
        | .panic => .panic
      | .err => .err
      | .panic => .panic
termination_by l.length
decreasing_by exact parseType_shorter h

/-- `parse_method_descriptor`, L31-55. -/
def parseMethod (d : List UInt8) : Res MethodDescriptor :=
  match d with
  | [] => .err
  | b :: rest =>
    if b = 0x28 then
      match parseParams rest with
      | .ok (parameters, tail) =>
        match parseType true tail with
        | .ok (returns, []) => .ok { parameters, returns }
        | .ok (_, _ :: _) => .err
        | .err => .err
        | .panic => .panic
      | .err => .err
      | .panic => .panic
    else .err

end Verif.Jvm
