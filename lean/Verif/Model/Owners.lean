import Verif.Model.Utf8
/-!
Names of constants and identities of generated owners: crates/ruby-analysis/src/core/ruby_namespace.rs.

A `&str` is a list of scalar values. Interning (`Ustr`) is the identity: two interned strings are equal exactly when their texts
are. The Unicode tables (`is_xid_start`, `is_uppercase`, `is_xid_continue`) are parameters.
-/
namespace Verif.Owners

/-- `str::len`. -/
def byteLen (s : List Char) : Nat := (utf8 s).length

/-- ruby_namespace.rs L4-5. -/
def maxComponent : Nat := 4096
def ownerPrefix : List Char := '\x00' :: "ruby-fast-lsp-generated-owner:".toList

/-- The decimal digits of `n`, most significant first; `fuel` bounds the number of digits. -/
def digits : Nat → Nat → List Nat
  | 0, _ => []
  | fuel + 1, n => if n < 10 then [n] else digits fuel (n / 10) ++ [n % 10]

def digitChar (d : Nat) : Char := Char.ofNat (48 + d)

/-- `format!("{}", n)` for a `usize`. -/
def decimal (n : Nat) : List Char := (digits (n + 1) n).map digitChar

/-- L30-37: one length-prefixed component. -/
def part (s : List Char) : List Char := decimal (byteLen s) ++ (':' :: s)

def okComponent (s : List Char) : Bool := !s.isEmpty && decide (byteLen s ≤ maxComponent)

/-- L11-39 `GeneratedOwnerId::new`: the interned key. -/
def newOwner (ext source loc : List Char) : Option (List Char) :=
  if [ext, source, loc].all okComponent then some (ownerPrefix ++ (part ext ++ (part source ++ part loc))) else none

/-- L50-69 `RubyConstant::new`. -/
def newConstant (xidStart upper xidContinue : Char → Bool) (name : List Char) : Option (List Char) :=
  match name with
  | [] => none
  | c :: rest =>
    if !xidStart c || !upper c then none
    else if !rest.all xidContinue then none
    else some name

/-- L71-77 `generated_owner`: the assertion and the constant; `none` is the panic. -/
def generatedOwner (id : List Char) : Option (List Char) := if ownerPrefix.isPrefixOf id then some id else none

/-- L112-114 `is_generated_owner`. -/
def isGenerated (c : List Char) : Bool := ownerPrefix.isPrefixOf c

/-- `str::strip_prefix`. -/
def stripPrefix : List Char → List Char → Option (List Char)
  | [], s => some s
  | p :: ps, c :: s => if p = c then stripPrefix ps s else none
  | _ :: _, [] => none

/-- `find(':')` and the two slices around it. -/
def splitColon : List Char → Option (List Char × List Char)
  | [] => none
  | c :: s => if c = ':' then some ([], s) else (splitColon s).map fun r => (c :: r.1, r.2)

def usizeMax : Nat := 2 ^ 64 - 1

def digitVal (c : Char) : Option Nat := if 48 ≤ c.toNat && c.toNat ≤ 57 then some (c.toNat - 48) else none

def parseDigits : Nat → List Char → Option Nat
  | acc, [] => some acc
  | acc, c :: s =>
    match digitVal c with
    | none => none
    | some d => if acc * 10 + d > usizeMax then none else parseDigits (acc * 10 + d) s

/-- `str::parse::<usize>` (core::num `from_str_radix`, radix 10): an optional `+`, at least one digit, no overflow. -/
def parseUsize (s : List Char) : Option Nat :=
  match s with
  | [] => none
  | ['+'] => none
  | '+' :: rest => parseDigits 0 rest
  | s => parseDigits 0 s

/-- L94-97: `split_at(n)`, refused past the end or inside a character. -/
def splitBytes : List Char → Nat → Option (List Char × List Char)
  | [], n => if n = 0 then some ([], []) else none
  | c :: s, n =>
    if n = 0 then some ([], c :: s)
    else if c.utf8Size ≤ n then (splitBytes s (n - c.utf8Size)).map fun r => (c :: r.1, r.2)
    else none

/-- L84-101: one turn of the loop. -/
def readPart (s : List Char) : Option (List Char × List Char) :=
  match splitColon s with
  | none => none
  | some (len, rest) =>
    match parseUsize len with
    | none => none
    | some n => if n = 0 ∨ n > maxComponent then none else splitBytes rest n

/-- L79-110 `from_canonical_generated_owner`. -/
def fromCanonical (identity : List Char) : Option (List Char) :=
  match stripPrefix ownerPrefix identity with
  | none => none
  | some r0 =>
    match readPart r0 with
    | none => none
    | some (a, r1) =>
      match readPart r1 with
      | none => none
      | some (b, r2) =>
        match readPart r2 with
        | none => none
        | some (c, r3) =>
          if !r3.isEmpty then none
          else
            match newOwner a b c with
            | none => none
            | some canonical => if canonical ≠ identity then none else some canonical

/-- L138-146 `Display`. -/
def display (c : List Char) : List Char :=
  match stripPrefix ownerPrefix c with
  | some identity => "#<generated-owner:".toList ++ identity ++ [ '>' ]
  | none => c

/-- `str::split("::")`: leftmost, non-overlapping; `cur` is the current segment. -/
def splitColons : List Char → List Char → List (List Char)
  | cur, [] => [cur]
  | cur, [c] => [cur ++ [c]]
  | cur, c :: d :: s => if c = ':' ∧ d = ':' then cur :: splitColons [] s else splitColons (cur ++ [c]) (d :: s)

/-- `str::trim`. -/
def trim (space : Char → Bool) (s : List Char) : List Char :=
  ((s.dropWhile space).reverse.dropWhile space).reverse

/-- L123-127 `from_qualified_name`. -/
def fromQualified (space xidStart upper xidContinue : Char → Bool) (s : List Char) : Option (List (List Char)) :=
  (splitColons [] s).mapM fun seg => newConstant xidStart upper xidContinue (trim space seg)

end Verif.Owners
