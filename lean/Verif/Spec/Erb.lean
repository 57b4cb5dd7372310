import Verif.Model.Utf8
/-!
What an ERB template means, independently of the scanner: text, tags `<% ... %>`, comments `<%# ... %>`, literal tags `<%% ... %>`,
output tags `<%= ... %>`, and the trimming marks `<%-` and `-%>`.
-/
namespace Verif.Erb.Spec

def isBreak (b : UInt8) : Prop := b = 0x0A ∨ b = 0x0D

/-- The start marks of a tag's inside: `-`, `=`, `-=` or nothing. -/
def marks : List UInt8 → List UInt8 × List UInt8
  | 0x2D :: 0x3D :: r => ([0x2D, 0x3D], r)
  | 0x2D :: r => ([0x2D], r)
  | 0x3D :: r => ([0x3D], r)
  | r => ([], r)

/-- A trailing `-` is a trimming mark. -/
def untrim (r : List UInt8) : List UInt8 × List UInt8 :=
  if r.getLast? = some 0x2D then (r.dropLast, [0x2D]) else (r, [])

/-- Split the inside of a tag into start marks, Ruby code, end mark; `none` when there is no Ruby code in it. -/
def ruby (inner : List UInt8) : Option (List UInt8 × List UInt8 × List UInt8) :=
  if inner.head? = some 0x25 ∨ inner.head? = some 0x23 then none
  else
    let (lead, rest) := marks inner
    let (body, trail) := untrim rest
    if body = [] then none else some (lead, body, trail)

/-- `Tags off bytes ranges unclosed`: reading `bytes`, which start at offset `off`, the Ruby code is at `ranges` and `unclosed` is
where a tag that is never closed begins.  A tag has at least one byte inside; it ends at the first `%>` after that byte. -/
inductive Tags : Nat → List UInt8 → List (Nat × Nat) → Option Nat → Prop
  | text {off bytes} (h : ¬ [0x3C, 0x25] <:+: bytes) : Tags off bytes [] none
  | unclosed {off pre rest} (hopen : ¬ [0x3C, 0x25] <:+: pre ++ [0x3C]) (hclose : ¬ [0x25, 0x3E] <:+: rest.drop 1) :
      Tags off (pre ++ [0x3C, 0x25] ++ rest) [] (some (off + pre.length))
  | silent {off pre first inner post ranges u} (hopen : ¬ [0x3C, 0x25] <:+: pre ++ [0x3C]) (hclose : ¬ [0x25, 0x3E] <:+: inner ++ [0x25])
      (hno : ruby (first :: inner) = none)
      (hrest : Tags (off + pre.length + 2 + (first :: inner).length + 2) post ranges u) :
      Tags off (pre ++ [0x3C, 0x25] ++ first :: inner ++ [0x25, 0x3E] ++ post) ranges u
  | code {off pre first inner post ranges u lead body trail} (hopen : ¬ [0x3C, 0x25] <:+: pre ++ [0x3C])
      (hclose : ¬ [0x25, 0x3E] <:+: inner ++ [0x25]) (hyes : ruby (first :: inner) = some (lead, body, trail))
      (hrest : Tags (off + pre.length + 2 + (first :: inner).length + 2) post ranges u) :
      Tags off (pre ++ [0x3C, 0x25] ++ first :: inner ++ [0x25, 0x3E] ++ post)
        ((off + pre.length + 2 + lead.length, off + pre.length + 2 + lead.length + body.length) :: ranges) u

end Verif.Erb.Spec
