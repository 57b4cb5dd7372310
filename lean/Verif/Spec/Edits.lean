import Verif.Model.Edits
/-!
What the Language Server Protocol says about positions and edits: a line ends at `\n`, `\r\n` or `\r`; a column counts UTF-16 units
of the line, and one beyond the end of the line is the end of the line.
-/
namespace Verif.Edits
open Verif.Positions (byteLen utf16Len utf16Sum)

/-- How many characters of the text come before a position (for the editor). -/
def seek : Nat → Nat → Text → Nat
  | _, _, [] => 0
  | 0, units, c :: t => if c = '\n' ∨ c = '\r' then 0 else if utf16Len c ≤ units then seek 0 (units - utf16Len c) t + 1 else 0
  | n + 1, units, c :: t =>
    if c = '\n' then seek n units t + 1
    else if c = '\r' then
      match t with
      | '\n' :: t' => seek n units t' + 2
      | t' => seek n units t' + 1
    else seek (n + 1) units t + 1

def Pos.index (p : Pos) (t : Text) : Nat := seek p.line p.character t

/-- What the editor makes of an edit. -/
def Edit.apply (e : Edit) (t : Text) : Text := t.take (e.start.index t) ++ e.newText ++ t.drop (e.stop.index t)

/-- A carriage return that is not a part of `\r\n`. -/
def LoneReturn (t : Text) : Prop := ∃ a b, t = a ++ '\r' :: b ∧ b.head? ≠ some '\n'

/-- The place that a tool means by a line (from 1, lines end at `\n`) and a number of bytes in it: `before` are the lines before,
`w` is what comes before the place in its line. -/
structure Place (t : Text) (line column : Nat) (before w : Text) : Prop where
  here : (before ++ w) <+: t
  whole : before = [] ∨ ∃ x, before = x ++ ['\n']
  number : before.count '\n' + 1 = line
  inLine : '\n' ∉ w
  bytes : byteLen w = column

mutual
/-- A tree has a conditional. -/
inductive HasCond : Node → Prop
  | here (kids : List Node) : HasCond (.cond kids)
  | other (kids : List Node) (n : Node) : n ∈ kids → HasCond n → HasCond (.other kids)
  | write (n : Node) : HasCond n → HasCond (.write n)
/-- A tree has an assignment of a conditional. -/
inductive AssignsCond : Node → Prop
  | here (kids : List Node) : AssignsCond (.write (.cond kids))
  | cond (kids : List Node) (n : Node) : n ∈ kids → AssignsCond n → AssignsCond (.cond kids)
  | other (kids : List Node) (n : Node) : n ∈ kids → AssignsCond n → AssignsCond (.other kids)
  | write (n : Node) : AssignsCond n → AssignsCond (.write n)
end

end Verif.Edits
