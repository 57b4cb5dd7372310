/-!
The edit distance: the least number of single changes (replace, insert or delete one character anywhere) that lead from one string
to the other.
-/
namespace Verif.Suggest

/-- One change of one character. -/
inductive Change : List Char → List Char → Prop
  | replace {x y l} : Change (x :: l) (y :: l)
  | insert {y l} : Change l (y :: l)
  | delete {x l} : Change (x :: l) l
  | later {x l l'} : Change l l' → Change (x :: l) (x :: l')

/-- A number of changes one after the other. -/
inductive Changes : List Char → List Char → Nat → Prop
  | none {a} : Changes a a 0
  | more {a b c n} : Changes a b n → Change b c → Changes a c (n + 1)

/-- The edit distance. -/
def Distance (a b : List Char) (n : Nat) : Prop := Changes a b n ∧ ∀ m, Changes a b m → n ≤ m

end Verif.Suggest
