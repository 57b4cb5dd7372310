import Verif.Model.Hierarchy
/-!
Names of constants and methods, and the places where one method calls another.
-/
namespace Verif.Hierarchy

/-- A name of a constant. -/
def ConstName (u : Unicode) (n : Text) : Prop := ∃ c cs, n = c :: cs ∧ u.start c = true ∧ u.upper c = true ∧ ∀ d ∈ cs, u.cont d = true

def Valid (u : Unicode) (p : Part) : Prop := ∃ n, p = .named n ∧ ConstName u n

/-- A name of a method: an operator, or a word and perhaps `?`, `!` or `=`. -/
def MethodName (u : Unicode) (m : Text) : Prop :=
  m ∈ operators ∨ ∃ c cs s, m = c :: cs ++ s ∧ (s = [] ∨ s = [63] ∨ s = [33] ∨ s = [61]) ∧ (u.alpha c = true ∨ c = 95) ∧
    ∀ d ∈ cs, u.cont d = true ∨ d = 95

/-- The places in method `a` where method `b` is called. -/
def sites (e : Engine) (b a : Fqn) : List Range := ((refsFor e b).filter (fun r => decide (r.caller = some a))).map (·.range)

/-- The relation seen from the other side. -/
def opposite : Relation → Relation
  | .superclass => .subclass
  | .include_ => .includedBy
  | .prepend => .prependedBy
  | .extend_ => .extendedBy
  | .subclass => .superclass
  | .includedBy => .include_
  | .prependedBy => .prepend
  | .extendedBy => .extend_

/-- The order of the relations in a list. -/
def rank (x : Entry) : Nat :=
  if x.unresolved then 4
  else
    match x.relation with
    | .prepend | .subclass => 0
    | .include_ | .includedBy => 1
    | .superclass | .prependedBy => 2
    | .extend_ | .extendedBy => 3

/-- The two indexes of the edges agree. -/
def Linked (e : Engine) : Prop := ∀ x y d, (d ∈ e.edgesFrom x ∧ d.target = y) ↔ (d ∈ e.edgesTo y ∧ d.source = x)

end Verif.Hierarchy
