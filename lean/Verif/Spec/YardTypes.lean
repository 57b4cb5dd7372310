import Verif.Model.YardTypes
/-!
Types as YARD writes them, what they mean, and the values that a type describes.
-/
namespace Verif.Yard

/-- The words of YARD that are no constants. -/
inductive Word where
  | nil | void | true | false | boolean

/-- A type as documented in YARD: a word, a class by its path, `Array<...>`, `Hash<K, V>` and `Hash{K1, K2 => V1, V2}`. -/
inductive YT where
  | word (w : Word)
  | name (path : List Text)
  | array (ts : List YT)
  | hash (k v : YT)
  | arrow (ks vs : List YT)

/-- The spellings of a word. -/
def Word.spelled : Word → List Text
  | .nil => [['n', 'i', 'l']]
  | .void => [['v', 'o', 'i', 'd']]
  | .true => [['t', 'r', 'u', 'e']]
  | .false => [['f', 'a', 'l', 's', 'e']]
  | .boolean => [['B', 'o', 'o', 'l', 'e', 'a', 'n'], ['b', 'o', 'o', 'l', 'e', 'a', 'n'], ['b', 'o', 'o', 'l']]

/-- Only white space. -/
def Blank (s : Text) : Prop := ∀ c ∈ s, ws c = true

/-- A path: `A::B::C`. -/
def joinPath : List Text → Text
  | [] => []
  | [p] => p
  | p :: l => p ++ ':' :: ':' :: joinPath l

/-- A constant of Ruby. -/
def Constant (U : Unicode) (s : Text) : Prop := ∃ c r, s = c :: r ∧ U.first c = true ∧ ∀ d ∈ r, U.cont d = true

mutual
/-- `Writes U t s`: the text `s` is a way to write the type `t`. -/
inductive Writes (U : Unicode) : YT → Text → Prop
  | word (w : Word) (s : Text) : s ∈ w.spelled → Writes U (.word w) s
  | name (path : List Text) (s : Text) : path ≠ [] → (∀ p ∈ path, Constant U p) → s = joinPath path → Writes U (.name path) s
  | array (ts : List YT) (s : Text) : WritesList U ts s → Writes U (.array ts) ('A' :: 'r' :: 'r' :: 'a' :: 'y' :: '<' :: (s ++ ['>']))
  | hash (k v : YT) (s : Text) : WritesList U [k, v] s → Writes U (.hash k v) ('H' :: 'a' :: 's' :: 'h' :: '<' :: (s ++ ['>']))
  | arrow (ks vs : List YT) (r s : Text) : WritesList U ks r → WritesList U vs s →
      Writes U (.arrow ks vs) ('H' :: 'a' :: 's' :: 'h' :: '{' :: (r ++ '=' :: '>' :: (s ++ ['}'])))
/-- Types with commas between them and white space anywhere around them. -/
inductive WritesList (U : Unicode) : List YT → Text → Prop
  | one (t : YT) (a s b : Text) : Blank a → Writes U t s → Blank b → WritesList U [t] (a ++ s ++ b)
  | cons (t : YT) (ts : List YT) (a s b r : Text) : Blank a → Writes U t s → Blank b → WritesList U ts r →
      WritesList U (t :: ts) (a ++ s ++ b ++ ',' :: r)
end

/-- What a word means; the value of a `void` method is not specified. -/
def Word.means : Word → RTy
  | .nil => .cls [['N', 'i', 'l', 'C', 'l', 'a', 's', 's']]
  | .void => .unknown
  | .true => .cls [['T', 'r', 'u', 'e', 'C', 'l', 'a', 's', 's']]
  | .false => .cls [['F', 'a', 'l', 's', 'e', 'C', 'l', 'a', 's', 's']]
  | .boolean => .union [.cls [['F', 'a', 'l', 's', 'e', 'C', 'l', 'a', 's', 's']], .cls [['T', 'r', 'u', 'e', 'C', 'l', 'a', 's', 's']]]

/-- What a path means: anything is an `Object`, and `Fixnum` and `Bignum` are old names of `Integer`. -/
def pathMeans (path : List Text) : RTy :=
  if path = [tObject] ∨ path = [tBasicObject] then .unknown
  else if path = [tFixnum] ∨ path = [tBignum] then .cls [tInteger]
  else .cls path

mutual
/-- What a type means. -/
def YT.means : YT → RTy
  | .word w => w.means
  | .name path => pathMeans path
  | .array ts => .array (listMeans ts)
  | .hash k v => .hash [k.means] [v.means]
  | .arrow ks vs => .hash (listMeans ks) (listMeans vs)
def listMeans : List YT → List RTy
  | [] => []
  | t :: ts => t.means :: listMeans ts
end

/-- Values, as far as types tell them apart. -/
inductive Val where
  | obj (cls : List Text)
  | arr (vs : List Val)
  | hsh (es : List (Val × Val))

mutual
/-- `Has t v`: the value `v` is described by the type `t` (instances of subclasses are left out). -/
def Has : RTy → Val → Prop
  | .cls p, v => v = .obj p
  | .array ts, v => ∃ vs, v = .arr vs ∧ ∀ x ∈ vs, HasAny ts x
  | .hash ks vs, v => ∃ es, v = .hsh es ∧ ∀ e ∈ es, HasAny ks e.1 ∧ HasAny vs e.2
  | .union ts, v => HasAny ts v
  | .unknown, _ => True
def HasAny : List RTy → Val → Prop
  | [], _ => False
  | t :: ts, v => Has t v ∨ HasAny ts v
end

mutual
/-- No hash is written with braces. -/
def YT.noArrow : YT → Prop
  | .word _ => True
  | .name _ => True
  | .array ts => noArrows ts
  | .hash k v => k.noArrow ∧ v.noArrow
  | .arrow _ _ => False
def noArrows : List YT → Prop
  | [] => True
  | t :: ts => t.noArrow ∧ noArrows ts
end

mutual
/-- A hash with braces occurs, if at all, once and where no comma follows it in the brackets around it, and has one type of values. -/
def YT.lateArrow : YT → Prop
  | .word _ => True
  | .name _ => True
  | .array ts => lateArrows ts
  | .hash k v => k.noArrow ∧ v.lateArrow
  | .arrow ks vs => noArrows ks ∧ noArrows vs ∧ vs.length = 1
def lateArrows : List YT → Prop
  | [] => True
  | [t] => t.lateArrow
  | t :: ts => t.noArrow ∧ lateArrows ts
end

/-- The types that are read exactly: hashes with braces only on the outside, or as in `lateArrow`. -/
def YT.readable : YT → Prop
  | .arrow ks vs => noArrows ks ∧ noArrows vs
  | t => t.lateArrow

mutual
/-- The words and paths in a type are such that case does not matter and `void` does not occur: see the counterexamples. -/
def YT.plain : YT → Prop
  | .word w => w ≠ .void
  | .name path => ∀ k ∈ [tNil, tVoid, tTrue, tFalse, tBoolean, tBool], (joinPath path).map lower ≠ k
  | .array ts => plains ts
  | .hash k v => k.plain ∧ v.plain
  | .arrow ks vs => plains ks ∧ plains vs
def plains : List YT → Prop
  | [] => True
  | t :: ts => t.plain ∧ plains ts
end

end Verif.Yard
