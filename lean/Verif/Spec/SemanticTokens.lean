import Verif.Model.SemanticTokens
import Verif.Props.Positions
/-!
How a client of the language server protocol reads semantic tokens, and where pieces of Ruby code stand in a text.
-/
namespace Verif.SemanticTokens
open Verif.Positions

/-- A token as the client understands it. -/
structure Shown where
  line : Nat
  character : Nat
  length : Nat
  kind : Nat
  mods : Nat

/-- Decoding as the protocol says: a token stands `deltaLine` lines below the one before it, and its column counts from the one before
it if they are on the same line. -/
def decodeFrom : Nat × Nat → List Data → List Shown
  | _, [] => []
  | (l, c), d :: ds =>
    let line := l + d.deltaLine
    let character := if d.deltaLine = 0 then c + d.deltaStart else d.deltaStart
    ⟨line, character, d.length, d.kind, d.mods⟩ :: decodeFrom (line, character) ds

def decode (ds : List Data) : List Shown := decodeFrom (0, 0) ds

/-- The range starts and ends at characters of the text, and there is something at its start. -/
def Placed (content : Text) (r : Range) : Prop :=
  ∃ a w b, content = a ++ w ++ b ∧ r.1 = byteLen a ∧ r.2 = byteLen (a ++ w) ∧ w ++ b ≠ []

/-- `c` is the number of UTF-16 units after the last newline. -/
def Column (a : Text) (c : Nat) : Prop :=
  ∃ a₀ line, a = a₀ ++ line ∧ (a₀ = [] ∨ a₀.getLast? = some '\n') ∧ '\n' ∉ line ∧ c = units line

/-- The client sees the token: on the line and at the column of its first character, as long as its text, all in UTF-16 units; with its
kind and its modifiers, looked up in the legend. -/
def Shows (content : Text) (t : Tok) (s : Shown) : Prop :=
  ∃ a w b, content = a ++ w ++ b ∧ t.start = byteLen a ∧ t.stop = byteLen (a ++ w) ∧
    s.line = a.count '\n' ∧
    Column a s.character ∧
    s.length = units w ∧
    tokenTypes[s.kind]? = some t.kind ∧
    ∀ i, s.mods.testBit i = true ↔ ∃ m ∈ t.mods, tokenModifiers[i]? = some m

/-- What a run of tokens looks like to the client. -/
inductive ShowsAll (content : Text) : List Tok → List Shown → Prop
  | nil : ShowsAll content [] []
  | cons {t s l ss} : Shows content t s → ShowsAll content l ss → ShowsAll content (t :: l) (s :: ss)

/-- Tokens start in the order of the text. -/
def Ascending (l : List Tok) : Prop := l.Pairwise (fun a b => a.start ≤ b.start)

/-- The range of an index expression, from bracket to bracket. -/
def Brackets (content : Text) (m : Range) : Prop :=
  ∃ a w b, content = a ++ ('[' :: w ++ [']']) ++ b ∧ m.1 = byteLen a ∧ m.2 = byteLen (a ++ ('[' :: w ++ [']']))

mutual
/-- The code stands between the offsets `lo` and `hi` and is written in the order in which the visitor goes through it: a receiver before the
name of the method, that before the arguments; what is under `if` before or after the predicate, as the offsets of the two say; and so on. -/
inductive Written (content : Text) : Nat → Nat → Node → Prop
  | readVar {lo hi r} : lo ≤ r.1 → r.1 ≤ r.2 → r.2 ≤ hi → Written content lo hi (.readVar r)
  | target {lo hi r} : lo ≤ r.1 → r.1 ≤ r.2 → r.2 ≤ hi → Written content lo hi (.target r)
  | constRead {lo hi r} : lo ≤ r.1 → r.1 ≤ r.2 → r.2 ≤ hi → Written content lo hi (.constRead r)
  | writeVar {lo hi r v} : lo ≤ r.1 → r.1 ≤ r.2 → Written content r.2 hi v → Written content lo hi (.writeVar r v)
  | constPath {lo hi p r mid} : WrittenOpt content lo mid p → mid ≤ r.1 → r.1 ≤ r.2 → r.2 ≤ hi → Written content lo hi (.constPath p r)
  | call {lo hi r a b m₁ m₂} : WrittenOpt content lo m₁ r → WrittenAll content m₁ m₂ a → WrittenOpt content m₂ hi b → Written content lo hi (.call r none a b)
  | callNamed {lo hi r m a b m₁ m₂} : WrittenOpt content lo m₁ r → m₁ ≤ m.1 → m.1 ≤ m.2 → WrittenAll content m.2 m₂ a → WrittenOpt content m₂ hi b →
      Written content lo hi (.call r (some m) a b)
  | index {lo hi r m a b m₁ m₂} : Brackets content m → WrittenOpt content lo m₁ r → m₁ ≤ m.1 → WrittenAll content m.1 m₂ a →
      WrittenOpt content m₂ hi b → Written content lo hi (.call r (some m) a b)
  | before {lo hi ps ss p s e m₁ m₂} : Written content lo m₁ p → WrittenAll content m₁ m₂ s → WrittenOpt content m₂ hi e → ps ≤ m₁ → (∀ x, ss = some x → m₁ ≤ x) →
      Written content lo hi (.branch ps ss p s e)
  | after {lo hi ps x p s e m₁ m₂} : WrittenAll content lo m₁ s → Written content m₁ m₂ p → WrittenOpt content m₂ hi e → x < m₁ → m₁ ≤ ps →
      Written content lo hi (.branch ps (some x) p s e)
  | other {lo hi l} : WrittenAll content lo hi l → Written content lo hi (.other l)
inductive WrittenOpt (content : Text) : Nat → Nat → Option Node → Prop
  | none {lo hi} : lo ≤ hi → WrittenOpt content lo hi none
  | some {lo hi n} : Written content lo hi n → WrittenOpt content lo hi (some n)
inductive WrittenAll (content : Text) : Nat → Nat → List Node → Prop
  | nil {lo hi} : lo ≤ hi → WrittenAll content lo hi []
  | cons {lo hi mid n l} : Written content lo mid n → WrittenAll content mid hi l → WrittenAll content lo hi (n :: l)
end

mutual
/-- Every range of the node lies in the text. -/
inductive Inside (content : Text) : Node → Prop
  | readVar {r} : Placed content r → Inside content (.readVar r)
  | target {r} : Placed content r → Inside content (.target r)
  | constRead {r} : Placed content r → Inside content (.constRead r)
  | writeVar {r v} : Placed content r → Inside content v → Inside content (.writeVar r v)
  | constPath {p r} : InsideOpt content p → Placed content r → Inside content (.constPath p r)
  | call {r m a b} : InsideOpt content r → (∀ x, m = some x → Placed content x) → InsideAll content a → InsideOpt content b →
      Inside content (.call r m a b)
  | branch {ps ss p s e} : Inside content p → InsideAll content s → InsideOpt content e → Inside content (.branch ps ss p s e)
  | other {l} : InsideAll content l → Inside content (.other l)
inductive InsideOpt (content : Text) : Option Node → Prop
  | none : InsideOpt content none
  | some {n} : Inside content n → InsideOpt content (some n)
inductive InsideAll (content : Text) : List Node → Prop
  | nil : InsideAll content []
  | cons {n l} : Inside content n → InsideAll content l → InsideAll content (n :: l)
end

/-- `m` is `n` or stands in it. -/
inductive Part : Node → Node → Prop
  | refl {n} : Part n n
  | value {n r v} : Part n v → Part n (.writeVar r v)
  | parent {n p r} : Part n p → Part n (.constPath (some p) r)
  | recv {n r m a b} : Part n r → Part n (.call (some r) m a b)
  | arg {n r m a b x} : x ∈ a → Part n x → Part n (.call r m a b)
  | block {n r m a b} : Part n b → Part n (.call r m a (some b))
  | pred {n ps ss p s e} : Part n p → Part n (.branch ps ss p s e)
  | stmt {n ps ss p s e x} : x ∈ s → Part n x → Part n (.branch ps ss p s e)
  | els {n ps ss p s e} : Part n e → Part n (.branch ps ss p s (some e))
  | child {n l x} : x ∈ l → Part n x → Part n (.other l)

/-- The token that a node itself has: variables, constants and names of methods, apart from the operators `[]` and `[]=`. -/
inductive Due (special : Text → Bool) (content : Text) : Node → Tok → Prop
  | readVar {r} : Due special content (.readVar r) ⟨r.1, r.2, .variable, []⟩
  | writeVar {r v} : Due special content (.writeVar r v) ⟨r.1, r.2, .variable, [.declaration]⟩
  | target {r} : Due special content (.target r) ⟨r.1, r.2, .variable, [.declaration]⟩
  | constRead {r} : Due special content (.constRead r) ⟨r.1, r.2, .class, []⟩
  | constPath {p r} : Due special content (.constPath p r) ⟨r.1, r.2, .class, []⟩
  | name {r m a b x w y} : content = x ++ w ++ y → m.1 = byteLen x → m.2 = byteLen (x ++ w) →
      ¬ (∃ u, w = '[' :: u ∧ ((∃ u', w = u' ++ [']']) ∨ ∃ u', w = u' ++ [']', '='])) →
      Due special content (.call r (some m) a b) ⟨m.1, m.2, if special w then .macro else .method, []⟩

/-- The tokens of a piece of code: those of everything that stands in it. -/
def Owed (special : Text → Bool) (content : Text) (n : Node) (t : Tok) : Prop := ∃ m, Part m n ∧ Due special content m t

end Verif.SemanticTokens
