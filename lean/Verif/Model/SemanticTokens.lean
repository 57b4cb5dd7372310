import Verif.Model.Positions
/-!
Model of semantic highlighting: `/repo/crates/ruby-analysis/src/indexer/semantic_tokens.rs` and the legend sent to the client,
`/repo/src/capabilities/semantic_tokens.rs` L16-31, L91-133 (where every kind is sent under its own name).

`none` is a panic.  Subtractions are of `u32`: they panic in a build with overflow checks and wrap around in a release build, which
the parameter `wrap` chooses.  Of Prism's nodes those are distinguished that the visitor handles itself; for any other node Prism's
`Visit` visits the children in a fixed order.  The table of method names (L251-432) is a parameter.
-/
namespace Verif.SemanticTokens
open Verif.Positions

/-- L12-37. -/
inductive Kind where
  | namespace | type | class | enum | interface | struct | typeParameter | parameter | variable | property | enumMember | event
  | function | method | macro | keyword | modifier | comment | string | number | regexp | operator | decorator
  deriving DecidableEq

/-- L65-77. -/
inductive Modifier where
  | declaration | definition | readonly | static | deprecated | abstract | async | modification | documentation | defaultLibrary
  deriving DecidableEq

/-- L105-129 `TOKEN_TYPES`, which is also the legend. -/
def tokenTypes : List Kind :=
  [.namespace, .type, .class, .enum, .interface, .struct, .typeParameter, .parameter, .variable, .property, .enumMember, .event,
   .function, .method, .macro, .keyword, .modifier, .comment, .string, .number, .regexp, .operator, .decorator]

/-- L139-150 `TOKEN_MODIFIERS`, also a legend. -/
def tokenModifiers : List Modifier :=
  [.declaration, .definition, .readonly, .static, .deprecated, .abstract, .async, .modification, .documentation, .defaultLibrary]

/-- L131-137, L236-241 `token_type_to_index`: the map holds the last index of a kind. -/
def typeIndex (k : Kind) : Nat :=
  ((tokenTypes.zipIdx.reverse.find? (fun p => p.1 == k)).map Prod.snd).getD 0

/-- L152-159. -/
def modifierIndex (m : Modifier) : Option Nat := (tokenModifiers.zipIdx.reverse.find? (fun p => p.1 == m)).map Prod.snd

/-- L243-248 `token_modifiers_to_bitset`. -/
def bitset (ms : List Modifier) : Nat := (ms.filterMap modifierIndex).foldl (fun b i => b ||| 2 ^ i) 0

/-- What the visitor hands to `add_token`: byte offsets, kind and modifiers. -/
structure Tok where
  start : Nat
  stop : Nat
  kind : Kind
  mods : List Modifier

/-- L92-99 `SemanticTokenData`. -/
structure Data where
  deltaLine : Nat
  deltaStart : Nat
  length : Nat
  kind : Nat
  mods : Nat
  deriving DecidableEq

/-- Subtraction of `u32`. -/
def sub (wrap : Bool) (a b : Nat) : Option Nat :=
  if b ≤ a then some (a - b) else if wrap then some (2 ^ 32 + a - b) else none

/-- L188-208: the relative column, and the length. -/
def deltaColumn (wrap : Bool) (deltaLine character current : Nat) : Option Nat :=
  if deltaLine = 0 then sub wrap character current else some character

def tokLength (wrap : Bool) (content : Text) (t : Tok) (s e : Nat × Nat) : Option Nat :=
  if s.1 = e.1 then sub wrap e.2 s.2 else (slice content t.start t.stop).map utf16Sum

/-- L177-234 `add_token`: the new token and the new `current_position`. -/
def addToken (wrap : Bool) (content : Text) (current : Nat × Nat) (t : Tok) : Option (Data × (Nat × Nat)) :=
  (offsetToLineCharacter content t.start).bind fun s =>
  (offsetToLineCharacter content t.stop).bind fun e =>
  (sub wrap s.1 current.1).bind fun dl =>
  (deltaColumn wrap dl s.2 current.2).bind fun dc =>
  (tokLength wrap content t s e).map fun len => (⟨dl, dc, len, typeIndex t.kind, bitset t.mods⟩, s)

/-- The calls of `add_token`, one after the other. -/
def encodeFrom (wrap : Bool) (content : Text) : Nat × Nat → List Tok → Option (List Data)
  | _, [] => some []
  | cur, t :: l => (addToken wrap content cur t).bind fun r => (encodeFrom wrap content r.2 l).map (r.1 :: ·)

/-- L168-175 `new`: from the beginning of the document. -/
def encode (wrap : Bool) (content : Text) (l : List Tok) : Option (List Data) := encodeFrom wrap content (0, 0) l

abbrev Range := Nat × Nat

/-- Prism's nodes. -/
inductive Node where
  /-- a local variable is read, or declared as local to a block -/
  | readVar (loc : Range)
  /-- `x = e`, `x ||= e`, `x &&= e`, `x += e` -/
  | writeVar (name : Range) (value : Node)
  /-- `x` on the left of a multiple assignment and the like -/
  | target (loc : Range)
  | constRead (loc : Range)
  | constPath (parent : Option Node) (name : Range)
  | call (recv : Option Node) (message : Option Range) (args : List Node) (block : Option Node)
  /-- `if` and `unless` with the offsets at which the predicate and the statements start -/
  | branch (predStart : Nat) (stmtsStart : Option Nat) (pred : Node) (stmts : List Node) (els : Option Node)
  /-- any other node, with the children in the order in which Prism visits them -/
  | other (children : List Node)

/-- L445-456: the name of the method is no token if it is `[]` or `[]=`. -/
def messageTok (special : Text → Bool) (content : Text) (loc : Range) : Option (List Tok) :=
  (slice content loc.1 loc.2).map fun msg =>
    if msg.head? = some '[' ∧ (msg.getLast? = some ']' ∨ ['=', ']'] <+: msg.reverse) then []
    else if special msg then [⟨loc.1, loc.2, .macro, []⟩]
    else [⟨loc.1, loc.2, .method, []⟩]

/-- Both succeed. -/
def both (a b : Option (List Tok)) : Option (List Tok) := a.bind fun x => b.map fun y => x ++ y

/-- L523-525, L552-554. -/
def isModifier (predStart : Nat) : Option Nat → Bool
  | some s => decide (s < predStart)
  | none => false

mutual
/-- L435-594: the calls of `add_token` in their order. -/
def visit (special : Text → Bool) (content : Text) : Node → Option (List Tok)
  | .readVar r => some [⟨r.1, r.2, .variable, []⟩]
  | .writeVar r v => both (some [⟨r.1, r.2, .variable, [.declaration]⟩]) (visit special content v)
  | .target r => some [⟨r.1, r.2, .variable, [.declaration]⟩]
  | .constRead r => some [⟨r.1, r.2, .class, []⟩]
  | .constPath p r => both (visitOpt special content p) (some [⟨r.1, r.2, .class, []⟩])
  | .call r none a b => both (visitOpt special content r) (both (visitAll special content a) (visitOpt special content b))
  | .call r (some m) a b =>
    both (visitOpt special content r)
      (both (messageTok special content m) (both (visitAll special content a) (visitOpt special content b)))
  | .branch ps ss p s e =>
    if isModifier ps ss then both (visitAll special content s) (both (visit special content p) (visitOpt special content e))
    else both (visit special content p) (both (visitAll special content s) (visitOpt special content e))
  | .other l => visitAll special content l
def visitOpt (special : Text → Bool) (content : Text) : Option Node → Option (List Tok)
  | none => some []
  | some n => visit special content n
def visitAll (special : Text → Bool) (content : Text) : List Node → Option (List Tok)
  | [] => some []
  | n :: l => both (visit special content n) (visitAll special content l)
end

/-- src/capabilities/semantic_tokens.rs L33-77 `get_semantic_tokens_full` for a document with this syntax tree. -/
def full (wrap : Bool) (special : Text → Bool) (content : Text) (root : Node) : Option (List Data) :=
  (visit special content root).bind (encode wrap content)

end Verif.SemanticTokens
