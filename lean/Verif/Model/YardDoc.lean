import Verif.Model.YardTypes
import Verif.Model.Positions
/-!
Model of how YARD comments are found and read: `YardParser` (crates/ruby-analysis/src/indexer/yard/parser.rs L33-545), with
`CommentLineInfo` (L88-95), and of `YardMethodDoc` (yard/types.rs).

Simplifications: a text is a list of Unicode scalar values; `\w` of the regexes is a parameter; the regexes of L35-82 are written as functions
that try each place from the left and take as much as possible for each part, which is what the regex engine finds, as no part can
end at another place (the classes of neighbouring parts have no character in common); `.` is any character, as a line has no line
feed; offsets, lines and columns are unbounded; a panic is `none`; the log message of L384 is left out.
-/
namespace Verif.Yard
open Verif.Positions (byteLen utf16Sum)

/-- The lines that `str::lines` gives: split after each line feed, without it and a carriage return before it; nothing after the
last line feed if the text ends there. -/
def linesGo : Text → Text → List Text
  | [], cur => if cur = [] then [] else [cur]
  | c :: s, cur =>
    if c = '\n' then (if cur.getLast? = some '\r' then cur.dropLast else cur) :: linesGo s [] else linesGo s (cur ++ [c])

/-- `str::lines`. -/
def lines (s : Text) : List Text := linesGo s []

/-- parser.rs L88-95 `CommentLineInfo`. -/
structure Comment where
  content : Text
  line : Nat
  start : Nat
  length : Nat
  deriving DecidableEq

/-- The body of the loop for a line that begins with `#`, parser.rs L336-345. -/
def commentOf (line : Text) (number : Nat) : Comment :=
  let trimmed := trim line
  let leading := byteLen line - byteLen (trimStart line)
  let content := trimStart (trimmed.dropWhile (· == '#'))
  let hash := byteLen trimmed - byteLen content
  { content := content, line := number, start := leading + hash, length := byteLen line }

/-- The loop of `collect_preceding_comments`, L332-354, over the lines from the last one on; the result is in that order. -/
def collectGo : List Text → Nat → List Comment
  | [], _ => []
  | line :: rest, number =>
    if (trim line).head? = some '#' then
      commentOf line number :: (if number = 0 then [] else collectGo rest (number - 1))
    else if trim line ≠ [] then []
    else if number = 0 then [] else collectGo rest (number - 1)

/-- parser.rs L319-358 `collect_preceding_comments`; `none` is the failed assertion of L325. -/
def collect (before : Text) (methodLine : Nat) : Option (List Comment) :=
  if before.getLast? = some '\n' then
    if methodLine = 0 then none else some (collectGo (lines before).reverse (methodLine - 1)).reverse
  else some (collectGo (lines before).reverse methodLine).reverse

/-! ### The regexes -/

/-- `\s+`: the white space and the rest. -/
def spaces1 (s : Text) : Option (Text × Text) :=
  if s.takeWhile ws = [] then none else some (s.takeWhile ws, s.dropWhile ws)

/-- `(\w+)` -/
def word1 (word : Char → Bool) (s : Text) : Option (Text × Text) :=
  if s.takeWhile word = [] then none else some (s.takeWhile word, s.dropWhile word)

/-- A literal. -/
def literal (t s : Text) : Option Text := if t.isPrefixOf s then some (s.drop t.length) else none

/-- `\[([^\]]+)\]`: the text in the brackets and the rest. -/
def brackets (s : Text) : Option (Text × Text) :=
  match s with
  | '[' :: s =>
    if s.takeWhile (· != ']') = [] then none
    else match s.dropWhile (· != ']') with
      | _ :: r => some (s.takeWhile (· != ']'), r)
      | [] => none
  | _ => none

/-- The search of a regex: the first place, from the left, at which it matches; with the text before the place. -/
def search {α : Type} (m : Text → Option α) : Text → Text → Option (Text × α)
  | pre, [] => (m []).map (pre, ·)
  | pre, c :: s => match m (c :: s) with
    | some a => some (pre, a)
    | none => search m (pre ++ [c]) s

def tParam : Text := ['@', 'p', 'a', 'r', 'a', 'm']
def tReturn : Text := ['@', 'r', 'e', 't', 'u', 'r', 'n']
def tYieldParam : Text := ['@', 'y', 'i', 'e', 'l', 'd', 'p', 'a', 'r', 'a', 'm']
def tYieldReturn : Text := ['@', 'y', 'i', 'e', 'l', 'd', 'r', 'e', 't', 'u', 'r', 'n']
def tOption : Text := ['@', 'o', 'p', 't', 'i', 'o', 'n']
def tRaise : Text := ['@', 'r', 'a', 'i', 's', 'e']
def tDeprecated : Text := ['@', 'd', 'e', 'p', 'r', 'e', 'c', 'a', 't', 'e', 'd']
def tUnavailable : Text := ['@', 'u', 'n', 'a', 'v', 'a', 'i', 'l', 'a', 'b', 'l', 'e']
def tAbsent : Text := ['@', 'a', 'b', 's', 'e', 'n', 't']

/-- What a regex captured: the text of the match up to the brackets with the types, a name, the types, and the rest after `\s*`. -/
structure Match where
  lead : Text
  name : Text
  types : Text
  rest : Text

/-- `PARAM_REGEX` (L37-39) and `YIELD_PARAM_REGEX` (L53-55): the tag, a name, the types. -/
def matchNamed (word : Char → Bool) (tag s : Text) : Option Match := do
  let r ← literal tag s
  let (a, r) ← spaces1 r
  let (n, r) ← word1 word r
  let (b, r) ← spaces1 r
  let (t, r) ← brackets r
  return { lead := tag ++ a ++ n ++ b, name := n, types := t, rest := trimStart r }

/-- `PARAM_ALT_REGEX`, L43-45. -/
def matchAlt (word : Char → Bool) (s : Text) : Option Match := do
  let r ← literal tParam s
  let (t, r') ← brackets (trimStart r)
  let (n, r') ← word1 word (trimStart r')
  return { lead := tParam ++ r.takeWhile ws, name := n, types := t, rest := trimStart r' }

/-- `RETURN_REGEX` (L49-50) and `YIELD_RETURN_REGEX` (L59-61). -/
def matchPlain (tag s : Text) : Option Match := do
  let r ← literal tag s
  let (a, r) ← spaces1 r
  let (t, r) ← brackets r
  return { lead := tag ++ a, name := [], types := t, rest := trimStart r }

/-- `(?:\s+\(([^)]*)\))?`: the default value, if there is one, and the rest. -/
def defaultValue (s : Text) : Option Text × Text :=
  match spaces1 s with
  | some (_, '(' :: r) =>
    match r.dropWhile (· != ')') with
    | _ :: r' => (some (r.takeWhile (· != ')')), r')
    | [] => (none, s)
  | _ => (none, s)

/-- `OPTION_REGEX`, L65-68: the name, the types, the key, the default value and the rest. -/
def matchOption (word : Char → Bool) (s : Text) : Option (Text × Text × Text × Option Text × Text) := do
  let r ← literal tOption s
  let (_, r) ← spaces1 r
  let (n, r) ← word1 word r
  let (_, r) ← spaces1 r
  let (t, r) ← brackets r
  let (_, r) ← spaces1 r
  let r ← literal [':'] r
  let (k, r) ← word1 word r
  let (d, r) := defaultValue r
  return (n, t, k, d, trimStart r)

/-- `RAISE_REGEX`, L72-73. -/
def matchRaise (s : Text) : Option Text := do
  let r ← literal tRaise s
  let (_, r) ← spaces1 r
  let (t, _) ← brackets r
  return t

/-- `DEPRECATED_REGEX`, `UNAVAILABLE_REGEX` and `ABSENT_REGEX`, L77-82. -/
def matchNote (tag s : Text) : Option Text := do
  let r ← literal tag s
  return trimStart r

/-! ### The tags -/

/-- A range on a line: its first and last column. -/
structure Cols where
  line : Nat
  first : Nat
  last : Nat
  deriving DecidableEq

/-- types.rs L10-25 `YardParam`, and L96-107 `YardReturn` without the name. -/
structure Param where
  name : Text
  types : List Text
  desc : Option Text
  range : Option Cols
  typesRange : Option Cols
  deriving DecidableEq

/-- types.rs L149-164 `YardOption`. -/
structure Opt where
  param : Text
  key : Text
  types : List Text
  dflt : Option Text
  desc : Option Text
  range : Option Cols
  deriving DecidableEq

/-- types.rs L233-267 `YardMethodDoc`. -/
structure Doc where
  description : Option Text := none
  params : List Param := []
  options : List Opt := []
  returns : List Param := []
  yieldParams : List Param := []
  yieldReturns : List Param := []
  raises : List Text := []
  deprecated : Option Text := none
  unavailable : Option Text := none
  absent : Option Text := none
  deriving DecidableEq

/-- parser.rs L558-560 `non_empty_string`, after `trim`. -/
def nonEmpty (s : Text) : Option Text := if trim s = [] then none else some (trim s)

/-- `Deprecated`: L535. -/
def noteText (reason : Option Text) (other : Text) : Option Text := some (reason.getD other)

def dDeprecated : Text := "Deprecated".toList
def dUnavailable : Text := "This API is unavailable in the selected runtime.".toList
def dAbsent : Text := "This API is absent from the selected runtime.".toList

/-- The range of a whole tag: L396-408. -/
def lineRange (info : Comment) (track : Bool) : Option Cols :=
  if track then some { line := info.line, first := info.start, last := info.length } else none

/-- The range of the types with their brackets: L441-457 and L493-509; `pre` is the text of the line before the opening bracket. -/
def typesRange (info : Comment) (track : Bool) (pre types : Text) : Option Cols :=
  if track then
    some { line := info.line, first := info.start + (byteLen pre + 1 - 1), last := info.start + (byteLen pre + 1 + byteLen types + 1) }
  else none

/-- `YardParam::with_ranges` and `new`, `YardReturn::with_ranges` and `new`: types.rs L26-69 and L108-131. -/
def mkParam (name types rest : Text) (range typesRange : Option Cols) : Param := ⟨name, parseTypeList types, nonEmpty rest, range, typesRange⟩

/-- parser.rs L389-545 `parse_tag`. -/
def parseTag (word : Char → Bool) (line : Text) (doc : Doc) (info : Comment) (track : Bool) : Doc :=
  match (search (matchNamed word tParam) [] line).or (search (matchAlt word) [] line) with
  | some (pre, m) =>
    { doc with params := doc.params ++ [mkParam m.name m.types m.rest (lineRange info track) (typesRange info track (pre ++ m.lead) m.types)] }
  | none => match search (matchOption word) [] line with
  | some (_, n, t, k, d, rest) =>
    { doc with options := doc.options ++ [⟨n, k, parseTypeList t, d.bind nonEmpty, nonEmpty rest, lineRange info track⟩] }
  | none => match search (matchPlain tReturn) [] line with
  | some (pre, m) =>
    { doc with returns := doc.returns ++ [mkParam [] m.types m.rest (lineRange info track) (typesRange info track (pre ++ m.lead) m.types)] }
  | none => match search (matchNamed word tYieldParam) [] line with
  | some (_, m) => { doc with yieldParams := doc.yieldParams ++ [mkParam m.name m.types m.rest none none] }
  | none => match search (matchPlain tYieldReturn) [] line with
  | some (_, m) => { doc with yieldReturns := doc.yieldReturns ++ [mkParam [] m.types m.rest none none] }
  | none => match search matchRaise [] line with
  | some (_, t) => { doc with raises := doc.raises ++ [t] }
  | none => match search (matchNote tDeprecated) [] line with
  | some (_, r) => { doc with deprecated := noteText (nonEmpty r) dDeprecated }
  | none => match search (matchNote tUnavailable) [] line with
  | some (_, r) => { doc with unavailable := noteText (nonEmpty r) dUnavailable }
  | none => match search (matchNote tAbsent) [] line with
  | some (_, r) => { doc with absent := noteText (nonEmpty r) dAbsent }
  | none => doc

/-- `join(" ")`. -/
def joinBlank : List Text → Text
  | [] => []
  | [s] => s
  | s :: l => s ++ ' ' :: joinBlank l

/-- The loop of `parse_lines`, L366-378: the tags, the lines of the description, and whether it goes on. -/
def linesStep (word : Char → Bool) (track : Bool) (st : Doc × List Text × Bool) (info : Comment) : Doc × List Text × Bool :=
  if info.content = [] then st
  else if info.content.head? = some '@' then (parseTag word info.content st.1 info track, st.2.1, false)
  else if st.2.2 then (st.1, st.2.1 ++ [info.content], true)
  else st

/-- parser.rs L361-386 `parse_lines`. -/
def parseLines (word : Char → Bool) (infos : List Comment) (track : Bool) : Doc :=
  let st := infos.foldl (linesStep word track) ({}, [], true)
  if st.2.1 = [] then st.1 else { st.1 with description := some (joinBlank st.2.1) }

/-- parser.rs L284-316 `extract_from_source_at_line`, for the text before the method; `none` inside is no documentation. -/
def extract (word : Char → Bool) (before : Text) (methodLine : Nat) : Option (Option Doc) :=
  if before = [] then some none
  else (collect before methodLine).map fun comments =>
    if comments = [] then none
    else
      let doc := parseLines word comments true
      if doc.params ≠ [] ∨ doc.returns ≠ [] ∨ doc.options ≠ [] ∨ doc.description.isSome ∨ doc.deprecated.isSome ∨ doc.unavailable.isSome ∨
        doc.absent.isSome ∨ doc.raises ≠ [] then some doc else none

/-- parser.rs L264-279 `extract_from_source`: the line of the method is the number of line feeds before it. -/
def extractFromSource (word : Char → Bool) (before : Text) : Option (Option Doc) := extract word before (before.count '\n')

/-! ### The type at a position -/

/-- parser.rs L202-225 `split_types_with_positions`: start, end and text of each part; `at` and `start` are byte offsets. -/
def partsGo : Text → Nat → Nat → Int → Text → List (Nat × Nat × Text)
  | [], pos, start, _, cur => if start < pos then [(start, pos, cur)] else []
  | c :: s, pos, start, depth, cur =>
    if c = '<' ∨ c = '{' then partsGo s (pos + c.utf8Size) start (depth + 1) (cur ++ [c])
    else if c = '>' ∨ c = '}' then partsGo s (pos + c.utf8Size) start (depth - 1) (cur ++ [c])
    else if c = ',' ∧ depth = 0 then (start, pos, cur) :: partsGo s (pos + 1) (pos + 1) depth []
    else partsGo s (pos + c.utf8Size) start depth (cur ++ [c])

/-- parser.rs L231-240 `extract_base_type`. -/
def baseType (s : Text) : Text :=
  if (trim s).any (fun c => c == '<' || c == '{') then trim ((trim s).takeWhile fun c => !(c == '<' || c == '{')) else trim s

/-- The matches of `TYPE_BRACKET_REGEX` (L111-112) in a line, from left to right: byte offset of the opening bracket and the text inside.
After a match the search goes on behind it. -/
def bracketMatches : Nat → Text → Nat → List (Nat × Text)
  | 0, _, _ => []
  | _ + 1, [], _ => []
  | n + 1, c :: s, pos =>
    match brackets (c :: s) with
    | some (t, r) => (pos, t) :: bracketMatches n r (pos + byteLen t + 2)
    | none => bracketMatches n s (pos + c.utf8Size)

/-- The loop over the parts, L156-179, and L182-194 after it; `ty` is the byte offset of the text in the brackets. -/
def partAt (types : Text) (ty rel : Nat) : List (Nat × Nat × Text) → Nat → Option (Text × Nat × Nat)
  | [], current =>
    if rel ≥ current ∧ types ≠ [] ∧ baseType (trim types) ≠ [] then some (baseType (trim types), ty, ty + byteLen types) else none
  | (a, b, t) :: l, _ =>
    if a ≤ rel ∧ rel < b ∧ baseType (trim t) ≠ [] then some (baseType (trim t), ty + a, ty + b) else partAt types ty rel l b

/-- The loop over the brackets, L137-196. -/
def bracketAt (col : Nat) : List (Nat × Text) → Option (Text × Nat × Nat)
  | [] => none
  | (p, t) :: l =>
    if p ≤ col ∧ col < p + byteLen t + 2 then
      match partAt t (p + 1) (col - (p + 1)) (partsGo t 0 0 0 []) 0 with
      | some r => some r
      | none => bracketAt col l
    else bracketAt col l

/-- parser.rs L120-199 `find_type_at_position`: the name and its first and last column. -/
def findType (content : Text) (line col : Nat) : Option (Text × Nat × Nat) :=
  match (lines content)[line]? with
  | none => none
  | some l => if (trimStart l).head? = some '#' then bracketAt col (bracketMatches (l.length + 1) l 0) else none

end Verif.Yard
