import Verif.Model.YardDoc
/-!
Model of the edits and positions that come from formatters and linters: `full_document_range` and the request for a whole document
(src/capabilities/formatting.rs L14-75, the same edit in src/capabilities/code_actions.rs L67-73), typing a line feed
(formatting.rs L77-382), and the positions of a linter's report (src/linter.rs L363-443).

Simplifications: a text is a list of Unicode scalar values; positions are unbounded; what the external tool answers is any text or
report; reading its JSON is left out; Prism's tree is an arbitrary tree of which only conditionals and assignments of local
variables are told apart; ERB files and requests for other characters, which get no edit, are left out; `ws`, `alpha` and `alnum`
stand for Rust's `char::is_whitespace`, `is_alphabetic` and `is_alphanumeric`.
-/
namespace Verif.Edits
open Verif.Positions (byteLen utf16Len utf16Sum takeBytes)
open Verif.Yard (lines)

abbrev Text := List Char

/-- A position of the protocol: line and UTF-16 column. -/
structure Pos where
  line : Nat
  character : Nat
  deriving DecidableEq

/-- `TextEdit`. -/
structure Edit where
  start : Pos
  stop : Pos
  newText : Text
  deriving DecidableEq

/-- `content.rsplit('\n').next()`. -/
def lastSegment (t : Text) : Text := (t.reverse.takeWhile (fun c => c ≠ '\n')).reverse

/-- formatting.rs L68-75 `full_document_range`: the end (the start is 0, 0). -/
def documentEnd (content : Text) : Pos := ⟨content.count '\n', utf16Sum (lastSegment content)⟩

/-- formatting.rs L57-65, code_actions.rs L67-73: `none` when nothing changes. -/
def replaceDocument (content formatted : Text) : Option Edit :=
  if formatted = content then none else some ⟨⟨0, 0⟩, documentEnd content, formatted⟩

/-! ### The linter's report -/

/-- linter.rs L420-443 `rubocop_position`; `none` is an error. -/
def rubocopPosition (content : Text) (line column : Nat) : Option Pos :=
  if line = 0 then none
  else
    match (lines content)[line - 1]? with
    | none => none
    | some l =>
      match takeBytes column l with
      | none => none
      | some w => some ⟨line - 1, utf16Sum w⟩

/-- linter.rs L36-42 `LinterLocation`. -/
structure Location where
  startLine : Nat
  startColumn : Nat
  lastLine : Nat
  lastColumn : Nat
  deriving DecidableEq

/-- linter.rs L391-401: the range of one offence. -/
def offenceRange (content : Text) (l : Location) : Option (Pos × Pos) :=
  match rubocopPosition content l.startLine (l.startColumn - 1) with
  | none => none
  | some start =>
    match rubocopPosition content l.lastLine l.lastColumn with
    | none => none
    | some stop => some (start, stop)

/-- linter.rs L386-417: the ranges of a report, one error is an error of all. -/
def reportRanges (content : Text) : List Location → Option (List (Pos × Pos))
  | [] => some []
  | l :: ls =>
    match offenceRange content l with
    | none => none
    | some r =>
      match reportRanges content ls with
      | none => none
      | some rs => some (r :: rs)

/-! ### Typing a line feed -/

/-- A node of Prism's tree: an `if`, `unless`, `case`, `while` or `until`, an assignment to a local variable, or another node. -/
inductive Node where
  | cond (kids : List Node)
  | write (value : Node)
  | other (kids : List Node)

def Node.isCond : Node → Bool
  | .cond _ => true
  | _ => false

mutual
/-- L92-143 `ConditionalAssignmentVisitor`, with (`has_conditional_assignment`, `has_standalone_conditional`). -/
def visit : Node → Bool × Bool → Bool × Bool
  | .cond kids, (a, s) => visitAll kids (a, s || !a)
  | .write value, (a, s) => visit value (a || value.isCond, s)
  | .other kids, st => visitAll kids st
def visitAll : List Node → Bool × Bool → Bool × Bool
  | [], st => st
  | n :: ns, st => visitAll ns (visit n st)
end

/-- L148-157 `should_add_end_ast`, for the tree of the text. -/
def shouldAddEndAst (tree : Node) : Bool :=
  let r := visit tree (false, false)
  r.2 && !r.1

structure Chars where
  ws : Char → Bool
  alpha : Char → Bool
  alnum : Char → Bool

/-- `str::trim`. -/
def trim (C : Chars) (t : Text) : Text := ((t.dropWhile C.ws).reverse.dropWhile C.ws).reverse

/-- `str::contains`. -/
def contains (t p : Text) : Bool :=
  match t with
  | [] => p.isEmpty
  | c :: t' => p.isPrefixOf (c :: t') || contains t' p

/-- L349-370 `is_valid_identifier`. -/
def isIdentifier (C : Chars) : Text → Bool
  | [] => false
  | c :: t => (C.alpha c || c == '_') && t.all (fun c => C.alnum c || c == '_')

/-- L322-347 `is_assignment_with_conditional`. -/
def isAssignment (C : Chars) (line : Text) : Bool :=
  if line.contains '=' then
    let before := trim C (line.takeWhile (fun c => c ≠ '='))
    let after := trim C ((line.dropWhile (fun c => c ≠ '=')).drop 1)
    isIdentifier C before &&
      ["if".toList, "unless".toList, "case".toList, "while".toList, "until".toList].any (fun k =>
        k.isPrefixOf after && (after.drop k.length == [] || (after.drop k.length).head? == some ' '))
  else false

/-- L236-320 `should_add_end_keyword`. -/
def shouldAddEndKeyword (C : Chars) (line : Text) : Bool :=
  let trimmed := trim C line
  let l := if trimmed.contains '#' then trim C (trimmed.takeWhile (fun c => c ≠ '#')) else trimmed
  let starts (p : String) : Bool := p.toList.isPrefixOf l
  let has (p : String) : Bool := contains l p.toList
  let ends (p : String) : Bool := p.toList.isSuffixOf l
  if l = [] then false
  else if starts "return if" || starts "return unless" then false
  else if isAssignment C l then false
  else if starts "if " || starts "unless " || starts "while " || starts "until " then !ends "end" && !has " then "
  else if !has " = " && (has " if " || has " unless " || has " while " || has " until ") then !ends "end" && !has " then "
  else if starts "def " then true
  else if starts "class " || starts "module " then true
  else if starts "case " then true
  else if l = "begin".toList then true
  else if ends " do" || ends " do |" || (has " do |" && ends "|") then true
  else if starts "for " && has " in " then true
  else false

/-- L372-382 `get_indentation`. -/
def indentation (line : Text) : Text := line.takeWhile (fun c => c = ' ' ∨ c = '\t')

/-- L166-234, for a line feed typed at `position`. `parse` is Prism. -/
def onType (C : Chars) (parse : Text → Node) (content : Text) (position : Pos) : Option Edit :=
  if position.line = 0 then none
  else
    match (lines content)[position.line - 1]? with
    | none => none
    | some previous =>
      let trimmed := trim C previous
      if shouldAddEndKeyword C trimmed || shouldAddEndAst (parse trimmed) || shouldAddEndAst (parse content) then
        some ⟨position, position, '\n' :: indentation previous ++ "end".toList⟩
      else none

end Verif.Edits
