import Verif.Model.YardDoc
import Verif.Spec.YardTypes
/-!
The comment before a method and the tags in it, as YARD describes them.
-/
namespace Verif.Yard
open Verif.Positions (byteLen utf16Sum)

/-- A text from its lines, each with whether it ends with a carriage return and a line feed. -/
def assemble : List (Text × Bool) → Text
  | [] => []
  | (l, crlf) :: ls => l ++ (if crlf then ['\r', '\n'] else ['\n']) ++ assemble ls

/-- A line: no line feed in it, and no carriage return at its end that would be a part of the end of the line. -/
def IsLine (l : Text) : Prop := '\n' ∉ l ∧ l.getLast? ≠ some '\r'

/-- A line with only a comment. -/
def IsComment (l : Text) : Prop := ∃ a r, Blank a ∧ l = a ++ '#' :: r

/-- What is said of a comment: its text without the number signs and white space around it, and where the text begins. -/
def Describes (l : Text) (c : Comment) : Prop :=
  ∃ a h b post, l = a ++ h ++ b ++ c.content ++ post ∧ Blank a ∧ h ≠ [] ∧ (∀ x ∈ h, x = '#') ∧ Blank b ∧ Blank post ∧
    (∀ x, c.content.head? = some x → ws x = false) ∧ (b = [] → c.content.head? ≠ some '#') ∧
    (∀ x, c.content.getLast? = some x → ws x = false) ∧ (c.content = [] → b = []) ∧
    c.start = byteLen (a ++ h ++ b) ∧ c.length = byteLen l

/-- `\w` of the regexes. -/
structure Words where
  word : Char → Bool
  ascii : ∀ c, c.toNat < 128 → word c = asciiWord c
  notWs : ∀ c, word c = true → ws c = false

/-- A name. -/
def Name (W : Words) (n : Text) : Prop := n ≠ [] ∧ ∀ c ∈ n, W.word c = true

/-- The text in brackets. -/
def InBrackets (t : Text) : Prop := t ≠ [] ∧ ']' ∉ t

/-- A text whose brackets are all closed and not empty. -/
inductive Closed : Text → Prop
  | nil : Closed []
  | char (c : Char) (s : Text) : c ≠ '[' → Closed s → Closed (c :: s)
  | pair (t s : Text) : InBrackets t → Closed s → Closed ('[' :: (t ++ ']' :: s))

def Spaces (s : Text) : Prop := s ≠ [] ∧ Blank s

/-- The text `rest` is the description `d` with white space around it. -/
def DescIs (rest d : Text) : Prop := ∃ a b, Blank a ∧ Blank b ∧ rest = a ++ d ++ b ∧ (d = [] ∨ (∃ c r, d = c :: r ∧ ws c = false ∧ ∃ e q, d = q ++ [e] ∧ ws e = false))

/-- The tags. -/
inductive Tag where
  | param (name types desc : Text)
  | option (name types key : Text) (dflt : Option Text) (desc : Text)
  | ret (types desc : Text)
  | yieldParam (name types desc : Text)
  | yieldReturn (types desc : Text)
  | raise (types : Text)
  | deprecated (reason : Text)
  | unavailable (reason : Text)
  | absent (reason : Text)

/-- `TagLine W lead t s`: the line `s` is the tag `t`; `lead` is what stands before the opening bracket of its types. -/
inductive TagLine (W : Words) : Text → Tag → Text → Prop
  | param (a n b t rest d : Text) : Spaces a → Name W n → Spaces b → InBrackets t → DescIs rest d →
      TagLine W (tParam ++ a ++ n ++ b) (.param n t d) (tParam ++ a ++ n ++ b ++ '[' :: (t ++ ']' :: rest))
  | paramAlt (a n b t rest d : Text) : Blank a → Name W n → Blank b → InBrackets t → DescIs rest d →
      (∀ c, rest.head? = some c → W.word c = false) →
      TagLine W (tParam ++ a) (.param n t d) (tParam ++ a ++ '[' :: (t ++ ']' :: (b ++ n ++ rest)))
  | option (a n b t c k rest d : Text) : Spaces a → Name W n → Spaces b → InBrackets t → Spaces c → Name W k → DescIs rest d →
      (∀ x, rest.head? = some x → W.word x = false) → d.head? ≠ some '(' →
      TagLine W (tOption ++ a ++ n ++ b) (.option n t k none d) (tOption ++ a ++ n ++ b ++ '[' :: (t ++ ']' :: (c ++ ':' :: (k ++ rest))))
  | optionDefault (a n b t c k e v rest d : Text) : Spaces a → Name W n → Spaces b → InBrackets t → Spaces c → Name W k → Spaces e →
      ')' ∉ v → DescIs rest d →
      TagLine W (tOption ++ a ++ n ++ b) (.option n t k (some v) d)
        (tOption ++ a ++ n ++ b ++ '[' :: (t ++ ']' :: (c ++ ':' :: (k ++ (e ++ '(' :: (v ++ ')' :: rest))))))
  | ret (a t rest d : Text) : Spaces a → InBrackets t → DescIs rest d →
      TagLine W (tReturn ++ a) (.ret t d) (tReturn ++ a ++ '[' :: (t ++ ']' :: rest))
  | yieldParam (a n b t rest d : Text) : Spaces a → Name W n → Spaces b → InBrackets t → DescIs rest d →
      TagLine W (tYieldParam ++ a ++ n ++ b) (.yieldParam n t d) (tYieldParam ++ a ++ n ++ b ++ '[' :: (t ++ ']' :: rest))
  | yieldReturn (a t rest d : Text) : Spaces a → InBrackets t → DescIs rest d →
      TagLine W (tYieldReturn ++ a) (.yieldReturn t d) (tYieldReturn ++ a ++ '[' :: (t ++ ']' :: rest))
  | raise (a t rest : Text) : Spaces a → InBrackets t → TagLine W (tRaise ++ a) (.raise t) (tRaise ++ a ++ '[' :: (t ++ ']' :: rest))
  | deprecated (rest d : Text) : DescIs rest d → TagLine W [] (.deprecated d) (tDeprecated ++ rest)
  | unavailable (rest d : Text) : DescIs rest d → TagLine W [] (.unavailable d) (tUnavailable ++ rest)
  | absent (rest d : Text) : DescIs rest d → TagLine W [] (.absent d) (tAbsent ++ rest)

/-- An empty text is none. -/
def optional (d : Text) : Option Text := if d = [] then none else some d

/-- What a tag adds to the documentation of a method; `cols` is the range of the tag and `tcols` that of its types. -/
def Tag.add (cols tcols : Option Cols) (d : Doc) : Tag → Doc
  | .param n t s => { d with params := d.params ++ [⟨n, parseTypeList t, optional s, cols, tcols⟩] }
  | .option n t k v s => { d with options := d.options ++ [⟨n, k, parseTypeList t, v.bind fun v => optional (trim v), optional s, cols⟩] }
  | .ret t s => { d with returns := d.returns ++ [⟨[], parseTypeList t, optional s, cols, tcols⟩] }
  | .yieldParam n t s => { d with yieldParams := d.yieldParams ++ [⟨n, parseTypeList t, optional s, none, none⟩] }
  | .yieldReturn t s => { d with yieldReturns := d.yieldReturns ++ [⟨[], parseTypeList t, optional s, none, none⟩] }
  | .raise t => { d with raises := d.raises ++ [t] }
  | .deprecated s => { d with deprecated := some (if s = [] then dDeprecated else s) }
  | .unavailable s => { d with unavailable := some (if s = [] then dUnavailable else s) }
  | .absent s => { d with absent := some (if s = [] then dAbsent else s) }

/-- The line has no other `@` than the one at its beginning. -/
def OneTag (s : Text) : Prop := ∃ r, s = '@' :: r ∧ '@' ∉ r

/-- What a line of a comment is. -/
inductive Item where
  | text (s : Text)
  | tag (lead : Text) (t : Tag)
  | other

/-- A line of a comment is a text, a tag, or a line with a tag that is not known. -/
inductive ItemLine (W : Words) : Item → Text → Prop
  | text (s : Text) : s.head? ≠ some '@' → ItemLine W (.text s) s
  | tag (lead : Text) (t : Tag) (s : Text) : TagLine W lead t s → OneTag s → ItemLine W (.tag lead t) s
  | other (s : Text) : OneTag s →
      (∀ k ∈ [tParam, tReturn, tYieldParam, tYieldReturn, tOption, tRaise, tDeprecated, tUnavailable, tAbsent], ¬ k <+: s) → ItemLine W .other s

/-- The text in the brackets of the types of a tag. -/
def Tag.types : Tag → Text
  | .param _ t _ | .option _ t _ _ _ | .ret t _ | .yieldParam _ t _ | .yieldReturn t _ | .raise t => t
  | _ => []

/-- What the tags of a comment say: each with its range, from the beginning of the tag to the end of the line, and that of its types. -/
def docOf : List (Item × Comment) → Doc → Doc
  | [], d => d
  | (.tag lead t, c) :: l, d =>
    docOf l (t.add (some ⟨c.line, c.start, c.length⟩) (some ⟨c.line, c.start + byteLen lead, c.start + byteLen (lead ++ '[' :: (t.types ++ [']']))⟩) d)
  | _ :: l, d => docOf l d

/-- The tag is one of a block. -/
def Tag.isYield : Tag → Prop
  | .yieldParam _ _ _ | .yieldReturn _ _ => True
  | _ => False

/-- The lines of the description: the texts before the first tag. -/
def descriptionOf : List Item → List Text
  | [] => []
  | .text s :: l => if s = [] then descriptionOf l else s :: descriptionOf l
  | _ => []

/-- The name of the class at the head of a type. -/
def YT.head : YT → Text → Text
  | .array _, _ => tArray
  | .hash _ _, _ => tHash
  | .arrow _ _, _ => tHash
  | _, s => s

end Verif.Yard
