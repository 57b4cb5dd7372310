/-!
Model of how the types of YARD comments are read: `parse_type_list` (crates/ruby-analysis/src/indexer/yard/parser.rs L572-624) and
`YardTypeConverter` (crates/ruby-analysis/src/indexer/yard/converter.rs), with `RubyConstant::new`
(crates/ruby-analysis/src/core/ruby_namespace.rs L50-70).

Simplifications: a text is a list of Unicode scalar values; the tables of Unicode that say which characters begin and continue
an identifier and which are upper case are a parameter, of which the ASCII part and that white space continues no identifier are
assumed; counters are unbounded; the recursion of the converter is by fuel, and `c60_fuel` shows that the fuel is enough.
`RubyType` has only the variants that the converter makes.
-/
namespace Verif.Yard

abbrev Text := List Char

/-- `char::is_whitespace`: the Unicode property White_Space; also `\s` of the regexes. -/
def ws (c : Char) : Bool :=
  (9 ≤ c.toNat && c.toNat ≤ 13) || c.toNat == 0x20 || c.toNat == 0x85 || c.toNat == 0xA0 || c.toNat == 0x1680 ||
    (0x2000 ≤ c.toNat && c.toNat ≤ 0x200A) || c.toNat == 0x2028 || c.toNat == 0x2029 || c.toNat == 0x202F ||
    c.toNat == 0x205F || c.toNat == 0x3000

/-- `char::is_ascii_uppercase`. -/
def asciiUpper (c : Char) : Bool := 65 ≤ c.toNat && c.toNat ≤ 90

/-- ASCII letters, digits and `_`. -/
def asciiWord (c : Char) : Bool :=
  asciiUpper c || (97 ≤ c.toNat && c.toNat ≤ 122) || (48 ≤ c.toNat && c.toNat ≤ 57) || c.toNat == 95

/-- What the converter uses of Unicode: `first` is `is_xid_start` and `is_uppercase`, `cont` is `is_xid_continue`. -/
structure Unicode where
  first : Char → Bool
  cont : Char → Bool
  /-- The ASCII part of the tables. -/
  firstAscii : ∀ c, c.toNat < 128 → first c = asciiUpper c
  contAscii : ∀ c, c.toNat < 128 → cont c = asciiWord c
  /-- XID_Start is a part of XID_Continue. -/
  contOfFirst : ∀ c, first c = true → cont c = true
  /-- White space continues no identifier. -/
  contNotWs : ∀ c, cont c = true → ws c = false

/-- `str::trim_start`. -/
def trimStart (s : Text) : Text := s.dropWhile ws

/-- `str::trim_end`. -/
def trimEnd (s : Text) : Text := (s.reverse.dropWhile ws).reverse

/-- `str::trim`. -/
def trim (s : Text) : Text := trimEnd (trimStart s)

/-- core/ruby_type.rs L8-33 `RubyType`: the variants that the converter makes; a name is its list of constants. -/
inductive RTy where
  | cls (path : List Text)
  | array (ts : List RTy)
  | hash (ks vs : List RTy)
  | union (ts : List RTy)
  | unknown

mutual
def RTy.decEq : (a b : RTy) → Decidable (a = b)
  | .cls p, .cls q => if h : p = q then isTrue (h ▸ rfl) else isFalse (by intro e; cases e; exact h rfl)
  | .array p, .array q =>
    match decEqList p q with
    | isTrue h => isTrue (h ▸ rfl)
    | isFalse h => isFalse (by intro e; cases e; exact h rfl)
  | .hash p r, .hash q s =>
    match decEqList p q, decEqList r s with
    | isTrue h, isTrue h' => isTrue (h ▸ h' ▸ rfl)
    | isFalse h, _ => isFalse (by intro e; cases e; exact h rfl)
    | _, isFalse h => isFalse (by intro e; cases e; exact h rfl)
  | .union p, .union q =>
    match decEqList p q with
    | isTrue h => isTrue (h ▸ rfl)
    | isFalse h => isFalse (by intro e; cases e; exact h rfl)
  | .unknown, .unknown => isTrue rfl
  | .cls _, .array _ => isFalse nofun | .cls _, .hash _ _ => isFalse nofun
  | .cls _, .union _ => isFalse nofun | .cls _, .unknown => isFalse nofun
  | .array _, .cls _ => isFalse nofun | .array _, .hash _ _ => isFalse nofun
  | .array _, .union _ => isFalse nofun | .array _, .unknown => isFalse nofun
  | .hash _ _, .cls _ => isFalse nofun | .hash _ _, .array _ => isFalse nofun
  | .hash _ _, .union _ => isFalse nofun | .hash _ _, .unknown => isFalse nofun
  | .union _, .cls _ => isFalse nofun | .union _, .array _ => isFalse nofun
  | .union _, .hash _ _ => isFalse nofun | .union _, .unknown => isFalse nofun
  | .unknown, .cls _ => isFalse nofun | .unknown, .array _ => isFalse nofun
  | .unknown, .hash _ _ => isFalse nofun | .unknown, .union _ => isFalse nofun
def decEqList : (a b : List RTy) → Decidable (a = b)
  | [], [] => isTrue rfl
  | [], _ :: _ => isFalse nofun
  | _ :: _, [] => isFalse nofun
  | a :: l, b :: m =>
    match RTy.decEq a b, decEqList l m with
    | isTrue h, isTrue h' => isTrue (h ▸ h' ▸ rfl)
    | isFalse h, _ => isFalse (by intro e; cases e; exact h rfl)
    | _, isFalse h => isFalse (by intro e; cases e; exact h rfl)
end

instance : DecidableEq RTy := RTy.decEq

def tString : Text := ['S', 't', 'r', 'i', 'n', 'g']
def tInteger : Text := ['I', 'n', 't', 'e', 'g', 'e', 'r']
def tFixnum : Text := ['F', 'i', 'x', 'n', 'u', 'm']
def tBignum : Text := ['B', 'i', 'g', 'n', 'u', 'm']
def tFloat : Text := ['F', 'l', 'o', 'a', 't']
def tSymbol : Text := ['S', 'y', 'm', 'b', 'o', 'l']
def tTrueClass : Text := ['T', 'r', 'u', 'e', 'C', 'l', 'a', 's', 's']
def tFalseClass : Text := ['F', 'a', 'l', 's', 'e', 'C', 'l', 'a', 's', 's']
def tNilClass : Text := ['N', 'i', 'l', 'C', 'l', 'a', 's', 's']
def tObject : Text := ['O', 'b', 'j', 'e', 'c', 't']
def tBasicObject : Text := ['B', 'a', 's', 'i', 'c', 'O', 'b', 'j', 'e', 'c', 't']
def tNil : Text := ['n', 'i', 'l']
def tVoid : Text := ['v', 'o', 'i', 'd']
def tTrue : Text := ['t', 'r', 'u', 'e']
def tFalse : Text := ['f', 'a', 'l', 's', 'e']
def tBoolean : Text := ['b', 'o', 'o', 'l', 'e', 'a', 'n']
def tBool : Text := ['b', 'o', 'o', 'l']
def tArray : Text := ['A', 'r', 'r', 'a', 'y']
def tHash : Text := ['H', 'a', 's', 'h']

/-- core/ruby_type.rs L37-63 `string`, `nil_class` and so on: the class with the name. -/
def RTy.named (n : Text) : RTy := .cls [n]

/-- core/ruby_type.rs L65-69 `boolean`. -/
def RTy.boolean : RTy := .union [.named tFalseClass, .named tTrueClass]

/-- `to_ascii_lowercase` of a character. -/
def lower (c : Char) : Char := if asciiUpper c then Char.ofNat (c.toNat + 32) else c

/-- `eq_ignore_ascii_case`. -/
def eqNoCase (a b : Text) : Bool := a.map lower == b.map lower

/-- The state of the loop of `parse_type_list`, parser.rs L582-613: the rest of the text, the two depths and the current type;
L615-620 after the loop. -/
def listGo : Text → Nat → Nat → Text → List Text
  | [], _, _, cur => if trim cur = [] then [] else [trim cur]
  | c :: s, angle, brace, cur =>
    if c = '<' then listGo s (angle + 1) brace (cur ++ [c])
    else if c = '>' ∧ angle > 0 then listGo s (angle - 1) brace (cur ++ [c])
    else if c = '{' then listGo s angle (brace + 1) (cur ++ [c])
    else if c = '}' ∧ brace > 0 then listGo s angle (brace - 1) (cur ++ [c])
    else if c = ',' ∧ angle = 0 ∧ brace = 0 then
      if trim cur = [] then listGo s angle brace [] else trim cur :: listGo s angle brace []
    else listGo s angle brace (cur ++ [c])

/-- parser.rs L572-624 `parse_type_list`. -/
def parseTypeList (s : Text) : List Text := if s = [] then [] else listGo s 0 0 []

/-- The loop of `split_hash_types`, converter.rs L274-291, and L293-297 after it; the depth can become negative. -/
def splitGo : Text → Int → Text → List Text
  | [], _, cur => if trim cur = [] then [] else [trim cur]
  | c :: s, depth, cur =>
    if c = '<' ∨ c = '{' then splitGo s (depth + 1) (cur ++ [c])
    else if c = '>' ∨ c = '}' then splitGo s (depth - 1) (cur ++ [c])
    else if c = ',' ∧ depth = 0 then trim cur :: splitGo s depth []
    else splitGo s depth (cur ++ [c])

/-- converter.rs L268-298 `split_hash_types`. -/
def splitHashTypes (s : Text) : List Text := splitGo s 0 []

/-- `str::split` with a separator of two characters: the pieces, `cur` being the piece read so far. -/
def splitPair (x y : Char) : Text → Text → List Text
  | [], cur => [cur]
  | [c], cur => [cur ++ [c]]
  | c :: d :: s, cur => if c = x ∧ d = y then cur :: splitPair x y s [] else splitPair x y (d :: s) (cur ++ [c])

/-- core/ruby_namespace.rs L50-70 `RubyConstant::new`: whether it succeeds. -/
def isConstant (U : Unicode) : Text → Bool
  | [] => false
  | c :: s => U.first c && s.all U.cont

/-- The loop of `parse_type_name_to_fqn`, converter.rs L324-333. -/
def constants (U : Unicode) : List Text → Option (List Text)
  | [] => some []
  | p :: l =>
    if trim p = [] then constants U l
    else if isConstant U (trim p) then (constants U l).map (trim p :: ·)
    else none

/-- converter.rs L320-340 `parse_type_name_to_fqn`. -/
def parseName (U : Unicode) (s : Text) : Option (List Text) :=
  match constants U (splitPair ':' ':' s []) with
  | some (c :: l) => some (c :: l)
  | _ => none

/-- converter.rs L250-257 `extract_generic`. -/
def extractGeneric (s name : Text) : Option Text :=
  if (name ++ ['<']).isPrefixOf s ∧ s.getLast? = some '>' then some ((s.drop (name.length + 1)).dropLast) else none

/-- converter.rs L260-266 `extract_hash_brace`. -/
def extractHashBrace (s : Text) : Option Text :=
  if (tHash ++ ['{']).isPrefixOf s ∧ s.getLast? = some '}' then some ((s.drop 5).dropLast) else none

/-- converter.rs L138-160: the standard types and names. -/
def convertName (U : Unicode) (s : Text) : RTy × List Text :=
  if s = tString then (.named tString, [])
  else if s = tInteger ∨ s = tFixnum ∨ s = tBignum then (.named tInteger, [])
  else if s = tFloat then (.named tFloat, [])
  else if s = tSymbol then (.named tSymbol, [])
  else if s = tTrueClass then (.named tTrueClass, [])
  else if s = tFalseClass then (.named tFalseClass, [])
  else if s = tNilClass then (.named tNilClass, [])
  else if s = tObject ∨ s = tBasicObject then (.unknown, [])
  else match parseName U s with
    | some p => (.cls p, [])
    | none => (.unknown, [s])

/-- converter.rs L300-312 `parse_type_list_with_validation`, for a converter of the parts. -/
def convertParts (conv : Text → RTy × List Text) (s : Text) : List RTy × List Text :=
  ((splitHashTypes s).map (fun p => (conv p).1), (splitHashTypes s).flatMap (fun p => (conv p).2))

/-- converter.rs L63-166 `convert_with_validation`: the type and the names that are no constants. -/
def convertN (U : Unicode) : Nat → Text → RTy × List Text
  | 0, _ => (.unknown, [])
  | n + 1, s =>
    let t := trim s
    if eqNoCase t tNil then (.named tNilClass, [])
    else if eqNoCase t tVoid then (.named tNilClass, [])
    else if eqNoCase t tTrue then (.named tTrueClass, [])
    else if eqNoCase t tFalse then (.named tFalseClass, [])
    else if eqNoCase t tBoolean || eqNoCase t tBool then (.boolean, [])
    else match extractGeneric t tArray with
    | some inner =>
      let r := convertParts (convertN U n) inner
      (.array (if r.1 = [] then [.unknown] else r.1), r.2)
    | none => match extractGeneric t tHash with
    | some inner =>
      match splitHashTypes inner with
      | k :: v :: _ =>
        let kr := convertParts (convertN U n) k
        let vr := convertParts (convertN U n) v
        (.hash kr.1 vr.1, kr.2 ++ vr.2)
      | _ => (.hash [.unknown] [.unknown], [])
    | none => match extractHashBrace t with
    | some inner =>
      match splitPair '=' '>' inner [] with
      | [k, v] =>
        let kr := convertParts (convertN U n) (trim k)
        let vr := convertParts (convertN U n) (trim v)
        (.hash kr.1 vr.1, kr.2 ++ vr.2)
      | _ => (.hash [.unknown] [.unknown], [])
    | none => convertName U t

/-- `convert_with_validation`; the parts that are converted in turn are shorter. -/
def convertV (U : Unicode) (s : Text) : RTy × List Text := convertN U (s.length + 1) s

/-- converter.rs L58-60 `convert`. -/
def convert (U : Unicode) (s : Text) : RTy := (convertV U s).1

/-- converter.rs L214-220: nested unions are flattened. -/
def flatten (ts : List RTy) : List RTy := ts.flatMap fun t => match t with | .union l => l | t => [t]

/-- converter.rs L222-228: the first of equal types stays. -/
def dedup (ts : List RTy) : List RTy := ts.foldl (fun seen t => if t ∈ seen then seen else seen ++ [t]) []

/-- converter.rs L191-247 `convert_multiple_with_validation`: the type. -/
def convertMultiple (U : Unicode) : List Text → RTy
  | [] => .unknown
  | [t] => convert U t
  | ts =>
    let seen := dedup (flatten (ts.map (convert U)))
    if RTy.unknown ∈ seen then .unknown
    else match seen with
      | [t] => t
      | seen => .union seen

/-- What is stored for a tag whose brackets have the text `s`: fact_collector/def_node.rs L282-289 for `@param`, and L265-272 for
a single `@return`. -/
def typeOfTag (U : Unicode) (s : Text) : RTy := convertMultiple U (parseTypeList s)

end Verif.Yard
