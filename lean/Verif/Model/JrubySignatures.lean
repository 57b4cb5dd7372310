import Verif.Model.JavaSource
/-!
Ruby declarations made from class files (/repo/crates/jruby-support/src/names.rs and signatures.rs).

Simplified: a text is a list of Unicode scalar values; the tables of Unicode are a parameter with the facts that are used; the lines
are values of `Line` with their indentation, and `render` gives their text; the descriptor of a member is given as it is read
(Model/Jvm.lean), `none` for an error.
-/
namespace Verif.JrubySignatures
open Verif.JavaSource (Text Ty rsplitSlash splitDollar)

/-- What is used of Unicode. -/
structure Letters where
  alpha : Char → Bool
  alnum : Char → Bool
  lower : Char → Bool
  upper : Char → Bool
  /-- No letter and no digit is a line feed, a colon, a slash or a star. -/
  plain : ∀ c ∈ ['\n', ':', '/', '*'], alpha c = false ∧ alnum c = false ∧ lower c = false ∧ upper c = false

/-! ### Names -/

structure Name where
  package : List Text
  classes : List Text
deriving DecidableEq, Repr

/-- `str::split('/')`. -/
def splitSlash : Text → List Text
  | [] => [[]]
  | c :: cs =>
    if c = '/' then [] :: splitSlash cs
    else
      match splitSlash cs with
      | [] => [[c]]
      | s :: ss => (c :: s) :: ss

/-- names.rs 73-86 `validate_java_identifier`. -/
def validIdent (L : Letters) : Text → Bool
  | [] => false
  | c :: cs => (L.alpha c || c == '_' || c == '$') && cs.all (fun d => L.alnum d || d == '_' || d == '$')

/-- names.rs 9-31 `JavaClassName::parse`. -/
def parse (L : Letters) (source : Text) : Option Name :=
  match rsplitSlash (source.map (fun c => if c = '.' then '/' else c)) with
  | none => none
  | some (p, c) =>
    if (splitSlash p).all (validIdent L) && (splitDollar c).all (validIdent L) then some ⟨splitSlash p, splitDollar c⟩ else none

/-- `char::to_ascii_uppercase`. -/
def upcase (c : Char) : Char := if 'a' ≤ c ∧ c ≤ 'z' then Char.ofNat (c.toNat - 32) else c

def capitalize : Text → Text
  | [] => []
  | c :: cs => upcase c :: cs

/-- names.rs 53-63 `package_proxy_module`. -/
def proxy (n : Name) : Text := n.package.flatMap capitalize

def tJava : Text := ['J', 'a', 'v', 'a']

/-- names.rs 43-47 `ruby_namespace_parts`. -/
def parts (n : Name) : List Text := tJava :: proxy n :: n.classes

/-- `join("::")`. -/
def joinColons : List Text → Text
  | [] => []
  | [t] => t
  | t :: u :: ts => t ++ ':' :: ':' :: joinColons (u :: ts)

/-- names.rs 49-51 `ruby_fqn`. -/
def fqn (n : Name) : Text := joinColons (parts n)

/-! ### Types -/

def tObject : Text := ['O', 'b', 'j', 'e', 'c', 't']

/-- signatures.rs 254-268 `ruby_type_for_jvm_type`. -/
def rubyType (L : Letters) : Ty → Text
  | .byte | .char | .int | .long | .short => ['I', 'n', 't', 'e', 'g', 'e', 'r']
  | .double | .float => ['F', 'l', 'o', 'a', 't']
  | .boolean => ['B', 'o', 'o', 'l', 'e', 'a', 'n']
  | .void => ['n', 'i', 'l']
  | .object name =>
    match parse L name with
    | some n => fqn n
    | none => tObject
  | .array e => ['A', 'r', 'r', 'a', 'y', '<'] ++ rubyType L e ++ ['>']

/-! ### Valid names -/

/-- signatures.rs 312-355 `is_ruby_keyword`. -/
def keywords : List Text :=
  ["BEGIN", "END", "__ENCODING__", "__FILE__", "__LINE__", "alias", "and", "begin", "break", "case", "class", "def", "defined?", "do",
    "else", "elsif", "end", "ensure", "false", "for", "if", "in", "module", "next", "nil", "not", "or", "redo", "rescue", "retry",
    "return", "self", "super", "then", "true", "undef", "unless", "until", "when", "while", "yield"].map String.toList

/-- signatures.rs 295-302 `valid_ruby_local_name`. -/
def validLocal (L : Letters) (name : Text) : Bool :=
  (match name with
    | [] => false
    | c :: cs => (L.lower c || c == '_') && cs.all (fun d => L.alnum d || d == '_')) && !decide (name ∈ keywords)

/-- `strip_suffix('=')`, then `'?'`, then `'!'`. -/
def stem (name : Text) : Text :=
  if name.getLast? = some '=' ∨ name.getLast? = some '?' ∨ name.getLast? = some '!' then name.dropLast else name

/-- signatures.rs 286-293 `valid_ruby_method_name`. -/
def validMethod (L : Letters) (name : Text) : Bool := validLocal L (stem name)

/-- signatures.rs 357-364 `valid_ruby_constant_name`. -/
def validConstant (L : Letters) (name : Text) : Bool :=
  (match name with
    | [] => false
    | c :: _ => L.upper c) && name.all (fun d => L.alnum d || d == '_')

/-- signatures.rs 304-310 `ruby_parameter_name`. -/
def paramName (L : Letters) (name : Text) (index : Nat) : Text :=
  if validLocal L name then name else ['a', 'r', 'g'] ++ Nat.toDigits 10 index

/-! ### Class files -/

inductive Vis where
  | public_ | protected_ | private_ | package
deriving DecidableEq, Repr

inductive Kind where
  | class_ | interface_ | annotation | module_ | enum_ | record_
deriving DecidableEq, Repr

/-- The parts of `MemberInfo` that are read for a method. -/
structure Method where
  name : Text
  descriptor : Option (List Ty × Ty)
  params : List Text
  isStatic : Bool
  isVarargs : Bool
  isAbstract : Bool
  isNative : Bool
  vis : Vis
  exceptions : List Text
deriving DecidableEq, Repr

structure FieldInfo where
  name : Text
  ty : Option Ty
  isStatic : Bool
  isFinal : Bool
  isEnum : Bool
  vis : Vis
deriving DecidableEq, Repr

structure ClassFile where
  name : Text
  kind : Kind
  super : Option Text
  interfaces : List Text
  fields : List FieldInfo
  methods : List Method

/-! ### Lines -/

inductive Keyword where
  | public_ | protected_ | private_
deriving DecidableEq, Repr

inductive Note where
  | constant | access | abstract_ | native | interface_ | none
deriving DecidableEq, Repr

inductive Line where
  | header (name : Text)
  | enter (isModule : Bool) (name : Text) (super : Option Text)
  | leave
  | include_ (t : Text)
  | note (n : Note)
  | type_ (t : Text)
  | returns (t : Text)
  | param (name t : Text)
  | raise (ts : List Text)
  | const (name : Text)
  | vis (k : Keyword)
  | def_ (onSelf : Bool) (name : Text) (params : List Text)
deriving DecidableEq, Repr

def tInit : Text := ['<', 'i', 'n', 'i', 't', '>']
def tClinit : Text := ['<', 'c', 'l', 'i', 'n', 'i', 't', '>']
def tNew : Text := ['n', 'e', 'w']
def tValue : Text := ['v', 'a', 'l', 'u', 'e']

/-- signatures.rs 270-276 `java_method_name`. -/
def methodName (m : Method) : Text := if m.name = tInit then tNew else m.name

/-- signatures.rs 278-284 `visibility_keyword`. -/
def keyword : Vis → Keyword
  | .public_ => .public_
  | .protected_ => .protected_
  | .private_ | .package => .private_

/-- signatures.rs 192-202 `method_navigation_fallback_reason`. -/
def reason (m : Method) (k : Kind) : Note :=
  if m.isAbstract then .abstract_
  else if m.isNative then .native
  else if k = .interface_ ∨ k = .annotation then .interface_
  else .none

/-- signatures.rs 92-141 `write_field`. -/
def fieldLines (L : Letters) (f : FieldInfo) : Option (List Line) :=
  match f.ty with
  | none => none
  | some ty =>
    let t := rubyType L ty
    if f.isStatic && (f.isFinal || f.isEnum) then
      if validConstant L f.name then some [.note .constant, .type_ t, .const f.name] else some []
    else if validMethod L f.name then
      some [.note .access, .returns t, .def_ f.isStatic f.name [], .param tValue t, .def_ f.isStatic (f.name ++ ['=']) [tValue]]
    else some []

/-- signatures.rs 211-215: the name of a parameter in the documentation. -/
def docName (L : Letters) (names : List Text) (i : Nat) : Text :=
  match names[i]? with
  | some n => paramName L n i
  | none => ['a', 'r', 'g'] ++ Nat.toDigits 10 i

/-- signatures.rs 210-225: the lines for the parameters, from an index on. -/
def docParams (L : Letters) (names : List Text) : Nat → List Ty → List Line
  | _, [] => []
  | i, t :: ts => .param (docName L names i) (rubyType L t) :: docParams L names (i + 1) ts

/-- signatures.rs 204-252 `write_method_docs`. -/
def docLines (L : Letters) (m : Method) (ps : List Ty) (r : Ty) : List Line :=
  docParams L m.params 0 ps ++ .returns (rubyType L r) ::
    (if m.exceptions.isEmpty then [] else [.raise (m.exceptions.filterMap (fun e => (parse L e).map fqn))])

/-- signatures.rs 166-182: the parameters of the definition. -/
def defParams (L : Letters) (m : Method) : List Text :=
  m.params.zipIdx.map (fun p =>
    if m.isVarargs && decide (p.2 + 1 = m.params.length) then '*' :: paramName L p.1 p.2 else paramName L p.1 p.2)

/-- signatures.rs 143-190 `write_method`. -/
def methodLines (L : Letters) (k : Kind) (m : Method) : Option (List Line) :=
  match m.descriptor with
  | none => none
  | some (ps, r) =>
    some (docLines L m ps r ++
      [.note (reason m k), .def_ (decide (m.name = tInit) || m.isStatic) (methodName m) (defParams L m)])

/-- signatures.rs 57-76: the loop over the methods. -/
def methodsLoop (L : Letters) (k : Kind) : Vis → List Method → Option (List Line)
  | _, [] => some []
  | cur, m :: ms =>
    if m.name = tClinit then methodsLoop L k cur ms
    else if !validMethod L (methodName m) then methodsLoop L k cur ms
    else
      let switch := if m.vis ≠ cur then [Line.vis (keyword m.vis)] else []
      match methodLines L k m with
      | none => none
      | some ls =>
        match methodsLoop L k m.vis ms with
        | none => none
        | some rest => some (switch ++ ls ++ rest)

/-- signatures.rs 53-56: the loop over the fields. -/
def fieldsLoop (L : Letters) : List FieldInfo → Option (List Line)
  | [] => some []
  | f :: fs =>
    match fieldLines L f with
    | none => none
    | some ls =>
      match fieldsLoop L fs with
      | none => none
      | some rest => some (ls ++ rest)

def isModule : Kind → Bool
  | .interface_ | .annotation | .module_ => true
  | .class_ | .enum_ | .record_ => false

def at_ (indent : Nat) (ls : List Line) : List (Nat × Line) := ls.map (fun l => (indent, l))

/-- signatures.rs 23-28: the classes around. -/
def outerOpen : Nat → List Text → List (Nat × Line)
  | _, [] => []
  | i, t :: ts => (i, .enter false t none) :: outerOpen (i + 2) ts

/-- signatures.rs 81-85: their ends. -/
def outerClose : Nat → List Text → List (Nat × Line)
  | _, [] => []
  | i, _ :: ts => (i - 2, .leave) :: outerClose (i - 2) ts

/-- signatures.rs 13-90 `generate_ruby_signature`. -/
def generate (L : Letters) (c : ClassFile) : Option (List (Nat × Line)) :=
  match parse L c.name with
  | none => none
  | some name =>
    let outer := name.classes.dropLast
    let indent := 4 + 2 * outer.length
    let super := if isModule c.kind then none else c.super.bind (fun s => (parse L s).map fqn)
    let includes := c.interfaces.filterMap (fun i => (parse L i).map (fun n => Line.include_ (fqn n)))
    match fieldsLoop L c.fields with
    | none => none
    | some fs =>
      match methodsLoop L c.kind .public_ c.methods with
      | none => none
      | some ms =>
        some ([(0, .header c.name), (0, .enter true tJava none), (2, .enter true (proxy name) none)] ++ outerOpen 4 outer ++
          [(indent, .enter (isModule c.kind) (name.classes.getLastD []) super)] ++ at_ (indent + 2) (includes ++ fs ++ ms) ++
          [(indent, .leave)] ++ outerClose indent outer ++ [(2, .leave), (0, .leave)])

/-! ### Text -/

def str (s : String) : Text := s.toList

/-- `join(", ")`. -/
def commas : List Text → Text
  | [] => []
  | [t] => t
  | t :: u :: ts => t ++ ',' :: ' ' :: commas (u :: ts)

def Note.text : Note → Text
  | .constant => str "JVM fields and enum constants have no executable implementation body."
  | .access => str "generated field access has no Java method body."
  | .abstract_ => str "abstract JVM method has no implementation body."
  | .native => str "native JVM method has no classfile implementation body."
  | .interface_ => str "interface or annotation method has no mappable implementation body."
  | .none => str "no verified exact-source or bounded-decompiler member range was available."

/-- The text of a line. A definition of a field has no parentheses when it has no parameters; that difference is left out. -/
def Line.text : Line → Text
  | .header n => str "# Generated from JVM metadata for " ++ n ++ str ". Method bodies are intentionally unavailable."
  | .enter m n s => (if m then str "module " else str "class ") ++ n ++ (match s with
    | some s => str " < " ++ s
    | none => [])
  | .leave => str "end"
  | .include_ t => str "include " ++ t
  | .note n => str "# @ruby_fast_lsp_navigation declaration-only: " ++ n.text
  | .type_ t => str "# @type [" ++ t ++ str "]"
  | .returns t => str "# @return [" ++ t ++ str "]"
  | .param n t => str "# @param " ++ n ++ str " [" ++ t ++ str "]"
  | .raise ts => str "# @raise [" ++ commas ts ++ str "]"
  | .const n => n ++ str " = nil"
  | .vis .public_ => str "public"
  | .vis .protected_ => str "protected"
  | .vis .private_ => str "private"
  | .def_ s n ps => str "def " ++ (if s then str "self." else []) ++ n ++ str "(" ++ commas ps ++ str "); end"

/-- The text of a file. -/
def render : List (Nat × Line) → Text
  | [] => []
  | (i, l) :: ls => List.replicate i ' ' ++ l.text ++ '\n' :: render ls

end Verif.JrubySignatures
