import Verif.Model.JrubySignatures
import Verif.Spec.YardTypes
/-!
A reader of the declarations of Ruby, and what a class file declares.
-/
namespace Verif.JrubySignatures
open Verif.JavaSource (Text Ty)

/-- What the tags above a declaration say. -/
structure Docs where
  params : List (Text × Text) := []
  returns : Option Text := none
  raises : Option (List Text) := none
  type_ : Option Text := none
deriving DecidableEq, Repr

inductive Event where
  | opened (path : List Text) (isModule : Bool) (super : Option Text)
  | included (path : List Text) (t : Text)
  | constant (path : List Text) (name : Text) (docs : Docs)
  | method (path : List Text) (onSelf : Bool) (name : Text) (params : List Text) (docs : Docs) (k : Keyword)
deriving DecidableEq, Repr

/-- The scopes around, innermost first, each with the visibility of the definitions to come; the tags since the last declaration; the
declarations so far. -/
structure Reader where
  scopes : List (Text × Keyword)
  docs : Docs
  events : List Event

def Reader.path (r : Reader) : List Text := (r.scopes.map Prod.fst).reverse

/-- The visibility of a method defined here: in Ruby, `def self.` does not obey the keywords. -/
def Reader.visibility (r : Reader) (onSelf : Bool) : Keyword :=
  if onSelf then .public_ else (r.scopes.map Prod.snd).headD .public_

/-- Ruby reads a line. -/
def Reader.step (r : Reader) : Line → Option Reader
  | .header _ => some r
  | .note _ => some r
  | .enter m n s => some ⟨(n, .public_) :: r.scopes, {}, r.events ++ [.opened (r.path ++ [n]) m s]⟩
  | .leave =>
    match r.scopes with
    | [] => none
    | _ :: rest => some ⟨rest, {}, r.events⟩
  | .include_ t => some ⟨r.scopes, {}, r.events ++ [.included r.path t]⟩
  | .type_ t => some ⟨r.scopes, { r.docs with type_ := some t }, r.events⟩
  | .returns t => some ⟨r.scopes, { r.docs with returns := some t }, r.events⟩
  | .param n t => some ⟨r.scopes, { r.docs with params := r.docs.params ++ [(n, t)] }, r.events⟩
  | .raise ts => some ⟨r.scopes, { r.docs with raises := some ts }, r.events⟩
  | .const n => some ⟨r.scopes, {}, r.events ++ [.constant r.path n r.docs]⟩
  | .vis k =>
    match r.scopes with
    | [] => none
    | (n, _) :: rest => some ⟨(n, k) :: rest, r.docs, r.events⟩
  | .def_ s n ps => some ⟨r.scopes, {}, r.events ++ [.method r.path s n ps r.docs (r.visibility s)]⟩

def Reader.run (r : Reader) : List Line → Option Reader
  | [] => some r
  | l :: ls => (r.step l).bind (fun r' => r'.run ls)

/-- The declarations in a file; `none` when an `end` is missing or one too many. -/
def read (ls : List Line) : Option (List Event) :=
  match Reader.run ⟨[], {}, []⟩ ls with
  | some ⟨[], _, es⟩ => some es
  | _ => none

/-! ### What a class file declares -/

/-- Whether a method is declared. -/
def Shown (L : Letters) (m : Method) : Prop := m.name ≠ tClinit ∧ validMethod L (methodName m) = true

instance (L : Letters) (m : Method) : Decidable (Shown L m) := by unfold Shown; infer_instance

/-- The name of the parameter with an index. -/
def argName (L : Letters) (m : Method) (i : Nat) : Text :=
  match m.params[i]? with
  | some n => if validLocal L n then n else ['a', 'r', 'g'] ++ Nat.toDigits 10 i
  | none => ['a', 'r', 'g'] ++ Nat.toDigits 10 i

/-- The parameters of the definition: the last one takes the rest when Java says so. -/
def signature (L : Letters) (m : Method) : List Text :=
  (List.range m.params.length).map (fun i => (if m.isVarargs = true ∧ i + 1 = m.params.length then ['*'] else []) ++ argName L m i)

/-- The names of Ruby for the class names that have one. -/
def rubyNames (L : Letters) (ns : List Text) : List Text := (ns.filterMap (parse L)).map fqn

def methodEvent (L : Letters) (path : List Text) (m : Method) : List Event :=
  match m.descriptor with
  | none => []
  | some (ps, r) =>
    let onSelf := decide (m.name = tInit ∨ m.isStatic = true)
    [.method path onSelf (methodName m) (signature L m)
      { params := ps.zipIdx.map (fun p => (argName L m p.2, rubyType L p.1)), returns := some (rubyType L r),
        raises := if m.exceptions = [] then none else some (rubyNames L m.exceptions) }
      (if onSelf then .public_ else keyword m.vis)]

def fieldEvents (L : Letters) (path : List Text) (f : FieldInfo) : List Event :=
  match f.ty with
  | none => []
  | some ty =>
    if f.isStatic = true ∧ (f.isFinal = true ∨ f.isEnum = true) then
      if validConstant L f.name then [.constant path f.name { type_ := some (rubyType L ty) }] else []
    else if validMethod L f.name then
      [.method path f.isStatic f.name [] { returns := some (rubyType L ty) } .public_,
        .method path f.isStatic (f.name ++ ['=']) [tValue] { params := [(tValue, rubyType L ty)] } .public_]
    else []

/-- The classes around a class, from the outside. -/
def outerEvents : List Text → List Text → List Event
  | _, [] => []
  | path, t :: ts => .opened (path ++ [t]) false none :: outerEvents (path ++ [t]) ts

/-- The declarations of a class file. -/
def declared (L : Letters) (c : ClassFile) (n : Name) : List Event :=
  [.opened [tJava] true none, .opened [tJava, proxy n] true none] ++ outerEvents [tJava, proxy n] n.classes.dropLast ++
    [.opened (parts n) (isModule c.kind) (if isModule c.kind then none else (rubyNames L c.super.toList).head?)] ++
    (rubyNames L c.interfaces).map (.included (parts n)) ++ c.fields.flatMap (fieldEvents L (parts n)) ++
    (c.methods.filter (fun m => decide (Shown L m))).flatMap (methodEvent L (parts n))

/-- Every line stands at its depth, and every scope is closed. -/
def Indented : Nat → List (Nat × Line) → Prop
  | d, [] => d = 0
  | d, (i, .enter _ _ _) :: ls => i = 2 * d ∧ Indented (d + 1) ls
  | 0, (_, .leave) :: _ => False
  | d + 1, (i, .leave) :: ls => i = 2 * d ∧ Indented d ls
  | d, (i, _) :: ls => i = 2 * d ∧ Indented d ls

/-- The lines of a text that ends with a line feed. -/
def linesOf : Text → List Text
  | [] => []
  | c :: cs =>
    if c = '\n' then [] :: linesOf cs
    else
      match linesOf cs with
      | [] => [[c]]
      | l :: ls => (c :: l) :: ls

/-- A name of Java, as far as it is checked. -/
def Ident (L : Letters) (t : Text) : Prop :=
  ∃ c r, t = c :: r ∧ (L.alpha c = true ∨ c = '_' ∨ c = '$') ∧ ∀ d ∈ r, L.alnum d = true ∨ d = '_' ∨ d = '$'

/-- A class name with slashes. -/
def slashed (s : Text) : Text := s.map (fun c => if c = '.' then '/' else c)

/-- What a type of Java is in Ruby. -/
def javaMeans (L : Letters) : Ty → Yard.RTy
  | .byte | .char | .int | .long | .short => .cls [['I', 'n', 't', 'e', 'g', 'e', 'r']]
  | .double | .float => .cls [['F', 'l', 'o', 'a', 't']]
  | .boolean => .union [.cls [['F', 'a', 'l', 's', 'e', 'C', 'l', 'a', 's', 's']], .cls [['T', 'r', 'u', 'e', 'C', 'l', 'a', 's', 's']]]
  | .void => .cls [['N', 'i', 'l', 'C', 'l', 'a', 's', 's']]
  | .object name =>
    match parse L name with
    | some n => .cls (parts n)
    | none => .unknown
  | .array e => .array [javaMeans L e]

/-- The Ruby names in a type are made of constants. -/
def ConstantNames (L : Letters) (U : Yard.Unicode) : Ty → Prop
  | .object name => ∀ n, parse L name = some n → ∀ p ∈ parts n, Yard.Constant U p
  | .array e => ConstantNames L U e
  | _ => True

end Verif.JrubySignatures
