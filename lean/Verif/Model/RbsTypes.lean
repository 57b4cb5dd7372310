import Verif.Model.Types
import Verif.Model.YardTypes
/-!
Model of the types read from RBS signatures: crates/ruby-analysis/src/inference/rbs.rs L580-834, with the index of declarations
(crates/rbs-parser/src/loader.rs L176-282) and `MethodDecl::return_type` (crates/rbs-parser/src/types.rs L243-246).

Simplifications: a name of a class, of a module or of a method is the list of the code points of its text, a path `A::B` being one
text; the two keys `C#m` and `C.m` of the index are triples of the class, the kind and the method (a class name has neither `#` nor
`.`); a `HashMap` is the function that looks a key up; interfaces, aliases, constants and globals are declarations of another kind,
of which only the name matters; the parameters and the result of a proc type, which the conversion does not look at, are left out.
Not modelled: the parser.
-/
namespace Verif.RbsTypes
open Verif.Types
open Verif.Yard (Text Unicode splitPair isConstant)

/-- crates/rbs-parser/src/types.rs L361-421 `RbsType`, `Literal` and `RecordField` (name, whether it is optional, type). -/
inductive Rbs where
  | cls (name : Text)
  | app (name : Text) (args : List Rbs)
  | iface (name : Text)
  | var (name : Text)
  | union (ts : List Rbs)
  | inter (ts : List Rbs)
  | opt (t : Rbs)
  | tuple (ts : List Rbs)
  | record (fields : List (Text × Bool × Rbs))
  | proc
  | litStr (s : Text)
  | litSym (s : Text)
  | litInt (i : Int)
  | litTrue
  | litFalse
  | selfTy
  | instTy
  | classTy
  | void
  | nil
  | bool
  | untyped
  | top
  | bot

/-- The code points of a text. -/
def code (s : Text) : Name := s.map Char.toNat

/-- `name.strip_prefix("::").unwrap_or(name)`. -/
def strip : Text → Text
  | ':' :: ':' :: s => s
  | s => s

/-- rbs.rs L716-724: the names with a constructor of their own. -/
def standard : List Text :=
  ["String".toList, "Integer".toList, "Float".toList, "Symbol".toList, "TrueClass".toList, "FalseClass".toList, "NilClass".toList]

def tArray : Text := "Array".toList
def tHash : Text := "Hash".toList

/-- core/ruby_type.rs L47-63. -/
def integerTy : Ty := .cls (nameOf "Integer")
def trueTy : Ty := .cls (nameOf "TrueClass")
def falseTy : Ty := .cls (nameOf "FalseClass")
/-- core/ruby_type.rs L65-69 `boolean`. -/
def booleanTy : Ty := .union [falseTy, trueTy]

variable (U : Unicode)

/-- rbs.rs L711-733 `class_name_to_ruby_type`. -/
def className (name : Text) : Ty :=
  if strip name ∈ standard then .cls (code (strip name))
  else if (splitPair ':' ':' (strip name) []).all (isConstant U) then .cls (code (strip name))
  else .unknown

/-- rbs.rs L813-834 `rbs_record_to_ruby_type`, the values being converted. -/
def recordTy (fields : List Field) : Ty :=
  match tryNew fields none false false with
  | .ok t => t
  | .error _ => .unknown

/-- rbs.rs L746-765 and L668-695: a generic type, its arguments being converted. -/
def appTy (name : Text) (args : List Ty) : Ty :=
  if name = tArray then
    match args with
    | [e] => .array [e]
    | _ => .array [.unknown]
  else if name = tHash then
    match args with
    | [k, v] => .hash [k] [v]
    | _ => .hash [.unknown] [.unknown]
  else className U name

mutual
/-- rbs.rs L736-811 `rbs_type_to_ruby_type`. -/
def conv : Rbs → Ty
  | .void => nilTy
  | .nil => nilTy
  | .bool => booleanTy
  | .top => .unknown
  | .bot => .unknown
  | .untyped => .unknown
  | .selfTy => .unknown
  | .instTy => .unknown
  | .cls n => className U n
  | .app n args => appTy U (strip n) (convList args)
  | .classTy => .unknown
  | .union ts => mkUnion (convList ts)
  | .inter _ => .unknown
  | .opt t => optional (conv t)
  | .tuple ts => .array (members (convList ts))
  | .record fs => recordTy (convFields fs)
  | .proc => .cls (nameOf "Proc")
  | .litStr s => .lit ⟨true, code s⟩
  | .litSym s => .lit ⟨false, code s⟩
  | .litInt _ => integerTy
  | .litTrue => trueTy
  | .litFalse => falseTy
  | .iface n => if isConstant U n then .cls (code n) else .unknown
  | .var _ => .unknown
def convList : List Rbs → List Ty
  | [] => []
  | t :: l => conv t :: convList l
def convFields : List (Text × Bool × Rbs) → List Field
  | [] => []
  | (n, o, t) :: l => (⟨false, code n⟩, o, conv t) :: convFields l
end

mutual
/-- rbs.rs L646-708 `rbs_type_to_ruby_type_with_substitutions`. -/
def convWith (σ : Text → Option Ty) : Rbs → Ty
  | .var n => (σ n).getD .unknown
  | .cls n =>
    match σ n with
    | some t => t
    | none => className U n
  | .union ts => mkUnion (convWithList σ ts)
  | .opt t => optional (convWith σ t)
  | .app n args =>
    match args, σ (strip n) with
    | [], some t => t
    | _, _ => appTy U (strip n) (convWithList σ args)
  | .record fs => recordTy (convWithFields σ fs)
  | t => conv U t
def convWithList (σ : Text → Option Ty) : List Rbs → List Ty
  | [] => []
  | t :: l => convWith σ t :: convWithList σ l
def convWithFields (σ : Text → Option Ty) : List (Text × Bool × Rbs) → List Field
  | [] => []
  | (n, o, t) :: l => (⟨false, code n⟩, o, convWith σ t) :: convWithFields σ l
end

/-- rbs.rs L635-639: the part after the last space, or all of it. -/
def paramName (s : Text) : Text := (s.reverse.takeWhile (fun c => decide (c ≠ ' '))).reverse

/-- rbs.rs L626-643 `build_substitution_map`: of two entries with one key the later one counts. -/
def substitution (params : List Text) (args : List Ty) (n : Text) : Option Ty :=
  (((params.zip args).reverse.find? fun p => decide (paramName p.1 = n)).map Prod.snd)

/-- types.rs L223-247 `MethodDecl`: its name, whether it is a singleton method, and of each overload its own type parameters and
its return type. -/
structure Method where
  name : Name
  singleton : Bool
  overloads : List (List Text × Rbs)

inductive Kind where
  | cls | mod | other
  deriving DecidableEq

/-- types.rs: `ClassDecl`, `ModuleDecl` and the others. -/
structure Decl where
  kind : Kind
  name : Name
  params : List Text
  methods : List Method

/-- loader.rs: `declarations` and `methods`. -/
structure Loader where
  decls : Name → Option Decl
  methods : Name → Bool → Name → Option Method

def Loader.empty : Loader := ⟨fun _ => none, fun _ _ _ => none⟩

/-- loader.rs L184-191, L198-205: a method is put into the index. -/
def addMethod (c : Name) (M : Name → Bool → Name → Option Method) (m : Method) : Name → Bool → Name → Option Method :=
  fun c' s n => if c' = c ∧ s = m.singleton ∧ n = m.name then some m else M c' s n

/-- loader.rs L177-222 `index_declaration`. -/
def Loader.index (L : Loader) (d : Decl) : Loader :=
  ⟨fun c => if c = d.name then some d else L.decls c,
    if d.kind = .other then L.methods else d.methods.foldl (addMethod d.name) L.methods⟩

/-- The declarations one after the other. -/
def load (ds : List Decl) : Loader := ds.foldl Loader.index Loader.empty

/-- loader.rs L268-282 `get_method_return_type`, types.rs L243-246 `return_type`. -/
def Loader.returnType (L : Loader) (c m : Name) (singleton : Bool) : Option Rbs :=
  (L.methods c singleton m).bind fun d => d.overloads.head?.map Prod.snd

/-- rbs.rs L581-589 `get_rbs_method_return_type_as_ruby_type`. -/
def returnTy (L : Loader) (c m : Name) (singleton : Bool) : Option Ty := (L.returnType c m singleton).map (conv U)

/-- rbs.rs L605-612: the type parameters of a class or of a module. -/
def Loader.params (L : Loader) (c : Name) : List Text :=
  match L.decls c with
  | some d => if d.kind = .other then [] else d.params
  | none => []

/-- rbs.rs L594-622 `get_rbs_method_return_type_with_type_args`; the map is empty when there are no parameters or no arguments. -/
def returnTyWith (L : Loader) (c m : Name) (singleton : Bool) (args : List Ty) : Option Ty :=
  (L.returnType c m singleton).map fun t =>
    if (L.params c).zip args = [] then conv U t else convWith U (substitution (L.params c) args) t

end Verif.RbsTypes
