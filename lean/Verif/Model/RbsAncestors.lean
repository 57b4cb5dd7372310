import Verif.Model.RbsTemplates
import Verif.Model.MethodReturn
/-!
Model of the search for a method in the RBS declarations of a class and of what it inherits from:
crates/ruby-analysis/src/inference/rbs.rs L43-70, L257-458 (calls with a block) and L836-1255 (all methods of a class, and the
catalogues of their names), with `rbs_method_exists_for_type` of inference/method/return_type.rs L158-190.

Simplifications: those of RbsTypes and RbsTemplates; the map of the declarations is the list of them, in which the last one of a
name counts; the bindings (`BTreeMap`) are a list of pairs; the set of names that were visited is a list, and so is a set of method
names; the names of the methods collected so far are those of the list of methods.  The recursion has a bound, larger than the
number of names that can be visited.
-/
namespace Verif.RbsAncestors
open Verif.Types
open Verif.Yard (Text Unicode)
open Verif.RbsTypes (Rbs code strip conv convWith Kind className)
open Verif.RbsTemplates (Overload Method lastWord methodSigs)
open Verif.HigherOrder (Out Sig Var Reason collect prepare Prepared)
open Verif.MethodReturn (simpleName)

/-- crates/rbs-parser/src/types.rs L184-193 `Member`; attributes and visibilities are not looked at. -/
inductive Member where
  | incl (t : Rbs)
  | ext (t : Rbs)
  | prep (t : Rbs)
  | alias (new old : Name) (singleton : Bool)
  | other

/-- types.rs: `ClassDecl` and `ModuleDecl` (which has no superclass), and the others. -/
structure Decl where
  kind : Kind
  name : Name
  params : List Text
  superclass : Option Rbs
  methods : List Method
  members : List Member

/-- loader.rs: `declarations`. -/
abbrev Loader := List Decl

/-- `self.declarations.get(name)`, then L225-239 `get_class` and `get_module`. -/
def Loader.get (L : Loader) (c : Name) : Option Decl := L.reverse.find? fun d => decide (d.name = c)
def Loader.getClass (L : Loader) (c : Name) : Option Decl := (L.get c).filter fun d => decide (d.kind = .cls)
def Loader.getModule (L : Loader) (c : Name) : Option Decl := (L.get c).filter fun d => decide (d.kind = .mod)

/-- The declaration of a class or a module. -/
def Loader.node (L : Loader) (c : Name) : Option Decl :=
  match L.getClass c with
  | some d => some d
  | none => L.getModule c

/-- rbs.rs L282-292 `declaration_type_parameters`. -/
def Loader.params (L : Loader) (c : Name) : Option (List Text) :=
  match L.getClass c with
  | some d => some d.params
  | none => (L.getModule c).map (·.params)

/-- The types that the type parameters are bound to. -/
abbrev Bindings := List (Text × Ty)

def Bindings.get (b : Bindings) (n : Text) : Option Ty := (b.find? fun p => decide (p.1 = n)).map Prod.snd

/-- rbs.rs L318-328: the parameters one after the other. -/
def bindAll : List (Text × Ty) → Bindings → Out Bindings
  | [], b => .ok b
  | (p, a) :: l, b =>
    if hasUnknown a then .err .blockInput
    else
      match lastWord p with
      | none => .panic
      | some n => if n ∈ b.map Prod.fst then .panic else bindAll l (b ++ [(n, a)])

/-- rbs.rs L307-329 `declaration_bindings`. -/
def bindings (params : List Text) (args : List Ty) : Out Bindings :=
  if params.length ≠ args.length then .err .blockInput else bindAll (params.zip args) []

variable (U : Unicode)

/-- rbs.rs L928-936 `rbs_type_to_class_name`. -/
def target : Rbs → Option Name
  | .cls n => some (code (strip n))
  | .app n _ => some (code (strip n))
  | _ => none

/-- rbs.rs L938-970 `substitute_rbs_edge_argument`. -/
def edgeArg (b : Bindings) (t : Rbs) : Ty :=
  match t with
  | .cls n => (b.get n).getD (convWith U b.get t)
  | .var n => (b.get n).getD (convWith U b.get t)
  | .app n [] => (b.get (strip n)).getD (convWith U b.get t)
  | t => convWith U b.get t

/-- rbs.rs L418-433: the arguments of an included module or of a superclass. -/
def edgeArgs (b : Bindings) : List Rbs → Out (List Ty)
  | [] => .ok []
  | t :: l => if hasUnknown (edgeArg U b t) then .err .blockInput else (edgeArgs b l).bind fun ts => .ok (edgeArg U b t :: ts)

/-- rbs.rs L407-457 `find_rbs_callable_through_edge`, up to the call of `find_rbs_callable_owner`. -/
def edge (L : Loader) (b : Bindings) (t : Rbs) : Out (Name × Bindings) :=
  match t with
  | .cls n =>
    match L.params (code (strip n)) with
    | none => .err .unsupported
    | some ps => (bindings ps []).bind fun b' => .ok (code (strip n), b')
  | .app n args =>
    (edgeArgs U b args).bind fun ts =>
      match L.params (code (strip n)) with
      | none => .err .unsupported
      | some ps => (bindings ps ts).bind fun b' => .ok (code (strip n), b')
  | _ => .err .unsupported

/-- The included modules, in the order they are declared in. -/
def includes (ms : List Member) : List Rbs :=
  ms.filterMap fun m => match m with
    | .incl t => some t
    | _ => none

def objectName : Name := nameOf "Object"
def basicName : Name := nameOf "BasicObject"

/-- rbs.rs L363-382: the superclass, or `Object`. -/
def superEdge (L : Loader) (b : Bindings) (c : Name) (d : Decl) : List (Out (Name × Bindings)) :=
  match d.superclass with
  | some t => [edge U L b t]
  | none =>
    if c = basicName then []
    else
      match L.params objectName with
      | some ps => [(bindings ps []).bind fun b' => .ok (objectName, b')]
      | none => []

/-- rbs.rs L342-404: what is searched after a declaration, in this order (a name is that of a class or of a module). -/
def edges (L : Loader) (c : Name) (b : Bindings) : List (Out (Name × Bindings)) :=
  match L.getClass c with
  | some d => (includes d.members).map (edge U L b) ++ superEdge U L b c d
  | none =>
    match L.getModule c with
    | some d => (includes d.members).map (edge U L b)
    | none => []

/-- rbs.rs L343-347, L386-390: the instance method of the declaration, with its type parameters. -/
def ownMethod (L : Loader) (c m : Name) : Option (List Text × Method) :=
  (L.node c).bind fun d =>
  (d.methods.find? fun (x : Method) => decide (x.singleton = false ∧ x.name = m)).map fun x => (d.params, x)

/-- What was found: the name of the declaration, its type parameters, the method, and the bindings (rbs.rs L36-39
`RbsCallableOwner`, before the signatures are converted). -/
structure Owner where
  decl : Name
  params : List Text
  method : Method
  binds : Bindings

/-- rbs.rs L348-404: the search of the things that are searched after a declaration; the names visited so far are handed on. -/
def searchAll (f : Name × Bindings → List Name → Out (Option Owner) × List Name) :
    List (Out (Name × Bindings)) → List Name → Out (Option Owner) × List Name
  | [], V => (.ok none, V)
  | .ok e :: l, V =>
    match f e V with
    | (.ok none, V') => searchAll f l V'
    | r => r
  | .err r :: _, V => (.err r, V)
  | .receiver :: _, V => (.receiver, V)
  | .panic :: _, V => (.panic, V)

/-- rbs.rs L331-405 `find_rbs_callable_owner`. -/
def search (L : Loader) (m : Name) : Nat → Name × Bindings → List Name → Out (Option Owner) × List Name
  | 0, _, V => (.ok none, V)
  | n + 1, (c, b), V =>
    if c ∈ V then (.ok none, V)
    else
      match ownMethod L c m with
      | some (ps, x) => (.ok (some ⟨c, ps, x, b⟩), c :: V)
      | none => searchAll (search L m n) (edges U L c b) (c :: V)

/-- rbs.rs L257-280 `rbs_receiver_identity`; `none` is a panic. -/
def identity : Ty → Option (Option (Name × List Ty))
  | .array es => some (some (nameOf "Array", [mkUnion es]))
  | .hash ks vs => some (some (nameOf "Hash", [mkUnion ks, mkUnion vs]))
  | .shape fs r o _ _ =>
    match genericHash fs r o with
    | some (.hash ks vs) => some (some (nameOf "Hash", [mkUnion ks, mkUnion vs]))
    | _ => none
  | .lit l => some (some (if l.isString then nameOf "String" else nameOf "Symbol", []))
  | .cls n => some (if n = [] then none else some (simpleName n, []))
  | .mod n => some (if n = [] then none else some (simpleName n, []))
  | .clsRef n => some (if n = [] then none else some (simpleName n, []))
  | .modRef n => some (if n = [] then none else some (simpleName n, []))
  | .union _ => some none
  | .unknown => some none

/-- rbs.rs L47-63: the method of the class of the receiver. -/
def ownerOf (L : Loader) (recv : Ty) (m : Name) : Out Owner :=
  match identity recv with
  | none => .panic
  | some none => .err .blockInput
  | some (some (c, args)) =>
    match L.params c with
    | none => .err .unsupported
    | some ps =>
      (bindings ps args).bind fun b =>
        (search U L m L.length (c, b) []).1.bind fun o =>
          match o with
          | some o => .ok o
          | none => .err .unsupported

/-- rbs.rs L43-70 `prepare_rbs_higher_order_call`. -/
def prepareRbs (L : Loader) (recv : Ty) (m : Name) (args : List Ty) : Out Prepared :=
  (ownerOf U L recv m).bind fun o =>
  (methodSigs U o.params o.method).bind fun gs =>
    prepare (some recv) gs (o.binds.map fun p => (code p.1, p.2)) args

/-! ### All methods of a class -/

/-- rbs.rs L842-849 `RbsMethodInfo`. -/
structure Info where
  name : Name
  ret : Option Ty
  singleton : Bool
  params : List Text

/-- rbs.rs L1190-1200, L1229-1244: the return type and the names of the parameters, of the first overload. -/
def retOf (x : Method) : Option Ty := x.overloads.head?.map fun o => conv U o.ret
def paramsOf (x : Method) : List Text := (x.overloads.head?.map fun o => o.args.map fun a => a.1.getD []).getD []

/-- rbs.rs L1169-1206 `collect_methods_from_decl`. -/
def collectMethods (incl : Bool) : List Method → List Info → List Info
  | [], is => is
  | x :: l, is =>
    if (x.singleton && !incl) || decide (x.name ∈ is.map (·.name)) then collectMethods incl l is
    else collectMethods incl l (is ++ [⟨x.name, retOf U x, x.singleton, paramsOf x⟩])

/-- rbs.rs L1211-1254 `collect_aliases_from_members`. -/
def collectAliases (incl : Bool) (ms : List Method) : List Member → List Info → List Info
  | [], is => is
  | .alias new old s :: l, is =>
    if (s && !incl) || decide (new ∈ is.map (·.name)) then collectAliases incl ms l is
    else
      match ms.find? fun x => decide (x.name = old) with
      | some x => collectAliases incl ms l (is ++ [⟨new, retOf U x, s, paramsOf x⟩])
      | none => collectAliases incl ms l (is ++ [⟨new, none, s, []⟩])
  | _ :: l, is => collectAliases incl ms l is

/-- rbs.rs L994-1041, L1057-1068: the names that are walked after a declaration. -/
def nextNames (L : Loader) (c : Name) : List Name :=
  match L.getClass c with
  | some d => (includes d.members).filterMap target ++
      match d.superclass with
      | some t => (target t).toList
      | none => if c = basicName then [] else [objectName]
  | none =>
    match L.getModule c with
    | some d => (includes d.members).filterMap target
    | none => []

/-- rbs.rs L985-992, L1046-1055: what a declaration itself adds. -/
def ownInfos (incl : Bool) (o : Option Decl) (is : List Info) : List Info :=
  match o with
  | some d => collectAliases U incl d.methods d.members (collectMethods U incl d.methods is)
  | none => is

/-- `for`, with a state. -/
def walkAll {σ : Type} (f : Name → σ × List Name → σ × List Name) : List Name → σ × List Name → σ × List Name
  | [], s => s
  | c :: l, s => walkAll f l (f c s)

/-- rbs.rs L973-1069 `collect_rbs_methods_recursive`. -/
def walk (L : Loader) (incl : Bool) : Nat → Name → List Info × List Name → List Info × List Name
  | 0, _, s => s
  | n + 1, c, (is, V) => if c ∈ V then (is, V) else walkAll (walk L incl n) (nextNames L c) (ownInfos U incl (L.node c) is, c :: V)

/-- rbs.rs L853-869 `get_rbs_class_methods`. -/
def classMethods (L : Loader) (c : Name) (incl : Bool) : List Info := (walk U L incl (L.length + 1) c ([], [])).1

/-- rbs.rs L1141-1167: the names of the methods and aliases of a declaration. -/
def declNames (incl : Bool) (d : Decl) : List Name :=
  (d.methods.filter fun x => !x.singleton || incl).map (·.name) ++
    d.members.filterMap fun x => match x with
      | .alias new _ s => if !s || incl then some new else none
      | _ => none

/-- rbs.rs L1071-1139 `collect_rbs_method_names_recursive`. -/
def walkNames (L : Loader) (incl : Bool) : Nat → Name → List Name × List Name → List Name × List Name
  | 0, _, s => s
  | n + 1, c, (ns, V) =>
    if c ∈ V then (ns, V)
    else walkAll (walkNames L incl n) (nextNames L c) (ns ++ ((L.node c).map (declNames incl)).getD [], c :: V)

/-- rbs.rs L498-514 `RbsMethodNameCache`. -/
abbrev Cache := List ((Bool × Name) × List Name)

/-- rbs.rs L879-925 `rbs_method_name_catalog`: the names and the cache afterwards. -/
def catalogue (L : Loader) (c : Name) (incl : Bool) (K : Cache) : List Name × Cache :=
  match K.find? fun e => decide (e.1 = (incl, c)) with
  | some e => (e.2, K)
  | none =>
    if L.node c = none then ([], K)
    else
      let ns := (walkNames L incl (L.length + 1) c ([], [])).1
      (ns, ((incl, c), ns) :: K)

/-- rbs.rs L871-877 `rbs_class_method_exists`. -/
def methodExists (L : Loader) (c m : Name) (incl : Bool) (K : Cache) : Bool × Cache :=
  let r := catalogue L c incl K
  (decide (m ∈ r.1), r.2)

end Verif.RbsAncestors
