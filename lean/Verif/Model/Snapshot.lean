import Verif.Model.Owners
import Verif.Model.Arena
import Verif.Model.Sort
/-!
Saving the facts of a dependency and reading them back: crates/ruby-analysis/src/engine/external_facts_template.rs, with the
constructors of the values in it (core/fully_qualified_name.rs, core/ruby_method.rs, core/ruby_namespace.rs, core/method_store.rs,
core/shape_type.rs, core/callable_body.rs).

A `String` is a list of scalar values, an interned string its text, `u32`, `u8` and `usize` are unbounded, `Box` is left out. The
Unicode tables are a parameter (`Uni`). Error texts are left out. What the encoding (postcard) does between the two sides is not
here. Facts that a template never keeps are lists of numbers. The functions `snapshot_*` that cannot fail (they are declared
`Result` but have no error case) are total here.
-/
namespace Verif.Snapshot

abbrev Str := List Char

/-- A step that can fail or panic. -/
inductive Res (α : Type) where
  | ok (a : α)
  | err
  | panic
  deriving DecidableEq

def Res.bind {α β : Type} (x : Res α) (f : α → Res β) : Res β :=
  match x with
  | .ok a => f a
  | .err => .err
  | .panic => .panic

/-- `.map(f).collect::<Result<_, _>>()`: stops at the first failure. -/
def mapR {α β : Type} (f : α → Res β) : List α → Res (List β)
  | [] => .ok []
  | a :: l => (f a).bind fun b => (mapR f l).bind fun bs => .ok (b :: bs)

/-- `.map(f).transpose()` of an option. -/
def optR {α β : Type} (f : α → Res β) : Option α → Res (Option β)
  | none => .ok none
  | some a => (f a).bind fun b => .ok (some b)

/-- `map_err`. -/
def ofOption {α : Type} : Option α → Res α
  | some a => .ok a
  | none => .err

/-! ### names -/

/-- The Unicode tables of the standard library and of the crate `unicode_ident`. -/
structure Uni where
  xidStart : Char → Bool
  xidContinue : Char → Bool
  upper : Char → Bool
  lower : Char → Bool
  alpha : Char → Bool
  white : Char → Bool

/-- core/fully_qualified_name.rs L13-18 `NamespaceKind`. -/
inductive NsKind where
  | inst | single
  deriving DecidableEq

/-- core/fully_qualified_name.rs L20-46 `FullyQualifiedName`. -/
inductive Fqn where
  | ns (parts : List Str) (kind : NsKind)
  | const (parts : List Str)
  | method (parts : List Str) (name : Str)
  | localVar (name : Str)
  | instVar (name : Str)
  | classVar (name : Str)
  | globalVar (name : Str)
  deriving DecidableEq

def isWord (u : Uni) (c : Char) : Bool := u.xidContinue c || c == '_'

/-- core/ruby_method.rs L46-49. -/
def binaryOps : List Str :=
  [['+'], ['-'], ['*'], ['/'], ['%'], ['*', '*'], ['=', '='], ['!', '='], ['<'], ['<', '='], ['>'], ['>', '='], ['<', '=', '>'],
   ['=', '=', '='], ['=', '~'], ['!', '~'], ['&'], ['|'], ['^'], ['<', '<'], ['>', '>'], ['[', ']'], ['[', ']', '=']]

/-- core/ruby_method.rs L52. -/
def unaryOps : List Str := [['+', '@'], ['-', '@'], ['~', '@'], ['!', '@']]

/-- core/ruby_method.rs L64-72: the name without a final `?`, `!` or `=`. -/
def methodBody (name : Str) : Str :=
  match name.getLast? with
  | some c => if c == '?' || c == '!' || c == '=' then name.dropLast else name
  | none => name

/-- core/ruby_method.rs L40-91 `is_valid_ruby_method_name`. -/
def validMethod (u : Uni) (name : Str) : Bool :=
  if name.isEmpty then false
  else if binaryOps.contains name then true
  else if unaryOps.contains name then true
  else
    match methodBody name with
    | [] => false
    | c :: rest => (u.alpha c || c == '_') && rest.all (isWord u)

/-- core/ruby_method.rs L19-30 `RubyMethod::new`. -/
def newMethod (u : Uni) (name : Str) : Option Str :=
  if name.isEmpty then none else if validMethod u name then some name else none

/-- core/fully_qualified_name.rs L133-152 `validate_local_variable`. -/
def validLocal (u : Uni) (name : Str) : Bool :=
  match name with
  | [] => false
  | c :: rest => (u.lower c || c == '_') && rest.all (isWord u)

/-- An identifier after the sigils. -/
def validIdent (u : Uni) (name : Str) : Bool :=
  match name with
  | [] => false
  | c :: rest => (u.xidStart c || c == '_') && rest.all (isWord u)

/-- core/fully_qualified_name.rs L154-180 `validate_instance_variable`. -/
def validInst (u : Uni) (name : Str) : Bool :=
  match name with
  | '@' :: rest => validIdent u rest
  | _ => false

/-- core/fully_qualified_name.rs L182-208 `validate_class_variable`. -/
def validClass (u : Uni) (name : Str) : Bool :=
  match name with
  | '@' :: '@' :: rest => validIdent u rest
  | _ => false

def asciiDigit (c : Char) : Bool := decide ('0' ≤ c) && decide (c ≤ '9')
def asciiAlnum (c : Char) : Bool :=
  asciiDigit c || (decide ('a' ≤ c) && decide (c ≤ 'z')) || (decide ('A' ≤ c) && decide (c ≤ 'Z'))

/-- core/fully_qualified_name.rs L225: the one-character globals. -/
def specialGlobals : List Char :=
  ['_', '~', '*', '$', '?', '!', '"', '\'', '&', '+', '`', '.', '@', '/', ';', '\\', '=', ':', '<', '>', '|', ',']

/-- core/fully_qualified_name.rs L210-254 `validate_global_variable`. -/
def validGlobal (u : Uni) (name : Str) : Bool :=
  match name with
  | '$' :: rest =>
    (match rest with
      | [c] => asciiDigit c || specialGlobals.contains c
      | ['-', c] => asciiAlnum c
      | _ => false) || validIdent u rest
  | _ => false

/-! ### ranges -/

/-- core/type_store.rs L20-24 `TextRange`. -/
structure Range where
  file : Nat
  start : Nat
  stop : Nat
  deriving DecidableEq

/-- external_facts_template.rs L111-115 `SnapshotRange`. -/
structure SRange where
  start : Nat
  stop : Nat
  deriving DecidableEq

/-- L1065-1070 `snapshot_range`. -/
def snapRange (r : Range) : SRange := ⟨r.start, r.stop⟩

/-- core/type_store.rs L27-39 `TextRange::new`: the assertion. -/
def newRange (file start stop : Nat) : Res Range := if start ≤ stop then .ok ⟨file, start, stop⟩ else .panic

/-- L1072-1080 `restore_range`. -/
def restRange (r : SRange) (file : Nat) : Res Range :=
  if r.start > r.stop then .err else newRange file r.start r.stop

/-- L1960-1971 `validate_contained_range`. -/
def contained (inner outer : Range) : Res Unit :=
  if inner.file ≠ outer.file ∨ inner.start < outer.start ∨ inner.stop > outer.stop then .err else .ok ()

/-! ### names in snapshots -/

/-- L118-127 `SnapshotFqn`. -/
inductive SFqn where
  | ns (parts : List Str) (singleton : Bool)
  | const (parts : List Str)
  | method (parts : List Str) (name : Str)
  | localVar (name : Str)
  | instVar (name : Str)
  | classVar (name : Str)
  | globalVar (name : Str)
  deriving DecidableEq

/-- L1082-1084 `snapshot_parts`. -/
def snapParts (parts : List Str) : List Str := parts

/-- L1095-1103: one part. -/
def restPart (u : Uni) (part : Str) : Res Str :=
  match part with
  | '\x00' :: _ => ofOption (Owners.fromCanonical part)
  | _ => ofOption (Owners.newConstant u.xidStart u.upper u.xidContinue part)

/-- L1086-1106 `restore_parts`. -/
def restParts (u : Uni) (parts : List Str) : Res (List Str) :=
  if parts.length > 4096 then .err else mapR (restPart u) parts

/-- L1108-1134 `snapshot_fqn`. -/
def snapFqn : Fqn → SFqn
  | .ns parts kind => .ns (snapParts parts) (match kind with | .single => true | .inst => false)
  | .const parts => .const (snapParts parts)
  | .method parts name => .method (snapParts parts) name
  | .localVar name => .localVar name
  | .instVar name => .instVar name
  | .classVar name => .classVar name
  | .globalVar name => .globalVar name

/-- L1136-1161 `restore_fqn`. -/
def restFqn (u : Uni) : SFqn → Res Fqn
  | .ns parts singleton => (restParts u parts).bind fun ps => .ok (.ns ps (if singleton then .single else .inst))
  | .const parts => (restParts u parts).bind fun ps => .ok (.const ps)
  | .method parts name => (restParts u parts).bind fun ps => (ofOption (newMethod u name)).bind fun m => .ok (.method ps m)
  | .localVar name => if validLocal u name then .ok (.localVar name) else .err
  | .instVar name => if validInst u name then .ok (.instVar name) else .err
  | .classVar name => if validClass u name then .ok (.classVar name) else .err
  | .globalVar name => if validGlobal u name then .ok (.globalVar name) else .err

/-! ### types -/

/-- core/shape_type.rs L24-27 `LiteralValue`, L59-62 `LiteralKey`. -/
inductive Lit where
  | sym (s : Str)
  | str (s : Str)
  deriving DecidableEq

/-- L302-306 `SnapshotLiteral`. -/
inductive SLit where
  | sym (s : Str)
  | str (s : Str)
  deriving DecidableEq

/-- core/shape_type.rs L105-108 and L322-326. -/
inductive Presence where
  | required | optional
  deriving DecidableEq
inductive SPresence where
  | required | optional
  deriving DecidableEq

/-- core/shape_type.rs L152-155 and L329-333. -/
inductive Exactness where
  | exact | opened
  deriving DecidableEq
inductive SExactness where
  | exact | opened
  deriving DecidableEq

/-- core/shape_type.rs L158-161 and L336-340. -/
inductive Stability where
  | tracked | frozen
  deriving DecidableEq
inductive SStability where
  | tracked | frozen
  deriving DecidableEq

/-- core/ruby_type.rs L8-33 `RubyType`, with the fields of `ShapeType` (core/shape_type.rs L190-196). -/
inductive Ty where
  | cls (f : Fqn)
  | mod (f : Fqn)
  | clsRef (f : Fqn)
  | modRef (f : Fqn)
  | lit (v : Lit)
  | array (ts : List Ty)
  | hash (ks vs : List Ty)
  | shape (fields : List (Lit × Ty × Presence)) (rest : Option (Ty × Ty)) (exactness : Exactness) (stability : Stability) (depth : Nat)
  | union (ts : List Ty)
  | unknown

abbrev Field := Lit × Ty × Presence

/-- L265-300 `SnapshotRubyType`, L308-319. -/
inductive STy where
  | cls (f : SFqn)
  | mod (f : SFqn)
  | clsRef (f : SFqn)
  | modRef (f : SFqn)
  | lit (v : SLit)
  | array (ts : List STy)
  | hash (ks vs : List STy)
  | shape (fields : List (SLit × STy × SPresence)) (rest : Option (STy × STy)) (exactness : SExactness) (stability : SStability)
  | union (ts : List STy)
  | unknown

/-- L1697-1709 `snapshot_literal_value`, `snapshot_literal_key`. -/
def snapLit : Lit → SLit
  | .sym s => .sym s
  | .str s => .str s

/-- L1711-1723 `restore_literal_value`, `restore_literal_key`. -/
def restLit : SLit → Lit
  | .sym s => .sym s
  | .str s => .str s

def snapPresence : Presence → SPresence
  | .required => .required
  | .optional => .optional
def restPresence : SPresence → Presence
  | .required => .required
  | .optional => .optional
def snapExactness : Exactness → SExactness
  | .exact => .exact
  | .opened => .opened
def restExactness : SExactness → Exactness
  | .exact => .exact
  | .opened => .opened
def snapStability : Stability → SStability
  | .tracked => .tracked
  | .frozen => .frozen
def restStability : SStability → Stability
  | .tracked => .tracked
  | .frozen => .frozen

mutual
/-- L1545-1619 `snapshot_ruby_type`. -/
def snapTy : Ty → STy
  | .cls f => .cls (snapFqn f)
  | .mod f => .mod (snapFqn f)
  | .clsRef f => .clsRef (snapFqn f)
  | .modRef f => .modRef (snapFqn f)
  | .lit v => .lit (snapLit v)
  | .array ts => .array (snapTys ts)
  | .hash ks vs => .hash (snapTys ks) (snapTys vs)
  | .shape fs r e s _ => .shape (snapFields fs) (snapRest r) (snapExactness e) (snapStability s)
  | .union ts => .union (snapTys ts)
  | .unknown => .unknown
def snapTys : List Ty → List STy
  | [] => []
  | t :: l => snapTy t :: snapTys l
def snapFields : List (Lit × Ty × Presence) → List (SLit × STy × SPresence)
  | [] => []
  | (k, t, p) :: l => (snapLit k, snapTy t, snapPresence p) :: snapFields l
def snapRest : Option (Ty × Ty) → Option (STy × STy)
  | none => none
  | some (k, v) => some (snapTy k, snapTy v)
end

/-- core/shape_type.rs L11-14. -/
def maxFields : Nat := 32
def maxShapeDepth : Nat := 8

/-- The derived order of `LiteralKey`: the variant, then the text. -/
def Lit.enc : Lit → List Nat
  | .sym s => 0 :: s.map Char.toNat
  | .str s => 1 :: s.map Char.toNat
def litLe (a b : Lit) : Bool := Store.lexLe a.enc b.enc

/-- core/shape_type.rs L253-255. -/
def fieldLe (a b : Field) : Bool := litLe a.1 b.1

/-- core/shape_type.rs L256-261: neighbours with one key. -/
def hasDup : List Field → Bool
  | a :: b :: l => decide (a.1 = b.1) || hasDup (b :: l)
  | _ => false

mutual
/-- core/ruby_type.rs L179-203 `contains_unknown`. -/
def hasUnknown : Ty → Bool
  | .unknown => true
  | .array ts => hasUnknownList ts
  | .union ts => hasUnknownList ts
  | .hash ks vs => hasUnknownList ks || hasUnknownList vs
  | .shape fs r _ _ _ => hasUnknownFields fs || hasUnknownRest r
  | .cls _ => false
  | .mod _ => false
  | .clsRef _ => false
  | .modRef _ => false
  | .lit _ => false
def hasUnknownList : List Ty → Bool
  | [] => false
  | t :: l => hasUnknown t || hasUnknownList l
def hasUnknownFields : List (Lit × Ty × Presence) → Bool
  | [] => false
  | (_, t, _) :: l => hasUnknown t || hasUnknownFields l
def hasUnknownRest : Option (Ty × Ty) → Bool
  | none => false
  | some (k, v) => hasUnknown k || hasUnknown v
end

mutual
/-- core/shape_type.rs L506-525 `shape_depth_in_type`. -/
def depthIn : Ty → Nat
  | .shape _ _ _ _ d => d
  | .array ts => depthList ts
  | .union ts => depthList ts
  | .hash ks vs => max (depthList ks) (depthList vs)
  | .cls _ => 0
  | .mod _ => 0
  | .clsRef _ => 0
  | .modRef _ => 0
  | .lit _ => 0
  | .unknown => 0
def depthList : List Ty → Nat
  | [] => 0
  | t :: l => max (depthIn t) (depthList l)
end

/-- core/shape_type.rs L277-288. -/
def nestedDepth (fields : List Field) (rest : Option (Ty × Ty)) : Nat :=
  max (depthList (fields.map fun f => f.2.1))
    (match rest with
    | none => 0
    | some (k, v) => max (depthIn k) (depthIn v))

/-- core/shape_type.rs L238-309 `try_new`. -/
def newShape (fields : List Field) (rest : Option (Ty × Ty)) (e : Exactness) (s : Stability) : Option Ty :=
  if fields.length > maxFields then none
  else if e = .exact ∧ rest.isSome then none
  else
    let fields := stableSort fieldLe fields
    if hasDup fields then none
    else if fields.any (fun f => hasUnknown f.2.1) then none
    else if rest.any (fun r => hasUnknown r.1 || hasUnknown r.2) then none
    else
      let depth := nestedDepth fields rest + 1
      if depth > maxShapeDepth then none
      else some (.shape fields rest e s depth)

mutual
/-- L1621-1695 `restore_ruby_type`. -/
def restTy (u : Uni) : STy → Nat → Res Ty
  | .cls f, d => if d > 64 then .err else (restFqn u f).bind fun f => .ok (.cls f)
  | .mod f, d => if d > 64 then .err else (restFqn u f).bind fun f => .ok (.mod f)
  | .clsRef f, d => if d > 64 then .err else (restFqn u f).bind fun f => .ok (.clsRef f)
  | .modRef f, d => if d > 64 then .err else (restFqn u f).bind fun f => .ok (.modRef f)
  | .lit v, d => if d > 64 then .err else .ok (.lit (restLit v))
  | .array ts, d => if d > 64 then .err else (restTys u ts (d + 1)).bind fun ts => .ok (.array ts)
  | .hash ks vs, d =>
    if d > 64 then .err
    else (restTys u ks (d + 1)).bind fun ks => (restTys u vs (d + 1)).bind fun vs => .ok (.hash ks vs)
  | .shape fs r e s, d =>
    if d > 64 then .err
    else
      (restFields u fs (d + 1)).bind fun fs => (restRest u r (d + 1)).bind fun r =>
        ofOption (newShape fs r (restExactness e) (restStability s))
  | .union ts, d => if d > 64 then .err else (restTys u ts (d + 1)).bind fun ts => .ok (.union ts)
  | .unknown, d => if d > 64 then .err else .ok .unknown
def restTys (u : Uni) : List STy → Nat → Res (List Ty)
  | [], _ => .ok []
  | t :: l, d => (restTy u t d).bind fun t => (restTys u l d).bind fun l => .ok (t :: l)
def restFields (u : Uni) : List (SLit × STy × SPresence) → Nat → Res (List (Lit × Ty × Presence))
  | [], _ => .ok []
  | (k, t, p) :: l, d => (restTy u t d).bind fun t => (restFields u l d).bind fun l => .ok ((restLit k, t, restPresence p) :: l)
def restRest (u : Uni) : Option (STy × STy) → Nat → Res (Option (Ty × Ty))
  | none, _ => .ok none
  | some (k, v), d => (restTy u k d).bind fun k => (restTy u v d).bind fun v => .ok (some (k, v))
end

/-! ### symbols, graph facts -/

/-- core/symbol_store.rs L8-17 `SymbolKind`, and L130-140. -/
inductive SymKind where
  | cls | mod | method | const | localVar | instVar | classVar | globalVar
  deriving DecidableEq
inductive SSymKind where
  | cls | mod | method | const | localVar | instVar | classVar | globalVar
  deriving DecidableEq

/-- L1163-1174. -/
def snapSymKind : SymKind → SSymKind
  | .cls => .cls
  | .mod => .mod
  | .method => .method
  | .const => .const
  | .localVar => .localVar
  | .instVar => .instVar
  | .classVar => .classVar
  | .globalVar => .globalVar

/-- L1176-1187. -/
def restSymKind : SSymKind → SymKind
  | .cls => .cls
  | .mod => .mod
  | .method => .method
  | .const => .const
  | .localVar => .localVar
  | .instVar => .instVar
  | .classVar => .classVar
  | .globalVar => .globalVar

/-- core/symbol_store.rs L20-27 `SymbolFact`, and L142-148. -/
structure Sym where
  fqn : Fqn
  kind : SymKind
  nameRange : Range
  range : Range
structure SSym where
  fqn : SFqn
  kind : SSymKind
  nameRange : SRange
  range : SRange

/-- L1189-1196 `snapshot_symbol`. -/
def snapSym (s : Sym) : SSym := ⟨snapFqn s.fqn, snapSymKind s.kind, snapRange s.nameRange, snapRange s.range⟩

/-- L1198-1208 `restore_symbol`. -/
def restSym (u : Uni) (s : SSym) (file : Nat) : Res Sym :=
  (restRange s.range file).bind fun range =>
  (restRange s.nameRange file).bind fun nameRange =>
  (contained nameRange range).bind fun _ =>
  (restFqn u s.fqn).bind fun fqn => .ok ⟨fqn, restSymKind s.kind, nameRange, range⟩

/-- core/graph_store.rs L7-10 `GraphNodeKind` and L377-381; L1829-1841. -/
inductive NodeKind where
  | cls | mod
  deriving DecidableEq
inductive SNodeKind where
  | cls | mod
  deriving DecidableEq
def snapNodeKind : NodeKind → SNodeKind
  | .cls => .cls
  | .mod => .mod
def restNodeKind : SNodeKind → NodeKind
  | .cls => .cls
  | .mod => .mod

/-- core/graph_store.rs L13-22 `GraphEdgeKind` and L384-391. -/
inductive EdgeKind where
  | superclass | incl | prepend | extend | context
  deriving DecidableEq
inductive SEdgeKind where
  | superclass | incl | prepend | extend | context
  deriving DecidableEq
/-- L1843-1853. -/
def snapEdgeKind : EdgeKind → SEdgeKind
  | .superclass => .superclass
  | .incl => .incl
  | .prepend => .prepend
  | .extend => .extend
  | .context => .context
/-- L1855-1865. -/
def restEdgeKind : SEdgeKind → EdgeKind
  | .superclass => .superclass
  | .incl => .incl
  | .prepend => .prepend
  | .extend => .extend
  | .context => .context

/-- core/graph_store.rs L25-28 `GraphEdgeProvenance` and L421-425; L1867-1887. -/
inductive EdgeProv where
  | explicit | implicitObject
  deriving DecidableEq
inductive SEdgeProv where
  | explicit | implicitObject
  deriving DecidableEq
def snapEdgeProv : EdgeProv → SEdgeProv
  | .explicit => .explicit
  | .implicitObject => .implicitObject
def restEdgeProv : SEdgeProv → EdgeProv
  | .explicit => .explicit
  | .implicitObject => .implicitObject

/-- core/graph_store.rs L38-42 `GraphNodeFact`, and L393-398. -/
structure Node where
  fqn : Fqn
  kind : NodeKind
  range : Range
structure SNode where
  fqn : SFqn
  kind : SNodeKind
  range : SRange

/-- L1889-1895. -/
def snapNode (n : Node) : SNode := ⟨snapFqn n.fqn, snapNodeKind n.kind, snapRange n.range⟩
/-- L1897-1906. -/
def restNode (u : Uni) (n : SNode) (file : Nat) : Res Node :=
  (restFqn u n.fqn).bind fun fqn => (restRange n.range file).bind fun range => .ok ⟨fqn, restNodeKind n.kind, range⟩

/-- core/graph_store.rs L51-57 `GraphEdgeFact`, and L400-407. -/
structure Edge where
  source : Fqn
  target : Fqn
  kind : EdgeKind
  prov : EdgeProv
  range : Range
structure SEdge where
  source : SFqn
  target : SFqn
  kind : SEdgeKind
  prov : SEdgeProv
  range : SRange

/-- L1908-1916. -/
def snapEdge (e : Edge) : SEdge := ⟨snapFqn e.source, snapFqn e.target, snapEdgeKind e.kind, snapEdgeProv e.prov, snapRange e.range⟩
/-- L1918-1929. -/
def restEdge (u : Uni) (e : SEdge) (file : Nat) : Res Edge :=
  (restFqn u e.source).bind fun source => (restFqn u e.target).bind fun target =>
  (restRange e.range file).bind fun range => .ok ⟨source, target, restEdgeKind e.kind, restEdgeProv e.prov, range⟩

/-- core/graph_store.rs L82-90 `UnresolvedGraphEdgeFact`, and L409-419. -/
structure Unresolved where
  source : Fqn
  target : List Str
  absolute : Bool
  context : Fqn
  kind : EdgeKind
  prov : EdgeProv
  range : Range
structure SUnresolved where
  source : SFqn
  target : List Str
  absolute : Bool
  context : SFqn
  kind : SEdgeKind
  prov : SEdgeProv
  range : SRange

/-- L1931-1943. -/
def snapUnresolved (e : Unresolved) : SUnresolved :=
  ⟨snapFqn e.source, snapParts e.target, e.absolute, snapFqn e.context, snapEdgeKind e.kind, snapEdgeProv e.prov, snapRange e.range⟩
/-- L1945-1958. -/
def restUnresolved (u : Uni) (e : SUnresolved) (file : Nat) : Res Unresolved :=
  (restFqn u e.source).bind fun source => (restParts u e.target).bind fun target => (restFqn u e.context).bind fun context =>
  (restRange e.range file).bind fun range =>
    .ok ⟨source, target, e.absolute, context, restEdgeKind e.kind, restEdgeProv e.prov, range⟩

/-! ### methods -/

/-- core/method_store.rs L11-23 `MethodParamKind`, and L151-163. -/
inductive ParamKind where
  | required | optional | rest | requiredKeyword | optionalKeyword | keywordRest | block | forwarding | anonymousRest
  | anonymousKeywordRest
  deriving DecidableEq
inductive SParamKind where
  | required | optional | rest | requiredKeyword | optionalKeyword | keywordRest | block | forwarding | anonymousRest
  | anonymousKeywordRest
  deriving DecidableEq
/-- L1210-1223. -/
def snapParamKind : ParamKind → SParamKind
  | .required => .required
  | .optional => .optional
  | .rest => .rest
  | .requiredKeyword => .requiredKeyword
  | .optionalKeyword => .optionalKeyword
  | .keywordRest => .keywordRest
  | .block => .block
  | .forwarding => .forwarding
  | .anonymousRest => .anonymousRest
  | .anonymousKeywordRest => .anonymousKeywordRest
/-- L1225-1238. -/
def restParamKind : SParamKind → ParamKind
  | .required => .required
  | .optional => .optional
  | .rest => .rest
  | .requiredKeyword => .requiredKeyword
  | .optionalKeyword => .optionalKeyword
  | .keywordRest => .keywordRest
  | .block => .block
  | .forwarding => .forwarding
  | .anonymousRest => .anonymousRest
  | .anonymousKeywordRest => .anonymousKeywordRest

/-- core/method_store.rs L25-30 `MethodVisibility`, and L166-171; L1240-1254. -/
inductive Visibility where
  | pub | prot | priv
  deriving DecidableEq
inductive SVisibility where
  | pub | prot | priv
  deriving DecidableEq
def snapVisibility : Visibility → SVisibility
  | .pub => .pub
  | .prot => .prot
  | .priv => .priv
def restVisibility : SVisibility → Visibility
  | .pub => .pub
  | .prot => .prot
  | .priv => .priv

/-- core/method_store.rs L32-37 `MethodAvailability`, and L174-179. -/
inductive Availability where
  | available
  | unavailable (reason : Str)
  | absent (reason : Str)
  deriving DecidableEq
inductive SAvailability where
  | available
  | unavailable (reason : Str)
  | absent (reason : Str)
  deriving DecidableEq
/-- L1256-1266. -/
def snapAvailability : Availability → SAvailability
  | .available => .available
  | .unavailable r => .unavailable r
  | .absent r => .absent r
/-- L1284-1289 `validate_reason`: `trim().is_empty()`. -/
def blank (u : Uni) (s : Str) : Bool := s.all u.white
/-- L1268-1282. -/
def restAvailability (u : Uni) : SAvailability → Res Availability
  | .available => .ok .available
  | .unavailable r => if blank u r then .err else .ok (.unavailable r)
  | .absent r => if blank u r then .err else .ok (.absent r)

/-- core/method_store.rs L54-60 `MethodParamFact`, and L181-187. -/
structure Param where
  name : Str
  kind : ParamKind
  typeLabel : Option Str
  doc : Option Str
structure SParam where
  name : Str
  kind : SParamKind
  typeLabel : Option Str
  doc : Option Str

/-- L1301-1306. -/
def snapParam (p : Param) : SParam := ⟨p.name, snapParamKind p.kind, p.typeLabel, p.doc⟩
/-- L1343-1346: `MethodParamFact::new` (core/method_store.rs L79-93, with its assertion) and `with_signature_metadata`. -/
def restParam (p : SParam) : Res Param :=
  if p.name.isEmpty then .panic else .ok ⟨p.name, restParamKind p.kind, p.typeLabel, p.doc⟩

/-- core/callable_signature.rs L21-33 `CallableTypeTemplate`. -/
inductive Tmpl where
  | concrete (t : Ty)
  | receiver
  | var (name : Str)
  | array (t : Tmpl)
  | hash (k v : Tmpl)
  | union (ts : List Tmpl)
  | unconstrained
/-- L190-202 `SnapshotCallableTypeTemplate`. -/
inductive STmpl where
  | concrete (t : STy)
  | receiver
  | var (name : Str)
  | array (t : STmpl)
  | hash (k v : STmpl)
  | union (ts : List STmpl)
  | unconstrained

mutual
/-- L1431-1458 `snapshot_callable_template`. -/
def snapTmpl : Tmpl → STmpl
  | .concrete t => .concrete (snapTy t)
  | .receiver => .receiver
  | .var n => .var n
  | .array t => .array (snapTmpl t)
  | .hash k v => .hash (snapTmpl k) (snapTmpl v)
  | .union ts => .union (snapTmpls ts)
  | .unconstrained => .unconstrained
def snapTmpls : List Tmpl → List STmpl
  | [] => []
  | t :: l => snapTmpl t :: snapTmpls l
end

mutual
/-- L1490-1515 `restore_callable_template`. -/
def restTmpl (u : Uni) : STmpl → Res Tmpl
  | .concrete t => (restTy u t 1).bind fun t => .ok (.concrete t)
  | .receiver => .ok .receiver
  | .var n => .ok (.var n)
  | .array t => (restTmpl u t).bind fun t => .ok (.array t)
  | .hash k v => (restTmpl u k).bind fun k => (restTmpl u v).bind fun v => .ok (.hash k v)
  | .union ts => (restTmpls u ts).bind fun ts => .ok (.union ts)
  | .unconstrained => .ok .unconstrained
def restTmpls (u : Uni) : List STmpl → Res (List Tmpl)
  | [] => .ok []
  | t :: l => (restTmpl u t).bind fun t => (restTmpls u l).bind fun l => .ok (t :: l)
end

/-- core/callable_signature.rs L35-38 `CallableParameterTemplate`, and L204-208. -/
structure SigParam where
  kind : ParamKind
  ty : Tmpl
structure SSigParam where
  kind : SParamKind
  ty : STmpl

/-- core/callable_signature.rs L41-57 `CallableSignature` with its block. -/
structure Sig where
  receiverParams : List Str
  typeParams : List Str
  params : List SigParam
  blockParams : List Tmpl
  blockReturn : Tmpl
  blockRequired : Bool
  ret : Tmpl
/-- L210-224. -/
structure SSig where
  receiverParams : List Str
  typeParams : List Str
  params : List SSigParam
  blockParams : List STmpl
  blockReturn : STmpl
  blockRequired : Bool
  ret : STmpl

def snapSigParam (p : SigParam) : SSigParam := ⟨snapParamKind p.kind, snapTmpl p.ty⟩
def restSigParam (u : Uni) (p : SSigParam) : Res SigParam := (restTmpl u p.ty).bind fun t => .ok ⟨restParamKind p.kind, t⟩

/-- L1401-1429 `snapshot_callable_signature`. -/
def snapSig (s : Sig) : SSig :=
  ⟨s.receiverParams, s.typeParams, s.params.map snapSigParam, snapTmpls s.blockParams, snapTmpl s.blockReturn, s.blockRequired,
    snapTmpl s.ret⟩
/-- L1460-1488 `restore_callable_signature`. -/
def restSig (u : Uni) (s : SSig) : Res Sig :=
  (mapR (restSigParam u) s.params).bind fun params =>
  (restTmpls u s.blockParams).bind fun blockParams =>
  (restTmpl u s.blockReturn).bind fun blockReturn =>
  (restTmpl u s.ret).bind fun ret =>
    .ok ⟨s.receiverParams, s.typeParams, params, blockParams, blockReturn, s.blockRequired, ret⟩

/-- core/callable_signature.rs L10-13 `ForwardedBlockCall`, and L226-230. -/
structure Forwarded where
  receiver : Str
  method : Str

/-- core/method_store.rs L63-68 `HigherOrderMethodMetadata`; `DirectYieldCall` is its list of names. -/
structure Higher where
  sigs : List Sig
  forwarded : Option Forwarded
  direct : Option (List Str)

/-- core/method_store.rs L71-75. -/
def Higher.isEmpty (h : Higher) : Bool := h.sigs.isEmpty && h.forwarded.isNone && h.direct.isNone

/-- core/method_store.rs L106-121 `MethodFact`. -/
structure Method where
  fqn : Fqn
  owner : Fqn
  range : Range
  nameRange : Range
  params : List Str
  paramFacts : List Param
  shapeComplete : Bool
  delegate : Option Str
  visibility : Visibility
  availability : Availability
  doc : Option Str
  returnLabel : Option Str
  higher : Option Higher

/-- L237-254 `SnapshotMethodFact`. -/
structure SMethod where
  fqn : SFqn
  owner : SFqn
  range : SRange
  nameRange : SRange
  params : List Str
  paramFacts : List SParam
  shapeComplete : Bool
  delegate : Option Str
  visibility : SVisibility
  availability : SAvailability
  doc : Option Str
  returnLabel : Option Str
  sigs : List SSig
  forwarded : Option Forwarded
  direct : Option (List Str)

/-- core/method_store.rs L310-327: the three getters. -/
def Method.sigs (m : Method) : List Sig := match m.higher with | some h => h.sigs | none => []
def Method.forwarded (m : Method) : Option Forwarded := match m.higher with | some h => h.forwarded | none => none
def Method.direct (m : Method) : Option (List Str) := match m.higher with | some h => h.direct | none => none

/-- core/method_store.rs L329-332 `higher_order_metadata_mut`. -/
def orDefault : Option Higher → Higher
  | some h => h
  | none => ⟨[], none, none⟩

/-- core/method_store.rs L334-342 `clear_empty_higher_order`. -/
def clearEmpty : Option Higher → Option Higher
  | some h => if h.isEmpty then none else some h
  | none => none

/-- core/method_store.rs L254-267 `with_callable_signatures`, on the field it changes. -/
def withSigs (h : Option Higher) (sigs : List Sig) : Option Higher :=
  if sigs.isEmpty then clearEmpty (h.map fun h => { h with sigs := [] })
  else some { orDefault h with sigs := sigs }

/-- core/method_store.rs L285-297 `set_forwarded_block_call`. -/
def withForwarded (h : Option Higher) (f : Option Forwarded) : Option Higher :=
  match f with
  | some f => some { orDefault h with forwarded := some f }
  | none => clearEmpty (h.map fun h => { h with forwarded := none })

/-- core/method_store.rs L299-308 `set_direct_yield_call`. -/
def withDirect (h : Option Higher) (d : Option (List Str)) : Option Higher :=
  match d with
  | some d => some { orDefault h with direct := some d }
  | none => clearEmpty (h.map fun h => { h with direct := none })

/-- L1291-1334 `snapshot_method`. -/
def snapMethod (m : Method) : SMethod :=
  { fqn := snapFqn m.fqn, owner := snapFqn m.owner, range := snapRange m.range, nameRange := snapRange m.nameRange
    params := m.params, paramFacts := m.paramFacts.map snapParam, shapeComplete := m.shapeComplete, delegate := m.delegate
    visibility := snapVisibility m.visibility, availability := snapAvailability m.availability, doc := m.doc
    returnLabel := m.returnLabel, sigs := m.sigs.map snapSig, forwarded := m.forwarded, direct := m.direct }

/-- L1360-1372: the method of a forwarded block call. -/
def restForwarded (u : Uni) (f : Forwarded) : Res Forwarded :=
  (ofOption (newMethod u f.method)).bind fun m => .ok ⟨f.receiver, m⟩

/-- L1336-1399 `restore_method`. -/
def restMethod (u : Uni) (m : SMethod) (file : Nat) : Res Method :=
  (restRange m.range file).bind fun range =>
  (restRange m.nameRange file).bind fun nameRange =>
  (contained nameRange range).bind fun _ =>
  (mapR restParam m.paramFacts).bind fun paramFacts =>
  (optR (fun n => ofOption (newMethod u n)) m.delegate).bind fun delegate =>
  (mapR (restSig u) m.sigs).bind fun sigs =>
  (optR (restForwarded u) m.forwarded).bind fun forwarded =>
  (restFqn u m.fqn).bind fun fqn =>
  (restFqn u m.owner).bind fun owner =>
  (restAvailability u m.availability).bind fun availability =>
    .ok { fqn := fqn, owner := owner, range := range, nameRange := nameRange, params := m.params, paramFacts := paramFacts
          shapeComplete := m.shapeComplete, delegate := delegate, visibility := restVisibility m.visibility
          availability := availability, doc := m.doc, returnLabel := m.returnLabel
          higher := withDirect (withForwarded (withSigs none sigs) forwarded) m.direct }

/-- core/method_store.rs L346-351 `MethodVisibilityOverrideFact`, and L256-262. -/
structure Override where
  owner : Fqn
  method : Str
  visibility : Visibility
  range : Range
structure SOverride where
  owner : SFqn
  method : Str
  visibility : SVisibility
  range : SRange

/-- L1517-1526. -/
def snapOverride (o : Override) : SOverride := ⟨snapFqn o.owner, o.method, snapVisibility o.visibility, snapRange o.range⟩
/-- L1528-1543. -/
def restOverride (u : Uni) (o : SOverride) (file : Nat) : Res Override :=
  (restFqn u o.owner).bind fun owner => (ofOption (newMethod u o.method)).bind fun method =>
  (restRange o.range file).bind fun range => .ok ⟨owner, method, restVisibility o.visibility, range⟩

/-! ### type facts -/

/-- core/type_store.rs L52-73 `TypeSubject`. -/
inductive Subject where
  | const (f : Fqn)
  | localVar (scope : Nat) (name : Str)
  | instVar (owner : Fqn) (name : Str)
  | classVar (owner : Fqn) (name : Str)
  | globalVar (name : Str)
  | ret (f : Fqn)
  | param (method : Fqn) (name : Str)
  | expr (r : Range)
/-- L343-353 `SnapshotTypeSubject`. -/
inductive SSubject where
  | const (f : SFqn)
  | localVar (scope : Nat) (name : Str)
  | instVar (owner : SFqn) (name : Str)
  | classVar (owner : SFqn) (name : Str)
  | globalVar (name : Str)
  | ret (f : SFqn)
  | param (method : SFqn) (name : Str)
  | expr (r : SRange)

/-- L1725-1756. -/
def snapSubject : Subject → SSubject
  | .const f => .const (snapFqn f)
  | .localVar s n => .localVar s n
  | .instVar o n => .instVar (snapFqn o) n
  | .classVar o n => .classVar (snapFqn o) n
  | .globalVar n => .globalVar n
  | .ret f => .ret (snapFqn f)
  | .param m n => .param (snapFqn m) n
  | .expr r => .expr (snapRange r)

/-- L1758-1783. -/
def restSubject (u : Uni) (file : Nat) : SSubject → Res Subject
  | .const f => (restFqn u f).bind fun f => .ok (.const f)
  | .localVar s n => .ok (.localVar s n)
  | .instVar o n => (restFqn u o).bind fun o => .ok (.instVar o n)
  | .classVar o n => (restFqn u o).bind fun o => .ok (.classVar o n)
  | .globalVar n => .ok (.globalVar n)
  | .ret f => (restFqn u f).bind fun f => .ok (.ret f)
  | .param m n => (restFqn u m).bind fun m => .ok (.param m n)
  | .expr r => (restRange r file).bind fun r => .ok (.expr r)

/-- core/type_store.rs L76-87 `TypeProvenance`, and L356-366. -/
inductive Prov where
  | literal | assignment | flow | rbs | yard | runtime | extension | inferred
  deriving DecidableEq
inductive SProv where
  | literal | assignment | flow | rbs | yard | runtime | extension | inferred
  deriving DecidableEq
/-- L1785-1796. -/
def snapProv : Prov → SProv
  | .literal => .literal
  | .assignment => .assignment
  | .flow => .flow
  | .rbs => .rbs
  | .yard => .yard
  | .runtime => .runtime
  | .extension => .extension
  | .inferred => .inferred
/-- L1798-1809. -/
def restProv : SProv → Prov
  | .literal => .literal
  | .assignment => .assignment
  | .flow => .flow
  | .rbs => .rbs
  | .yard => .yard
  | .runtime => .runtime
  | .extension => .extension
  | .inferred => .inferred

/-- core/type_store.rs L90-95 `TypeFact`, and L368-374. -/
structure TyFact where
  subject : Subject
  ty : Ty
  range : Range
  prov : Prov
structure STyFact where
  subject : SSubject
  ty : STy
  range : SRange
  prov : SProv

/-- L1811-1818. -/
def snapTyFact (f : TyFact) : STyFact := ⟨snapSubject f.subject, snapTy f.ty, snapRange f.range, snapProv f.prov⟩
/-- L1820-1827. -/
def restTyFact (u : Uni) (f : STyFact) (file : Nat) : Res TyFact :=
  (restSubject u file f.subject).bind fun subject => (restTy u f.ty 0).bind fun ty =>
  (restRange f.range file).bind fun range => .ok ⟨subject, ty, range, restProv f.prov⟩

/-! ### bodies of constants -/

/-- core/callable_body.rs L14-21. -/
def maxBodyParams : Nat := 4
def maxBodyNodes : Nat := 64
def maxBodyCaptures : Nat := 8
def maxBodyVariants : Nat := 8
def maxBodyDepth : Nat := 8

/-- core/callable_body.rs L40-54 `CallableBodyExpression`. -/
inductive Expr where
  | literal (t : Ty)
  | param (i : Nat)
  | capture (name : Str)
  | array (es : List Expr)
  | shape (fs : List (Lit × Expr))
  | call (receiver : Expr) (method : Str) (args : List Expr) (keys : List (Option Lit))
  | union (es : List Expr)
/-- L95-109 `SnapshotCallableBodyExpression`. -/
inductive SExpr where
  | literal (t : STy)
  | param (i : Nat)
  | capture (name : Str)
  | array (es : List SExpr)
  | shape (fs : List (SLit × SExpr))
  | call (receiver : SExpr) (method : Str) (args : List SExpr) (keys : List (Option SLit))
  | union (es : List SExpr)

/-- core/callable_body.rs L24-28, and L87-92. -/
inductive BodyKind where
  | required | optional | rest
  deriving DecidableEq
inductive SBodyKind where
  | required | optional | rest
  deriving DecidableEq
def snapBodyKind : BodyKind → SBodyKind
  | .required => .required
  | .optional => .optional
  | .rest => .rest
def restBodyKind : SBodyKind → BodyKind
  | .required => .required
  | .optional => .optional
  | .rest => .rest

/-- core/callable_body.rs L31-37 and L57-63; L70-85. -/
structure BodyParam where
  name : Str
  kind : BodyKind
  dflt : Option Expr
structure SBodyParam where
  name : Str
  kind : SBodyKind
  dflt : Option SExpr
structure Summary where
  strict : Bool
  params : List BodyParam
  captures : List Str
  result : Expr
  nodes : Nat
structure SSummary where
  strict : Bool
  params : List SBodyParam
  captures : List Str
  result : SExpr
  nodes : Nat

/-- `windows(2).any(|pair| pair[0] >= pair[1])` for a list of sort keys. -/
def notRising : List (List Nat) → Bool
  | a :: b :: l => Store.lexLe b a || notRising (b :: l)
  | _ => false

mutual
/-- core/callable_body.rs L185-256 `validate_expression`; the number of nodes so far goes in and comes out, `none` is an error. The
list of captures was found to be rising before (L95-97), so the binary search is membership. -/
def checkExpr (params : Nat) (captures : List Str) : Expr → Nat → Nat → Option Nat
  | .literal t, depth, n =>
    if depth > maxBodyDepth then none else if n + 1 > maxBodyNodes then none
    else if hasUnknown t then none else some (n + 1)
  | .param i, depth, n =>
    if depth > maxBodyDepth then none else if n + 1 > maxBodyNodes then none
    else if i ≥ params then none else some (n + 1)
  | .capture name, depth, n =>
    if depth > maxBodyDepth then none else if n + 1 > maxBodyNodes then none
    else if !captures.contains name then none else some (n + 1)
  | .array es, depth, n =>
    if depth > maxBodyDepth then none else if n + 1 > maxBodyNodes then none
    else checkExprs params captures es (depth + 1) (n + 1)
  | .shape fs, depth, n =>
    if depth > maxBodyDepth then none else if n + 1 > maxBodyNodes then none
    else if notRising (fs.map fun f => f.1.enc) then none
    else checkFields params captures fs (depth + 1) (n + 1)
  | .call r _ args keys, depth, n =>
    if depth > maxBodyDepth then none else if n + 1 > maxBodyNodes then none
    else if args.length ≠ keys.length then none
    else
      match checkExpr params captures r (depth + 1) (n + 1) with
      | none => none
      | some n => checkExprs params captures args (depth + 1) n
  | .union es, depth, n =>
    if depth > maxBodyDepth then none else if n + 1 > maxBodyNodes then none
    else if es.isEmpty ∨ es.length > maxBodyVariants then none
    else checkExprs params captures es (depth + 1) (n + 1)
def checkExprs (params : Nat) (captures : List Str) : List Expr → Nat → Nat → Option Nat
  | [], _, n => some n
  | e :: l, depth, n =>
    match checkExpr params captures e depth n with
    | none => none
    | some n => checkExprs params captures l depth n
def checkFields (params : Nat) (captures : List Str) : List (Lit × Expr) → Nat → Nat → Option Nat
  | [], _, n => some n
  | (_, e) :: l, depth, n =>
    match checkExpr params captures e depth n with
    | none => none
    | some n => checkFields params captures l depth n
end

/-- core/callable_body.rs L98-121: the parameters in order; `seen` are the names before. (`rest_seen` is implied: a rest parameter
is accepted only as the last one.) -/
def checkParams : List Str → List BodyParam → Bool
  | _, [] => true
  | seen, p :: l =>
    if p.name.isEmpty || seen.contains p.name then false
    else
      (match p.kind with
        | .required => p.dflt.isNone
        | .optional => p.dflt.isSome
        | .rest => p.dflt.isNone && l.isEmpty) && checkParams (p.name :: seen) l

/-- core/callable_body.rs L122-129: the defaults, in the order of the parameters. -/
def checkDefaults (params : Nat) (captures : List Str) : List BodyParam → Nat → Option Nat
  | [], n => some n
  | p :: l, n =>
    match p.dflt with
    | none => checkDefaults params captures l n
    | some e =>
      match checkExpr params captures e 0 n with
      | none => none
      | some n => checkDefaults params captures l n

/-- core/callable_body.rs L88-135 `validate`. -/
def Summary.check (s : Summary) : Bool :=
  if s.params.length > maxBodyParams ∨ s.captures.length > maxBodyCaptures ∨ s.nodes > maxBodyNodes then false
  else if notRising (s.captures.map fun c => c.map Char.toNat) then false
  else if !checkParams [] s.params then false
  else
    match checkDefaults s.params.length s.captures s.params 0 with
    | none => false
    | some n =>
      match checkExpr s.params.length s.captures s.result 0 n with
      | none => false
      | some n => n == s.nodes

mutual
/-- L934-990 `snapshot_callable_body_expression`. -/
def snapExpr : Expr → SExpr
  | .literal t => .literal (snapTy t)
  | .param i => .param i
  | .capture n => .capture n
  | .array es => .array (snapExprs es)
  | .shape fs => .shape (snapBodyFields fs)
  | .call r m args keys => .call (snapExpr r) m (snapExprs args) (keys.map fun k => k.map snapLit)
  | .union es => .union (snapExprs es)
def snapExprs : List Expr → List SExpr
  | [] => []
  | e :: l => snapExpr e :: snapExprs l
def snapBodyFields : List (Lit × Expr) → List (SLit × SExpr)
  | [] => []
  | (k, e) :: l => (snapLit k, snapExpr e) :: snapBodyFields l
end

mutual
/-- L992-1063 `restore_callable_body_expression`. -/
def restExpr (u : Uni) : SExpr → Nat → Res Expr
  | .literal t, d => if d > maxBodyDepth then .err else (restTy u t 1).bind fun t => .ok (.literal t)
  | .param i, d => if d > maxBodyDepth then .err else .ok (.param i)
  | .capture n, d => if d > maxBodyDepth then .err else .ok (.capture n)
  | .array es, d => if d > maxBodyDepth then .err else (restExprs u es (d + 1)).bind fun es => .ok (.array es)
  | .shape fs, d => if d > maxBodyDepth then .err else (restBodyFields u fs (d + 1)).bind fun fs => .ok (.shape fs)
  | .call r m args keys, d =>
    if d > maxBodyDepth then .err
    else if args.length ≠ keys.length then .err
    else
      (restExpr u r (d + 1)).bind fun r => (ofOption (newMethod u m)).bind fun m =>
      (restExprs u args (d + 1)).bind fun args => .ok (.call r m args (keys.map fun k => k.map restLit))
  | .union es, d =>
    if d > maxBodyDepth then .err
    else if es.length > maxBodyVariants then .err
    else (restExprs u es (d + 1)).bind fun es => .ok (.union es)
def restExprs (u : Uni) : List SExpr → Nat → Res (List Expr)
  | [], _ => .ok []
  | e :: l, d => (restExpr u e d).bind fun e => (restExprs u l d).bind fun l => .ok (e :: l)
def restBodyFields (u : Uni) : List (SLit × SExpr) → Nat → Res (List (Lit × Expr))
  | [], _ => .ok []
  | (k, e) :: l, d => (restExpr u e d).bind fun e => (restBodyFields u l d).bind fun l => .ok ((restLit k, e) :: l)
end

def snapBodyParam (p : BodyParam) : SBodyParam := ⟨p.name, snapBodyKind p.kind, p.dflt.map snapExpr⟩
def restBodyParam (u : Uni) (p : SBodyParam) : Res BodyParam :=
  (optR (fun e => restExpr u e 0) p.dflt).bind fun e => .ok ⟨p.name, restBodyKind p.kind, e⟩

/-- L848-883 `snapshot_callable_body_summary`. -/
def snapSummary (s : Summary) : Res SSummary :=
  if !s.check then .err
  else .ok ⟨s.strict, s.params.map snapBodyParam, s.captures, snapExpr s.result, s.nodes⟩

/-- L885-932 `restore_callable_body_summary`. -/
def restSummary (u : Uni) (s : SSummary) : Res Summary :=
  if s.params.length > maxBodyParams ∨ s.captures.length > maxBodyCaptures ∨ s.nodes > maxBodyNodes then .err
  else if !s.captures.isEmpty then .err
  else
    (mapR (restBodyParam u) s.params).bind fun params => (restExpr u s.result 0).bind fun result =>
      let t : Summary := ⟨s.strict, params, s.captures, result, s.nodes⟩
      if !t.check then .err else .ok t

/-- core/callable_body.rs L138-142 `ConstantCallableBodyFact`, and L63-68. -/
structure Body where
  constant : Fqn
  summary : Summary
  range : Range
structure SBody where
  constant : SFqn
  summary : SSummary
  range : SRange

/-- L820-831 `snapshot_constant_callable_body`. -/
def snapBody (b : Body) : Res SBody :=
  if !b.summary.captures.isEmpty then .err
  else (snapSummary b.summary).bind fun s => .ok ⟨snapFqn b.constant, s, snapRange b.range⟩

/-- L833-846 `restore_constant_callable_body`. -/
def restBody (u : Uni) (b : SBody) (file : Nat) : Res Body :=
  (restSummary u b.summary).bind fun s =>
  if !s.captures.isEmpty then .err
  else (restFqn u b.constant).bind fun c => (restRange b.range file).bind fun r => .ok ⟨c, s, r⟩

/-! ### the facts of a file -/

/-- engine `FileFacts`. `refs`, `diagCandidates`, `diags` and `contexts` are the reference candidates, diagnostic candidates,
diagnostics and execution contexts; `evidence` and `localReads` stand for the rest of the inference evidence and for the local
read types, `[]` being their default. -/
structure Facts where
  symbols : List Sym
  methods : List Method
  overrides : List Override
  types : List TyFact
  nodes : List Node
  edges : List Edge
  unresolved : List Unresolved
  bodies : List Body
  refs : List Nat
  diagCandidates : List Nat
  diags : List Nat
  contexts : List Nat
  evidence : List Nat
  localReads : List Nat

/-- L51-62 `ProjectNeutralFileFactsSnapshot`. -/
structure Snap where
  symbols : List SSym
  methods : List SMethod
  overrides : List SOverride
  types : List STyFact
  nodes : List SNode
  edges : List SEdge
  unresolved : List SUnresolved
  bodies : List SBody

/-- L31-34 `ProjectNeutralFileFactsTemplate`. -/
structure Template where
  source : Nat
  facts : Facts

/-- L37-43 `ProjectNeutralTemplateRejection`. -/
inductive Rejection where
  | projectSpecific
  | foreign (expected actual : Nat)
  deriving DecidableEq

/-- L618-624: types of locals and expressions are not kept. -/
def keepType (f : TyFact) : Bool :=
  match f.subject with
  | .localVar _ _ => false
  | .expr _ => false
  | _ => true

/-- L616-634 `retain_project_neutral_declaration_facts`. -/
def retain (f : Facts) : Facts :=
  { f with
    symbols := f.symbols.filter fun s => decide (s.kind ≠ .localVar)
    types := f.types.filter keepType
    bodies := f.bodies.filter fun b => b.summary.captures.isEmpty
    evidence := []
    localReads := [] }

/-- core/fully_qualified_name.rs L269-279 `namespace_parts_slice`. -/
def Fqn.parts : Fqn → List Str
  | .ns ps _ => ps
  | .const ps => ps
  | .method ps _ => ps
  | _ => []

/-- L636-640 `fqn_has_generated_owner`. -/
def fqnGenerated (f : Fqn) : Bool := f.parts.any Owners.isGenerated

mutual
/-- L642-667 `ruby_type_has_generated_owner`. -/
def tyGenerated : Ty → Bool
  | .cls f => fqnGenerated f
  | .mod f => fqnGenerated f
  | .clsRef f => fqnGenerated f
  | .modRef f => fqnGenerated f
  | .array ts => tysGenerated ts
  | .union ts => tysGenerated ts
  | .hash ks vs => tysGenerated ks || tysGenerated vs
  | .shape fs r _ _ _ => fieldsGenerated fs || restGenerated r
  | .lit _ => false
  | .unknown => false
def tysGenerated : List Ty → Bool
  | [] => false
  | t :: l => tyGenerated t || tysGenerated l
def fieldsGenerated : List (Lit × Ty × Presence) → Bool
  | [] => false
  | (_, t, _) :: l => tyGenerated t || fieldsGenerated l
def restGenerated : Option (Ty × Ty) → Bool
  | none => false
  | some (k, v) => tyGenerated k || tyGenerated v
end

/-- L669-681 `type_subject_has_generated_owner`. -/
def subjectGenerated : Subject → Bool
  | .const f => fqnGenerated f
  | .ret f => fqnGenerated f
  | .param m _ => fqnGenerated m
  | .instVar o _ => fqnGenerated o
  | .classVar o _ => fqnGenerated o
  | .localVar _ _ => false
  | .globalVar _ => false
  | .expr _ => false

/-- L683-720 `declaration_facts_have_generated_owner`. -/
def factsGenerated (f : Facts) : Bool :=
  f.symbols.any (fun s => fqnGenerated s.fqn)
  || f.methods.any (fun m => fqnGenerated m.fqn || fqnGenerated m.owner)
  || f.overrides.any (fun o => fqnGenerated o.owner)
  || f.types.any (fun t => subjectGenerated t.subject || tyGenerated t.ty)
  || f.nodes.any (fun n => fqnGenerated n.fqn)
  || f.edges.any (fun e => fqnGenerated e.source || fqnGenerated e.target)
  || f.unresolved.any (fun e => fqnGenerated e.source || e.target.any Owners.isGenerated || fqnGenerated e.context)
  || f.bodies.any (fun b => fqnGenerated b.constant)

/-- L1973-1984 `validate_range`: the first range of another file. -/
def foreignRange (source : Nat) (r : Range) : Option Rejection :=
  if r.file ≠ source then some (.foreign source r.file) else none

/-- L470-481: the ranges in the subject of a type fact. -/
def subjectRanges : Subject → List Range
  | .expr r => [r]
  | _ => []

/-- L457-493: the ranges in the order in which they are checked. -/
def checkedRanges (f : Facts) : List Range :=
  f.symbols.flatMap (fun s => [s.range, s.nameRange])
  ++ f.methods.flatMap (fun m => [m.range, m.nameRange])
  ++ f.overrides.map (fun o => o.range)
  ++ f.types.flatMap (fun t => t.range :: subjectRanges t.subject)
  ++ f.nodes.map (fun n => n.range)
  ++ f.edges.map (fun e => e.range)
  ++ f.unresolved.map (fun e => e.range)
  ++ f.bodies.map (fun b => b.range)

/-- L444-499 `try_new`. -/
def tryNew (source : Nat) (facts : Facts) : Except Rejection Template :=
  let facts := retain facts
  if !facts.refs.isEmpty || !facts.diagCandidates.isEmpty || !facts.diags.isEmpty || !facts.contexts.isEmpty || factsGenerated facts
  then .error .projectSpecific
  else
    match (checkedRanges facts).findSome? (foreignRange source) with
    | some e => .error e
    | none => .ok ⟨source, facts⟩

/-- L2025-2031 `rebind_range`; `none` is the failed assertion. -/
def rebindRange (source target : Nat) (r : Range) : Option Range :=
  if r.file = source then some { r with file := target } else none

/-- `for fact in &mut facts { … }` with an assertion that can fail. -/
def rebindList {α : Type} (f : α → Option α) : List α → Option (List α)
  | [] => some []
  | a :: l =>
    match f a with
    | none => none
    | some b =>
      match rebindList f l with
      | none => none
      | some l => some (b :: l)

def rebindSubject (source target : Nat) : Subject → Option Subject
  | .expr r => (rebindRange source target r).map .expr
  | s => some s

def rebindSym (source target : Nat) (s : Sym) : Option Sym :=
  match rebindRange source target s.range with
  | none => none
  | some r => (rebindRange source target s.nameRange).map fun n => { s with range := r, nameRange := n }
def rebindMethod (source target : Nat) (m : Method) : Option Method :=
  match rebindRange source target m.range with
  | none => none
  | some r => (rebindRange source target m.nameRange).map fun n => { m with range := r, nameRange := n }
def rebindTyFact (source target : Nat) (t : TyFact) : Option TyFact :=
  match rebindRange source target t.range with
  | none => none
  | some r => (rebindSubject source target t.subject).map fun s => { t with range := r, subject := s }

/-- L1986-2023 `rebind_all_ranges`. -/
def rebindAll (source target : Nat) (f : Facts) : Option Facts :=
  match rebindList (rebindSym source target) f.symbols, rebindList (rebindMethod source target) f.methods,
    rebindList (fun o => (rebindRange source target o.range).map fun r => { o with range := r }) f.overrides,
    rebindList (rebindTyFact source target) f.types,
    rebindList (fun n => (rebindRange source target n.range).map fun r => { n with range := r }) f.nodes,
    rebindList (fun e => (rebindRange source target e.range).map fun r => { e with range := r }) f.edges,
    rebindList (fun e => (rebindRange source target e.range).map fun r => { e with range := r }) f.unresolved,
    rebindList (fun b => (rebindRange source target b.range).map fun r => { b with range := r }) f.bodies with
  | some symbols, some methods, some overrides, some types, some nodes, some edges, some unresolved, some bodies =>
    some { f with symbols := symbols, methods := methods, overrides := overrides, types := types, nodes := nodes, edges := edges
                  unresolved := unresolved, bodies := bodies }
  | _, _, _, _, _, _, _, _ => none

/-- L501-505 `instantiate`; L507-510 `into_instantiated` gives the same facts. -/
def instantiate (t : Template) (target : Nat) : Option Facts := rebindAll t.source target t.facts

/-- L722-768 `snapshot_declaration_facts`. -/
def snapFacts (f : Facts) : Res Snap :=
  (mapR snapBody f.bodies).bind fun bodies =>
    .ok { symbols := f.symbols.map snapSym, methods := f.methods.map snapMethod, overrides := f.overrides.map snapOverride
          types := f.types.map snapTyFact, nodes := f.nodes.map snapNode, edges := f.edges.map snapEdge
          unresolved := f.unresolved.map snapUnresolved, bodies := bodies }

/-- L770-818 `restore_declaration_facts`. -/
def restFacts (u : Uni) (s : Snap) (file : Nat) : Res Facts :=
  (mapR (fun x => restSym u x file) s.symbols).bind fun symbols =>
  (mapR (fun x => restMethod u x file) s.methods).bind fun methods =>
  (mapR (fun x => restOverride u x file) s.overrides).bind fun overrides =>
  (mapR (fun x => restTyFact u x file) s.types).bind fun types =>
  (mapR (fun x => restNode u x file) s.nodes).bind fun nodes =>
  (mapR (fun x => restEdge u x file) s.edges).bind fun edges =>
  (mapR (fun x => restUnresolved u x file) s.unresolved).bind fun unresolved =>
  (mapR (fun x => restBody u x file) s.bodies).bind fun bodies =>
    .ok { symbols := symbols, methods := methods, overrides := overrides, types := types, nodes := nodes, edges := edges
          unresolved := unresolved, bodies := bodies, refs := [], diagCandidates := [], diags := [], contexts := []
          evidence := [], localReads := [] }

/-- L603-605 `to_persistent_snapshot`. -/
def toSnapshot (t : Template) : Res Snap := snapFacts t.facts

/-- L607-613 `try_from_persistent_snapshot`. -/
def fromSnapshot (u : Uni) (s : Snap) : Res Template :=
  (restFacts u s 0).bind fun facts =>
    match tryNew 0 facts with
    | .ok t => .ok t
    | .error _ => .err

end Verif.Snapshot
