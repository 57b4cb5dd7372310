import Verif.Model.Snapshot
/-!
What the facts of a dependency are, when they can be saved and come back, and what may be in a template.
-/
namespace Verif.Snapshot

/-! ### values as the constructors give them -/

/-- A part of a name: an ordinary constant or the identity of a generated owner. -/
def PartMade (u : Uni) (s : Str) : Prop :=
  (∃ x, Owners.newConstant u.xidStart u.upper u.xidContinue x = some s) ∨ ∃ a b c, Owners.newOwner a b c = some s

def MethodMade (u : Uni) (s : Str) : Prop := ∃ x, newMethod u x = some s

def FqnMade (u : Uni) : Fqn → Prop
  | .ns ps _ => ∀ p ∈ ps, PartMade u p
  | .const ps => ∀ p ∈ ps, PartMade u p
  | .method ps m => (∀ p ∈ ps, PartMade u p) ∧ MethodMade u m
  | .localVar n => validLocal u n = true
  | .instVar n => validInst u n = true
  | .classVar n => validClass u n = true
  | .globalVar n => validGlobal u n = true

/-- A type whose names are made by their constructors and whose shapes come from `newShape`. -/
inductive TyMade (u : Uni) : Ty → Prop
  | cls {f} : FqnMade u f → TyMade u (.cls f)
  | mod {f} : FqnMade u f → TyMade u (.mod f)
  | clsRef {f} : FqnMade u f → TyMade u (.clsRef f)
  | modRef {f} : FqnMade u f → TyMade u (.modRef f)
  | lit (v) : TyMade u (.lit v)
  | array {ts} : (∀ t ∈ ts, TyMade u t) → TyMade u (.array ts)
  | hash {ks vs} : (∀ t ∈ ks, TyMade u t) → (∀ t ∈ vs, TyMade u t) → TyMade u (.hash ks vs)
  | shape {fs r e s t} : (∀ f ∈ fs, TyMade u f.2.1) → (∀ p ∈ r, TyMade u p.1) → (∀ p ∈ r, TyMade u p.2) →
      newShape fs r e s = some t → TyMade u t
  | union {ts} : (∀ t ∈ ts, TyMade u t) → TyMade u (.union ts)
  | unknown : TyMade u .unknown

def RangeMade (r : Range) : Prop := r.start ≤ r.stop

/-- One range lies in another one of the same file. -/
def Within (inner outer : Range) : Prop := inner.file = outer.file ∧ outer.start ≤ inner.start ∧ inner.stop ≤ outer.stop

structure SymMade (u : Uni) (s : Sym) : Prop where
  fqn : FqnMade u s.fqn
  range : RangeMade s.range
  nameRange : RangeMade s.nameRange
  within : Within s.nameRange s.range

inductive TmplMade (u : Uni) : Tmpl → Prop
  | concrete {t} : TyMade u t → TmplMade u (.concrete t)
  | receiver : TmplMade u .receiver
  | var (n) : TmplMade u (.var n)
  | array {t} : TmplMade u t → TmplMade u (.array t)
  | hash {k v} : TmplMade u k → TmplMade u v → TmplMade u (.hash k v)
  | union {ts} : (∀ t ∈ ts, TmplMade u t) → TmplMade u (.union ts)
  | unconstrained : TmplMade u .unconstrained

/-- The types of a signature. -/
def Sig.tmpls (s : Sig) : List Tmpl := s.params.map (fun p => p.ty) ++ s.blockParams ++ [s.blockReturn, s.ret]

/-- A reason is not blank. -/
def ReasonMade (u : Uni) (r : Str) : Prop := ∃ c ∈ r, u.white c = false

structure MethodFactMade (u : Uni) (m : Method) : Prop where
  fqn : FqnMade u m.fqn
  owner : FqnMade u m.owner
  range : RangeMade m.range
  nameRange : RangeMade m.nameRange
  within : Within m.nameRange m.range
  params : ∀ p ∈ m.paramFacts, p.name ≠ []
  delegate : ∀ d ∈ m.delegate, MethodMade u d
  unavailable : ∀ r, m.availability = .unavailable r → ReasonMade u r
  absent : ∀ r, m.availability = .absent r → ReasonMade u r
  /-- The record is dropped when nothing is in it. -/
  higher : m.higher ≠ some ⟨[], none, none⟩
  sigs : ∀ h ∈ m.higher, ∀ s ∈ h.sigs, ∀ t ∈ s.tmpls, TmplMade u t
  forwarded : ∀ h ∈ m.higher, ∀ f ∈ h.forwarded, MethodMade u f.method

structure OverrideMade (u : Uni) (o : Override) : Prop where
  owner : FqnMade u o.owner
  method : MethodMade u o.method
  range : RangeMade o.range

def Subject.fqns : Subject → List Fqn
  | .const f => [f]
  | .instVar o _ => [o]
  | .classVar o _ => [o]
  | .ret f => [f]
  | .param m _ => [m]
  | .localVar _ _ => []
  | .globalVar _ => []
  | .expr _ => []

structure TyFactMade (u : Uni) (t : TyFact) : Prop where
  subject : ∀ f ∈ t.subject.fqns, FqnMade u f
  expr : ∀ r, t.subject = .expr r → RangeMade r
  ty : TyMade u t.ty
  range : RangeMade t.range

structure NodeMade (u : Uni) (n : Node) : Prop where
  fqn : FqnMade u n.fqn
  range : RangeMade n.range

structure EdgeMade (u : Uni) (e : Edge) : Prop where
  source : FqnMade u e.source
  target : FqnMade u e.target
  range : RangeMade e.range

structure UnresolvedMade (u : Uni) (e : Unresolved) : Prop where
  source : FqnMade u e.source
  target : ∀ p ∈ e.target, PartMade u p
  context : FqnMade u e.context
  range : RangeMade e.range

/-- `InsideE n e x`: `x` is in `e`, `n` levels down. -/
inductive InsideE : Nat → Expr → Expr → Prop
  | self (e) : InsideE 0 e e
  | array {n es e x} : e ∈ es → InsideE n e x → InsideE (n + 1) (.array es) x
  | shape {n fs f x} : f ∈ fs → InsideE n f.2 x → InsideE (n + 1) (.shape fs) x
  | receiver {n r m as ks x} : InsideE n r x → InsideE (n + 1) (.call r m as ks) x
  | arg {n r m as ks a x} : a ∈ as → InsideE n a x → InsideE (n + 1) (.call r m as ks) x
  | union {n es e x} : e ∈ es → InsideE n e x → InsideE (n + 1) (.union es) x

/-- The expressions of a body. -/
def Summary.exprs (s : Summary) : List Expr := s.params.filterMap (fun p => p.dflt) ++ [s.result]

structure BodyMade (u : Uni) (b : Body) : Prop where
  constant : FqnMade u b.constant
  range : RangeMade b.range
  types : ∀ e ∈ b.summary.exprs, ∀ n t, InsideE n e (.literal t) → TyMade u t
  methods : ∀ e ∈ b.summary.exprs, ∀ n r m as ks, InsideE n e (.call r m as ks) → MethodMade u m

structure Made (u : Uni) (f : Facts) : Prop where
  symbols : ∀ x ∈ f.symbols, SymMade u x
  methods : ∀ x ∈ f.methods, MethodFactMade u x
  overrides : ∀ x ∈ f.overrides, OverrideMade u x
  types : ∀ x ∈ f.types, TyFactMade u x
  nodes : ∀ x ∈ f.nodes, NodeMade u x
  edges : ∀ x ∈ f.edges, EdgeMade u x
  unresolved : ∀ x ∈ f.unresolved, UnresolvedMade u x
  bodies : ∀ x ∈ f.bodies, BodyMade u x

/-! ### bodies that can be saved -/

/-- `Inside n t x`: the type `x` is in the type `t`, `n` levels down. -/
inductive Inside : Nat → Ty → Ty → Prop
  | self (t) : Inside 0 t t
  | array {n ts t x} : t ∈ ts → Inside n t x → Inside (n + 1) (.array ts) x
  | union {n ts t x} : t ∈ ts → Inside n t x → Inside (n + 1) (.union ts) x
  | key {n ks vs t x} : t ∈ ks → Inside n t x → Inside (n + 1) (.hash ks vs) x
  | value {n ks vs t x} : t ∈ vs → Inside n t x → Inside (n + 1) (.hash ks vs) x
  | field {n fs r e s d f x} : f ∈ fs → Inside n f.2.1 x → Inside (n + 1) (.shape fs r e s d) x
  | restKey {n fs r e s d x} {k v : Ty} : r = some (k, v) → Inside n k x → Inside (n + 1) (.shape fs r e s d) x
  | restValue {n fs r e s d x} {k v : Ty} : r = some (k, v) → Inside n v x → Inside (n + 1) (.shape fs r e s d) x

mutual
/-- The number of nodes of an expression. -/
def Expr.size : Expr → Nat
  | .array es => 1 + sizes es
  | .shape fs => 1 + fieldSizes fs
  | .call r _ as _ => 1 + (r.size + sizes as)
  | .union es => 1 + sizes es
  | .literal _ => 1
  | .param _ => 1
  | .capture _ => 1
def sizes : List Expr → Nat
  | [] => 0
  | e :: l => e.size + sizes l
def fieldSizes : List (Lit × Expr) → Nat
  | [] => 0
  | (_, e) :: l => e.size + fieldSizes l
end

/-- The strict order of texts and of keys. -/
def Before (a b : List Nat) : Prop := Store.lexLe a b = true ∧ a ≠ b

/-- What is asked of one node. -/
def NodeOk (params : Nat) (captures : List Str) : Expr → Prop
  | .literal t => ¬∃ n, Inside n t .unknown
  | .param i => i < params
  | .capture name => name ∈ captures
  | .array _ => True
  | .shape fs => fs.Pairwise fun a b => Before a.1.enc b.1.enc
  | .call _ _ as ks => as.length = ks.length
  | .union es => 1 ≤ es.length ∧ es.length ≤ 8

/-- A body within the bounds. -/
structure BodyOk (s : Summary) : Prop where
  params : s.params.length ≤ 4
  captures : s.captures.length ≤ 8
  rising : s.captures.Pairwise fun a b => Before (a.map Char.toNat) (b.map Char.toNat)
  named : ∀ p ∈ s.params, p.name ≠ []
  distinct : s.params.Pairwise fun a b => a.name ≠ b.name
  /-- Exactly the optional parameters have a default. -/
  defaults : ∀ p ∈ s.params, (p.dflt.isSome ↔ p.kind = .optional)
  /-- A rest parameter is the last one. -/
  last : ∀ pre p post, s.params = pre ++ p :: post → p.kind = .rest → post = []
  nodes : ∀ e ∈ s.exprs, ∀ n x, InsideE n e x → n ≤ 8 ∧ NodeOk s.params.length s.captures x
  counted : s.nodes = sizes s.exprs
  bound : s.nodes ≤ 64

/-! ### the limits of a snapshot -/

/-- The name at the top of a type. -/
def Ty.name : Ty → Option Fqn
  | .cls f => some f
  | .mod f => some f
  | .clsRef f => some f
  | .modRef f => some f
  | _ => none

/-- A name of at most 4096 parts. -/
def FqnFits (f : Fqn) : Prop := f.parts.length ≤ 4096

/-- Everything in the type is at most 64 levels down, counted from `d`, and every name fits. -/
def TyFits (d : Nat) (t : Ty) : Prop := ∀ n x, Inside n t x → d + n ≤ 64 ∧ ∀ f, x.name = some f → FqnFits f

/-- The types in a template. -/
inductive InTmpl : Tmpl → Ty → Prop
  | concrete (t) : InTmpl (.concrete t) t
  | array {e t} : InTmpl e t → InTmpl (.array e) t
  | key {k v t} : InTmpl k t → InTmpl (.hash k v) t
  | value {k v t} : InTmpl v t → InTmpl (.hash k v) t
  | union {es e t} : e ∈ es → InTmpl e t → InTmpl (.union es) t

/-- The types of a method; they count from one. -/
def Method.HasType (m : Method) (t : Ty) : Prop := ∃ h ∈ m.higher, ∃ s ∈ h.sigs, ∃ e ∈ s.tmpls, InTmpl e t

/-- The types of a body; they count from one. -/
def Body.HasType (b : Body) (t : Ty) : Prop := ∃ e ∈ b.summary.exprs, ∃ n, InsideE n e (.literal t)

structure Fits (f : Facts) : Prop where
  symbols : ∀ x ∈ f.symbols, FqnFits x.fqn
  methods : ∀ x ∈ f.methods, FqnFits x.fqn ∧ FqnFits x.owner
  sigs : ∀ x ∈ f.methods, ∀ t, x.HasType t → TyFits 1 t
  overrides : ∀ x ∈ f.overrides, FqnFits x.owner
  subjects : ∀ x ∈ f.types, ∀ n ∈ x.subject.fqns, FqnFits n
  types : ∀ x ∈ f.types, TyFits 0 x.ty
  nodes : ∀ x ∈ f.nodes, FqnFits x.fqn
  edges : ∀ x ∈ f.edges, FqnFits x.source ∧ FqnFits x.target
  unresolved : ∀ x ∈ f.unresolved, FqnFits x.source ∧ x.target.length ≤ 4096 ∧ FqnFits x.context
  bodies : ∀ x ∈ f.bodies, FqnFits x.constant
  literals : ∀ x ∈ f.bodies, ∀ t, x.HasType t → TyFits 1 t

/-! ### the same facts in another file -/

def Range.inFile (file : Nat) (r : Range) : Range := { r with file := file }

def Subject.inFile (file : Nat) : Subject → Subject
  | .expr r => .expr (r.inFile file)
  | s => s

def Sym.inFile (file : Nat) (s : Sym) : Sym := { s with range := s.range.inFile file, nameRange := s.nameRange.inFile file }
def Method.inFile (file : Nat) (m : Method) : Method := { m with range := m.range.inFile file, nameRange := m.nameRange.inFile file }
def Override.inFile (file : Nat) (o : Override) : Override := { o with range := o.range.inFile file }
def TyFact.inFile (file : Nat) (t : TyFact) : TyFact := { t with range := t.range.inFile file, subject := t.subject.inFile file }
def Node.inFile (file : Nat) (n : Node) : Node := { n with range := n.range.inFile file }
def Edge.inFile (file : Nat) (e : Edge) : Edge := { e with range := e.range.inFile file }
def Unresolved.inFile (file : Nat) (e : Unresolved) : Unresolved := { e with range := e.range.inFile file }
def Body.inFile (file : Nat) (b : Body) : Body := { b with range := b.range.inFile file }

/-- The facts with every range in `file`. -/
def Facts.inFile (file : Nat) (f : Facts) : Facts :=
  { f with
    symbols := f.symbols.map (Sym.inFile file), methods := f.methods.map (Method.inFile file)
    overrides := f.overrides.map (Override.inFile file), types := f.types.map (TyFact.inFile file)
    nodes := f.nodes.map (Node.inFile file), edges := f.edges.map (Edge.inFile file)
    unresolved := f.unresolved.map (Unresolved.inFile file), bodies := f.bodies.map (Body.inFile file) }

/-! ### what may be in a template -/

/-- `r` is a range of the facts. -/
inductive HasRange (f : Facts) : Range → Prop
  | sym {x} : x ∈ f.symbols → HasRange f x.range
  | symName {x} : x ∈ f.symbols → HasRange f x.nameRange
  | method {x} : x ∈ f.methods → HasRange f x.range
  | methodName {x} : x ∈ f.methods → HasRange f x.nameRange
  | override {x} : x ∈ f.overrides → HasRange f x.range
  | type {x} : x ∈ f.types → HasRange f x.range
  | subject {x r} : x ∈ f.types → x.subject = .expr r → HasRange f r
  | node {x} : x ∈ f.nodes → HasRange f x.range
  | edge {x} : x ∈ f.edges → HasRange f x.range
  | unresolved {x} : x ∈ f.unresolved → HasRange f x.range
  | body {x} : x ∈ f.bodies → HasRange f x.range

/-- `p` is a part of a name that the facts declare or give as a type. -/
inductive HasPart (f : Facts) : Str → Prop
  | sym {x p} : x ∈ f.symbols → p ∈ x.fqn.parts → HasPart f p
  | method {x p} : x ∈ f.methods → p ∈ x.fqn.parts → HasPart f p
  | owner {x p} : x ∈ f.methods → p ∈ x.owner.parts → HasPart f p
  | override {x p} : x ∈ f.overrides → p ∈ x.owner.parts → HasPart f p
  | subject {x n p} : x ∈ f.types → n ∈ x.subject.fqns → p ∈ n.parts → HasPart f p
  | type {x n t q p} : x ∈ f.types → Inside n x.ty t → t.name = some q → p ∈ q.parts → HasPart f p
  | node {x p} : x ∈ f.nodes → p ∈ x.fqn.parts → HasPart f p
  | source {x p} : x ∈ f.edges → p ∈ x.source.parts → HasPart f p
  | target {x p} : x ∈ f.edges → p ∈ x.target.parts → HasPart f p
  | unresolvedSource {x p} : x ∈ f.unresolved → p ∈ x.source.parts → HasPart f p
  | unresolvedTarget {x p} : x ∈ f.unresolved → p ∈ x.target → HasPart f p
  | unresolvedContext {x p} : x ∈ f.unresolved → p ∈ x.context.parts → HasPart f p
  | body {x p} : x ∈ f.bodies → p ∈ x.constant.parts → HasPart f p

/-- `p` is a part of a name anywhere in the facts: also in the types of signatures and of bodies. -/
inductive HasPartAnywhere (f : Facts) : Str → Prop
  | declared {p} : HasPart f p → HasPartAnywhere f p
  | sig {x n t y q p} : x ∈ f.methods → x.HasType t → Inside n t y → y.name = some q → p ∈ q.parts → HasPartAnywhere f p
  | body {x n t y q p} : x ∈ f.bodies → x.HasType t → Inside n t y → y.name = some q → p ∈ q.parts → HasPartAnywhere f p

/-- A part that names a generated owner. -/
def GeneratedPart (p : Str) : Prop := Owners.ownerPrefix <+: p

/-- The facts that stay in a template: no locals, no expressions, no bodies with captures, nothing of the inference. -/
structure Kept (f g : Facts) : Prop where
  symbols : g.symbols = f.symbols.filter fun s => decide (s.kind ≠ .localVar)
  methods : g.methods = f.methods
  overrides : g.overrides = f.overrides
  types : ∃ keep : TyFact → Bool, g.types = f.types.filter keep ∧
    ∀ t, keep t = true ↔ (∀ i n, t.subject ≠ .localVar i n) ∧ ∀ r, t.subject ≠ .expr r
  nodes : g.nodes = f.nodes
  edges : g.edges = f.edges
  unresolved : g.unresolved = f.unresolved
  bodies : ∃ keep : Body → Bool, g.bodies = f.bodies.filter keep ∧ ∀ b, keep b = true ↔ b.summary.captures = []
  refs : g.refs = f.refs
  diagCandidates : g.diagCandidates = f.diagCandidates
  diags : g.diags = f.diags
  contexts : g.contexts = f.contexts
  evidence : g.evidence = []
  localReads : g.localReads = []

end Verif.Snapshot
