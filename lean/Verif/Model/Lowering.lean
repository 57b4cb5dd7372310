import Verif.Model.CallableBody
import Verif.Model.ControlFlow
/-!
Model of turning a lambda or proc literal into a summary (crates/ruby-analysis/src/indexer/callable_body.rs L32-513).

The syntax tree is Prism's, reduced to what the lowering distinguishes.  Simplifications: a missing `StatementsNode` is an empty list
of statements, and a missing `else` is an empty one (the code builds the same nil and `control_flow` falls through in both cases); an
element of a hash that is no pair, an array splat, a call without receiver or with a block, a `begin` with clauses and any other node
that ends in `UnsupportedCallableBody` or `UnsupportedCallableFlow` is `other`, with what `control_flow` sees of it; the maps of
parameters and locals are lists; names are `String`; counters are unbounded (they stop at 64).  Which names `RubyMethod::new` accepts
is a parameter.  Not modelled: `is_static_callable_literal` and which nodes are literals of which type (inference/type/literal.rs).
-/
namespace Verif.Lowering
open Verif.Types Verif.ShapeReads Verif.CallableBody

/-- Prism's nodes. -/
inductive Node where
  /-- `StatementsNode` -/
  | stmts (body : List Node)
  /-- `LocalVariableWriteNode` -/
  | write (x : String) (v : Node)
  /-- `LocalVariableReadNode` -/
  | read (x : String)
  /-- `ArrayNode` -/
  | array (es : List Node)
  /-- `HashNode`: the keys that are string or symbol literals, and the values -/
  | hash (fs : List (Option Lit × Node))
  /-- `IfNode` with or without `else` -/
  | ifN (c : Node) (t : List Node) (e : List Node)
  /-- `IfNode` that goes on with `elsif` -/
  | elsif (c : Node) (t : List Node) (n : Node)
  | unlessN (c : Node) (t : List Node) (e : List Node)
  | ret (args : List Node)
  | nxt (args : List Node)
  /-- `BeginNode` without rescue, else and ensure -/
  | beginN (body : List Node)
  /-- `CallNode` with receiver and without block; `safe` for `&.` -/
  | call (recv : Node) (m : String) (args : List Node) (safe : Bool)
  /-- a literal with its type, and the text if it is a string or symbol -/
  | lit (t : Ty) (key : Option Lit)
  /-- a literal that contains expressions: interpolated strings, symbols and regular expressions, ranges -/
  | interp (t : Ty) (parts : List Node)
  /-- anything else; `writes` if it may assign local variables -/
  | other (n : ControlFlow.Node) (writes : Bool)

mutual
/-- What inference/control_flow.rs sees of a node. -/
def cf : Node → ControlFlow.Node
  | .stmts l => .stmts (cfList l)
  | .write _ v => .other [cf v]
  | .read _ => .other []
  | .array es => .other (cfList es)
  | .hash fs => .other (cfFields fs)
  | .ifN c t e => .ifN (cf c) (cfList t) (some (.elseN (cfList e)))
  | .elsif c t n => .ifN (cf c) (cfList t) (some (cf n))
  | .unlessN c t e => .unlessN (cf c) (cfList t) (some (cfList e))
  | .ret args => .ret (cfList args)
  | .nxt args => .nxt (cfList args)
  | .beginN l => .beginN (cfList l) [] [] []
  | .call r m args _ => .call (some (cf r)) m (cfList args) none
  | .lit _ _ => .other []
  | .interp _ ps => .other (cfList ps)
  | .other n _ => n
def cfList : List Node → List ControlFlow.Node
  | [] => []
  | n :: l => cf n :: cfList l
def cfFields : List (Option Lit × Node) → List ControlFlow.Node
  | [] => []
  | (_, n) :: l => cf n :: cfFields l
end

/-- inference/type/literal.rs L438-446 `literal_key`. -/
def literalKey : Node → Option Lit
  | .lit _ key => key
  | _ => none

mutual
/-- The derived `==`. -/
def same : Expr → Expr → Bool
  | .lit t, .lit u => decide (t = u)
  | .param i, .param j => decide (i = j)
  | .capture x, .capture y => decide (x = y)
  | .array es, .array fs => sameList es fs
  | .shape es, .shape fs => sameFields es fs
  | .call r m args keys, .call r' m' args' keys' => same r r' && decide (m = m') && sameList args args' && decide (keys = keys')
  | .union es, .union fs => sameList es fs
  | _, _ => false
def sameList : List Expr → List Expr → Bool
  | [], [] => true
  | e :: l, f :: k => same e f && sameList l k
  | _, _ => false
def sameFields : List (Lit × Expr) → List (Lit × Expr) → Bool
  | [], [] => true
  | (a, e) :: l, (b, f) :: k => decide (a = b) && same e f && sameFields l k
  | _, _ => false
end

/-- L103-110 `LoweringState`; the index of a parameter is its position. -/
structure St where
  params : List String
  locals : List (String × Expr)
  outer : List String
  captures : List String
  count : Nat

def nilE : Expr := .lit nilTy

/-- L176-188 `make`. -/
def make (e : Expr) (s : St) : Out (Expr × St) :=
  if s.count + 1 > maxNodes then .err .bound else .ok (e, { s with count := s.count + 1 })

/-- `HashMap::insert` of the locals. -/
def setLocal (x : String) (e : Expr) (l : List (String × Expr)) : List (String × Expr) := (x, e) :: l.filter (fun p => p.1 ≠ x)

/-- L156-171: one name of both branches. -/
def mergeName (left right : List (String × Expr)) (x : String) (s : St) : Out (Expr × St) :=
  let l := (left.lookup x).getD nilE
  let r := (right.lookup x).getD nilE
  if same l r then .ok (l, s) else make (.union [l, r]) s

def mergeNames (left right : List (String × Expr)) : List String → St → Out (List (String × Expr) × St)
  | [], s => .ok ([], s)
  | x :: l, s => (mergeName left right x s).bind fun p => (mergeNames left right l p.2).bind fun q => .ok ((x, p.1) :: q.1, q.2)

/-- L144-174 `merge_branch_locals`. -/
def mergeLocals (left right : List (String × Expr)) (s : St) : Out St :=
  (mergeNames left right ((left ++ right).map (·.1)).eraseDups s).bind fun p => .ok { p.2 with locals := p.1 }

/-- L345-362, L377-395: the two branches together. -/
def joinBranches (thenV : Option Expr) (thenL : List (String × Expr)) (elseV : Option Expr) (s : St) : Out (Expr × St) :=
  match thenV, elseV with
  | some a, some b => (mergeLocals thenL s.locals s).bind fun s => make (.union [a, b]) s
  | some a, none => .ok (a, { s with locals := thenL })
  | none, some b => .ok (b, s)
  | none, none => .err .flow

/-- `BTreeMap::insert` of a new key. -/
def insertField (k : Lit) (e : Expr) : List (Lit × Expr) → List (Lit × Expr)
  | [] => [(k, e)]
  | f :: l => if litLe k f.1 then (k, e) :: f :: l else f :: insertField k e l

/-- L113-142 `lower_branch`, with what its statements do and how they are lowered. -/
def branch (flow : ControlFlow.Reach) (go : St → Out (Expr × St)) (s : St) : Out (Option Expr × St) :=
  match flow with
  | .falls => (go s).bind fun p => .ok (some p.1, p.2)
  | .diverges es =>
    if es .brk || es .redo || es .retry then .err .flow
    else if es .ret || es .nxt then (go s).bind fun p => .ok (some p.1, p.2)
    else .ok (none, s)

mutual
/-- L255-477 `lower_expression`. -/
def lower (ok : String → Bool) (strict : Bool) : Node → St → Out (Expr × St)
  | .stmts l, s => lowerSeq ok strict l s
  | .write x v, s => (lower ok strict v s).bind fun p =>
      if p.2.params.contains x || p.2.outer.contains x then .err .flow
      else .ok (p.1, { p.2 with locals := setLocal x p.1 p.2.locals })
  | .read x, s =>
      match s.params.idxOf? x with
      | some i => make (.param i) s
      | none =>
        match s.locals.lookup x with
        | some e => make e s
        | none => make (.capture x) { s with captures := x :: s.captures }
  | .array es, s => (lowerArgs ok strict es s).bind fun p => make (.array p.1) p.2
  | .hash fs, s => (lowerFields ok strict fs [] s).bind fun p => make (.shape p.1) p.2
  | .ifN _ t e, s => (branch (ControlFlow.analyzeStatements (cfList t)) (lowerSeq ok strict t) s).bind fun p => (branch (ControlFlow.analyzeStatements (cfList e)) (lowerSeq ok strict e) { p.2 with locals := s.locals }).bind fun q =>
      joinBranches p.1 p.2.locals q.1 q.2
  | .elsif _ t n, s => (branch (ControlFlow.analyzeStatements (cfList t)) (lowerSeq ok strict t) s).bind fun p => (lower ok strict n { p.2 with locals := s.locals }).bind fun q =>
      joinBranches p.1 p.2.locals (some q.1) q.2
  | .unlessN _ t e, s => (branch (ControlFlow.analyzeStatements (cfList t)) (lowerSeq ok strict t) s).bind fun p => (branch (ControlFlow.analyzeStatements (cfList e)) (lowerSeq ok strict e) { p.2 with locals := s.locals }).bind fun q =>
      joinBranches p.1 p.2.locals q.1 q.2
  | .ret args, s => if !strict then .err .flow else lowerJump ok strict args s
  | .nxt args, s => lowerJump ok strict args s
  | .beginN l, s => lowerSeq ok strict l s
  | .call r m args _, s => (lower ok strict r s).bind fun p =>
      if !ok m then .err .unsupported
      else (lowerArgs ok strict args p.2).bind fun q => make (.call p.1 m q.1 (args.map literalKey)) q.2
  | .lit t _, s => if hasUnknown t then .err .unsupported else make (.lit t) s
  | .interp t _, s => if hasUnknown t then .err .unsupported else make (.lit t) s
  | .other _ _, _ => .err .unsupported
/-- L260-276: statements; the rest behind one that leaves is not looked at. -/
def lowerSeq (ok : String → Bool) (strict : Bool) : List Node → St → Out (Expr × St)
  | [], s => make nilE s
  | n :: l, s => (lower ok strict n s).bind fun p =>
      match l with
      | [] => .ok p
      | m :: k => if ControlFlow.diverges (cf n) then .ok p else lowerSeq ok strict (m :: k) p.2
/-- L299-305, L461-463: several expressions. -/
def lowerArgs (ok : String → Bool) (strict : Bool) : List Node → St → Out (List Expr × St)
  | [], s => .ok ([], s)
  | n :: l, s => (lower ok strict n s).bind fun p => (lowerArgs ok strict l p.2).bind fun q => .ok (p.1 :: q.1, q.2)
/-- L308-325: the fields of a hash. -/
def lowerFields (ok : String → Bool) (strict : Bool) : List (Option Lit × Node) → List (Lit × Expr) → St → Out (List (Lit × Expr) × St)
  | [], fs, s => .ok (fs, s)
  | (none, _) :: _, _, _ => .err .unsupported
  | (some k, n) :: l, fs, s =>
    if (fs.map (·.1)).contains k then .err .unsupported
    else (lower ok strict n s).bind fun p => lowerFields ok strict l (insertField k p.1 fs) p.2
/-- L402-421: what is left of `return` and `next`. -/
def lowerJump (ok : String → Bool) (strict : Bool) : List Node → St → Out (Expr × St)
  | [], s => make nilE s
  | [n], s => lower ok strict n s
  | _ :: _ :: _, _ => .err .unsupported
end

def lowerBranch (ok : String → Bool) (strict : Bool) (l : List Node) (s : St) : Out (Option Expr × St) :=
  branch (ControlFlow.analyzeStatements (cfList l)) (lowerSeq ok strict l) s

/-! ### parameters and the literal -/

/-- The parameters: the required ones (`none` for a pattern), the optional ones with their defaults, the rest (`some none` without a
name), and the variables behind `;`. -/
inductive Params where
  | absent
  /-- numbered or implicit parameters, no `ParametersNode`, or keyword, block or trailing parameters -/
  | unsupported
  | list (required : List (Option String)) (optional : List (String × Node)) (rest : Option (Option String)) (blockLocals : List String)

/-- L249-254 `insert_parameter`. -/
def insertParam (x : String) (s : St) : Out St := if s.params.contains x then .err .unsupported else .ok { s with params := s.params ++ [x] }

/-- L210-222. -/
def lowerRequired : List (Option String) → St → Out (List Param × St)
  | [], s => .ok ([], s)
  | none :: _, _ => .err .unsupported
  | some x :: l, s => (insertParam x s).bind fun s => (lowerRequired l s).bind fun p => .ok (⟨x, .required, none⟩ :: p.1, p.2)

/-- L223-235. -/
def lowerOptional (ok : String → Bool) : List (String × Node) → St → Out (List Param × St)
  | [], s => .ok ([], s)
  | (x, n) :: l, s => (lower ok true n s).bind fun d => (insertParam x d.2).bind fun s =>
      (lowerOptional ok l s).bind fun p => .ok (⟨x, .optional, some d.1⟩ :: p.1, p.2)

/-- L236-250. -/
def lowerRest : Option (Option String) → St → Out (List Param × St)
  | none, s => .ok ([], s)
  | some none, _ => .err .unsupported
  | some (some x), s => (insertParam x s).bind fun s => .ok ([⟨x, .rest, none⟩], s)

/-- L190-247 `lower_parameters`. -/
def lowerParams (ok : String → Bool) : Params → St → Out (List Param × St)
  | .absent, s => .ok ([], s)
  | .unsupported, _ => .err .unsupported
  | .list req opts rest _, s =>
    if req.length + opts.length + (if rest.isSome then 1 else 0) > maxParams then .err .bound
    else (lowerRequired req s).bind fun p => (lowerOptional ok opts p.2).bind fun q => (lowerRest rest q.2).bind fun r =>
      .ok (p.1 ++ q.1 ++ r.1, r.2)

/-- A lambda (`strict`) or proc: parameters and the statements of the body. -/
structure Literal where
  strict : Bool
  params : Params
  body : List Node

mutual
/-- L479-513 `expression_node_count`. -/
def nodeCount : Expr → Nat
  | .array es => nodeCounts es + 1
  | .union es => nodeCounts es + 1
  | .shape fs => fieldCounts fs + 1
  | .call r _ args _ => nodeCount r + nodeCounts args + 1
  | _ => 1
def nodeCounts : List Expr → Nat
  | [] => 0
  | e :: l => nodeCount e + nodeCounts l
def fieldCounts : List (Lit × Expr) → Nat
  | [] => 0
  | (_, e) :: l => nodeCount e + fieldCounts l
end

/-- `BTreeSet` of the captures, in order. -/
def insertName (x : String) : List String → List String
  | [] => [x]
  | y :: l => if x = y then y :: l else if strLe x y then x :: y :: l else y :: insertName x l

def captureList (l : List String) : List String := l.foldr insertName []

/-- L38-101 `lower_callable_literal_with_outer_locals`. -/
def lowerLiteral (ok : String → Bool) (lit : Literal) (outer : List String) : Out Summary :=
  (lowerParams ok lit.params ⟨[], [], outer, [], 0⟩).bind fun p => (lowerSeq ok lit.strict lit.body p.2).bind fun q =>
    let captures := captureList q.2.captures
    if captures.length > maxCaptures then .err .bound
    else
      let nodes := nodeCount q.1 + (p.1.map fun x => (x.dflt.map nodeCount).getD 0).sum
      if nodes > maxNodes then .err .bound
      else (validate ⟨lit.strict, p.1, captures, q.1, nodes⟩).bind fun _ => .ok ⟨lit.strict, p.1, captures, q.1, nodes⟩

end Verif.Lowering
