/-!
Model of the diagnostics about the arguments of a call: the collection of a method's parameters
(crates/ruby-analysis/src/indexer/analysis_indexer.rs L2044-2138, and the same code in fact_collector/def_node.rs L578-705), the
summary of a call's arguments (indexer/fact_collector/call_node/mod.rs L1666-1722) and their comparison
(engine/diagnostic_helpers.rs L74-148, engine/diagnostics.rs L1653-1822).

Simplifications: names are numbers; the missing keywords are listed in the order of their declaration instead of sorted; messages
are left out; counters do not overflow.
-/
namespace Verif.Arity

/-- A parameter as written in a definition. -/
inductive Formal where
  | req (name : Nat)
  /-- `(a, b)`: a `MultiTargetNode` -/
  | pattern
  | opt (name : Nat)
  | rest
  | kwReq (name : Nat)
  | kwOpt (name : Nat)
  | kwRest
  /-- `**nil` -/
  | noKw
  | block
  /-- `...` -/
  | forwarding
  deriving DecidableEq

/-- `MethodParamKind`; anonymous and named rest parameters are treated alike by the code below. -/
inductive Kind where
  | required | optional | rest | requiredKeyword | optionalKeyword | keywordRest | block | forwarding
  deriving DecidableEq

/-- `MethodParamFact`. -/
structure Param where
  name : Nat
  kind : Kind
  deriving DecidableEq

/-- analysis_indexer.rs L2044-2138 `method_param_facts`: other nodes than those named are passed over. -/
def paramFact : Formal → Option Param
  | .req n => some ⟨n, .required⟩
  | .pattern => none
  | .opt n => some ⟨n, .optional⟩
  | .rest => some ⟨0, .rest⟩
  | .kwReq n => some ⟨n, .requiredKeyword⟩
  | .kwOpt n => some ⟨n, .optionalKeyword⟩
  | .kwRest => some ⟨0, .keywordRest⟩
  | .noKw => none
  | .block => some ⟨0, .block⟩
  | .forwarding => some ⟨0, .forwarding⟩

def paramFacts (fs : List Formal) : List Param := fs.filterMap paramFact

/-- diagnostic_helpers.rs L74-81 `MethodArity`. -/
structure MethodArity where
  required : Nat := 0
  optional : Nat := 0
  hasRest : Bool := false
  requiredKeywords : List Nat := []
  optionalKeywords : List Nat := []
  hasKwrest : Bool := false

/-- L94-113: one round of the loop of `from_params`. -/
def MethodArity.add (a : MethodArity) (p : Param) : MethodArity :=
  match p.kind with
  | .required => { a with required := a.required + 1 }
  | .optional => { a with optional := a.optional + 1 }
  | .rest => { a with hasRest := true }
  | .requiredKeyword => { a with requiredKeywords := a.requiredKeywords ++ [p.name] }
  | .optionalKeyword => { a with optionalKeywords := a.optionalKeywords ++ [p.name] }
  | .keywordRest => { a with hasKwrest := true }
  | .block => a
  | .forwarding => { a with hasRest := true, hasKwrest := true }

/-- L84-116 `from_params`. -/
def MethodArity.fromParams (ps : List Param) : MethodArity := ps.foldl MethodArity.add {}

/-- An element of a hash without braces among the arguments. -/
inductive Elem where
  /-- `name: …` -/
  | sym (name : Nat)
  /-- any other key -/
  | dynamic
  /-- `**…` -/
  | splat

/-- An argument as written. -/
inductive Arg where
  /-- an expression; `mayBeHash` is `positional_argument_may_be_options_hash` (call_node/mod.rs L1827-1845): false for literals
  that are not hashes -/
  | plain (mayBeHash : Bool)
  | splat
  | forwarding
  | keywords (elems : List Elem)
  | blockArg

/-- core/reference_store.rs L85-101 `MethodCallSignatureCandidate`. -/
structure Sig where
  positional : Nat := 0
  positionalSplat : Bool := false
  nonemptyKeywords : Bool := false
  trailingHash : Bool := false
  keywordArgs : List Nat := []
  keywordSplat : Bool := false

/-- call_node/mod.rs L1688-1713. -/
def Sig.addElem (s : Sig) : Elem → Sig
  | .splat => { s with keywordSplat := true }
  | .dynamic => { s with nonemptyKeywords := true }
  | .sym n => { s with nonemptyKeywords := true, keywordArgs := s.keywordArgs ++ [n] }

/-- L1676-1720. -/
def Sig.addArg (s : Sig) : Arg → Sig
  | .forwarding => { s with positionalSplat := true, keywordSplat := true }
  | .splat => { s with positionalSplat := true }
  | .keywords es => es.foldl Sig.addElem s
  | .blockArg => s
  | .plain h => { s with positional := s.positional + 1, trailingHash := h }

/-- L1666-1722 `method_signature_candidate_from_arguments`. -/
def signature (args : List Arg) (skip : Nat) : Sig := (args.drop skip).foldl Sig.addArg {}

/-- diagnostic_helpers.rs L118-148 `arity_mismatch`. -/
def arityMismatch (s : Sig) (a : MethodArity) : Option (Nat × Option Nat × Nat) :=
  let min := a.required
  let max := if a.hasRest then none else some (a.required + a.optional)
  let tooMany := match max with
    | some m => decide (m < s.positional)
    | none => false
  if s.positionalSplat then
    if tooMany then some (min, max, s.positional) else none
  else if decide (s.positional < min) || tooMany then some (min, max, s.positional)
  else none

/-- The diagnostics. -/
inductive Diag where
  | wrongArity (min : Nat) (max : Option Nat) (actual : Nat)
  | unknownKwarg (name : Nat)
  | missingKwarg (names : List Nat)
  deriving DecidableEq

/-- diagnostics.rs L1671-1673. -/
def MethodArity.declaresKeywords (a : MethodArity) : Bool :=
  a.hasKwrest || !a.requiredKeywords.isEmpty || !a.optionalKeywords.isEmpty

/-- L1674-1683. -/
def effective (a : MethodArity) (s : Sig) : Sig :=
  let e := if !a.declaresKeywords && s.nonemptyKeywords then { s with positional := s.positional + 1 } else s
  if !a.declaresKeywords && s.keywordSplat then { e with positionalSplat := true } else e

/-- What the comparison of counts finds: L1684-1703.  `none` when the assertion of L1687-1690 fails. -/
def mismatch (a : MethodArity) (s : Sig) : Option (Option (Nat × Option Nat × Nat)) :=
  let e := effective a s
  if a.declaresKeywords && e.trailingHash then
    if e.positional = 0 then none
    else
      match arityMismatch e a, arityMismatch { e with positional := e.positional - 1 } a with
      | some d, some _ => some (some d)
      | _, _ => some none
  else some (arityMismatch e a)

/-- L1704-1749. -/
def arityDiags : Option (Nat × Option Nat × Nat) → List Diag
  | some (min, max, actual) => [.wrongArity min max actual]
  | none => []

/-- L1751-1784. -/
def unknownDiags (a : MethodArity) (s : Sig) : List Diag :=
  if a.declaresKeywords && !a.hasKwrest && !s.keywordSplat then
    (s.keywordArgs.filter (fun n => !(a.requiredKeywords ++ a.optionalKeywords).contains n)).map .unknownKwarg
  else []

/-- L1786-1821. -/
def missingDiags (a : MethodArity) (s : Sig) : List Diag :=
  if !a.requiredKeywords.isEmpty && !s.keywordSplat && !s.positionalSplat && !s.trailingHash then
    let missing := a.requiredKeywords.filter (fun n => !s.keywordArgs.contains n)
    if missing.isEmpty then [] else [.missingKwarg missing]
  else []

/-- L1653-1822 `push_signature_diagnostics` for a method with a complete parameter shape; `none`: the assertion fails. -/
def diagnostics (a : MethodArity) (s : Sig) : Option (List Diag) :=
  (mismatch a s).map fun m => arityDiags m ++ unknownDiags a s ++ missingDiags a s

/-- The diagnostics for a call of a method defined in the source. -/
def check (fs : List Formal) (args : List Arg) (skip : Nat) : Option (List Diag) :=
  diagnostics (.fromParams (paramFacts fs)) (signature args skip)

end Verif.Arity
