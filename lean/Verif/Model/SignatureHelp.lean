/-!
Signature help: the call around the cursor, the argument in it, the parameter that gets the argument, and the texts
(/repo/crates/ruby-analysis/src/indexer/analyzer.rs 413-537, /repo/src/query/signature_help.rs).

Simplified: texts are lists of code points, and offsets count code points; the resolution of the receiver and of the method is
given (it is modelled in other places); methods from facts and from RBS have one type of parameter, with an optional type.
-/
namespace Verif.SignatureHelp

abbrev Text := List Nat

/-! ### The call around the cursor -/

/-- An element of the keywords of a call; `assoc` unless it is a `**splat`, `key` is the text of a symbol. -/
structure Element where
  assoc : Bool
  start : Nat
  stop : Nat
  key : Option Text
deriving DecidableEq, Repr

/-- An argument; `keywords` are the elements of a `KeywordHashNode`. -/
structure Arg where
  start : Nat
  stop : Nat
  keywords : Option (List Element) := none
deriving DecidableEq, Repr

/-- A `CallNode`; `message` is the range of the name, `args` is `none` without arguments. -/
structure Call where
  message : Option (Nat × Nat)
  start : Nat
  stop : Nat
  block : Option Nat := none
  receiver : Option (Nat × Nat) := none
  args : Option (List Arg) := none
deriving DecidableEq, Repr

/-- A document: calls and other nodes, with their children. -/
inductive Syn where
  | nil
  | call (c : Call) (kids next : Syn)
  | other (kids next : Syn)
deriving DecidableEq, Repr

/-- `SignatureCallSite`. -/
structure Site where
  messageStart : Nat
  receiver : Option (Nat × Nat)
  parameter : Nat
  keyword : Option Text
  span : Nat
deriving DecidableEq, Repr

/-- analyzer.rs 487-500: the elements of one argument.  `some none` is the early return without a keyword. -/
def keywordIn (off : Nat) : List Element → Option (Option Text)
  | [] => none
  | e :: es =>
    if e.assoc = false then keywordIn off es
    else if off < e.start ∨ off > e.stop then keywordIn off es
    else some e.key

/-- analyzer.rs 484-501: the loop over the arguments. -/
def keywordArgs (off : Nat) : List Arg → Option Text
  | [] => none
  | a :: as =>
    match a.keywords with
    | none => keywordArgs off as
    | some es =>
      match keywordIn off es with
      | some k => k
      | none => keywordArgs off as

/-- analyzer.rs 482-502 `active_keyword_for_call`. -/
def activeKeyword (c : Call) (off : Nat) : Option Text :=
  match c.args with
  | none => none
  | some as => keywordArgs off as

/-- analyzer.rs 520-525: the first argument that does not end before the cursor. -/
def argLoop (off : Nat) : Nat → List Arg → Option Nat
  | _, [] => none
  | i, a :: as => if off ≤ a.stop then some i else argLoop off (i + 1) as

/-- `source[from..to]`. -/
def slice (source : Text) (from_ to : Nat) : Text := (source.take to).drop from_

/-- analyzer.rs 511-541 `active_parameter_for_call`; 44 is the comma. -/
def activeArgument (c : Call) (off : Nat) (source : Text) : Nat :=
  match c.args with
  | none => 0
  | some as =>
    if as = [] then 0
    else
      match argLoop off 0 as with
      | some i => i
      | none =>
        let tailStart := min ((as.getLast?.map Arg.stop).getD 0) source.length
        let tailEnd := min off source.length
        if tailStart ≤ tailEnd ∧ 44 ∈ slice source tailStart tailEnd then as.length else as.length - 1

/-- analyzer.rs 437-480 `consider`. -/
def consider (off : Nat) (source : Text) (c : Call) (best : Option Site) : Option Site :=
  match c.message with
  | none => best
  | some msg =>
    if off < msg.2 ∨ off > c.stop then best
    else if c.block.any (fun b => decide (off ≥ b)) then best
    else
      let span := c.stop - c.start
      if best.any (fun s => decide (s.span ≤ span)) then best
      else some ⟨msg.1, c.receiver, activeArgument c off source, activeKeyword c off, span⟩

/-- analyzer.rs 504-509: the visitor. -/
def visit (off : Nat) (source : Text) : Syn → Option Site → Option Site
  | .nil, best => best
  | .call c kids next, best => visit off source next (visit off source kids (consider off source c best))
  | .other kids next, best => visit off source next (visit off source kids best)

/-- analyzer.rs 163-168: the call site. -/
def find (off : Nat) (source : Text) (t : Syn) : Option Site := visit off source t none

/-! ### The parameter -/

/-- core/method_store.rs 12-23 `MethodParamKind`. -/
inductive Kind where
  | required
  | optional_
  | rest
  | requiredKeyword
  | optionalKeyword
  | keywordRest
  | block
  | forwarding
  | anonymousRest
  | anonymousKeywordRest
deriving DecidableEq, Repr

structure Param where
  name : Text
  kind : Kind
  type : Option Text := none
deriving DecidableEq, Repr

def Kind.isKeyword : Kind → Bool
  | .requiredKeyword | .optionalKeyword => true
  | _ => false

def Kind.isPositional : Kind → Bool
  | .required | .optional_ | .rest | .anonymousRest | .forwarding => true
  | _ => false

def Kind.isRest : Kind → Bool
  | .rest | .anonymousRest | .forwarding => true
  | _ => false

/-- signature_help.rs 304-337 `active_positional_parameter`. -/
def activePositional (kinds : List Kind) (i : Nat) : Nat :=
  let positional := kinds.zipIdx.filter (fun k => k.1.isPositional)
  match positional[i]? with
  | some k => k.2
  | none =>
    match positional.find? (fun k => k.1.isRest) with
    | some k => k.2
    | none =>
      match positional.getLast? with
      | some k => k.2
      | none => 0

/-- signature_help.rs 242-302 `active_parameter_for_params`, `active_parameter_for_rbs_params`. -/
def activeParam (ps : List Param) (i : Nat) (keyword : Option Text) : Nat :=
  match keyword with
  | none => activePositional (ps.map Param.kind) i
  | some k =>
    match ps.findIdx? (fun p => decide (p.name = k) && p.kind.isKeyword) with
    | some j => j
    | none =>
      match ps.findIdx? (fun p => decide (p.kind = .keywordRest)) with
      | some j => j
      | none => activePositional (ps.map Param.kind) i

/-! ### Texts -/

/-- `": "`. -/
def colon : Text := [58, 32]
/-- `" = ..."`. -/
def dflt : Text := [32, 61, 32, 46, 46, 46]
/-- `"..."`. -/
def dots : Text := [46, 46, 46]

/-- signature_help.rs 339-361 `parameter_label`, 363-380 `rbs_parameter_label` (with a type). -/
def label (p : Param) : Text :=
  let typed := match p.type with
    | some t => p.name ++ colon ++ t
    | none => p.name
  match p.kind with
  | .required => typed
  | .optional_ => typed ++ dflt
  | .rest => [42] ++ typed
  | .requiredKeyword =>
    match p.type with
    | some t => p.name ++ colon ++ t
    | none => p.name ++ [58]
  | .optionalKeyword =>
    match p.type with
    | some t => p.name ++ colon ++ t ++ dflt
    | none => p.name ++ colon ++ dots
  | .keywordRest => [42, 42] ++ typed
  | .block => [38] ++ typed
  | .forwarding => dots
  | .anonymousRest => [42]
  | .anonymousKeywordRest => [42, 42]

/-- `join(", ")`. -/
def join : List Text → Text
  | [] => []
  | [t] => t
  | t :: ts => t ++ [44, 32] ++ join ts

/-- A method with its parameters and the text of its result. -/
structure Method where
  params : List Param
  result : Option Text := none
deriving DecidableEq, Repr

/-- `SignatureData`. -/
structure Signature where
  label : Text
  params : List Text
  active : Nat
deriving DecidableEq, Repr

/-- signature_help.rs 170-204 `signature_data`, 206-240 `rbs_signature_data` (with a result). -/
def signature (name : Text) (m : Method) (i : Nat) (keyword : Option Text) : Signature :=
  let ls := m.params.map label
  let result := match m.result with
    | some r => [32, 45, 62, 32] ++ r
    | none => []
  ⟨name ++ [40] ++ join ls ++ [41] ++ result, ls, activeParam m.params i keyword⟩

/-- `SignatureHelpData`. -/
structure Help where
  signatures : List Signature
  activeSignature : Nat
  activeParameter : Nat
deriving DecidableEq, Repr

/-- signature_help.rs 134-166: facts first, then RBS. -/
def help (name : Text) (facts rbs : List Method) (i : Nat) (keyword : Option Text) : Option Help :=
  let own := facts.map (fun m => signature name m i keyword)
  let all := if own = [] then rbs.map (fun m => signature name m i keyword) else own
  match all with
  | [] => none
  | s :: ss => some ⟨s :: ss, 0, s.active⟩

end Verif.SignatureHelp
