import Verif.Model.Subtype
import Verif.Props.Subtype
/-!
Model of the typing of calls with a block (crates/ruby-analysis/src/inference/higher_order.rs and the templates of
core/callable_signature.rs).

Simplifications: a name of a type variable is a list of numbers; the substitution (`BTreeMap`) is a function; the kind of a
parameter that is not positional is `other`; `Box` is left out; the counter is unbounded (it stops at 17).  A panic because a
`self` template was left is `receiver`, any other panic is `panic`.  Not modelled: `callable_signature_from_rbs` and
`type_template_from_rbs` (L332-519), `finish_static_method` and `finish_known_proc` (L131-176), which call `finish` with a block
result computed elsewhere.
-/
namespace Verif.HigherOrder
open Verif.Types

abbrev Var := Name

/-- The reasons of core/type_inference_outcome.rs that are used here. -/
inductive Reason where
  | blockResult | blockInput | substitution | bound | unsupported | ambiguous
  deriving DecidableEq

/-- `Result`, or a panic. -/
inductive Out (α : Type) where
  | ok (a : α)
  | err (r : Reason)
  | receiver
  | panic
  deriving DecidableEq

def Out.bind {α β : Type} (o : Out α) (f : α → Out β) : Out β :=
  match o with
  | .ok a => f a
  | .err r => .err r
  | .receiver => .receiver
  | .panic => .panic

/-- `for` with `?`, collecting the results. -/
def collect {α β : Type} (f : α → Out β) : List α → Out (List β)
  | [] => .ok []
  | a :: l => (f a).bind fun b => (collect f l).bind fun bs => .ok (b :: bs)

/-- `for` with `?` over a state. -/
def each {α σ : Type} (f : α → σ → Out σ) : List α → σ → Out σ
  | [], s => .ok s
  | a :: l, s => (f a s).bind (each f l)

/-- core/callable_signature.rs L23-34 `CallableTypeTemplate`. -/
inductive Tmpl where
  | concrete (t : Ty)
  | receiver
  | var (x : Var)
  | array (e : Tmpl)
  | hash (k v : Tmpl)
  | union (ms : List Tmpl)
  | unconstrained

/-- The kinds of parameters, `MethodParamKind`. -/
inductive Kind where
  | required | optional | rest | other
  deriving DecidableEq

/-- core/callable_signature.rs L36-60 `CallableSignature`. -/
structure Sig where
  recvParams : List Var
  params : List Var
  args : List (Kind × Tmpl)
  blockParams : List Tmpl
  blockRet : Tmpl
  ret : Tmpl

/-- higher_order.rs L18-23. -/
def maxOverloads : Nat := 8
def maxVariables : Nat := 8
def maxBlockParams : Nat := 4
def maxIterations : Nat := 16
def maxTmplDepth : Nat := 8
def maxUnion : Nat := 8

mutual
/-- higher_order.rs L775-799 `exceeds_union_bound` (the rest of a shape is not looked at). -/
def tooWide : Ty → Bool
  | .union ts => decide (ts.length > maxUnion) || tooWideList ts
  | .array ts => tooWideList ts
  | .hash ks vs => tooWideList ks || tooWideList vs
  | .shape fs _ _ _ _ => tooWideFields fs
  | _ => false
def tooWideList : List Ty → Bool
  | [] => false
  | t :: l => tooWide t || tooWideList l
def tooWideFields : List (Lit × Bool × Ty) → Bool
  | [] => false
  | (_, _, t) :: l => tooWide t || tooWideFields l
end

abbrev Subst := Var → Option Ty

def Subst.set (σ : Subst) (x : Var) (t : Ty) : Subst := fun y => if y = x then some t else σ y

/-- The substitution and `solve_iterations`. -/
structure St where
  σ : Subst
  n : Nat

/-- higher_order.rs L704-728 `bind_variable`. -/
def bindVar (x : Var) (a : Ty) (s : St) : Out St :=
  if hasUnknown a then .err .substitution
  else if s.n + 1 > maxIterations then .err .bound
  else
    let next := match s.σ x with
      | none => a
      | some e => mkUnion [e, a]
    if tooWide next then .err .bound else .ok ⟨s.σ.set x next, s.n + 1⟩

/-- core/ruby_type.rs L338-340 `is_compatible_with`; the bound is one for which `sub` ends (`c43_ends`). -/
def compat (e a : Ty) : Res := (sub (hgt e + hgt a) e a).or (sub (hgt e + hgt a) a e)

/-- The result of a test. -/
def test (r : Res) : Out Bool :=
  match r with
  | .ok b => .ok b
  | _ => .panic

/-- higher_order.rs L646-658: the names of the variables among the members. -/
def varsOf (ms : List Tmpl) : List Var :=
  ms.filterMap fun m => match m with
    | .var x => some x
    | _ => none

/-- higher_order.rs L668-676: does one of the members other than variables take the type?  `any` stops at the first one. -/
def taken (ms : List Tmpl) (a : Ty) : Out Bool :=
  match ms with
  | [] => .ok false
  | .concrete e :: ms => (test (compat e a)).bind fun b => if b then .ok true else taken ms a
  | .unconstrained :: _ => .ok true
  | _ :: ms => taken ms a

/-- higher_order.rs L662-665. -/
def membersOf (a : Ty) : List Ty :=
  match a with
  | .union us => us
  | t => [t]

/-- higher_order.rs L666-681: the members that nothing takes. -/
def unmatched (ms : List Tmpl) : List Ty → Out (List Ty)
  | [] => .ok []
  | a :: l => (taken ms a).bind fun b => (unmatched ms l).bind fun us => .ok (if b then us else a :: us)

/-- higher_order.rs L640-702 `constrain_union`. -/
def constrainUnion (ms : List Tmpl) (a : Ty) (s : St) : Out St :=
  if (varsOf ms).length > 1 then .err .unsupported
  else
    (unmatched ms (membersOf a)).bind fun us =>
      match varsOf ms with
      | x :: _ => if us.isEmpty then .ok s else bindVar x (mkUnion us) s
      | [] => if us.isEmpty then .ok s else .err .unsupported

/-- higher_order.rs L562-638 `constrain_template`. -/
def constrain (t : Tmpl) (a : Ty) (why : Reason) (s : St) : Out St :=
  if hasUnknown a then .err why
  else
    match t with
    | .var x => bindVar x a s
    | .receiver => .receiver
    | .concrete e => (test (compat e a)).bind fun b => if b then .ok s else .err .unsupported
    | .array e =>
      match a with
      | .array es => constrain e (mkUnion es) why s
      | _ => .err .unsupported
    | .hash k v =>
      match a with
      | .hash ks vs => (constrain k (mkUnion ks) why s).bind fun s => constrain v (mkUnion vs) why s
      | .shape fs r o _ _ =>
        match genericHash fs r o with
        | some (.hash ks vs) => (constrain k (mkUnion ks) why s).bind fun s => constrain v (mkUnion vs) why s
        | _ => .panic
      | _ => .err .unsupported
    | .union ms => constrainUnion ms a s
    | .unconstrained => .ok s

mutual
/-- higher_order.rs L730-773 `resolve_template`. -/
def resolve (σ : Subst) (d : Nat) : Tmpl → Out Ty
  | .concrete t => if d > maxTmplDepth then .err .bound else .ok t
  | .receiver => if d > maxTmplDepth then .err .bound else .receiver
  | .var x =>
    if d > maxTmplDepth then .err .bound
    else match σ x with
      | some t => .ok t
      | none => .err .substitution
  | .array e => if d > maxTmplDepth then .err .bound else (resolve σ (d + 1) e).bind fun t => .ok (.array [t])
  | .hash k v =>
    if d > maxTmplDepth then .err .bound
    else (resolve σ (d + 1) k).bind fun a => (resolve σ (d + 1) v).bind fun b => .ok (.hash [a] [b])
  | .union ms =>
    if d > maxTmplDepth then .err .bound
    else if ms.length > maxUnion then .err .bound
    else (resolveList σ (d + 1) ms).bind fun ts => .ok (mkUnion ts)
  | .unconstrained => if d > maxTmplDepth then .err .bound else .err .substitution
def resolveList (σ : Subst) (d : Nat) : List Tmpl → Out (List Ty)
  | [] => .ok []
  | m :: ms => (resolve σ d m).bind fun t => (resolveList σ d ms).bind fun ts => .ok (t :: ts)
end

mutual
/-- higher_order.rs L303-330 `instantiate_receiver_template`. -/
def inst (r : Option Ty) : Tmpl → Out Tmpl
  | .receiver =>
    match r with
    | some t => if hasUnknown t then .err .blockInput else .ok (.concrete t)
    | none => .err .blockInput
  | .array e => (inst r e).bind fun e => .ok (.array e)
  | .hash k v => (inst r k).bind fun k => (inst r v).bind fun v => .ok (.hash k v)
  | .union ms => (instList r ms).bind fun ms => .ok (.union ms)
  | t => .ok t
def instList (r : Option Ty) : List Tmpl → Out (List Tmpl)
  | [] => .ok []
  | m :: ms => (inst r m).bind fun m => (instList r ms).bind fun ms => .ok (m :: ms)
end

/-- higher_order.rs L289-301 `instantiate_receiver_signature`. -/
def instSig (r : Option Ty) (g : Sig) : Out Sig :=
  (collect (fun (a : Kind × Tmpl) => (inst r a.2).bind fun t => .ok (a.1, t)) g.args).bind fun args =>
  (collect (inst r) g.blockParams).bind fun bp =>
  (inst r g.blockRet).bind fun br =>
  (inst r g.ret).bind fun ret => .ok ⟨g.recvParams, g.params, args, bp, br, ret⟩

mutual
/-- higher_order.rs L409-435 `validate_template_depth`: is it within the bounds?  (There is only one error.) -/
def depthOk (d : Nat) : Tmpl → Bool
  | .array e => decide (d ≤ maxTmplDepth) && depthOk (d + 1) e
  | .hash k v => decide (d ≤ maxTmplDepth) && (depthOk (d + 1) k && depthOk (d + 1) v)
  | .union ms => decide (d ≤ maxTmplDepth) && (decide (ms.length ≤ maxUnion) && depthOkList (d + 1) ms)
  | _ => decide (d ≤ maxTmplDepth)
def depthOkList (d : Nat) : List Tmpl → Bool
  | [] => true
  | m :: ms => depthOk d m && depthOkList d ms
end

/-- higher_order.rs L391-397: does `zip` find a difference? -/
def differ : List Var → List Var → Bool
  | a :: l, b :: m => decide (a ≠ b) || differ l m
  | _, _ => false

/-- higher_order.rs L378-407 `validate_signature`. -/
def validate (g : Sig) : Out Unit :=
  if g.params.length > maxVariables ∨ g.blockParams.length > maxBlockParams then .err .bound
  else if g.params.dedup.length ≠ g.params.length then .err .unsupported
  else if g.recvParams.length > g.params.length ∨ differ g.recvParams g.params = true then .err .unsupported
  else if depthOk 1 g.ret && (depthOk 1 g.blockRet && (g.args.all (fun a => depthOk 1 a.2) && g.blockParams.all (depthOk 1))) then .ok ()
  else .err .bound

/-- higher_order.rs L521-534 `argument_count_matches`. -/
def countOk (args : List (Kind × Tmpl)) (c : Nat) : Bool :=
  let required := (args.filter fun a => decide (a.1 = .required)).length
  let optional := (args.filter fun a => decide (a.1 = .optional)).length
  let hasRest := args.any fun a => decide (a.1 = .rest)
  decide (c ≥ required) && (hasRest || decide (c ≤ required + optional))

/-- higher_order.rs L542-550: the positional parameters. -/
def positional (args : List (Kind × Tmpl)) : List (Kind × Tmpl) := args.filter fun a => decide (a.1 ≠ .other)

/-- higher_order.rs L551-559: the parameter an argument is compared with. -/
def paramAt (ps : List (Kind × Tmpl)) (i : Nat) : Option Tmpl :=
  match ps[i]? with
  | some p => some p.2
  | none => (ps.find? fun p => decide (p.1 = .rest)).map (·.2)

/-- higher_order.rs L536-560 `constrain_arguments`, from argument `i` on. -/
def constrainArgs (ps : List (Kind × Tmpl)) (i : Nat) : List Ty → St → Out St
  | [], s => .ok s
  | a :: l, s =>
    match paramAt ps i with
    | none => .err .unsupported
    | some t => (constrain t a .substitution s).bind (constrainArgs ps (i + 1) l)

/-- higher_order.rs L35-40 `PreparedCallable`. -/
structure Cand where
  sig : Sig
  st : St

/-- higher_order.rs L42-46 `PreparedCallableSet`. -/
structure Prepared where
  cands : List Cand
  blockParams : List Ty

/-- higher_order.rs L251-258: the bindings of the receiver. -/
def bindReceiver (params : List Var) : List (Var × Ty) → St → Out St :=
  each fun b s => if params.contains b.1 then bindVar b.1 b.2 s else .ok s

/-- higher_order.rs L266-275: without a substitution the input of the block is incomplete. -/
def asInput {α : Type} (o : Out α) : Out α :=
  match o with
  | .err .substitution => .err .blockInput
  | o => o

/-- higher_order.rs L246-279: one overload, up to the types of the parameters of the block. -/
def prepareOne (recv : Option Ty) (binds : List (Var × Ty)) (args : List Ty) (g : Sig) : Out (Cand × List Ty) :=
  (instSig recv g).bind fun g =>
  (validate g).bind fun _ =>
  (bindReceiver g.params binds ⟨fun _ => none, 0⟩).bind fun s =>
  (constrainArgs (positional g.args) 0 args s).bind fun s =>
  (asInput (collect (resolve s.σ 1) g.blockParams)).bind fun ps =>
  if ps.any hasUnknown then .err .blockInput else .ok (⟨g, s⟩, ps)

/-- higher_order.rs L244-287: the loop over the overloads. -/
def prepareLoop (recv : Option Ty) (binds : List (Var × Ty)) (args : List Ty) : List Sig → Option (List Ty) → List Cand → Out (Option (List Ty) × List Cand)
  | [], common, cs => .ok (common, cs)
  | g :: gs, common, cs =>
    (prepareOne recv binds args g).bind fun r =>
      match common with
      | none => prepareLoop recv binds args gs (some r.2) (cs ++ [r.1])
      | some ps => if ps = r.2 then prepareLoop recv binds args gs (some ps) (cs ++ [r.1]) else .err .ambiguous

/-- higher_order.rs L226-287 `prepare_callable_set`. -/
def prepare (recv : Option Ty) (sigs : List Sig) (binds : List (Var × Ty)) (args : List Ty) : Out Prepared :=
  let app := sigs.filter fun g => countOk g.args args.length
  if app.isEmpty then .err .unsupported
  else if app.length > maxOverloads then .err .bound
  else
    (prepareLoop recv binds args app none []).bind fun r =>
      match r.1 with
      | some ps => .ok ⟨r.2, ps⟩
      | none => .panic

/-- Is the type a hash or a shape?  (`matches!` in L200-201.) -/
def hashLike : Ty → Bool
  | .shape _ _ _ _ _ => true
  | .hash _ _ => true
  | _ => false

/-- higher_order.rs L185-224 `replace_proven_mutated_binding`. -/
def replace (t : Tmpl) (a : Ty) (σ : Subst) : Out Subst :=
  if hasUnknown a then .err .blockResult
  else
    match t with
    | .var x =>
      match σ x with
      | none => .err .substitution
      | some p =>
        if !hashLike p || !hashLike a then (if p = a then .ok σ else .err .unsupported)
        else .ok (σ.set x a)
    | _ => .ok σ

/-- higher_order.rs L85-100: all parameters of the block, as far as `zip` goes. -/
def replaceAll : List Tmpl → List Ty → Subst → Out Subst
  | t :: ts, a :: as, σ => (replace t a σ).bind (replaceAll ts as)
  | _, _, σ => .ok σ

/-- higher_order.rs L84-123: one overload, given the block. -/
def finishOne (ret : Ty) (post : Option (List Ty)) (c : Cand) : Out Ty :=
  (match post with
    | some as => replaceAll c.sig.blockParams as c.st.σ
    | none => .ok c.st.σ).bind fun σ =>
  (constrain c.sig.blockRet ret .blockResult ⟨σ, c.st.n⟩).bind fun s =>
  (resolve s.σ 1 c.sig.ret).bind fun t =>
  if hasUnknown t then .err .substitution else .ok t

/-- higher_order.rs L78-82: the state is not that of all parameters of the block. -/
def lengthOff (post : Option (List Ty)) (n : Nat) : Bool :=
  match post with
  | some as => decide (as.length ≠ n)
  | none => false

/-- higher_order.rs L66-134 `finish_with_block_state`; `.ok` is a proven type. -/
def finish (p : Prepared) (ret : Ty) (post : Option (List Ty)) : Out Ty :=
  if hasUnknown ret then .err .blockResult
  else if tooWide ret then .err .bound
  else if lengthOff post p.blockParams.length then .err .blockInput
  else
    (collect (finishOne ret post) p.cands).bind fun ts =>
      match ts with
      | [] => .err .unsupported
      | t :: ts => if ts.any (fun u => decide (u ≠ t)) then .err .ambiguous else .ok t

end Verif.HigherOrder
