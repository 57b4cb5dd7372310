import Verif.Model.Lowering
import Verif.Spec.CallableBody
import Verif.Spec.ControlFlow
/-!
How a lambda or proc literal runs: a relation between syntax, the values of local variables before and after, and the result.

Simplifications: every condition may hold or not; objects do not change (what a call gives is a relation between values); code that is
`other` may give any value, in the ways `Verif.ControlFlow.Run` allows, and leaves the variables alone unless it is said to write.
-/
namespace Verif.Lowering
open Verif.Types Verif.ShapeReads Verif.CallableBody

variable {W : World} (S : Sends W) (K : ControlFlow.World)

/-- How code ends: with a value, with the values of several expressions, with `return` or `next` and a value, or otherwise. -/
inductive Res (W : World) where
  | val (v : W.V)
  | vals (vs : List W.V)
  | ret (v : W.V)
  | nxt (v : W.V)
  | out (o : ControlFlow.Out)

/-- The result without its values. -/
def Res.kind : Res W → ControlFlow.Out
  | .val _ => .done
  | .vals _ => .done
  | .ret _ => .ret
  | .nxt _ => .nxt
  | .out o => o

/-- The values of the local variables; `nil` before the first assignment. -/
abbrev Vars (W : World) := String → W.V

def Vars.set (σ : Vars W) (x : String) (v : W.V) : Vars W := fun y => if y = x then v else σ y

inductive Task where
  | node (n : Node)
  /-- statements, one after the other -/
  | seq (l : List Node)
  /-- the values of several expressions -/
  | args (l : List Node)

/-- The hash with these entries, as far as the keys are literals and differ. -/
def Holds (W : World) (ks : List (Option Lit)) (vs : List W.V) (v : W.V) : Prop :=
  W.isHash v ∧ ∀ ls : List Lit, ks = ls.map some → ls.Nodup → ∀ k x, W.entry v k x ↔ ∃ l, (l, x) ∈ ls.zip vs ∧ k = W.lit l

inductive Exec : Task → Vars W → Res W → Vars W → Prop
  -- statements
  | none {σ v} : IsNil W v → Exec (.seq []) σ (.val v) σ
  | last {n σ r σ'} : Exec (.node n) σ r σ' → Exec (.seq [n]) σ r σ'
  | step {n m l σ v σ1 r σ'} : Exec (.node n) σ (.val v) σ1 → Exec (.seq (m :: l)) σ1 r σ' → Exec (.seq (n :: m :: l)) σ r σ'
  | stop {n m l σ r σ'} : Exec (.node n) σ r σ' → r.kind ≠ .done → Exec (.seq (n :: m :: l)) σ r σ'
  -- several expressions
  | noArgs {σ} : Exec (.args []) σ (.vals []) σ
  | arg {n l σ v σ1 vs σ'} : Exec (.node n) σ (.val v) σ1 → Exec (.args l) σ1 (.vals vs) σ' → Exec (.args (n :: l)) σ (.vals (v :: vs)) σ'
  | argLeaves {n l σ r σ'} : Exec (.node n) σ r σ' → r.kind ≠ .done → Exec (.args (n :: l)) σ r σ'
  | laterLeaves {n l σ v σ1 r σ'} : Exec (.node n) σ (.val v) σ1 → Exec (.args l) σ1 r σ' → r.kind ≠ .done → Exec (.args (n :: l)) σ r σ'
  -- nodes
  | stmts {l σ r σ'} : Exec (.seq l) σ r σ' → Exec (.node (.stmts l)) σ r σ'
  | write {x n σ v σ'} : Exec (.node n) σ (.val v) σ' → Exec (.node (.write x n)) σ (.val v) (σ'.set x v)
  | writeLeaves {x n σ r σ'} : Exec (.node n) σ r σ' → r.kind ≠ .done → Exec (.node (.write x n)) σ r σ'
  | read {x σ} : Exec (.node (.read x)) σ (.val (σ x)) σ
  | array {es σ vs σ' v} : Exec (.args es) σ (.vals vs) σ' → W.isArr v → (∀ x, W.elem v x ↔ x ∈ vs) → Exec (.node (.array es)) σ (.val v) σ'
  | arrayLeaves {es σ r σ'} : Exec (.args es) σ r σ' → r.kind ≠ .done → Exec (.node (.array es)) σ r σ'
  | hash {fs : List (Option Lit × Node)} {σ vs σ' v} : Exec (.args (fs.map (·.2))) σ (.vals vs) σ' → Holds W (fs.map (·.1)) vs v →
      Exec (.node (.hash fs)) σ (.val v) σ'
  | hashLeaves {fs : List (Option Lit × Node)} {σ r σ'} : Exec (.args (fs.map (·.2))) σ r σ' → r.kind ≠ .done → Exec (.node (.hash fs)) σ r σ'
  | ifCond {c t e σ r σ'} : Exec (.node c) σ r σ' → r.kind ≠ .done → Exec (.node (.ifN c t e)) σ r σ'
  | ifThen {c t e σ v σ1 r σ'} : Exec (.node c) σ (.val v) σ1 → Exec (.seq t) σ1 r σ' → Exec (.node (.ifN c t e)) σ r σ'
  | ifElse {c t e σ v σ1 r σ'} : Exec (.node c) σ (.val v) σ1 → Exec (.seq e) σ1 r σ' → Exec (.node (.ifN c t e)) σ r σ'
  | elsifCond {c t n σ r σ'} : Exec (.node c) σ r σ' → r.kind ≠ .done → Exec (.node (.elsif c t n)) σ r σ'
  | elsifThen {c t n σ v σ1 r σ'} : Exec (.node c) σ (.val v) σ1 → Exec (.seq t) σ1 r σ' → Exec (.node (.elsif c t n)) σ r σ'
  | elsifElse {c t n σ v σ1 r σ'} : Exec (.node c) σ (.val v) σ1 → Exec (.node n) σ1 r σ' → Exec (.node (.elsif c t n)) σ r σ'
  | unlessCond {c t e σ r σ'} : Exec (.node c) σ r σ' → r.kind ≠ .done → Exec (.node (.unlessN c t e)) σ r σ'
  | unlessThen {c t e σ v σ1 r σ'} : Exec (.node c) σ (.val v) σ1 → Exec (.seq t) σ1 r σ' → Exec (.node (.unlessN c t e)) σ r σ'
  | unlessElse {c t e σ v σ1 r σ'} : Exec (.node c) σ (.val v) σ1 → Exec (.seq e) σ1 r σ' → Exec (.node (.unlessN c t e)) σ r σ'
  | retNil {σ v} : IsNil W v → Exec (.node (.ret [])) σ (.ret v) σ
  | ret {n σ v σ'} : Exec (.args [n]) σ (.vals [v]) σ' → Exec (.node (.ret [n])) σ (.ret v) σ'
  | retMany {n m l σ vs v σ'} : Exec (.args (n :: m :: l)) σ (.vals vs) σ' → W.isArr v → (∀ x, W.elem v x ↔ x ∈ vs) →
      Exec (.node (.ret (n :: m :: l))) σ (.ret v) σ'
  | retLeaves {args σ r σ'} : Exec (.args args) σ r σ' → r.kind ≠ .done → Exec (.node (.ret args)) σ r σ'
  | nxtNil {σ v} : IsNil W v → Exec (.node (.nxt [])) σ (.nxt v) σ
  | nxt {n σ v σ'} : Exec (.args [n]) σ (.vals [v]) σ' → Exec (.node (.nxt [n])) σ (.nxt v) σ'
  | nxtMany {n m l σ vs v σ'} : Exec (.args (n :: m :: l)) σ (.vals vs) σ' → W.isArr v → (∀ x, W.elem v x ↔ x ∈ vs) →
      Exec (.node (.nxt (n :: m :: l))) σ (.nxt v) σ'
  | nxtLeaves {args σ r σ'} : Exec (.args args) σ r σ' → r.kind ≠ .done → Exec (.node (.nxt args)) σ r σ'
  | beginN {l σ r σ'} : Exec (.seq l) σ r σ' → Exec (.node (.beginN l)) σ r σ'
  | recvLeaves {n m args safe σ r σ'} : Exec (.node n) σ r σ' → r.kind ≠ .done → Exec (.node (.call n m args safe)) σ r σ'
  | argsLeave {n m args safe σ v σ1 r σ'} : Exec (.node n) σ (.val v) σ1 → Exec (.args args) σ1 r σ' → r.kind ≠ .done →
      Exec (.node (.call n m args safe)) σ r σ'
  | call {n m args safe σ rv σ1 vs σ' x} : Exec (.node n) σ (.val rv) σ1 → Exec (.args args) σ1 (.vals vs) σ' → S.send rv m vs x →
      ¬ ControlFlow.NeverReturns K (some (cf n)) m → Exec (.node (.call n m args safe)) σ (.val x) σ'
  | callRaises {n m args safe σ rv σ1 vs σ'} : Exec (.node n) σ (.val rv) σ1 → Exec (.args args) σ1 (.vals vs) σ' →
      Exec (.node (.call n m args safe)) σ (.out (.raised false)) σ'
  /-- `nil&.m` is nil -/
  | skipped {n m args σ v σ'} : Exec (.node n) σ (.val v) σ' → IsNil W v → ¬ ControlFlow.NeverReturns K (some (cf n)) m →
      Exec (.node (.call n m args true)) σ (.val v) σ'
  | lit {t key σ v} : Desc W t v → (∀ l, key = some l → v = W.lit l) → Exec (.node (.lit t key)) σ (.val v) σ
  | interp {t parts σ vs σ' v} : Exec (.args parts) σ (.vals vs) σ' → Desc W t v → Exec (.node (.interp t parts)) σ (.val v) σ'
  | interpLeaves {t parts σ r σ'} : Exec (.args parts) σ r σ' → r.kind ≠ .done → Exec (.node (.interp t parts)) σ r σ'
  | other {n w σ σ'} {r : Res W} : ControlFlow.Run K (.node n) r.kind → (∀ vs, r ≠ .vals vs) → (w = false → σ' = σ) →
      Exec (.node (.other n w)) σ r σ'

/-! ### calling the literal -/

/-- A parameter in the order of Ruby's binding. -/
inductive Formal where
  | required (x : String)
  | optional (x : String) (dflt : Node)
  | rest (x : String)

/-- The parameters of a literal that has only named ones. -/
def Formals : Params → Option (List Formal)
  | .absent => some []
  | .unsupported => none
  | .list req opts rest _ =>
    match req.mapM id, rest with
    | some xs, none => some (xs.map .required ++ opts.map fun p => .optional p.1 p.2)
    | some xs, some (some x) => some (xs.map .required ++ (opts.map fun p => .optional p.1 p.2) ++ [.rest x])
    | _, _ => none

/-- How the arguments of a call fill the parameters, with the variables before and after. -/
inductive Take : Vars W → List Formal → List W.V → Vars W → Prop where
  | done {σ args} : Take σ [] args σ
  | required {σ x l a args σ'} : Take (σ.set x a) l args σ' → Take σ (.required x :: l) (a :: args) σ'
  | missing {σ x l nil σ'} : IsNil W nil → Take (σ.set x nil) l [] σ' → Take σ (.required x :: l) [] σ'
  | optional {σ x d l a args σ'} : Take (σ.set x a) l args σ' → Take σ (.optional x d :: l) (a :: args) σ'
  | default {σ x d l v σ1 σ'} : Exec S K (.node d) σ (.val v) σ1 → Take (σ1.set x v) l [] σ' → Take σ (.optional x d :: l) [] σ'
  | rest {σ x l args a σ'} : W.isArr a → (∀ y, W.elem a y ↔ y ∈ args) → Take (σ.set x a) l [] σ' → Take σ (.rest x :: l) args σ'

/-- The variables behind `;`. -/
def Params.blockLocals : Params → List String
  | .list _ _ _ bs => bs
  | _ => []

/-- The variables when the call begins: those behind `;` hide captured ones and are nil; all others have the values they have outside. -/
def Begins (lit : Literal) (outer : List String) (caps : String → W.V) (σ : Vars W) : Prop :=
  ∀ x, if x ∈ lit.params.blockLocals ∧ x ∈ outer then IsNil W (σ x) else σ x = caps x

/-- What the body gives. -/
def Gives (strict : Bool) (r : Res W) (v : W.V) : Prop := r = .val v ∨ r = .nxt v ∨ (strict = true ∧ r = .ret v)

/-- A proc with two parameters or more that is called with one array. -/
def Apart (W : World) (strict : Bool) (fs : List Formal) (args : List W.V) : Prop := strict = false ∧ 2 ≤ fs.length ∧ ∃ a, args = [a] ∧ W.isArr a

/-- The arguments that are bound: the array is taken apart if there is a required parameter, and may be if there is none. -/
def Given (W : World) (strict : Bool) (fs : List Formal) (args given : List W.V) : Prop :=
  (given = args ∧ ¬ (Apart W strict fs args ∧ ∃ x, .required x ∈ fs)) ∨ (Apart W strict fs args ∧ ∀ a, args = [a] → ∀ x, W.elem a x ↔ x ∈ given)

/-- The call of the literal with these arguments can give `v`. -/
def Called (lit : Literal) (outer : List String) (caps : String → W.V) (args : List W.V) (v : W.V) : Prop :=
  ∃ fs σ σ1 σ2 r given, Formals lit.params = some fs ∧ Begins lit outer caps σ ∧ Given W lit.strict fs args given ∧
    Take S K σ fs given σ1 ∧ Exec S K (.seq lit.body) σ1 r σ2 ∧ Gives lit.strict r v

/-! ### the literals the theorem speaks of -/

/-- Code that leaves the variables alone and is not left with `return` or `next`. -/
def Pure (n : Node) : Prop := ∀ σ r σ', Exec S K (.node n) σ r σ' → σ' = σ ∧ r.kind ≠ .ret ∧ r.kind ≠ .nxt

mutual
/-- Code whose `return`s and `next`s come last (and not at all, if the flag is not set), without `&.`, with conditions and interpolated
parts that are pure. -/
inductive Neat : Bool → Node → Prop
  | stmts {b l} : NeatSeq b l → Neat b (.stmts l)
  | write {b x n} : Neat false n → Neat b (.write x n)
  | read {b x} : Neat b (.read x)
  | array {b es} : (∀ n ∈ es, Neat false n) → Neat b (.array es)
  | hash {b} {fs : List (Option Lit × Node)} : (∀ f ∈ fs, Neat false f.2) → Neat b (.hash fs)
  | ifN {b c t e} : Pure S K c → NeatSeq b t → NeatSeq b e → Neat b (.ifN c t e)
  | elsif {b c t n} : Pure S K c → NeatSeq b t → Neat b n → Neat b (.elsif c t n)
  | unlessN {b c t e} : Pure S K c → NeatSeq b t → NeatSeq b e → Neat b (.unlessN c t e)
  | ret {args} : (∀ n ∈ args, Neat false n) → Neat true (.ret args)
  | nxt {args} : (∀ n ∈ args, Neat false n) → Neat true (.nxt args)
  | beginN {b l} : NeatSeq b l → Neat b (.beginN l)
  | call {b r m args} : Neat false r → (∀ n ∈ args, Neat false n) → Neat b (.call r m args false)
  | lit {b t key} : Neat b (.lit t key)
  | interp {b t parts} : (∀ n ∈ parts, Pure S K n) → Neat b (.interp t parts)
  | other {b n w} : ControlFlow.Quiet K (.node n) → Neat b (.other n w)
inductive NeatSeq : Bool → List Node → Prop
  | nil {b} : NeatSeq b []
  | last {b n} : Neat b n → NeatSeq b [n]
  | cons {b n m l} : Neat false n → NeatSeq b (m :: l) → NeatSeq b (n :: m :: l)
end

mutual
/-- Code without assignments to local variables (outside of conditions and interpolations, which `Neat` is about). -/
def Writeless : Node → Prop
  | .stmts l => WritelessAll l
  | .write _ _ => False
  | .read _ => True
  | .array es => WritelessAll es
  | .hash fs => WritelessFields fs
  | .ifN _ t e => WritelessAll t ∧ WritelessAll e
  | .elsif _ t n => WritelessAll t ∧ Writeless n
  | .unlessN _ t e => WritelessAll t ∧ WritelessAll e
  | .ret args => WritelessAll args
  | .nxt args => WritelessAll args
  | .beginN l => WritelessAll l
  | .call r _ args _ => Writeless r ∧ WritelessAll args
  | .lit _ _ => True
  | .interp _ _ => True
  | .other _ _ => True
def WritelessAll : List Node → Prop
  | [] => True
  | n :: l => Writeless n ∧ WritelessAll l
def WritelessFields : List (Option Lit × Node) → Prop
  | [] => True
  | (_, n) :: l => Writeless n ∧ WritelessFields l
end

/-- Such a literal; its defaults assign nothing and no variable behind `;` has the name of a captured one. -/
def NeatLiteral (lit : Literal) (outer : List String) : Prop :=
  NeatSeq S K true lit.body ∧ (∀ x ∈ lit.params.blockLocals, x ∉ outer) ∧
  match lit.params with
  | .list _ opts _ _ => ∀ p ∈ opts, Neat S K false p.2 ∧ Writeless p.2
  | _ => True

end Verif.Lowering
