import Verif.Spec.Subtype
import Verif.Spec.Types
import Verif.Model.FlowTypes
/-!
What Ruby code does: an interpreter that says which values, which local variables and which reads of variables are possible.  It
uses the syntax tree of the model and none of its functions.

Methods are arbitrary: a call may give any value that the world allows, and it may raise.  Every piece of code may be interrupted by
an exception before it starts, so what is proven about completed runs also covers the beginnings of runs that never end.  The
comparison in `case` and `rescue` may go either way.

Simplifications: `while` checks its condition first, `break` and `next` carry no value, no method changes local variables.
-/
namespace Verif.FlowTypes
open Verif.Types

/-- Ruby's values with what the tracker takes for granted: `nil?`, `!`, `is_a?` and `new` are not redefined, `raise` and its like do not
return, and only `nil` and `false` are falsy. -/
structure World extends Types.World where
  nil : V
  truthy : V → Prop
  /-- `send v m a w`: calling `m` on `v`, with the argument `a` if there is one, may return `w` -/
  send : V → String → Option V → V → Prop
  const : String → V
  self : V
  /-- the constant is not shadowed by another one of the same name -/
  top : String → Prop
  nil_inst : ∀ v, inst (nameOf "NilClass") v ↔ v = nil
  nil_falsy : ¬ truthy nil
  false_falsy : ∀ v, inst (nameOf "FalseClass") v → ¬ truthy v
  clsRef_truthy : ∀ n v, clsRef n v → truthy v
  modRef_truthy : ∀ n v, modRef n v → truthy v
  lit_truthy : ∀ l, truthy (lit l)
  arr_truthy : ∀ v, isArr v → truthy v
  hash_truthy : ∀ v, isHash v → truthy v
  send_nil : ∀ v w, send v "nil?" none w → (truthy w ↔ v = nil)
  send_not : ∀ v w, send v "!" none w → (truthy w ↔ ¬ truthy v)
  send_isA : ∀ c v w, top c → send v "is_a?" (some (const c)) w → (truthy w ↔ inst (nameOf c) v)
  send_kindOf : ∀ c v w, top c → send v "kind_of?" (some (const c)) w → (truthy w ↔ inst (nameOf c) v)
  send_instanceOf : ∀ c v w, top c → send v "instance_of?" (some (const c)) w → truthy w → inst (nameOf c) v
  send_new : ∀ c a w, top c → send (const c) "new" a w → inst (nameOf c) w
  never : ∀ m a w, m ∈ ["raise", "fail", "throw", "exit", "exit!", "abort"] → ¬ send self m a w
  never_module : ∀ c m a w, c ∈ ["Process", "Kernel"] → m ∈ ["raise", "fail", "throw", "exit", "exit!", "abort"] → ¬ send (const c) m a w

/-- How code ends: with a value, with an exception, or by leaving. -/
inductive Out (V : Type) where
  | val (v : V)
  | raised
  | ret (v : V)
  | brk
  | nxt

def Out.isVal {V : Type} : Out V → Prop
  | .val _ => True
  | _ => False

/-- The values of the local variables; a variable that has not been assigned is `nil`. -/
abbrev Store (W : World) := Nat → W.V

def Store.set {W : World} (σ : Store W) (x : Nat) (v : W.V) : Store W := fun y => if y = x then v else σ y

/-- Which ends are possible: the variables before, the values read (with the site of each read), the outcome, the variables after. -/
abbrev Beh (W : World) := Store W → List (Nat × W.V) → Out W.V → Store W → Prop

variable {W : World}

/-- Some value with the property, or an exception. -/
inductive Some' (P : W.V → Prop) : Store W → List (Nat × W.V) → Out W.V → Store W → Prop
  | raise {σ} : Some' P σ [] .raised σ
  | val {σ v} : P v → Some' P σ [] (.val v) σ

/-- A variable is read. -/
inductive ReadB (x i : Nat) : Store W → List (Nat × W.V) → Out W.V → Store W → Prop
  | raise {σ} : ReadB x i σ [] .raised σ
  | val {σ} : ReadB x i σ [(i, σ x)] (.val (σ x)) σ

/-- A variable is assigned. -/
inductive StoreB (x : Nat) (v : W.V) : Store W → List (Nat × W.V) → Out W.V → Store W → Prop
  | val {σ} : StoreB x v σ [] (.val v) (σ.set x v)

/-- The code ends at once. -/
inductive Now (o : Out W.V) : Store W → List (Nat × W.V) → Out W.V → Store W → Prop
  | now {σ} : Now o σ [] o σ

/-- First `a`, then, if it gave a value, `k`. -/
inductive Bind (a : Beh W) (k : W.V → Beh W) : Store W → List (Nat × W.V) → Out W.V → Store W → Prop
  | leaves {σ t o σ'} : a σ t o σ' → ¬ o.isVal → Bind a k σ t o σ'
  | next {σ t₁ v σ₁ t₂ o σ'} : a σ t₁ (.val v) σ₁ → k v σ₁ t₂ o σ' → Bind a k σ (t₁ ++ t₂) o σ'

/-- `a` if the value is truthy, else `b`. -/
inductive Cond (v : W.V) (a b : Beh W) : Store W → List (Nat × W.V) → Out W.V → Store W → Prop
  | yes {σ t o σ'} : W.truthy v → a σ t o σ' → Cond v a b σ t o σ'
  | no {σ t o σ'} : ¬ W.truthy v → b σ t o σ' → Cond v a b σ t o σ'

/-- One of the two. -/
inductive Either (a b : Beh W) : Store W → List (Nat × W.V) → Out W.V → Store W → Prop
  | left {σ t o σ'} : a σ t o σ' → Either a b σ t o σ'
  | right {σ t o σ'} : b σ t o σ' → Either a b σ t o σ'

/-- `while c; b; end`, or `until` when `w` is false. -/
inductive LoopB (w : Bool) (c b : Beh W) : Store W → List (Nat × W.V) → Out W.V → Store W → Prop
  | done {σ t v σ'} : c σ t (.val v) σ' → ¬ (W.truthy v ↔ w = true) → LoopB w c b σ t (.val W.nil) σ'
  | condBreak {σ t σ'} : c σ t .brk σ' → LoopB w c b σ t (.val W.nil) σ'
  | condLeaves {σ t o σ'} : c σ t o σ' → ¬ o.isVal → o ≠ .brk → LoopB w c b σ t o σ'
  | again {σ t₁ v σ₁ t₂ o₂ σ₂ t₃ o σ'} : c σ t₁ (.val v) σ₁ → (W.truthy v ↔ w = true) → b σ₁ t₂ o₂ σ₂ →
      o₂.isVal ∨ o₂ = .nxt → LoopB w c b σ₂ t₃ o σ' → LoopB w c b σ (t₁ ++ t₂ ++ t₃) o σ'
  | break {σ t₁ v σ₁ t₂ σ'} : c σ t₁ (.val v) σ₁ → (W.truthy v ↔ w = true) → b σ₁ t₂ .brk σ' →
      LoopB w c b σ (t₁ ++ t₂) (.val W.nil) σ'
  | leaves {σ t₁ v σ₁ t₂ o σ'} : c σ t₁ (.val v) σ₁ → (W.truthy v ↔ w = true) → b σ₁ t₂ o σ' → ¬ o.isVal → o ≠ .nxt → o ≠ .brk →
      LoopB w c b σ (t₁ ++ t₂) o σ'

/-- `begin a; rescue r; else e; end` -/
inductive Rescue (a r : Beh W) (e : W.V → Beh W) : Store W → List (Nat × W.V) → Out W.V → Store W → Prop
  | normal {σ t₁ v σ₁ t₂ o σ'} : a σ t₁ (.val v) σ₁ → e v σ₁ t₂ o σ' → Rescue a r e σ (t₁ ++ t₂) o σ'
  | handled {σ t₁ σ₁ t₂ o σ'} : a σ t₁ .raised σ₁ → r σ₁ t₂ o σ' → Rescue a r e σ (t₁ ++ t₂) o σ'
  | leaves {σ t o σ'} : a σ t o σ' → ¬ o.isVal → o ≠ .raised → Rescue a r e σ t o σ'

/-- `n` runs however `a` ends. -/
inductive Ensure (a n : Beh W) : Store W → List (Nat × W.V) → Out W.V → Store W → Prop
  | normal {σ t₁ o σ₁ t₂ v σ'} : a σ t₁ o σ₁ → n σ₁ t₂ (.val v) σ' → Ensure a n σ (t₁ ++ t₂) o σ'
  | leaves {σ t₁ o₁ σ₁ t₂ o σ'} : a σ t₁ o₁ σ₁ → n σ₁ t₂ o σ' → ¬ o.isVal → Ensure a n σ (t₁ ++ t₂) o σ'

mutual
/-- The interpreter. -/
def run (W : World) : Expr → Beh W
  | .lit t => Some' (fun v => Desc W.toWorld t v)
  | .read x i => ReadB x i
  | .write x e => Bind (run W e) (fun v => StoreB x v)
  | .const c => Some' (fun v => v = W.const c)
  | .self => Some' (fun v => v = W.self)
  | .call0 r m => Bind (run W r) (fun v => Some' (fun w => W.send v m none w))
  | .call r m a => Bind (run W r) (fun v => Bind (run W a) (fun u => Some' (fun w => W.send v m (some u) w)))
  | .seq a b => Bind (run W a) (fun _ => run W b)
  | .paren e => run W e
  | .ifE c t e => Bind (run W c) (fun v => Cond v (run W t) (run W e))
  | .unlessE c t e => Bind (run W c) (fun v => Cond v (run W e) (run W t))
  | .caseE s ws e => Bind (run W s) (fun _ => runClauses W ws (run W e))
  | .loopE w c b => LoopB w (run W c) (run W b)
  | .andE l r => Bind (run W l) (fun v => Cond v (run W r) (Now (.val v)))
  | .orE l r => Bind (run W l) (fun v => Cond v (Now (.val v)) (run W r))
  | .beginE b rs n => Ensure (Rescue (run W b) (runClauses W rs (Now .raised)) (fun v => Now (.val v))) (run W n)
  | .beginElse b rs e n => Ensure (Rescue (run W b) (runClauses W rs (Now .raised)) (fun _ => run W e)) (run W n)
  | .rescueMod e r => Rescue (run W e) (Either (run W r) (Now .raised)) (fun v => Now (.val v))
  | .ret e => Bind (run W e) (fun v => Now (.ret v))
  | .brk => Now .brk
  | .nxt => Now .nxt
  | .opWrite x e =>
    Either (Some' (fun v => v = v)) (Bind (run W e) (fun _ => Bind (Some' (fun v => v = v)) (fun v => StoreB x v)))
  | .other e => Bind (run W e) (fun _ => Some' (fun v => v = v))
/-- Clauses are tried in order; `last` runs when none matches. -/
def runClauses (W : World) : Clauses → Beh W → Beh W
  | .nil, last => last
  | .cons c b l, last => Bind (run W c) (fun _ => Either (run W b) (runClauses W l last))
end

/-- What is known about methods, constants and `self` is right. -/
structure Right (W : World) (K : Know) : Prop where
  resolve : ∀ t m u v a w, K.resolve t m = some u → Desc W.toWorld t v → W.send v m a w → Desc W.toWorld u w
  const : ∀ c, Desc W.toWorld (K.const c) (W.const c)
  self : Desc W.toWorld K.self W.self

/-- The value of a variable is as the environment says; a variable that the environment does not know is `nil`. -/
def DescOpt (W : World) : Option Ty → W.V → Prop
  | some t, v => Desc W.toWorld t v
  | none, v => v = W.nil

def Agrees (W : World) (E : Env) (σ : Store W) : Prop := ∀ x, DescOpt W (E x) (σ x)

/-! ### which code the claims are about -/

mutual
/-- The variables that the code assigns. -/
def written : Expr → List Nat
  | .lit _ => []
  | .read _ _ => []
  | .write x e => x :: written e
  | .const _ => []
  | .self => []
  | .call0 r _ => written r
  | .call r _ a => written r ++ written a
  | .seq a b => written a ++ written b
  | .paren e => written e
  | .ifE c t e => written c ++ written t ++ written e
  | .unlessE c t e => written c ++ written t ++ written e
  | .caseE s ws e => written s ++ writtenC ws ++ written e
  | .loopE _ c b => written c ++ written b
  | .andE a b => written a ++ written b
  | .orE a b => written a ++ written b
  | .beginE b rs n => written b ++ writtenC rs ++ written n
  | .beginElse b rs e n => written b ++ writtenC rs ++ written e ++ written n
  | .rescueMod a b => written a ++ written b
  | .ret e => written e
  | .brk => []
  | .nxt => []
  | .opWrite x e => x :: written e
  | .other e => written e
def writtenC : Clauses → List Nat
  | .nil => []
  | .cons c b l => written c ++ written b ++ writtenC l
end

mutual
/-- The sites at which the code reads variables. -/
def sites : Expr → List Nat
  | .lit _ => []
  | .read _ i => [i]
  | .write _ e => sites e
  | .const _ => []
  | .self => []
  | .call0 r _ => sites r
  | .call r _ a => sites r ++ sites a
  | .seq a b => sites a ++ sites b
  | .paren e => sites e
  | .ifE c t e => sites c ++ sites t ++ sites e
  | .unlessE c t e => sites c ++ sites t ++ sites e
  | .caseE s ws e => sites s ++ sitesC ws ++ sites e
  | .loopE _ c b => sites c ++ sites b
  | .andE a b => sites a ++ sites b
  | .orE a b => sites a ++ sites b
  | .beginE b rs n => sites b ++ sitesC rs ++ sites n
  | .beginElse b rs e n => sites b ++ sitesC rs ++ sites e ++ sites n
  | .rescueMod a b => sites a ++ sites b
  | .ret e => sites e
  | .brk => []
  | .nxt => []
  | .opWrite _ e => sites e
  | .other e => sites e
def sitesC : Clauses → List Nat
  | .nil => []
  | .cons c b l => sites c ++ sites b ++ sitesC l
end

mutual
/-- The sites in loops and in `ensure` clauses. -/
def loopSites : Expr → List Nat
  | .lit _ => []
  | .read _ _ => []
  | .write _ e => loopSites e
  | .const _ => []
  | .self => []
  | .call0 r _ => loopSites r
  | .call r _ a => loopSites r ++ loopSites a
  | .seq a b => loopSites a ++ loopSites b
  | .paren e => loopSites e
  | .ifE c t e => loopSites c ++ loopSites t ++ loopSites e
  | .unlessE c t e => loopSites c ++ loopSites t ++ loopSites e
  | .caseE s ws e => loopSites s ++ loopSitesC ws ++ loopSites e
  | .loopE _ c b => sites c ++ sites b
  | .andE a b => loopSites a ++ loopSites b
  | .orE a b => loopSites a ++ loopSites b
  | .beginE b rs n => loopSites b ++ loopSitesC rs ++ sites n
  | .beginElse b rs e n => loopSites b ++ loopSitesC rs ++ loopSites e ++ sites n
  | .rescueMod a b => loopSites a ++ loopSites b
  | .ret e => loopSites e
  | .brk => []
  | .nxt => []
  | .opWrite _ e => loopSites e
  | .other e => loopSites e
def loopSitesC : Clauses → List Nat
  | .nil => []
  | .cons c b l => loopSites c ++ loopSites b ++ loopSitesC l
end

mutual
/-- Is there a `return` in the code? -/
def returns : Expr → Bool
  | .lit _ => false
  | .read _ _ => false
  | .write _ e => returns e
  | .const _ => false
  | .self => false
  | .call0 r _ => returns r
  | .call r _ a => returns r || returns a
  | .seq a b => returns a || returns b
  | .paren e => returns e
  | .ifE c t e => returns c || returns t || returns e
  | .unlessE c t e => returns c || returns t || returns e
  | .caseE s ws e => returns s || returnsC ws || returns e
  | .loopE _ c b => returns c || returns b
  | .andE a b => returns a || returns b
  | .orE a b => returns a || returns b
  | .beginE b rs n => returns b || returnsC rs || returns n
  | .beginElse b rs e n => returns b || returnsC rs || returns e || returns n
  | .rescueMod a b => returns a || returns b
  | .ret _ => true
  | .brk => false
  | .nxt => false
  | .opWrite _ e => returns e
  | .other e => returns e
def returnsC : Clauses → Bool
  | .nil => false
  | .cons c b l => returns c || returns b || returnsC l
end

mutual
/-- Is there a `break` or `next` that belongs to a loop around the code? -/
def jumps : Expr → Bool
  | .lit _ => false
  | .read _ _ => false
  | .write _ e => jumps e
  | .const _ => false
  | .self => false
  | .call0 r _ => jumps r
  | .call r _ a => jumps r || jumps a
  | .seq a b => jumps a || jumps b
  | .paren e => jumps e
  | .ifE c t e => jumps c || jumps t || jumps e
  | .unlessE c t e => jumps c || jumps t || jumps e
  | .caseE s ws e => jumps s || jumpsC ws || jumps e
  | .loopE _ c _ => jumps c
  | .andE a b => jumps a || jumps b
  | .orE a b => jumps a || jumps b
  | .beginE b rs n => jumps b || jumpsC rs || jumps n
  | .beginElse b rs e n => jumps b || jumpsC rs || jumps e || jumps n
  | .rescueMod a b => jumps a || jumps b
  | .ret e => jumps e
  | .brk => true
  | .nxt => true
  | .opWrite _ e => jumps e
  | .other e => jumps e
def jumpsC : Clauses → Bool
  | .nil => false
  | .cons c b l => jumps c || jumps b || jumpsC l
end

/-- Code that the tracker may skip: it assigns nothing and does not return. -/
def inert (e : Expr) : Bool := (written e).isEmpty && !returns e

/-- The variable that a condition tests. -/
def tests : Expr → Option Nat
  | .call0 p "!" => tests p
  | .call0 (.read x _) "nil?" => some x
  | .call (.read x _) m (.const _) => if m = "is_a?" ∨ m = "kind_of?" ∨ m = "instance_of?" then some x else none
  | _ => none

/-- Tests whose outcome says what the tracker concludes from it. -/
inductive Telling (W : World) : Expr → Bool → Nat → Prop
  | nil {x i b} : Telling W (.call0 (.read x i) "nil?") b x
  | isA {x i c b} : W.top c → Telling W (.call (.read x i) "is_a?" (.const c)) b x
  | kindOf {x i c b} : W.top c → Telling W (.call (.read x i) "kind_of?" (.const c)) b x
  | instanceOf {x i c} : W.top c → Telling W (.call (.read x i) "instance_of?" (.const c)) true x
  | not {p b x} : Telling W p (!b) x → Telling W (.call0 p "!") b x

/-- The condition tests nothing, or it is telling and `branch`, which follows it, does not assign the variable. -/
def Tested (W : World) (c : Expr) (b : Bool) (branch : Expr) : Prop :=
  tests c = none ∨ ∃ x, Telling W c b x ∧ x ∉ written branch

mutual
/-- Code in which an exception leaves the variables as the tracker assumes: no loops, no conclusions from tests, and no assignments in
`ensure` clauses. -/
def protectable : Expr → Bool
  | .write _ e => protectable e
  | .call0 r _ => protectable r
  | .call r _ _ => protectable r
  | .seq a b => protectable a && protectable b
  | .paren e => protectable e
  | .ifE c t e => protectable c && protectable t && protectable e && ((tests c).isNone || diverges t == diverges e)
  | .unlessE c t e => protectable c && protectable t && protectable e && ((tests c).isNone || diverges t == diverges e)
  | .caseE s ws e => protectable s && protectableC ws && protectable e
  | .loopE _ _ _ => false
  | .andE a b => protectable a && protectable b
  | .orE a b => protectable a && protectable b
  | .beginE b rs n => protectable b && protectableC rs && (written n).isEmpty && protectable n
  | .beginElse b rs e n => protectable b && protectableC rs && protectable e && (written n).isEmpty && protectable n
  | .rescueMod a b => protectable a && protectable b
  | .ret e => protectable e
  | _ => true
def protectableC : Clauses → Bool
  | .nil => true
  | .cons _ b l => protectable b && protectableC l
end

/-- A type that separates truthy from falsy values: no `Object` that might be `nil`. -/
def Sharp (W : World) (t : Ty) : Prop :=
  t = .unknown ∨ ∀ u, AltOf t u → u = nilTy ∨ u = .cls (nameOf "FalseClass") ∨ ∀ v, Desc W.toWorld u v → W.truthy v

/-- Conditions on `if`, where the first branch runs when the condition is `truth`: if the tracker concludes something from the
condition, because one of the branches leaves, the conclusion still holds at the end of the other branch. -/
def Branching (W : World) (c : Expr) (truth : Bool) (t e : Expr) : Prop :=
  (diverges t = true → diverges e = false → Tested W c (!truth) e) ∧ (diverges t = false → diverges e = true → Tested W c truth t)

/-- `C.new` is called on the class of that name. -/
def NewOk (W : World) (r : Expr) (m : String) : Prop := ∀ c, r = .const c → m = "new" → W.top c

/-- A type that is not empty, has no unions in unions and is not a shape; with `s`, also a sharp one. -/
def Fine (W : World) (s : Bool) (t : Ty) : Prop :=
  (∃ u, AltOf t u) ∧ (∀ u, AltOf t u → Simple u ∧ u.isShape = false) ∧ (s = true → Sharp W t)

/-- The types that the tracker gets from elsewhere are fine. -/
structure FineKnow (W : World) (s : Bool) (K : Know) : Prop where
  resolve : ∀ t m u, K.resolve t m = some u → Fine W s u
  const : ∀ c, Fine W s (K.const c)
  self : Fine W s K.self

def FineEnv (W : World) (s : Bool) (E : Env) : Prop := ∀ x t, E x = some t → Fine W s t

/-- The class of a test is fine. -/
def FineTest (W : World) (s : Bool) : Expr → Prop
  | .call0 p "!" => FineTest W s p
  | .call (.read _ _) _ (.const c) => Fine W s (.cls (nameOf c))
  | _ => True

mutual
/-- The type of the code does not depend on the variables `X`. -/
def settled (X : List Nat) : Expr → Bool
  | .read x _ => !X.contains x
  | .write _ e => settled X e
  | .call0 r _ => !isExpr r || settled X r
  | .call r _ _ => !isExpr r || settled X r
  | .seq _ b => settled X b
  | .paren e => settled X e
  | .ifE _ t e => settled X t && settled X e
  | .unlessE _ t e => settled X t && settled X e
  | .caseE _ ws e => settledC X ws && settled X e
  | .loopE _ _ _ => false
  | .andE l r => settled X l && settled X r
  | .orE l r => settled X l && settled X r
  | .beginE b rs _ => settled X b && settledC X rs
  | .beginElse _ rs e _ => settled X e && settledC X rs
  | .rescueMod e r => settled X e && settled X r
  | .ret e => !isExpr e || settled X e
  | _ => true
def settledC (X : List Nat) : Clauses → Bool
  | .nil => true
  | .cons _ b l => settled X b && settledC X l
end

def Clauses.isNil : Clauses → Bool
  | .nil => true
  | .cons _ _ _ => false

mutual
/-- Code in a loop that assigns the variables `X`: what it assigns and returns has the same type in every round, and nothing is
concluded from tests. -/
def regular (X : List Nat) : Expr → Bool
  | .write x e => X.contains x && settled X e && regular X e
  | .call0 r _ => !isExpr r || regular X r
  | .call r _ _ => !isExpr r || regular X r
  | .seq a b => regular X a && regular X b
  | .paren e => regular X e
  | .ifE c t e => regular X c && regular X t && regular X e && ((tests c).isNone || diverges t == diverges e)
  | .unlessE c t e => regular X c && regular X t && regular X e && ((tests c).isNone || diverges t == diverges e)
  | .caseE s ws e => regular X s && regularC X ws && regular X e
  | .loopE _ c b => regular X c && regular X b
  | .andE l r => settled X l && regular X l && regular X r
  | .orE l r => settled X l && regular X l && regular X r
  | .beginE b rs n => regular X b && regularC X rs && regular X n && (rs.isNil || protectable b)
  | .beginElse b rs e n => regular X b && regularC X rs && regular X e && regular X n && (rs.isNil || protectable b)
  | .rescueMod e r => regular X e && regular X r && protectable e
  | .ret e => !isExpr e || (settled X e && regular X e)
  | _ => true
def regularC (X : List Nat) : Clauses → Bool
  | .nil => true
  | .cons _ b l => regular X b && regularC X l
end

mutual
/-- The code that the claims are about; `v` says whether the value of the code is used, `s` whether `&&` and `||` occur. -/
def Supported (W : World) (s : Bool) (v : Bool) : Expr → Prop
  | .lit t => Fine W s t
  | .read _ _ => True
  | .write _ e => Supported W s true e
  | .const _ => True
  | .self => True
  | .call0 r m => (isExpr r = true → Supported W s true r) ∧ (isExpr r = false → inert r = true) ∧ NewOk W r m ∧
      ∀ c, r = .const c → m = "new" → Fine W s (.cls (nameOf c))
  | .call r m a => (isExpr r = true → Supported W s true r) ∧ (isExpr r = false → inert r = true) ∧ NewOk W r m ∧ inert a = true ∧
      ∀ c, r = .const c → m = "new" → Fine W s (.cls (nameOf c))
  | .seq a b => Supported W s false a ∧ Supported W s v b
  | .paren e => Supported W s v e
  | .ifE c t e => Supported W s false c ∧ Supported W s v t ∧ Supported W s v e ∧ Branching W c true t e ∧ FineTest W s c
  | .unlessE c t e => Supported W s false c ∧ Supported W s v t ∧ Supported W s v e ∧ Branching W c false t e ∧ FineTest W s c
  | .caseE e ws l => Supported W s false e ∧ SupportedC W s v ws ∧ Supported W s v l
  | .loopE _ c b => v = false ∧ jumps c = false ∧ jumps b = false ∧ Supported W s false c ∧ Supported W s false b ∧
      regular (written c ++ written b) c = true ∧ regular (written c ++ written b) b = true
  | .andE l r => s = true ∧ Supported W s true l ∧ Supported W s v r
  | .orE l r => s = true ∧ Supported W s true l ∧ Supported W s v r
  | .beginE b rs n => Supported W s v b ∧ (rs = .nil ∨ protectable b = true) ∧ SupportedC W s v rs ∧ returns n = false ∧
      Supported W s false n
  | .beginElse b rs e n => Supported W s v b ∧ Supported W s v e ∧ (rs = .nil ∨ protectable b = true) ∧ SupportedC W s v rs ∧
      returns n = false ∧ Supported W s false n
  | .rescueMod e r => Supported W s v e ∧ protectable e = true ∧ Supported W s v r
  | .ret e => (isExpr e = true → Supported W s true e) ∧ (isExpr e = false → inert e = true)
  | .brk => True
  | .nxt => True
  | .opWrite _ _ => False
  | .other e => inert e = true
def SupportedC (W : World) (s : Bool) (v : Bool) : Clauses → Prop
  | .nil => True
  | .cons c b l => inert c = true ∧ Supported W s v b ∧ SupportedC W s v l
end

end Verif.FlowTypes
