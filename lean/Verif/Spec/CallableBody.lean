import Verif.Model.CallableBody
import Verif.Spec.ShapeReads
/-!
What the value of a summarised body is when the lambda or proc is called.
-/
namespace Verif.CallableBody
open Verif.Types Verif.ShapeReads

/-- Method calls of a world: `send v m args x` says that calling method `m` of `v` with these arguments may give `x`.  About hashes it
is known what reading gives; `freeze` gives the receiver. -/
structure Sends (W : World) where
  send : W.V → String → List W.V → W.V → Prop
  index : ∀ v k x, W.isHash v → send v "[]" [k] x → Got W v k x
  fetch1 : ∀ v k x, W.isHash v → send v "fetch" [k] x → Fetched W v k x
  fetch2 : ∀ v k d x, W.isHash v → send v "fetch" [k, d] x → FetchedOr W v k d x
  dig : ∀ v k ks x, W.isHash v → send v "dig" (k :: ks) x → Dug W v (k :: ks) x
  key : ∀ v m k x, W.isHash v → m ∈ ["key?", "has_key?", "include?", "member?"] → send v m [k] x → HasKey W v k x
  keys : ∀ v x, W.isHash v → send v "keys" [] x → KeysOf W v x
  values : ∀ v x, W.isHash v → send v "values" [] x → ValuesOf W v x
  freeze : ∀ v x, send v "freeze" [] x → x = v

variable {W : World} (S : Sends W)

/-- The arguments noted to be string or symbol literals are these literals. -/
def KeysHold (keyArgs : List (Option Lit)) (vs : List W.V) : Prop := ∀ (i : Nat) (l : Lit), keyArgs[i]? = some (some l) → vs[i]? = some (W.lit l)

mutual
/-- A value of the expression, given the values of the parameters and of the captured variables. -/
def Val (caps : String → W.V) (ps : List W.V) : Expr → W.V → Prop
  | .lit t, v => Desc W t v
  | .param i, v => ps[i]? = some v
  | .capture x, v => v = caps x
  | .array es, v => W.isArr v ∧ ∃ vs, Vals caps ps es vs ∧ ∀ x, W.elem v x ↔ x ∈ vs
  | .shape fs, v => W.isHash v ∧ ∃ vs, FieldVals caps ps fs vs ∧ ∀ k x, W.entry v k x ↔ ∃ l, (l, x) ∈ (fs.map (·.1)).zip vs ∧ k = W.lit l
  | .call r m args keyArgs, v => ∃ rv avs, Val caps ps r rv ∧ Vals caps ps args avs ∧ KeysHold keyArgs avs ∧ S.send rv m avs v
  | .union es, v => AnyVal caps ps es v
def Vals (caps : String → W.V) (ps : List W.V) : List Expr → List W.V → Prop
  | [], vs => vs = []
  | e :: l, vs => ∃ v vs', vs = v :: vs' ∧ Val caps ps e v ∧ Vals caps ps l vs'
def FieldVals (caps : String → W.V) (ps : List W.V) : List (Lit × Expr) → List W.V → Prop
  | [], vs => vs = []
  | (_, e) :: l, vs => ∃ v vs', vs = v :: vs' ∧ Val caps ps e v ∧ FieldVals caps ps l vs'
def AnyVal (caps : String → W.V) (ps : List W.V) : List Expr → W.V → Prop
  | [], _ => False
  | e :: l, v => Val caps ps e v ∨ AnyVal caps ps l v
end

/-- How the arguments of a call are distributed over parameters that come in the order required, optional, rest (the order of
indexer/callable_body.rs L201-246): `Fill caps ps params args qs` with the parameters `ps` already filled gives `qs`. -/
inductive Fill (caps : String → W.V) : List W.V → List Param → List W.V → List W.V → Prop where
  | done {ps args} : Fill caps ps [] args ps
  | required {ps p l a args qs} : p.kind = .required → Fill caps (ps ++ [a]) l args qs → Fill caps ps (p :: l) (a :: args) qs
  | missing {ps p l nil qs} : p.kind = .required → IsNil W nil → Fill caps (ps ++ [nil]) l [] qs → Fill caps ps (p :: l) [] qs
  | optional {ps p l a args qs} : p.kind = .optional → Fill caps (ps ++ [a]) l args qs → Fill caps ps (p :: l) (a :: args) qs
  | default {ps p l e v qs} : p.kind = .optional → p.dflt = some e → Val S caps ps e v → Fill caps (ps ++ [v]) l [] qs → Fill caps ps (p :: l) [] qs
  | rest {ps p l args a qs} : p.kind = .rest → W.isArr a → (∀ x, W.elem a x ↔ x ∈ args) → Fill caps (ps ++ [a]) l [] qs → Fill caps ps (p :: l) args qs

/-- A proc (not a lambda) that is called with one array and has two parameters or more. -/
def Splats (s : Summary) (args : List W.V) : Prop := s.strict = false ∧ 2 ≤ s.params.length ∧ ∃ a, args = [a] ∧ W.isArr a

/-- The values of the parameters of a call.  A proc takes a single array apart when it has a required and another parameter; when
all its parameters are optional, either is allowed here. -/
inductive Binds (caps : String → W.V) (s : Summary) : List W.V → List W.V → Prop where
  | plain {args ps} : ¬ (Splats s args ∧ ∃ p ∈ s.params, p.kind = .required) → Fill S caps [] s.params args ps → Binds caps s args ps
  | splat {a es ps} : Splats s [a] → (∀ x, W.elem a x ↔ x ∈ es) → Fill S caps [] s.params es ps → Binds caps s [a] ps

/-- The types written into the expression are tidy. -/
inductive Sane (W : World) : Expr → Prop where
  | lit {t} : Tidy W t → Sane W (.lit t)
  | param (i) : Sane W (.param i)
  | capture (x) : Sane W (.capture x)
  | array {es} : (∀ e ∈ es, Sane W e) → Sane W (.array es)
  | shape {fs} : (∀ f ∈ fs, Sane W f.2) → Sane W (.shape fs)
  | call {r m args keyArgs} : Sane W r → (∀ e ∈ args, Sane W e) → Sane W (.call r m args keyArgs)
  | union {es} : (∀ e ∈ es, Sane W e) → Sane W (.union es)

/-- The method resolver is right: what it answers describes the results of the call. -/
def MethodsRight (resolve : Nat → Ty → String → List Ty → Option Ty) : Prop :=
  ∀ i r m ts t, Tidy W r → (∀ a ∈ ts, Tidy W a) → resolve i r m ts = some t → Tidy W t ∧
    ∀ (v : W.V) (vs : List W.V) (x : W.V), Desc W r v → List.Forall₂ (Desc W) ts vs → S.send v m vs x → Desc W t x

/-- The resolver of calls of captured callables is right, for the values the captured variables have. -/
def CapturesRight (caps : String → W.V) (resolve : Nat → String → List Ty → Option (Except Reason Ty)) : Prop :=
  ∀ i x ts t, (∀ a ∈ ts, Tidy W a) → resolve i x ts = some (.ok t) → Tidy W t ∧
    ∀ (vs : List W.V) (y : W.V), List.Forall₂ (Desc W) ts vs → S.send (caps x) "call" vs y → Desc W t y

mutual
/-- The number of nodes, of calls, and the nesting of an expression. -/
def size : Expr → Nat
  | .array es => sizeList es + 1
  | .shape fs => sizeFields fs + 1
  | .call r _ args _ => size r + sizeList args + 1
  | .union es => sizeList es + 1
  | _ => 1
def sizeList : List Expr → Nat
  | [] => 0
  | e :: l => size e + sizeList l
def sizeFields : List (Lit × Expr) → Nat
  | [] => 0
  | (_, e) :: l => size e + sizeFields l
end

mutual
def calls : Expr → Nat
  | .array es => callsList es
  | .shape fs => callsFields fs
  | .call r _ args _ => calls r + callsList args + 1
  | .union es => callsList es
  | _ => 0
def callsList : List Expr → Nat
  | [] => 0
  | e :: l => calls e + callsList l
def callsFields : List (Lit × Expr) → Nat
  | [] => 0
  | (_, e) :: l => calls e + callsFields l
end

/-- `e'` occurs in `e`, `k` levels below. -/
inductive Within : Expr → Expr → Nat → Prop where
  | here (e) : Within e e 0
  | array {es e e' k} : e ∈ es → Within e e' k → Within (.array es) e' (k + 1)
  | shape {fs : List (Lit × Expr)} {f e' k} : f ∈ fs → Within f.2 e' k → Within (.shape fs) e' (k + 1)
  | recv {r m args keyArgs e' k} : Within r e' k → Within (.call r m args keyArgs) e' (k + 1)
  | arg {r m args keyArgs e e' k} : e ∈ args → Within e e' k → Within (.call r m args keyArgs) e' (k + 1)
  | union {es e e' k} : e ∈ es → Within e e' k → Within (.union es) e' (k + 1)

/-- The sizes of the defaults. -/
def sizeDefaults (ps : List Param) : Nat := (ps.map fun p => (p.dflt.map size).getD 0).sum

/-- `u` occurs in `t`, `k` levels below. -/
inductive Inside : Ty → Ty → Nat → Prop where
  | here (t) : Inside t t 0
  | array {ts t u k} : t ∈ ts → Inside t u k → Inside (.array ts) u (k + 1)
  | key {ks vs t u k} : t ∈ ks → Inside t u k → Inside (.hash ks vs) u (k + 1)
  | value {ks vs t u k} : t ∈ vs → Inside t u k → Inside (.hash ks vs) u (k + 1)
  | union {ts t u k} : t ∈ ts → Inside t u k → Inside (.union ts) u (k + 1)
  | field {fs r o z d u k} {f : Field} : f ∈ fs → Inside f.2.2 u k → Inside (.shape fs r o z d) u (k + 1)
  | restKey {fs kt vt o z d u k} : Inside kt u k → Inside (.shape fs (some (kt, vt)) o z d) u (k + 1)
  | restValue {fs kt vt o z d u k} : Inside vt u k → Inside (.shape fs (some (kt, vt)) o z d) u (k + 1)

end Verif.CallableBody
