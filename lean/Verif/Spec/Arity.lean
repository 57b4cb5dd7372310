import Verif.Model.Arity

/-!
What Ruby does with the arguments of a call: which values the argument expressions may have, and when binding them to the
parameters of the method succeeds.  Uses the syntax of the model, none of its functions.
-/
namespace Verif.Arity

/-- A key of a hash at run time. -/
inductive Key where
  | sym (name : Nat)
  | other (id : Nat)
  deriving DecidableEq

/-- A value: a hash with its keys or something else. -/
inductive Val where
  | hash (keys : List Key)
  | other
  deriving DecidableEq

/-- The keys an element of a hash without braces may contribute. -/
inductive ElemKeys : Elem → List Key → Prop
  | sym {n} : ElemKeys (.sym n) [.sym n]
  | dynamic {k} : ElemKeys .dynamic [k]
  | splat {ks} : ElemKeys .splat ks

inductive ElemsKeys : List Elem → List Key → Prop
  | nil : ElemsKeys [] []
  | cons {e l a b} : ElemKeys e a → ElemsKeys l b → ElemsKeys (e :: l) (a ++ b)

/-- The positional values and the keywords one argument may contribute.  A splatted array may end in a hash that is flagged as
keywords. -/
inductive ArgVals : Arg → List Val → List Key → Prop
  | plain {h v} : (∀ ks, v = .hash ks → h = true) → ArgVals (.plain h) [v] []
  | splat {vs ks} : ArgVals .splat vs ks
  | forwarding {vs ks} : ArgVals .forwarding vs ks
  | keywords {es ks} : ElemsKeys es ks → ArgVals (.keywords es) [] ks
  | blockArg : ArgVals .blockArg [] []

inductive CallVals : List Arg → List Val → List Key → Prop
  | nil : CallVals [] [] []
  | cons {a l vs ks vs' ks'} : ArgVals a vs ks → CallVals l vs' ks' → CallVals (a :: l) (vs ++ vs') (ks ++ ks')

/-- The number of values a method needs. -/
def needed (fs : List Formal) : Nat := fs.countP (fun f => match f with | .req _ => true | .pattern => true | _ => false)

/-- The number of values beyond those. -/
def spare (fs : List Formal) : Nat := fs.countP (fun f => match f with | .opt _ => true | _ => false)

/-- Does the method take any number of values? -/
def Open (fs : List Formal) : Prop := .rest ∈ fs ∨ .forwarding ∈ fs

def KwOpen (fs : List Formal) : Prop := .kwRest ∈ fs ∨ .forwarding ∈ fs

/-- Does the method take keywords? -/
def TakesKw (fs : List Formal) : Prop := KwOpen fs ∨ ∃ n, .kwReq n ∈ fs ∨ .kwOpt n ∈ fs

/-- The number of values fits. -/
def Fits (fs : List Formal) (n : Nat) : Prop := needed fs ≤ n ∧ (Open fs ∨ n ≤ needed fs + spare fs)

/-- The keywords fit a method that takes some. -/
def KwFit (fs : List Formal) (ks : List Key) : Prop :=
  (∀ n, .kwReq n ∈ fs → .sym n ∈ ks) ∧ (KwOpen fs ∨ ∀ k ∈ ks, ∃ n, k = .sym n ∧ (.kwReq n ∈ fs ∨ .kwOpt n ∈ fs))

/-- Ruby 3: keywords are keywords for a method that takes them, and one more value (a hash) for any other method, unless there are
none; with `**nil` they are an error. -/
def Binds (fs : List Formal) (vs : List Val) (ks : List Key) : Prop :=
  (TakesKw fs ∧ Fits fs vs.length ∧ KwFit fs ks) ∨
  (¬ TakesKw fs ∧ ((ks = [] ∧ Fits fs vs.length) ∨ (ks ≠ [] ∧ .noKw ∉ fs ∧ Fits fs (vs.length + 1))))

/-- Ruby 2, for a call without keywords: as above, or the last value is a hash and is taken as keywords, entirely or in part. -/
def Binds2 (fs : List Formal) (vs : List Val) : Prop :=
  Binds fs vs [] ∨
  ∃ init keys, vs = init ++ [.hash keys] ∧ TakesKw fs ∧
    ((Fits fs init.length ∧ KwFit fs keys) ∨ (∃ part, (∀ k ∈ part, k ∈ keys) ∧ Fits fs vs.length ∧ KwFit fs part))

/-- Ruby 2, for a call with keywords: they are a hash when there are too few values. -/
def Binds2Kw (fs : List Formal) (vs : List Val) (ks : List Key) : Prop :=
  Binds fs vs ks ∨ (vs.length < needed fs ∧ ks ≠ [] ∧ Binds fs (vs ++ [.hash ks]) [])

/-- Arguments that are written out: no splats, no forwarding, no computed keys. -/
def Written (a : Arg) : Prop :=
  a ≠ .splat ∧ a ≠ .forwarding ∧ ∀ es, a = .keywords es → ∀ e ∈ es, ∃ n, e = .sym n

/-- The keywords of this argument have literal names. -/
def Literal (a : Arg) : Prop := ∀ es, a = .keywords es → ∀ e ∈ es, e ≠ .dynamic

end Verif.Arity
