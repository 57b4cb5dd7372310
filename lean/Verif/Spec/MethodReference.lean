import Verif.Model.MethodReference

/-!
Specification of method references, without caches, loops, sorting or fuel: which facts of an owner stand, what a walk over
ancestors finds first, and which answers a receiver and a name have.
-/
namespace Verif.MethodReference

open Verif.Visibility Verif.MethodLookup

/-- A fact of an owner and a name that stands: none of them is absent, and it is unavailable or none of them is. -/
def Stands (B : Base) (o : Owner) (m : Nat) (f : Fact) : Prop :=
  (f ∈ B.facts ∧ f.owner = o ∧ f.name = m) ∧
  (∀ g ∈ B.facts, g.owner = o → g.name = m → g.avail ≠ .absent) ∧
  (f.avail = .unavailable ∨ ∀ g ∈ B.facts, g.owner = o → g.name = m → g.avail ≠ .unavailable)

/-- Nothing stands. -/
def Nothing (B : Base) (o : Owner) (m : Nat) : Prop := ∀ f, ¬ Stands B o m f

/-- One fact stands. -/
def One (B : Base) (o : Owner) (m : Nat) (f : Fact) : Prop := Stands B o m f ∧ ∀ g, Stands B o m g → g = f

/-- Different facts stand. -/
def Several (B : Base) (o : Owner) (m : Nat) : Prop := ∃ f g, Stands B o m f ∧ Stands B o m g ∧ f ≠ g

/-- The owner of a list at which something stands first, after others. -/
def First (B : Base) (m : Nat) (l before : List Owner) (o : Owner) : Prop :=
  (∃ after, l = before ++ o :: after) ∧ ∀ x ∈ before, Nothing B x m

/-- The facts of the core: stubs and signatures. -/
def Core (f : Fact) : Prop := f.kind = .stub ∨ f.kind = .signature

/-- The open roots of all objects: the top level, `BasicObject`, `Object`, `Kernel`, `Module` and `Class`. -/
def OpenRoot (o : Owner) : Prop := o.parts = [] ∨ ∃ x ∈ [0, 1, 2, 3, 4], o.parts = [x]

/-- The chain of a receiver: top-level fallbacks count only if its ancestry is known. -/
def refChain (E : Engine) (n : Owner) : List Owner := E.chainWith n (!E.broken n)

/-- What the chain of the receiver says. -/
inductive Own (E : Engine) (n : Owner) (m : Nat) : Res → Prop where
  | sure (before : List Owner) (o : Owner) (f : Fact) : First E.base m (refChain E n) before o → One E.base o m f →
      (f.owner = n ∨ Core f ∨ ∀ x ∈ before ++ [o], ¬ OpenRoot x) → Own E n m (.unique f)
  | unsure (before : List Owner) (o : Owner) (f : Fact) : First E.base m (refChain E n) before o → One E.base o m f →
      f.owner ≠ n → ¬ Core f → (∃ x ∈ before ++ [o], OpenRoot x) → Own E n m (.ambiguous n m)
  | several (before : List Owner) (o : Owner) : First E.base m (refChain E n) before o → Several E.base o m → Own E n m (.ambiguous o m)

/-- The chain of a receiver has nothing. -/
def NoOwn (E : Engine) (n : Owner) (m : Nat) : Prop := ∀ o ∈ refChain E n, Nothing E.base o m

/-- What the metaclass of the receiver says: only facts of the core are sure. -/
inductive Meta (E : Engine) (n : Owner) (m : Nat) : Res → Prop where
  | sure (k : Owner) (before : List Owner) (o : Owner) (f : Fact) : E.metaclass n = some k → First E.base m (refChain E k) before o →
      One E.base o m f → Core f → Meta E n m (.unique f)
  | unsure (k : Owner) (before : List Owner) (o : Owner) (f : Fact) : E.metaclass n = some k → First E.base m (refChain E k) before o →
      One E.base o m f → ¬ Core f → Meta E n m (.ambiguous k m)
  | several (k : Owner) (before : List Owner) (o : Owner) : E.metaclass n = some k → First E.base m (refChain E k) before o →
      Several E.base o m → Meta E n m (.ambiguous o m)

/-- There is no metaclass, or it has nothing. -/
def NoMeta (E : Engine) (n : Owner) (m : Nat) : Prop := ∀ k, E.metaclass n = some k → ∀ o ∈ refChain E k, Nothing E.base o m

/-- A fact that stands at an owner and counts for callers: facts of signatures count if there are no others. -/
def Counts (B : Base) (o : Owner) (m : Nat) (f : Fact) : Prop :=
  Stands B o m f ∧ (f.kind ≠ .signature ∨ ∀ g, Stands B o m g → g.kind = .signature)

/-- The objects that have a module: its includers, or itself if there are none. -/
def Has (B : Base) (n r : Owner) : Prop := r ∈ B.includers n ∨ (B.includers n = [] ∧ r = n)

/-- An owner at which a call with the name ends for a receiver. -/
def Ends (B : Base) (m : Nat) (r o : Owner) : Prop := (∃ before, First B m (B.chain r) before o) ∧ ∃ f, Stands B o m f

/-- The owners at which calls in a module end: its own, else those for objects that have the module, else those for the targets of
its context. -/
def Reaches (B : Base) (n : Owner) (m : Nat) (o : Owner) : Prop :=
  Ends B m n o ∨
  ((∀ o', ¬ Ends B m n o') ∧ ∃ r, Has B n r ∧ Ends B m r o) ∨
  ((∀ o', ¬ Ends B m n o') ∧ (∀ r, Has B n r → ∀ o', ¬ Ends B m r o') ∧ ∃ r ∈ B.applications n, Ends B m r o)

/-- What the includers of a module say. -/
inductive Via' (B : Base) (n : Owner) (m : Nat) : Res → Prop where
  | unique (o : Owner) (f g : Fact) : Reaches B n m o → (∀ o', Reaches B n m o' → o' = o) → f ∈ B.facts → f.owner = o → f.name = m →
      Counts B o m g → g.pos = f.pos → (∀ g', Counts B o m g' → f.pos ≤ g'.pos) → Via' B n m (.unique f)
  | several (o o' : Owner) : Reaches B n m o → Reaches B n m o' → o ≠ o' → Via' B n m (.ambiguous n m)

/-- The includers do not help. -/
def NoVia (B : Base) (n : Owner) (m : Nat) : Prop := B.isModule n = false ∨ ∀ o, ¬ Reaches B n m o

/-- The name is that of a method of an ancestor of an open root in the chain that is not proven to be one. -/
def Open (E : Engine) (n : Owner) (m : Nat) : Prop :=
  ∃ root ∈ refChain E n, OpenRoot root ∧ ∃ o ∈ E.broad root, o ∉ E.proven root ∧ ∃ f ∈ E.base.facts, f.owner = o ∧ f.name = m

/-- The `method_missing` that every object has. -/
def Default (r : Res) : Prop := ∃ f, r = .unique f ∧ f.owner = basicObject ∧ f.name = methodMissingName ∧ Core f

/-- Neither the chain nor the includers have an answer, and all ancestors are known. -/
def Silent (E : Engine) (n : Owner) (m : Nat) : Prop :=
  E.base.known n = true ∧ NoOwn E n m ∧ NoVia E.base n m ∧ E.broken n = false ∧ NoMeta E n m

/-- The answers of a reference to a name with a receiver. -/
inductive Refers (E : Engine) : Owner → Nat → Res → Prop where
  | unknown (n : Owner) (m : Nat) : E.base.known n = false → Refers E n m .missing
  | own (n : Owner) (m : Nat) (r : Res) : E.base.known n = true → Own E n m r → Refers E n m r
  | via (n : Owner) (m : Nat) (r : Res) : E.base.known n = true → NoOwn E n m → E.base.isModule n = true → Via' E.base n m r → Refers E n m r
  | barrier (n : Owner) (m : Nat) : E.base.known n = true → NoOwn E n m → NoVia E.base n m → E.broken n = true → Refers E n m .missing
  | object (n : Owner) (m : Nat) (r : Res) : E.base.known n = true → NoOwn E n m → NoVia E.base n m → E.broken n = false → Meta E n m r → Refers E n m r
  | target (n : Owner) (m : Nat) (g : Owner → Res) (a : Owner) (f : Fact) : Silent E n m → (∀ b ∈ E.base.applications n, Refers E b m (g b)) →
      a ∈ E.base.applications n → g a = .unique f → (∀ b ∈ E.base.applications n, g b = .unique f ∨ g b = .missing) → Refers E n m (.unique f)
  | targets (n : Owner) (m : Nat) (g : Owner → Res) : Silent E n m → (∀ b ∈ E.base.applications n, Refers E b m (g b)) →
      ((∃ b ∈ E.base.applications n, ∃ o x, g b = .ambiguous o x) ∨
        ∃ a ∈ E.base.applications n, ∃ b ∈ E.base.applications n, ∃ f f', g a = .unique f ∧ g b = .unique f' ∧ f ≠ f') → Refers E n m (.ambiguous n m)
  | unproven (n : Owner) (m : Nat) : Silent E n m → (∀ b ∈ E.base.applications n, Refers E b m .missing) → Open E n m → Refers E n m (.ambiguous n m)
  | handler (n : Owner) (m : Nat) (r : Res) : Silent E n m → (∀ b ∈ E.base.applications n, Refers E b m .missing) → ¬ Open E n m →
      m ≠ methodMissingName → Refers E n methodMissingName r → ¬ Default r → Refers E n m r
  | default (n : Owner) (m : Nat) (r : Res) : Silent E n m → (∀ b ∈ E.base.applications n, Refers E b m .missing) → ¬ Open E n m →
      m ≠ methodMissingName → Refers E n methodMissingName r → Default r → Refers E n m .missing
  | nothing (n : Owner) : Silent E n methodMissingName → (∀ b ∈ E.base.applications n, Refers E b methodMissingName .missing) →
      ¬ Open E n methodMissingName → Refers E n methodMissingName .missing

/-- A cache that only has right entries: chains, breaks and names are those of the engine, and the answer of a metaclass is that
for a receiver without an answer of its own. -/
structure Right (E : Engine) (c : Cache) : Prop where
  chains : ∀ o l, c.chains o = some l → l = refChain E o
  broken : ∀ o b, c.broken o = some b → b = E.broken o
  unproven : ∀ o l, c.unproven o = some l → ∀ m, m ∈ l ↔ ∃ x ∈ E.broad o, x ∉ E.proven o ∧ ∃ f ∈ E.base.facts, f.owner = x ∧ f.name = m
  metas : ∀ k m r, c.metaMethods k m = some r → ∃ n, E.metaclass n = some k ∧ NoOwn E n m ∧ (Meta E n m r ∨ (NoMeta E n m ∧ r = .missing))

end Verif.MethodReference
