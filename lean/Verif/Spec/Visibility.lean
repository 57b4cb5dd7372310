import Verif.Model.Visibility

/-!
Ruby's own account of method definitions and visibility, independent of the indexer.

Running the code of a file defines methods and changes visibilities, in order: `events`.  Each class has a table from names
to entries.  `private :m` changes the entry of the class; if the class has none, Ruby looks for the method above the class
and, if its visibility is another one, adds an entry that only carries the visibility (a `ZSUPER` entry; vm_method.c
`rb_export_method`).  A call finds the first entry along the ancestors, checks its visibility, and runs the first
definition.
-/
namespace Verif.Visibility.Ruby

/-- An entry of a method table: a definition, or a visibility for the method of an ancestor. -/
inductive Entry where
  | meth (pos : Nat) (vis : Vis)
  | zsuper (vis : Vis)
deriving DecidableEq, Repr

def Entry.vis : Entry → Vis
  | .meth _ v => v
  | .zsuper v => v

/-- The method tables. -/
abbrev Tables := Owner → Nat → Option Entry

/-- What running code does to the tables. -/
inductive Ev where
  | define (o : Owner) (m pos : Nat) (v : Vis)
  | change (o : Owner) (m : Nat) (v : Vis) (pos : Nat)
deriving DecidableEq, Repr

def Ev.pos : Ev → Nat
  | .define _ _ p _ => p
  | .change _ _ _ p => p

/-- Names that are private in every class and module (vm_method.c `rb_method_entry_make`): `initialize`,
`initialize_copy`, `initialize_clone`, `initialize_dup`, `respond_to_missing?`. -/
def autoPrivate (m : Nat) : Bool := decide (m = initializeName ∨ m = 3 ∨ m = 4 ∨ m = 5 ∨ m = 6)

/-- Where code runs: the class, whether in its singleton class, the default visibility, and whether `module_function` is
on. -/
structure Ctx where
  parts : List Nat
  sing : Bool
  vis : Vis
  modFun : Bool
deriving DecidableEq, Repr

/-- The start of a file: definitions are private methods. -/
def Ctx.top : Ctx := { parts := [], sing := false, vis := .priv, modFun := false }

/-- A `def` without receiver. -/
def define (c : Ctx) (m pos : Nat) : List Ev :=
  if c.modFun then [.define ⟨c.parts, c.sing⟩ m pos .priv, .define ⟨c.parts, true⟩ m pos .pub]
  else [.define ⟨c.parts, c.sing⟩ m pos (if autoPrivate m && !c.sing then .priv else c.vis)]

/-- What running code does, in order.  The bodies of methods do not run.  A `def self.m` or `class << self` inside of
`class << self`, a class inside of `class << self`, and a `def` on another object are not described (see `Plain`). -/
def events : Ctx → Code → List Ev
  | _, .nil => []
  | c, .defn r m pos _ rest =>
    (match r with
      | .none => define c m pos
      | .self => [.define ⟨c.parts, true⟩ m pos .pub]
      | _ => []) ++ events c rest
  | c, .keyword v rest => events { c with vis := v, modFun := false } rest
  | c, .change v names rest => names.map (fun n => .change ⟨c.parts, c.sing⟩ n.1 v n.2) ++ events c rest
  | c, .changeDef v m pos _ rest => define c m pos ++ .change ⟨c.parts, c.sing⟩ m v pos :: events c rest
  | c, .moduleFunction rest => events { c with modFun := true } rest
  | c, .ns _ path absolute body rest =>
    events { parts := if absolute then path else c.parts ++ path, sing := false, vis := .pub, modFun := false } body ++ events c rest
  | c, .sclass body rest => events { c with sing := true, vis := .pub, modFun := false } body ++ events c rest

/-- The first entry along a list of classes: its class and its visibility. -/
def first (T : Tables) : List Owner → Nat → Option (Owner × Vis)
  | [], _ => none
  | o :: l, m =>
    match T o m with
    | some e => some (o, e.vis)
    | none => first T l m

/-- The first definition along a list of classes: its class and its position. -/
def found (T : Tables) : List Owner → Nat → Option (Owner × Nat)
  | [], _ => none
  | o :: l, m =>
    match T o m with
    | some (.meth p _) => some (o, p)
    | _ => found T l m

def put (T : Tables) (o : Owner) (m : Nat) (e : Entry) : Tables := fun o' m' => if o' = o ∧ m' = m then some e else T o' m'

/-- One step.  `above o` are the classes in which Ruby looks for the method when `o` has none.  `none` is a `NameError`: the
method does not exist. -/
def step (above : Owner → List Owner) (T : Tables) : Ev → Option Tables
  | .define o m p v => some (put T o m (.meth p v))
  | .change o m v _ =>
    match T o m with
    | some (.meth p _) => some (put T o m (.meth p v))
    | some (.zsuper _) => some (put T o m (.zsuper v))
    | none =>
      match first T (above o) m with
      | none => none
      | some (_, w) => if w = v then some T else some (put T o m (.zsuper v))

def run (above : Owner → List Owner) : Tables → List Ev → Option Tables
  | T, [] => some T
  | T, e :: l =>
    match step above T e with
    | none => none
    | some T' => run above T' l

def noTables : Tables := fun _ _ => none

/-- What a call does. -/
inductive Answer where
  /-- it runs the method defined in the class at the position -/
  | runs (o : Owner) (pos : Nat)
  /-- the method is private or protected -/
  | rejected
  /-- there is no method -/
  | missing
deriving DecidableEq, Repr

/-- A call on an object with the ancestors `L`; `may o v` if an entry of `o` with visibility `v` may be called. -/
def call (T : Tables) (L : List Owner) (m : Nat) (may : Owner → Vis → Bool) : Answer :=
  match first T L m with
  | none => .missing
  | some (o, v) =>
    if may o v then
      match found T L m with
      | some (d, p) => .runs d p
      | none => .missing
    else .rejected

/-- A call without receiver or on `self`. -/
def onSelf : Owner → Vis → Bool := fun _ _ => true

/-- A call on another object, from code where `self` has the ancestors `K`. -/
def onOther (K : List Owner) : Owner → Vis → Bool
  | _, .pub => true
  | _, .priv => false
  | o, .prot => decide (o ∈ K)

/-! ### Programs -/

/-- Bodies of methods that define nothing themselves. -/
def quiet : Code → Bool
  | .nil => true
  | .keyword _ rest => quiet rest
  | .moduleFunction rest => quiet rest
  | _ => false

/-- Code whose definitions land where the indexer records them: no `def` on other objects, nothing inside of
`class << self` but methods, no path beginning with `::`, no constructors, no definitions inside of methods, and no
`module_function`.  Visibilities are not restricted. -/
def Plain (c : Ctx) : Code → Bool
  | .nil => true
  | .defn r m _ body rest =>
    (match r with
      | .none => decide (m ≠ initializeName)
      | .self => !c.sing && !c.parts.isEmpty
      | _ => false) && quiet body && Plain c rest
  | .keyword v rest => Plain { c with vis := v } rest
  | .change _ _ rest => Plain c rest
  | .changeDef _ m _ body rest => decide (m ≠ initializeName) && quiet body && Plain c rest
  | .moduleFunction _ => false
  | .ns _ path absolute body rest =>
    !c.sing && !absolute && !path.isEmpty && Plain { parts := c.parts ++ path, sing := false, vis := .pub, modFun := false } body && Plain c rest
  | .sclass body rest => !c.sing && !c.parts.isEmpty && Plain { c with sing := true, vis := .pub, modFun := false } body && Plain c rest

/-- Plain code without the forms for which the indexer records another visibility than Ruby's: a `def` at the top level or
of a name that is always private, a `def self.m` in a section that is not public, `private def m`. -/
def Tame (c : Ctx) : Code → Bool
  | .nil => true
  | .defn r m _ _ rest =>
    (match r with
      | .none => !c.parts.isEmpty && !(autoPrivate m && !c.sing)
      | _ => decide (c.vis = .pub)) && Tame c rest
  | .keyword v rest => Tame { c with vis := v } rest
  | .change _ _ rest => Tame c rest
  | .changeDef _ _ _ _ _ => false
  | .moduleFunction _ => false
  | .ns _ path _ body rest => Tame { parts := c.parts ++ path, sing := false, vis := .pub, modFun := false } body && Tame c rest
  | .sclass body rest => Tame { c with sing := true, vis := .pub, modFun := false } body && Tame c rest

/-- What the files of a program do, run one after the other. -/
def program (files : List Code) : List Ev := files.flatMap (events .top)

/-- No method is defined after its visibility was changed, and all definitions of a method have the same visibility. -/
def Orderly (evs : List Ev) : Prop :=
  evs.Pairwise (fun a b => match a, b with
    | .change o m _ _, .define o' m' _ _ => ¬(o = o' ∧ m = m')
    | .define o m _ v, .define o' m' _ v' => o = o' → m = m' → v = v'
    | _, _ => True)

/-- A change of the visibility of an inherited method changes it. -/
def Effective (above : Owner → List Owner) (evs : List Ev) : Prop :=
  ∀ pre o m v p post, evs = pre ++ .change o m v p :: post → ∀ T, run above noTables pre = some T → T o m = none → ∀ d, first T (above o) m ≠ some (d, v)

/-- The positions follow the order in which the code runs. -/
def InOrder (evs : List Ev) : Prop := evs.Pairwise (fun a b => a.pos < b.pos)

end Verif.Visibility.Ruby
