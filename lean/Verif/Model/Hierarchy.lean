import Verif.Model.Sort
/-!
Names as texts, the call hierarchy and the type hierarchy (crates/ruby-analysis/src/engine/hierarchy.rs L14-224, L262-387,
crates/ruby-analysis/src/core/fully_qualified_name.rs, ruby_method.rs, ruby_namespace.rs).

Simplified: texts are lists of code points (comparing code points is comparing UTF-8 bytes); the four Unicode classes are given,
with the facts that `#`, `:`, `?`, `!` and `=` are not in those where it matters; ids are replaced by the names they stand for, one to one; the
stores are given as the lists that the engine reads from them.
-/
namespace Verif.Hierarchy

abbrev Text := List Nat

/-- What the code asks about characters. -/
structure Unicode where
  /-- `unicode_ident::is_xid_start` -/
  start : Nat → Bool
  /-- `unicode_ident::is_xid_continue` -/
  cont : Nat → Bool
  /-- `char::is_uppercase` -/
  upper : Nat → Bool
  /-- `char::is_alphabetic` -/
  alpha : Nat → Bool
  start_colon : start 58 = false
  cont_colon : cont 58 = false
  cont_hash : cont 35 = false
  alpha_hash : alpha 35 = false
  alpha_mark : alpha 63 = false ∧ alpha 33 = false ∧ alpha 61 = false

/-- core/ruby_namespace.rs L41-68 `RubyConstant`: a name or a generated owner. -/
inductive Part where
  | named (name : Text)
  | generated (identity : Text)
deriving DecidableEq, Repr

/-- `#<generated-owner:`. -/
def generatedPrefix : Text := [35, 60, 103, 101, 110, 101, 114, 97, 116, 101, 100, 45, 111, 119, 110, 101, 114, 58]

/-- core/ruby_namespace.rs L139-147. -/
def Part.show : Part → Text
  | .named n => n
  | .generated i => generatedPrefix ++ i ++ [62]

/-- core/fully_qualified_name.rs L21-47; the four kinds of variables are one. -/
inductive Fqn where
  | namespace_ (parts : List Part) (singleton : Bool)
  | constant (parts : List Part)
  | method (parts : List Part) (name : Text)
  | variable_ (name : Text)
deriving DecidableEq, Repr

def Fqn.parts : Fqn → List Part
  | .namespace_ ps _ => ps
  | .constant ps => ps
  | .method ps _ => ps
  | .variable_ _ => []

def Fqn.isInstance : Fqn → Bool
  | .namespace_ _ s => !s
  | _ => false

/-- `join("::")`. -/
def joinColons : List Text → Text
  | [] => []
  | [t] => t
  | t :: u :: ts => t ++ 58 :: 58 :: joinColons (u :: ts)

/-- `#<Class:`. -/
def classPrefix : Text := [35, 60, 67, 108, 97, 115, 115, 58]

/-- core/fully_qualified_name.rs L378-407 `Display`. -/
def Fqn.print (f : Fqn) : Text :=
  let ns := joinColons (f.parts.map Part.show)
  match f with
  | .namespace_ _ false => ns
  | .namespace_ _ true => classPrefix ++ ns ++ [62]
  | .constant _ => ns
  | .method _ m => ns ++ 35 :: m
  | .variable_ n => n

/-- `split("::")`. -/
def splitColons : Text → List Text
  | [] => [[]]
  | [c] => [[c]]
  | c :: d :: cs =>
    if c = 58 ∧ d = 58 then [] :: splitColons cs
    else
      match splitColons (d :: cs) with
      | [] => [[c]]
      | s :: ss => (c :: s) :: ss

/-- core/ruby_namespace.rs L47-66 `RubyConstant::new`. -/
def newConstant (u : Unicode) : Text → Option Part
  | [] => none
  | c :: cs => if u.start c = false ∨ u.upper c = false then none else if cs.all u.cont then some (.named (c :: cs)) else none

/-- `collect::<Result<Vec<_>, _>>().ok()`. -/
def newConstants (u : Unicode) : List Text → Option (List Part)
  | [] => some []
  | t :: ts => (newConstant u t).bind fun p => (newConstants u ts).map (p :: ·)

/-- core/ruby_method.rs L46-53. -/
def operators : List Text :=
  [[43], [45], [42], [47], [37], [42, 42], [61, 61], [33, 61], [60], [60, 61], [62], [62, 61], [60, 61, 62], [61, 61, 61], [61, 126],
   [33, 126], [38], [124], [94], [60, 60], [62, 62], [91, 93], [91, 93, 61], [43, 64], [45, 64], [126, 64], [33, 64]]

/-- core/ruby_method.rs L66-71: without the suffix. -/
def stem (name : Text) : Text :=
  match name.getLast? with
  | some c => if c = 63 ∨ c = 33 ∨ c = 61 then name.dropLast else name
  | none => name

/-- core/ruby_method.rs L40-90 `is_valid_ruby_method_name`. -/
def validMethod (u : Unicode) (name : Text) : Bool :=
  if name = [] then false
  else if name ∈ operators then true
  else
    match stem name with
    | [] => false
    | c :: cs => (u.alpha c || decide (c = 95)) && cs.all (fun d => u.cont d || decide (d = 95))

/-- `rsplit_once('#')`. -/
def rsplitHash : Text → Option (Text × Text)
  | [] => none
  | c :: cs =>
    match rsplitHash cs with
    | some (a, b) => some (c :: a, b)
    | none => if c = 35 then some ([], cs) else none

/-- hierarchy.rs L262-276 `parse_method_fqn_string`. -/
def parseMethod (u : Unicode) (t : Text) : Option Fqn :=
  match rsplitHash t with
  | none => none
  | some (ns, m) =>
    if validMethod u m then (if ns = [] then some [] else newConstants u (splitColons ns)).map (fun ps => .method ps m) else none

/-- hierarchy.rs L278-289 `parse_namespace_fqn_string`. -/
def parseNamespace (u : Unicode) (t : Text) : Option Fqn :=
  match newConstants u (splitColons t) with
  | none => none
  | some ps => if ps = [] then none else some (.namespace_ ps false)

/-! ### The engine -/

structure Range where
  file : Nat
  start : Nat
  stop : Nat
deriving DecidableEq, Repr

/-- `ReferenceFact`. -/
structure Ref where
  caller : Option Fqn
  range : Range
deriving DecidableEq, Repr

inductive EdgeKind where
  | superclass
  | include_
  | prepend
  | extend_
  | context
deriving DecidableEq, Repr

/-- `GraphNodeFact`. -/
structure Node where
  isClass : Bool
  range : Range
deriving DecidableEq, Repr

/-- `GraphEdgeFact`. -/
structure Edge where
  source : Fqn
  target : Fqn
  kind : EdgeKind
  range : Range
deriving DecidableEq, Repr

/-- `UnresolvedGraphEdgeFact`. -/
structure Pending where
  source : Fqn
  target : List Part
  kind : EdgeKind
  range : Range
deriving DecidableEq, Repr

structure Engine where
  /-- ranges of `method_facts_for` -/
  methods : Fqn → List Range
  /-- the map of the reference store in the order of its iteration -/
  refs : List (Fqn × List Ref)
  /-- `graph_nodes_for` -/
  nodes : Fqn → List Node
  /-- `graph_edges_from` -/
  edgesFrom : Fqn → List Edge
  /-- `graph_edges_to` -/
  edgesTo : Fqn → List Edge
  /-- `unresolved_graph_edges` -/
  pending : List Pending

/-! ### Calls -/

/-- `CallHierarchyMethod`. -/
structure Item where
  fqn : Fqn
  range : Range
deriving DecidableEq, Repr

/-- hierarchy.rs L18-28 `call_hierarchy_method`. -/
def item (e : Engine) (f : Fqn) : Option Item :=
  match (e.methods f).head? with
  | none => none
  | some r => some ⟨f, r⟩

/-- hierarchy.rs L30-37 `call_hierarchy_method_for_owner`. -/
def itemForOwner (e : Engine) (owner : Fqn) (m : Text) : Option Item := item e (.method owner.parts m)

/-- hierarchy.rs L291-301 `push_grouped_text_range`. -/
def push (f : Fqn) (r : Range) : List (Fqn × List Range) → List (Fqn × List Range)
  | [] => [(f, [r])]
  | (g, rs) :: l => if g = f then (g, rs ++ [r]) :: l else (g, rs) :: push f r l

def group (l : List (Fqn × Range)) : List (Fqn × List Range) := l.foldl (fun acc x => push x.1 x.2 acc) []

def byName (x y : Fqn × List Range) : Bool := decide (x.1.print ≤ y.1.print)

/-- `IncomingCall` and `OutgoingCall`. -/
structure Call where
  other : Item
  ranges : List Range
deriving DecidableEq, Repr

/-- hierarchy.rs L50-59, L77-86. -/
def finish (e : Engine) (l : List (Fqn × Range)) : List Call :=
  (stableSort byName (group l)).filterMap (fun g => (item e g.1).map (fun i => ⟨i, g.2⟩))

/-- core/reference_store.rs L661-663 `facts_for`. -/
def refsIn (refs : List (Fqn × List Ref)) (f : Fqn) : List Ref :=
  match refs.find? (fun x => decide (x.1 = f)) with
  | none => []
  | some x => x.2

/-- engine/state.rs L3094-3099 `reference_facts_for`. -/
def refsFor (e : Engine) (f : Fqn) : List Ref := refsIn e.refs f

/-- hierarchy.rs L39-60 `incoming_calls`. -/
def incoming (e : Engine) (m : Fqn) : List Call :=
  finish e ((refsFor e m).filterMap (fun r => r.caller.map (fun c => (c, r.range))))

/-- core/reference_store.rs L677-681 `iter_facts_with_targets`. -/
def allRefs (e : Engine) : List (Fqn × Ref) := e.refs.flatMap (fun x => x.2.map (fun r => (x.1, r)))

/-- hierarchy.rs L62-87 `outgoing_calls`. -/
def outgoing (e : Engine) (m : Fqn) : List Call :=
  finish e (((allRefs e).filter (fun x => decide (x.2.caller = some m))).map (fun x => (x.1, x.2.range)))

/-! ### Types -/

inductive Relation where
  | superclass
  | include_
  | prepend
  | extend_
  | subclass
  | includedBy
  | prependedBy
  | extendedBy
deriving DecidableEq, Repr

/-- `TypeHierarchyEntry`. -/
structure Entry where
  fqn : Fqn
  isClass : Option Bool
  relation : Relation
  range : Range
  edgeFile : Option Nat
  unresolved : Bool
deriving DecidableEq, Repr

/-- hierarchy.rs L371-387 `hierarchy_entry_for_node`. -/
def entry (e : Engine) (f : Fqn) (r : Relation) (file : Option Nat) : Option Entry :=
  match (e.nodes f).head? with
  | none => none
  | some n => some ⟨f, some n.isClass, r, n.range, file, false⟩

/-- hierarchy.rs L318-341 `push_supertype_entries`. -/
def superEntries (e : Engine) (edges : List Edge) (k : EdgeKind) (r : Relation) : List Entry :=
  (edges.filter (fun d => decide (d.kind = k))).reverse.filterMap (fun d => entry e d.target r (some d.range.file))

/-- hierarchy.rs L352-358. -/
def upward : EdgeKind → Option Relation
  | .superclass => some .superclass
  | .include_ => some .include_
  | .prepend => some .prepend
  | .extend_ => some .extend_
  | .context => none

/-- hierarchy.rs L343-369 `push_unresolved_supertype_entries`. -/
def pendingEntries (e : Engine) (f : Fqn) : List Entry :=
  e.pending.filterMap (fun p =>
    if p.source ≠ f then none
    else (upward p.kind).map (fun r => ⟨.constant p.target, none, r, p.range, some p.range.file, true⟩))

/-- hierarchy.rs L156-160. -/
def unmark (primary : Nat) (x : Entry) : Entry := if x.edgeFile = some primary then { x with edgeFile := none } else x

/-- hierarchy.rs L118-163 `supertypes`. -/
def supertypes (e : Engine) (f : Fqn) : List Entry :=
  match (e.nodes f).head? with
  | none => []
  | some n =>
    let edges := e.edgesFrom f
    (superEntries e edges .prepend .prepend ++ superEntries e edges .include_ .include_ ++ superEntries e edges .superclass .superclass ++
      superEntries e edges .extend_ .extend_ ++ pendingEntries e f).map (unmark n.range.file)

/-- hierarchy.rs L174-192: which edges are taken for which relation. -/
def downward (d : Edge) : Option Relation :=
  match d.kind with
  | .superclass => some .subclass
  | .include_ => if d.source.isInstance then some .includedBy else none
  | .prepend => if d.source.isInstance then some .prependedBy else none
  | .extend_ => some .extendedBy
  | .context => none

def bySource (x y : Edge) : Bool := decide (x.source.print ≤ y.source.print)

/-- hierarchy.rs L303-316 `push_subtype_entries`. -/
def subEntries (e : Engine) (edges : List Edge) (r : Relation) : List Entry :=
  (stableSort bySource (edges.filter (fun d => decide (downward d = some r)))).filterMap (fun d => entry e d.source r none)

/-- hierarchy.rs L165-221 `subtypes`. -/
def subtypes (e : Engine) (f : Fqn) : List Entry :=
  if (e.nodes f).isEmpty then []
  else
    let edges := e.edgesTo f
    subEntries e edges .subclass ++ subEntries e edges .includedBy ++ subEntries e edges .prependedBy ++ subEntries e edges .extendedBy

end Verif.Hierarchy
