/-!
Where the members of a class file are declared in Java source (/repo/crates/jvm-metadata/src/java_source.rs).

Simplified: the tree that tree-sitter gives is the input, as a forest of nodes with first child and next sibling; a node carries
its text (`utf8_text` of a part of a `str` always succeeds), its byte range, its rows and the name of the field that it fills; a
text is a list of Unicode scalar values; kinds of nodes that the code does not name are `other`, those of
`first_parameter_type_child` are `ty`. The descriptor of a method is given as the parameters that `parse_method_descriptor` reads
from it (Model/Jvm.lean), `none` for an error. The counter of nodes is unbounded.
-/
namespace Verif.JavaSource

abbrev Text := List Char

inductive Kind where
  | package | class_ | interface_ | enum_ | record_ | annotation | method | constructor | compact | field | enumConstant
  | declarator | modifiers | formal | spread | receiver | ty | other
deriving DecidableEq, Repr

inductive Field where
  | none | name | body | parameters | type_
deriving DecidableEq, Repr

structure Info where
  kind : Kind
  fld : Field
  named : Bool
  start : Nat
  stop : Nat
  row : Nat
  endRow : Nat
  text : Text
deriving DecidableEq, Repr

inductive Forest where
  | nil
  | cons (i : Info) (kids next : Forest)
deriving DecidableEq, Repr

structure Node where
  info : Info
  kids : Forest
deriving DecidableEq, Repr

/-- `Node::children` of the node that has this forest. -/
def Forest.nodes : Forest → List Node
  | .nil => []
  | .cons i k n => ⟨i, k⟩ :: n.nodes

/-- `Node::child_by_field_name`. -/
def Node.child (n : Node) (f : Field) : Option Node := n.kids.nodes.find? (fun c => decide (c.info.fld = f))

/-- `Node::named_children`. -/
def Node.namedKids (n : Node) : List Node := n.kids.nodes.filter (·.info.named)

structure Limits where
  bytes : Nat
  nodes : Nat
  depth : Nat

inductive Err where
  | bytes | nodes | depth | parse
deriving DecidableEq, Repr

inductive Res (α : Type) where
  | ok (a : α)
  | err (e : Err)
deriving DecidableEq, Repr

/-! ### Limits -/

def Forest.size : Forest → Nat
  | .nil => 0
  | .cons _ k n => 1 + k.size + n.size

def stackSize : List (Node × Nat) → Nat
  | [] => 0
  | (n, _) :: s => 1 + n.kids.size + stackSize s

/-- java_source.rs 155-158: the children, the first one on top. The top of the stack is the head of the list. -/
def pushKids (n : Node) (d : Nat) (stack : List (Node × Nat)) : List (Node × Nat) :=
  n.kids.nodes.reverse.foldl (fun s c => (c, d) :: s) stack

theorem pushKids_eq (n : Node) (d : Nat) (stack : List (Node × Nat)) :
    pushKids n d stack = n.kids.nodes.map (fun c => (c, d)) ++ stack := by
  rw [pushKids, List.foldl_reverse]
  generalize n.kids.nodes = l
  induction l with
  | nil => rfl
  | cons c l ih => simp only [List.foldr_cons, List.map_cons, List.cons_append, ih]

theorem stackSize_append : ∀ a b : List (Node × Nat), stackSize (a ++ b) = stackSize a + stackSize b
  | [], _ => by simp [stackSize]
  | (n, d) :: s, b => by
    have := stackSize_append s b
    simp only [stackSize, List.cons_append]
    omega

theorem stackSize_nodes (d : Nat) : ∀ f : Forest, stackSize (f.nodes.map (fun c => (c, d))) = f.size
  | .nil => rfl
  | .cons i k n => by
    have := stackSize_nodes d n
    simp only [Forest.nodes, List.map_cons, stackSize, Forest.size]
    omega

/-- java_source.rs 140-161 `enforce_tree_limits`: the loop. -/
def walk (l : Limits) (stack : List (Node × Nat)) (nodes : Nat) : Option Err :=
  match stack with
  | [] => none
  | (n, d) :: rest =>
    if nodes + 1 > l.nodes then some .nodes
    else if d > l.depth then some .depth
    else walk l (pushKids n (d + 1) rest) (nodes + 1)
termination_by stackSize stack
decreasing_by
  rw [pushKids_eq, stackSize_append, stackSize_nodes]
  simp only [stackSize]
  omega

/-- java_source.rs 140-161 `enforce_tree_limits`. -/
def enforce (root : Node) (l : Limits) : Option Err := walk l [(root, 0)] 0

/-! ### The name of the class -/

/-- `str::rsplit_once('/')`. -/
def rsplitSlash : Text → Option (Text × Text)
  | [] => none
  | c :: cs =>
    match rsplitSlash cs with
    | some (a, b) => some (c :: a, b)
    | none => if c = '/' then some ([], cs) else none

/-- `str::split('$')`. -/
def splitDollar : Text → List Text
  | [] => [[]]
  | c :: cs =>
    if c = '$' then [] :: splitDollar cs
    else
      match splitDollar cs with
      | [] => [[c]]
      | s :: ss => (c :: s) :: ss

def digit (c : Char) : Bool := decide ('0' ≤ c) && decide (c ≤ '9')

/-- java_source.rs 163-178 `split_internal_class_name`. -/
def splitName (name : Text) : Option (Text × List Text) :=
  let (package, classes) := match rsplitSlash name with
    | some (p, c) => (p.map (fun x => if x = '/' then '.' else x), c)
    | none => ([], name)
  let classes := splitDollar classes
  if classes.isEmpty || classes.any (fun n => n.isEmpty || n.all digit) then none else some (package, classes)

/-! ### The package of the source -/

/-- `char::is_whitespace`. -/
def ws (c : Char) : Bool :=
  (9 ≤ c.toNat && c.toNat ≤ 13) || c.toNat == 0x20 || c.toNat == 0x85 || c.toNat == 0xA0 || c.toNat == 0x1680 ||
    (0x2000 ≤ c.toNat && c.toNat ≤ 0x200A) || c.toNat == 0x2028 || c.toNat == 0x2029 || c.toNat == 0x202F ||
    c.toNat == 0x205F || c.toNat == 0x3000

def kwPackage : Text := ['p', 'a', 'c', 'k', 'a', 'g', 'e']

/-- `str::strip_prefix`. -/
def stripPrefix : Text → Text → Option Text
  | [], t => some t
  | _ :: _, [] => none
  | p :: ps, c :: cs => if p = c then stripPrefix ps cs else none

/-- `str::strip_suffix`. -/
def stripSuffix (s t : Text) : Option Text := (stripPrefix s.reverse t.reverse).map List.reverse

/-- `str::trim`. -/
def trim (t : Text) : Text := ((t.dropWhile ws).reverse.dropWhile ws).reverse

/-- java_source.rs 180-194 `source_package`. -/
def sourcePackage (root : Node) : Option Text :=
  match root.namedKids.find? (fun c => decide (c.info.kind = .package)) with
  | none => some []
  | some c =>
    match stripPrefix kwPackage c.info.text with
    | none => none
    | some t =>
      match stripSuffix [';'] t with
      | none => none
      | some t => some (trim t)

/-! ### The class -/

/-- java_source.rs 229-238 `is_type_declaration`. -/
def isType : Kind → Bool
  | .class_ | .interface_ | .enum_ | .record_ | .annotation => true
  | _ => false

/-- java_source.rs 196-227 `find_class_node` for the children of a node, with the stack before and after. -/
def find (expected : List Text) : Forest → List Text → Option Node × List Text
  | .nil, st => (none, st)
  | .cons i kids next, st =>
    if i.named = false then find expected next st
    else
      let r : Option Node × List Text :=
        if isType i.kind then
          match Node.child ⟨i, kids⟩ .name with
          | none => (none, st)
          | some name =>
            let st := st ++ [name.info.text]
            if st = expected then (some ⟨i, kids⟩, st)
            else
              match find expected kids st with
              | (some n, st) => (some n, st)
              | (none, st) => (none, st.dropLast)
        else find expected kids st
      match r with
      | (some n, st) => (some n, st)
      | (none, st) => find expected next st

/-- java_source.rs 240-245 `direct_children_of_kinds`. -/
def directKids (n : Node) (kinds : List Kind) : List Node := n.namedKids.filter (fun c => decide (c.info.kind ∈ kinds))

/-! ### Types of parameters -/

/-- java_source.rs 429-441 `normalize_source_type`: the loop. -/
def normalizeFrom : Nat → Text → Text
  | _, [] => []
  | d, c :: cs =>
    if c = '<' then normalizeFrom (d + 1) cs
    else if c = '>' then normalizeFrom (d - 1) cs
    else if d > 0 ∨ ws c = true then normalizeFrom d cs
    else c :: normalizeFrom d cs

def normalize (t : Text) : Text := normalizeFrom 0 t

/-- java_source.rs 409-427 `first_parameter_type_child`. -/
def firstType (p : Node) : Option Node := p.namedKids.find? (fun c => decide (c.info.kind = .ty))

/-- java_source.rs 382-407: the loop over the parameters. -/
def paramLoop : List Node → List Text → Option (List Text)
  | [], acc => some acc
  | p :: ps, acc =>
    if p.info.kind = .formal ∨ p.info.kind = .spread ∨ p.info.kind = .receiver then
      match (p.child .type_).or (firstType p) with
      | none => none
      | some ty =>
        let text := if p.info.kind = .spread then ty.info.text ++ ['[', ']'] else ty.info.text
        paramLoop ps (acc ++ [normalize text])
    else paramLoop ps acc

/-- java_source.rs 382-407 `source_parameter_types`. -/
def paramTypes (n : Node) : Option (List Text) :=
  if n.info.kind = .compact then some []
  else
    match n.child .parameters with
    | none => none
    | some ps => paramLoop ps.namedKids []

/-- descriptor.rs 1-14 `JvmType`. -/
inductive Ty where
  | byte | char | double | float | int | long | short | boolean | void
  | object (name : Text)
  | array (element : Ty)
deriving DecidableEq, Repr

/-- `name.rsplit(['/', '$']).next()`: the part behind the last separator. -/
def lastPart (t : Text) : Text := (t.reverse.takeWhile (fun c => decide (c ≠ '/') && decide (c ≠ '$'))).reverse

/-- java_source.rs 473-487 `descriptor_simple_name`. -/
def simpleName : Ty → Text
  | .byte => ['b', 'y', 't', 'e']
  | .char => ['c', 'h', 'a', 'r']
  | .double => ['d', 'o', 'u', 'b', 'l', 'e']
  | .float => ['f', 'l', 'o', 'a', 't']
  | .int => ['i', 'n', 't']
  | .long => ['l', 'o', 'n', 'g']
  | .short => ['s', 'h', 'o', 'r', 't']
  | .boolean => ['b', 'o', 'o', 'l', 'e', 'a', 'n']
  | .void => ['v', 'o', 'i', 'd']
  | .object name => lastPart name
  | .array e => simpleName e ++ ['[', ']']

/-- java_source.rs 451-471 `source_type_matches`; the texts that it makes are those of `descriptor_simple_name`. -/
def typeMatches (source : Text) (d : Ty) : Bool :=
  if d = .void then false
  else
    let expected := simpleName d
    decide (source = expected) ||
      match stripSuffix expected source with
      | none => false
      | some p => decide (p.getLast? = some '.') || decide (p.getLast? = some '$')

/-- java_source.rs 443-449 `source_types_match_descriptor`. -/
def typesMatch (source : List Text) (ds : List Ty) : Bool :=
  decide (source.length = ds.length) && (source.zip ds).all (fun x => typeMatches x.1 x.2)

/-! ### Members -/

inductive MethodName where
  | init
  | clinit
  | name (t : Text)
deriving DecidableEq, Repr

/-- The parts of `MemberInfo` that are read for a method. -/
structure Method where
  name : MethodName
  descriptor : Text
  params : Option (List Ty)
  isStatic : Bool
  firstLine : Option Nat
deriving DecidableEq, Repr

structure FieldInfo where
  name : Text
  descriptor : Text
deriving DecidableEq, Repr

structure Range where
  start : Nat
  stop : Nat
deriving DecidableEq, Repr

/-- java_source.rs 489-491 `node_range`. -/
def Node.range (n : Node) : Range := ⟨n.info.start, n.info.stop⟩

structure Location (α : Type) where
  member : α
  declaration : Range
  nameRange : Range
deriving DecidableEq, Repr

def kwStatic : Text := ['s', 't', 'a', 't', 'i', 'c']

/-- `str::split_whitespace`, with `cur` the word that is being read. -/
def wordsFrom : Text → Text → List Text
  | cur, [] => if cur = [] then [] else [cur]
  | cur, c :: cs => if ws c then (if cur = [] then wordsFrom [] cs else cur :: wordsFrom [] cs) else wordsFrom (cur ++ [c]) cs

/-- java_source.rs 371-380 `node_is_static`. -/
def isStatic (n : Node) : Bool :=
  n.namedKids.any (fun c => decide (c.info.kind = .modifiers) && (wordsFrom [] c.info.text).any (fun w => decide (w = kwStatic)))

def isCtor : Kind → Bool
  | .constructor | .compact => true
  | _ => false

/-- java_source.rs 261-283: the closure that makes candidates. -/
def candidate (m : Method) (ps : List Ty) (n : Node) : Option (Node × Node × List Text) :=
  if isCtor n.info.kind ≠ decide (m.name = .init) then none
  else
    match n.child .name with
    | none => none
    | some name =>
      if m.name ≠ .init ∧ m.name ≠ .name name.info.text then none
      else if isStatic n ≠ m.isStatic then none
      else
        match paramTypes n with
        | none => none
        | some ts => if ts.length ≠ ps.length then none else some (n, name, ts)

/-- java_source.rs 293-297: whether a line is inside a declaration. -/
def onLine (line : Nat) (n : Node) : Bool := decide (n.info.row + 1 ≤ line) && decide (line ≤ n.info.endRow + 1)

abbrev Cand := Node × Node × List Text

/-- java_source.rs 289-302: the candidates on the first line of the code, when there is exactly one. -/
def byLine (line : Option Nat) (cands : List Cand) : List Cand :=
  match line with
  | none => cands
  | some line =>
    let hits := cands.filter (fun c => onLine line c.1)
    if hits.length = 1 then hits else cands

/-- java_source.rs 303-314: the candidates with the types of the descriptor, when there are several and exactly one of these. -/
def byType (ps : List Ty) (cands : List Cand) : List Cand :=
  if cands.length > 1 then
    let hits := cands.filter (fun c => typesMatch c.2.2 ps)
    if hits.length = 1 then hits else cands
  else cands

/-- java_source.rs 247-328 `locate_method`. -/
def locateMethod (m : Method) (nodes : List Node) : Option (Location Method) :=
  if m.name = .clinit then none
  else
    match m.params with
    | none => none
    | some ps =>
      let cands := nodes.filterMap (candidate m ps)
      if cands.isEmpty then none
      else
        match byType ps (byLine m.firstLine cands) with
        | [c] => some ⟨m, c.1.range, c.2.1.range⟩
        | _ => none

/-- java_source.rs 347-358: the match of one child of a declaration. -/
def declaratorMatch (f : FieldInfo) (n c : Node) : Option (Node × Node) :=
  if c.info.kind ≠ .declarator then none
  else
    match c.child .name with
    | none => none
    | some name => if name.info.text = f.name then some (n, name) else none

/-- java_source.rs 336-360: the matches in one declaration. -/
def fieldMatches (f : FieldInfo) (n : Node) : List (Node × Node) :=
  if n.info.kind = .enumConstant then
    match n.child .name with
    | none => []
    | some name => if name.info.text = f.name then [(n, name)] else []
  else
    n.namedKids.filterMap (declaratorMatch f n)

/-- java_source.rs 330-369 `locate_field`. -/
def locateField (f : FieldInfo) (nodes : List Node) : Option (Location FieldInfo) :=
  match nodes.flatMap (fieldMatches f) with
  | [(d, name)] => some ⟨f, d.range, name.range⟩
  | _ => none

/-! ### The whole -/

structure ClassFile where
  name : Text
  methods : List Method
  fields : List FieldInfo

structure ClassLocation where
  name : Text
  declaration : Range
  nameRange : Range
  methods : List (Location Method)
  fields : List (Location FieldInfo)
deriving DecidableEq, Repr

def methodKinds : List Kind := [.method, .constructor, .compact]
def fieldKinds : List Kind := [.field, .enumConstant]

/-- java_source.rs 73-138 `locate_java_source_declarations`: `len` is the length of the source in bytes, `tree` what tree-sitter
gives and whether it has an error. A class without a name or a body is a panic, here `none`. -/
def locate (c : ClassFile) (len : Nat) (tree : Option (Node × Bool)) (l : Limits) : Option (Res (Option ClassLocation)) :=
  if len > l.bytes ∨ len > 4294967295 then some (.err .bytes)
  else
    match tree with
    | none => some (.err .parse)
    | some (root, hasError) =>
      if hasError then some (.err .parse)
      else
        match enforce root l with
        | some e => some (.err e)
        | none =>
          match splitName c.name with
          | none => some (.err .parse)
          | some (package, classes) =>
            if sourcePackage root ≠ some package then some (.ok none)
            else
              match (find classes root.kids []).1 with
              | none => some (.ok none)
              | some cls =>
                match cls.child .name, cls.child .body with
                | some name, some body =>
                  let ms := directKids body methodKinds
                  let fs := directKids body fieldKinds
                  some (.ok (some ⟨c.name, cls.range, name.range, c.methods.filterMap (locateMethod · ms),
                    c.fields.filterMap (locateField · fs)⟩))
                | _, _ => none

end Verif.JavaSource
