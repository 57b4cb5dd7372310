import Verif.Model.Sort

/-!
Model of the search for symbols in a workspace: `crates/ruby-analysis/src/engine/workspace_symbols.rs`,
`src/query/workspace_symbols.rs` and `src/capabilities/workspace_symbols.rs`.

Texts are lists of characters.  The tables of Unicode are parameters: `lower` for `str::to_lowercase`, `upper` for
`char::is_uppercase`.  Relevances are numbers in millionths; the score of a fuzzy match before it is clamped
(workspace_symbols.rs 227-261, floating point) is a parameter, so everything is proved for every score.

Left out: the conversion of symbol kinds to the protocol (one to one except for variables), and locks.
-/
namespace Verif.SymbolSearch

abbrev Text := List Char

/-- core/fully_qualified_name.rs `FullyQualifiedName`, without the kinds of namespaces. -/
inductive Fqn where
  | namespace (parts : List Text)
  | constant (parts : List Text)
  | method (owner : List Text) (name : Text)
  | variable (name : Text)
deriving DecidableEq, Repr

/-- core `SymbolKind`. -/
inductive Kind where
  | cls
  | module
  | method
  | constant
  | localVariable
  | otherVariable
deriving DecidableEq, Repr

/-- core `TextRange`. -/
structure Range where
  file : Nat
  start : Nat
  stop : Nat
deriving DecidableEq, Repr

/-- core `SymbolFact`; `generated` is `fqn.has_generated_owner()`. -/
structure Fact where
  fqn : Fqn
  kind : Kind
  range : Range
  generated : Bool := false
deriving DecidableEq, Repr

/-- workspace_symbol_types.rs `WorkspaceSymbolMatch`. -/
structure Match where
  name : Text
  kind : Kind
  range : Range
  container : Option Text
  relevance : Nat
deriving DecidableEq, Repr

/-- A location: text of the URI and line and column of both ends. -/
structure Loc where
  uri : Text
  startLine : Nat
  startChar : Nat
  endLine : Nat
  endChar : Nat
deriving DecidableEq, Repr

/-- `SymbolInformation` of the protocol. -/
structure Info where
  name : Text
  kind : Kind
  loc : Loc
  container : Option Text
deriving DecidableEq, Repr

/-- The parameters of matching. -/
structure Tables where
  lower : Text → Text
  upper : Char → Bool
  score : List Nat → Nat → Nat → Nat

/-- An engine: its facts in the order of `all_symbol_facts`, which files belong to the workspace
(`is_workspace_owned`), and `location_for_range`. -/
structure Engine where
  facts : List Fact
  owned : Nat → Bool
  locate : Range → Option Loc

/-- `parts.join("::")`. -/
def joined : List Text → Text
  | [] => []
  | [p] => p
  | p :: ps => p ++ [':', ':'] ++ joined ps

/-- workspace_symbols.rs 91-103 `display_name`. -/
def displayName : Fqn → Text
  | .namespace parts | .constant parts => parts.getLastD []
  | .method _ name => name
  | .variable name => name

/-- workspace_symbols.rs 105-136 `container_name`. -/
def containerName : Fqn → Option Text
  | .namespace parts | .constant parts => if parts.length ≤ 1 then none else some (joined parts.dropLast)
  | .method owner _ => if owner.isEmpty then none else some (joined owner)
  | .variable _ => none

/-- workspace_symbols.rs 69-75 `fact_is_project`. -/
def isProject (e : Engine) (f : Fact) : Bool := !f.generated && e.owned f.range.file

/-- workspace_symbols.rs 77-89 `workspace_symbol_match`. -/
def symbolMatch (f : Fact) (relevance : Nat) : Option Match :=
  if f.kind = .localVariable then none
  else some ⟨displayName f.fqn, f.kind, f.range, containerName f.fqn, relevance⟩

/-- workspace_symbols.rs 179-188 `camel_case_match`. -/
def camelCase (T : Tables) (name pattern : Text) : Option Nat :=
  let symbolCaps := name.filter T.upper
  let patternCaps := pattern.filter T.upper
  if !patternCaps.isEmpty && patternCaps.isPrefixOf symbolCaps then some 700000 else none

/-- `str::split('_')`. -/
def words : Text → List Text
  | [] => [[]]
  | c :: cs =>
    match words cs with
    | [] => [[c]]
    | w :: ws => if c = '_' then [] :: w :: ws else (c :: w) :: ws

/-- workspace_symbols.rs 190-194 `word_boundary_match`. -/
def wordBoundary (name pattern : Text) : Bool := (words name).any (fun w => pattern.isPrefixOf w)

/-- workspace_symbols.rs 211-217, the loop of `fuzzy_match`: the indices of the matches found from index `i` on and what
is left of the pattern. -/
def scan : Text → Text → Nat → List Nat × Text
  | [], _, _ => ([], [])
  | pattern, [], _ => ([], pattern)
  | p :: pattern, s :: symbol, i =>
    if p = s then
      let r := scan pattern symbol (i + 1)
      (i :: r.1, r.2)
    else scan (p :: pattern) symbol (i + 1)

/-- workspace_symbols.rs 227-261 `calculate_fuzzy_score`: an arbitrary score, clamped. -/
def fuzzyScore (T : Tables) (found : List Nat) (symbolLen patternLen : Nat) : Nat :=
  if found.isEmpty then 0 else max 300000 (min 750000 (T.score found symbolLen patternLen))

/-- workspace_symbols.rs 196-225 `fuzzy_match`. -/
def fuzzy (T : Tables) (symbol pattern : Text) : Option Nat :=
  if pattern.isEmpty then some 100000
  else if pattern.length > symbol.length then none
  else
    let r := scan pattern symbol 0
    if !r.2.isEmpty then none
    else
      let score := fuzzyScore T r.1 symbol.length pattern.length
      if score > 200000 then some score else none

/-- `str::contains`. -/
def contains (pattern : Text) : Text → Bool
  | [] => pattern.isEmpty
  | c :: cs => pattern.isPrefixOf (c :: cs) || contains pattern cs

/-- workspace_symbols.rs 145-177 `calculate_relevance`. -/
def relevance (T : Tables) (name pattern : Text) : Option Nat :=
  if pattern.isEmpty then some 100000
  else if name = pattern then some 1000000
  else if T.lower name = T.lower pattern then some 900000
  else if (T.lower pattern).isPrefixOf (T.lower name) then some 800000
  else
    match camelCase T name pattern with
    | some score => some score
    | none =>
      match fuzzy T (T.lower name) (T.lower pattern) with
      | some score => some score
      | none =>
        if wordBoundary (T.lower name) (T.lower pattern) then some 600000
        else if contains (T.lower pattern) (T.lower name) then some 400000
        else none

/-- workspace_symbols.rs 9-30, the loop of `top_level_symbols`. -/
def topLoop (e : Engine) (limit : Nat) : List Fact → List Match → List Match
  | [], acc => acc
  | f :: fs, acc =>
    if !isProject e f then topLoop e limit fs acc
    else if acc.length ≥ limit then acc
    else
      match f.fqn with
      | .namespace parts | .constant parts =>
        if parts.length = 1 then
          match symbolMatch f 100000 with
          | some m => topLoop e limit fs (acc ++ [m])
          | none => topLoop e limit fs acc
        else topLoop e limit fs acc
      | .method _ _ | .variable _ => topLoop e limit fs acc

/-- workspace_symbols.rs 6-33 `top_level_symbols`. -/
def topLevel (e : Engine) (limit : Nat) : List Match := topLoop e limit e.facts []

/-- workspace_symbols.rs 39-58, the matches in the order of the facts. -/
def found (T : Tables) (e : Engine) (query : Text) : List Match :=
  e.facts.filterMap fun f =>
    if !isProject e f then none
    else
      match relevance T (displayName f.fqn) query with
      | some r => symbolMatch f r
      | none => none

/-- workspace_symbols.rs 60-64, the order of relevances. -/
def moreRelevant (a b : Match) : Bool := decide (b.relevance ≤ a.relevance)

/-- workspace_symbols.rs 35-67 `search_workspace_symbols`. -/
def search (T : Tables) (e : Engine) (query : Text) (limit : Nat) : List Match :=
  (stableSort moreRelevant (found T e query)).take limit

/-- query/workspace_symbols.rs 49-62 `symbol_information_from_engine_symbol`. -/
def information (e : Engine) (m : Match) : Option Info :=
  match e.locate m.range with
  | none => none
  | some loc => some ⟨m.name, m.kind, loc, m.container⟩

/-- query/workspace_symbols.rs 18-46 with the choice of capabilities/workspace_symbols.rs 30-34. -/
def ofEngine (T : Tables) (query : Text) (e : Engine) : List Info :=
  if query.isEmpty then (topLevel e 50).filterMap (information e)
  else (search T e query 100).filterMap (information e)

/-- A text as a sequence of numbers that ends before every longer one. -/
def encode (t : Text) : List Nat := t.map (fun c => c.toNat + 1) ++ [0]

/-- capabilities/workspace_symbols.rs 36-49: the key by which the symbols of all engines are sorted, a tuple compared
part by part; the texts are compared like their characters, as their bytes would be. -/
def key (i : Info) : List Nat :=
  encode i.name ++ encode i.loc.uri ++ [i.loc.startLine, i.loc.startChar, i.loc.endLine, i.loc.endChar]

def before (a b : Info) : Bool := decide (key a ≤ key b)

/-- capabilities/workspace_symbols.rs 19-62 `handle_workspace_symbols`. -/
def answer (T : Tables) (engines : List Engine) (query : Text) : List Info :=
  dedupAdj (stableSort before (engines.flatMap (ofEngine T query)))

end Verif.SymbolSearch
