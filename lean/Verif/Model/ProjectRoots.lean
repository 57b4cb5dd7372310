import Verif.Model.RuntimeConfig
/-!
The projects of a workspace (/repo/src/indexer/project_roots.rs).

Simplified: names are texts; below the folder of the workspace the file system is a tree of entries, and an entry that is not a directory
itself, such as a link, has no kind; the entries of a directory may be in any order, as the result is sorted; errors of reading are left out.
A path is a list of names below the root of the file system; names are ordered as lists of scalar values, which is the order of their bytes.
-/
namespace Verif.ProjectRoots
open Verif.JavaSource (Text)
open Verif.RuntimeConfig (components)

abbrev Path := List Text

/-- The order of lists, from the one of their items. -/
def lexLt {α : Type} (lt : α → α → Bool) : List α → List α → Bool
  | _, [] => false
  | [], _ :: _ => true
  | a :: l, b :: m => if lt a b = true then true else if lt b a = true then false else lexLt lt l m

def charLt (a b : Char) : Bool := decide (a.toNat < b.toNat)

def nameLt : Text → Text → Bool := lexLt charLt

/-- `Ord` of paths: by components. -/
def pathLt : Path → Path → Bool := lexLt nameLt

/-- The entries of a directory: each has a name, may be a directory, may hold a Gemfile and has entries itself. -/
inductive Entries where
  | nil
  | cons (name : Text) (dir gemfile : Bool) (kids rest : Entries)
deriving DecidableEq, Repr

/-- project_roots.rs 6-16. -/
def pruned : List Text :=
  [['.', 'b', 'u', 'n', 'd', 'l', 'e'], ['.', 'g', 'i', 't'], ['.', 'r', 'u', 'b', 'y', '-', 'f', 'a', 's', 't', '-', 'l', 's', 'p'],
   ['.', 'r', 'u', 'b', 'y', '-', 'l', 's', 'p'], ['c', 'o', 'v', 'e', 'r', 'a', 'g', 'e'], ['l', 'o', 'g'],
   ['n', 'o', 'd', 'e', '_', 'm', 'o', 'd', 'u', 'l', 'e', 's'], ['t', 'm', 'p'], ['v', 'e', 'n', 'd', 'o', 'r']]

/-- project_roots.rs 91-129 `discover_nested_project_roots`. -/
def nested (place : Path) : Entries → List Path
  | .nil => []
  | .cons name dir gemfile kids rest =>
    (if dir = false ∨ name ∈ pruned then []
      else if gemfile = true then [place ++ [name]]
      else nested (place ++ [name]) kids) ++ nested place rest

def insert (a : Path) : List Path → List Path
  | [] => [a]
  | b :: l => if pathLt b a = true then b :: insert a l else a :: b :: l

/-- `Vec::sort`; for an order in which different paths are never equal all ways to sort agree. -/
def sort : List Path → List Path
  | [] => []
  | a :: l => insert a (sort l)

/-- `Vec::dedup`. -/
def dedup : List Path → List Path
  | [] => []
  | a :: l =>
    match dedup l with
    | [] => [a]
    | b :: m => if a = b then b :: m else a :: b :: m

/-- project_roots.rs 24-37 `discover_project_roots`. -/
def discover (top : Path) (gemfile : Bool) (entries : Entries) : List Path :=
  if gemfile = true then [top]
  else
    match dedup (sort (nested top entries)) with
    | [] => [top]
    | r :: rs => r :: rs

/-- project_roots.rs 55-63: an entry that is a plain relative path, as names. -/
def plain (entry : Text) : Option (List Text) :=
  match components entry with
  | (false, false, ns) => if entry = [] ∨ ['.', '.'] ∈ ns then none else some ns
  | _ => none

/-- project_roots.rs 54-76: the place of an entry; `canon` is `fs::canonicalize`. -/
def place (canon : Path → Option Path) (isDir : Path → Bool) (top : Path) (entry : Text) : Option Path :=
  match plain entry with
  | none => none
  | some ns =>
    match canon (top ++ ns) with
    | none => none
    | some c => if isDir c = true ∧ top.isPrefixOf c = true then some c else none

def places (canon : Path → Option Path) (isDir : Path → Bool) (top : Path) : List Text → Option (List Path)
  | [] => some []
  | e :: es =>
    match place canon isDir top e, places canon isDir top es with
    | some c, some cs => some (c :: cs)
    | _, _ => none

/-- project_roots.rs 79-86: whether one of two neighbours is inside the other. -/
def overlapping : List Path → Bool
  | [] => false
  | a :: l =>
    match l with
    | [] => false
    | b :: _ => a.isPrefixOf b || overlapping l

/-- project_roots.rs 39-89 `discover_project_roots_with_explicit`; `none` is an error. -/
def explicit (canon : Path → Option Path) (isDir : Path → Bool) (workspace : Path) (gemfile : Bool) (entries : Entries) (roots : List Text) :
    Option (List Path) :=
  if roots = [] then some (discover workspace gemfile entries)
  else
    match canon workspace with
    | none => none
    | some top =>
      match places canon isDir top roots with
      | none => none
      | some cs => if overlapping (dedup (sort cs)) = true then none else some (dedup (sort cs))

end Verif.ProjectRoots
