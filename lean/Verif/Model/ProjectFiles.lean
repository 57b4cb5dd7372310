/-!
Model of which files of a project are indexed, and when: the walk of the project and its policy (src/utils/file_ops.rs L40-135, L169-196,
L224-241, L265-267), the selection of files that requests wait for, and the batches (src/indexer/indexer_project.rs L185-541, L1423-1475,
L1551-1565, L1603-1705; src/indexer/coordinator.rs L1715-1800, L1930-2060), the order of gems (L161-190), and the scan for `require`.

Simplifications: reading and collecting a batch of files is one step that fails if one of them cannot be read; the facts are left out;
the Java classes that files ask for (`pending_jruby_navigation_plan`) are a flag; timing and logging are left out. Whether a file
matches a key is a parameter of the life cycle, and defined apart from it (`fileMatches`).
-/
namespace Verif.ProjectFiles

/-- What a step gives: a result, an error that is returned, or a panic. -/
inductive Res (α : Type) where
  | ok (a : α)
  | error
  | panic

/-! ### The walk -/

/-- What is in a directory. -/
inductive Node where
  | file (name : String)
  | link (name : String)
  | dir (name : String) (kids : List Node)

abbrev Path := List String

/-- Rust's `Path::extension`: what follows the last dot of the name, if that is not its first character. -/
def extension (name : List Char) : Option (List Char) :=
  if name = ['.', '.'] then none else
  let after := (name.reverse.takeWhile (fun c => c ≠ '.')).reverse
  if name.length ≤ after.length + 1 then none else some after

def lastName (p : Path) : List Char := (p.getLastD "").toList

/-- The tables of file_ops.rs L21-81. -/
structure Tables where
  extensions : List String
  names : List String

def externals : List String := [".bundle", ".ruby-fast-lsp", ".ruby-lsp", "coverage", "log", "node_modules", "tmp", "vendor"]

def isGitPath (p : Path) : Bool := p.any (fun c => c == ".git")

def isRbs (p : Path) : Bool := extension (lastName p) == some "rbs".toList

def isExternal (p : Path) : Bool := p.any (fun c => externals.contains c)

/-- L124-135 `should_index_file`. -/
def shouldIndex (T : Tables) (p : Path) : Bool :=
  match extension (lastName p) with
  | some e => T.extensions.contains (String.ofList e)
  | none => T.names.contains (String.ofList (lastName p))

/-- The globs of the configuration. -/
structure Policy where
  included : Path → Bool
  excluded : Path → Bool

/-- L96-107 `ProjectFilePolicy::includes`, of a path below the root. -/
def includes (T : Tables) (P : Policy) (p : Path) : Bool :=
  if isGitPath p || isRbs p then false
  else (P.included p || (shouldIndex T p && !isExternal p)) && !P.excluded p

mutual
/-- L173-192: the walk does not enter directories named `.git` (L265-267), and does not follow links. -/
def walk (T : Tables) (P : Policy) (here : Path) : Node → List Path
  | .file name => if includes T P (here ++ [name]) then [here ++ [name]] else []
  | .link _ => []
  | .dir name kids => if name == ".git" then [] else walkAll T P (here ++ [name]) kids

def walkAll (T : Tables) (P : Policy) (here : Path) : List Node → List Path
  | [] => []
  | n :: ns => walk T P here n ++ walkAll T P here ns
end

/-! ### The scan for `require` -/

/-- `str::find` of a character: the byte at which it is. -/
def findByte (q : Char) : List Char → Option Nat
  | [] => none
  | c :: l => if c = q then some 0 else (findByte q l).map (fun n => n + c.utf8Size)

/-- `&s[n..]`. -/
def dropBytes : Nat → List Char → List Char
  | 0, l => l
  | _, [] => []
  | n, c :: l => dropBytes (n - c.utf8Size) l

/-- `&s[..n]`. -/
def takeBytes : Nat → List Char → List Char
  | 0, _ => []
  | _, [] => []
  | n, c :: l => c :: takeBytes (n - c.utf8Size) l

/-- indexer_project.rs L1463-1470: the byte of the quote is used to look for it among the *characters*. -/
def quoted (line : List Char) : Res (Option (List Char)) :=
  match (findByte '"' line).or (findByte '\'' line) with
  | none => .ok none
  | some start =>
    match line[start]? with
    | none => .panic
    | some q =>
      let rest := dropBytes (start + 1) line
      match findByte q rest with
      | none => .ok none
      | some stop => .ok (some (takeBytes stop rest))

/-- L1456-1475 `parse_require_statement`, of a trimmed line. -/
def parseRequire (line : List Char) : Res (Option (List Char)) :=
  if "require ".toList.isPrefixOf line || "require_relative ".toList.isPrefixOf line then quoted line else .ok none

/-- L1551-1565 `parse_gem_statement`. -/
def parseGem (line : List Char) : Res (Option (List Char)) :=
  if "gem ".toList.isPrefixOf line then quoted line else .ok none

/-! ### Files that requests wait for -/

/-- L1688-1705 `project_file_matches_navigation_key`; `stem` is normalised like the key, lengths are in bytes. -/
def fileMatches (stem key : List Char) : Bool :=
  let bytes (l : List Char) : Nat := (l.map Char.utf8Size).sum
  key == stem || (decide (4 ≤ bytes stem) && stem.isPrefixOf key) || (decide (4 ≤ bytes key) && key.isPrefixOf stem)

variable {F K : Type} [BEq F]

structure Selection (F K : Type) where
  files : List F
  completed : List K
  deferred : List K

def addAll (s : List F) (c : List F) : List F := c.foldl (fun s f => if s.contains f then s else f :: s) s

/-- L1618-1655: the loop over the keys. -/
def selectKeys (m : F → K → Bool) (files processed : List F) : List K → List F × List K × List K → List F × List K × List K
  | [], r => r
  | k :: ks, (sel, done, later) =>
    let cands := files.filter (fun f => m f k)
    if cands.length = 0 then
      if processed.any (fun f => m f k) then selectKeys m files processed ks (sel, done ++ [k], later)
      else selectKeys m files processed ks (sel, done, later ++ [k])
    else if 8 < cands.length ∨ 64 < sel.length + cands.length then selectKeys m files processed ks (sel, done, later ++ [k])
    else selectKeys m files processed ks (addAll sel cands, done ++ [k], later)

/-- L1603-1670 `select_navigation_demand_files`: the selection, and the files that are left. -/
def select (m : F → K → Bool) (files processed : List F) (keys : List K) : Selection F K × List F :=
  let r := selectKeys m files processed keys ([], [], [])
  (⟨files.filter (fun f => r.1.contains f), r.2.1, r.2.2⟩, files.filter (fun f => !r.1.contains f))

/-- L477-488 `record_processed_project_files`; `none` is its assertion. -/
def record : List F → List F → Option (List F)
  | processed, [] => some processed
  | processed, f :: fs => if processed.contains f then none else record (f :: processed) fs

/-- What does not change during a run. -/
structure Env (F K : Type) where
  m : F → K → Bool
  readable : F → Bool
  /-- the file asks for Java classes -/
  java : F → Bool
  /-- a file of the constants of open documents (L1672-1686) -/
  prio : F → Bool

structure Project (F : Type) where
  processed : List F
  plan : Bool

/-- L763-1196 `collect_facts_and_track_dependencies` and the record of the files. -/
def collect (E : Env F K) (files : List F) (resolve : Bool) (p : Project F) : Res (Project F) :=
  if files.all E.readable then
    match record p.processed files with
    | none => .panic
    | some processed => .ok ⟨processed, if resolve then false else p.plan || files.any E.java⟩
  else .error

/-- L447-475 `collect_project_file_batch`. -/
def collectBatch (E : Env F K) (files : List F) (resolve : Bool) (p : Project F) : Res (Project F) :=
  match files with
  | [] => .ok p
  | _ :: _ => collect E files resolve p

/-- A batch that has been collected, with the keys that are reported. -/
structure Entry (F K : Type) where
  files : List F
  completed : List K
  deferred : List K

theorem length_filter_not {p : F → Bool} {l : List F} (h : (l.filter p).isEmpty = false) : (l.filter (fun f => !p f)).length < l.length := by
  induction l with
  | nil => cases h
  | cons a l ih =>
    rw [List.filter_cons] at h
    rw [List.filter_cons]
    cases hp : p a with
    | true =>
      simp only [Bool.not_true, Bool.false_eq_true, if_false, List.length_cons]
      have := List.length_filter_le (fun f => !p f) l
      omega
    | false =>
      rw [hp] at h
      simp only [Bool.false_eq_true, if_false] at h
      have := ih h
      simp only [Bool.not_false, if_true, List.length_cons]
      omega

/-- The files of the next batch, and those that are left (coordinator.rs L1979-1989). -/
def nextBatch (E : Env F K) (keys : List K) (pending : List F) (p : Project F) : Selection F K × Bool × List F :=
  let s := select E.m pending p.processed keys
  if s.1.files.isEmpty then (⟨pending.take 512, s.1.completed, s.1.deferred⟩, false, pending.drop 512) else (s.1, true, s.2)

theorem nextBatch_lt (E : Env F K) (keys : List K) (pending : List F) (p : Project F) (h : ¬(nextBatch E keys pending p).2.2.isEmpty = true) :
    (nextBatch E keys pending p).2.2.length < pending.length := by
  unfold nextBatch at *
  dsimp only at *
  split
  · next hs =>
    rw [if_pos hs] at h
    simp only [List.length_drop] at *
    cases pending with
    | nil => simp at h
    | cons a l => simp only [List.length_cons]; omega
  · next hs =>
    simp only [Bool.not_eq_true] at hs
    exact length_filter_not hs

/-- coordinator.rs L1935-2050: the batches, with the keys drained before each of them; a run may be cancelled before each batch. -/
def loop (E : Env F K) (drain : Nat → List K) (cancelled : Nat → Bool) (i : Nat) (pending : List F) (p : Project F) : Res (List (Entry F K)) :=
  if cancelled i then .error
  else
    let b := nextBatch E (drain i) pending p
    match collectBatch E b.1.files (b.2.1 || b.2.2.isEmpty) p with
    | .error => .error
    | .panic => .panic
    | .ok p' =>
      let e : Entry F K := ⟨b.1.files, b.1.completed, b.1.deferred⟩
      if h : b.2.2.isEmpty then
        -- indexer_project.rs L490-519 `finish_remaining_project_facts`
        if p'.plan then .panic else .ok [e]
      else
        match loop E drain cancelled (i + 1) b.2.2 p' with
        | .ok es => .ok (e :: es)
        | .error => .error
        | .panic => .panic
  termination_by pending.length
  decreasing_by exact nextBatch_lt _ _ _ _ h

/-- A whole run: the files of the first requests (L204-287), those of constants in open documents (L289-327), those of the requests
that have come meanwhile (coordinator.rs L1763-1795), and the others. -/
def run (E : Env F K) (first second : List K) (drain : Nat → List K) (cancelled : Nat → Bool) (files : List F) : Res (List (Entry F K)) :=
  let s := select E.m files [] first
  let nav := s.2.filter E.prio
  let tail := s.2.filter (fun f => !E.prio f)
  match collect E s.1.files true ⟨[], false⟩ with
  | .error => .error
  | .panic => .panic
  | .ok p1 =>
    match collect E nav true p1 with
    | .error => .error
    | .panic => .panic
    | .ok p2 =>
      let t := select E.m tail p2.processed second
      match collectBatch E t.1.files true p2 with
      | .error => .error
      | .panic => .panic
      | .ok p3 =>
        match loop E drain cancelled 0 t.2 p3 with
        | .error => .error
        | .panic => .panic
        | .ok es => .ok (⟨s.1.files, s.1.completed, s.1.deferred⟩ :: ⟨nav, [], []⟩ :: ⟨t.1.files, t.1.completed, t.1.deferred⟩ :: es)

/-! ### The order of gems -/

/-- coordinator.rs L161-166 `prioritize_locked_gem_names`. -/
def prioritizeLocked (first : F → Bool) (names : List F) : List F := names.filter first ++ names.filter (fun n => !first n)

/-- The loop of L168-189 over the keys: names that are left, names moved to the front, and the keys matched. -/
def takeDemanded [BEq K] (norm : F → K) : List K → List F → List F × List F × List (F × K)
  | [], names => (names, [], [])
  | k :: ks, names =>
    match names.find? (fun n => norm n == k) with
    | none => takeDemanded norm ks names
    | some n =>
      let r := takeDemanded norm ks (names.eraseP (fun n => norm n == k))
      (r.1, n :: r.2.1, (n, k) :: r.2.2)

/-- `prioritize_demanded_gem_names`. -/
def prioritizeDemanded [BEq K] (norm : F → K) (keys : List K) (names : List F) : List F × List (F × K) :=
  let r := takeDemanded norm keys names
  (r.2.1 ++ r.1, r.2.2)

end Verif.ProjectFiles
