/-!
Model of how one open document is kept in step with the editor: `handle_did_open`, `handle_did_change`, `handle_did_save`,
`handle_did_close` and `handle_watched_files_changed` (src/capabilities/indexing.rs L145-293, L374-548, L550-607, L658-787), the
processing of a file (src/indexer/file_processor.rs L337-606), and the locks that serialise handlers of one document
(src/server.rs L555-564).

All handlers of a document but that of watched files take the document's lock, a fair `tokio::sync::Mutex`, before anything else. What
a handler does between two awaits is one step (`start`), as all handlers are run by one task (tower-lsp's `buffer_unordered`); the
processing is done by another thread (`run_with_resources`), its steps are those between which it takes locks. Handlers of *other*
documents process this one again, with the text they found, without its lock (`refresh`: L503-525, also L307-338 and L789-838), and so
does the handler of watched files (`watch`); these are interleaved with everything.

Simplifications: one document, of kind `Project`, in a workspace; a text is a number (0 is the empty text); facts are represented by
the text they were computed from; the seed of facts (file_processor.rs L431-446) that is replaced by the facts is left out; background
indexing, which checks that the source has not changed before it commits (see `Sources`), is left out; a change carries the whole text
(L379-383, the last of them).
-/
namespace Verif.DocSync

abbrev Content := Nat

/-- Notifications of the editor. -/
inductive Notif where
  | opened (c : Content) (v : Nat)
  | changed (c : Content) (v : Nat)
  | saved
  | closed
  deriving DecidableEq

/-- indexer/ruby_document.rs L8-20 `RubyDocument`. -/
structure Doc where
  content : Content
  version : Nat
  indexed : Option Nat
  deriving DecidableEq

/-- Where the processing of a file (file_processor.rs L337-606) is. -/
inductive Pc where
  | check
  | register
  | version
  | facts (v : Nat)
  | insert (v : Nat)
  | mark
  deriving DecidableEq

/-- A processing: its text, and if references of the whole project are resolved (`FileResolution::Full`). -/
structure Proc where
  content : Content
  full : Bool
  pc : Pc
  deriving DecidableEq

/-- A handler that has the lock. -/
inductive Run where
  | start (n : Notif)
  | proc (p : Proc)
  | done
  deriving DecidableEq

/-- What runs without the lock. -/
inductive Free where
  | refresh (p : Proc)
  | look
  | found (c : Content)
  | collected (c : Content)
  deriving DecidableEq

structure State where
  inbox : List Notif
  queue : List Notif
  running : Option Run
  docs : Option Doc
  source : Option Content
  facts : Option Content
  disk : Option Content
  free : List Free
  /-- how often references of the whole project were resolved -/
  resolves : Nat
  /-- what the editor has: text and version -/
  client : Option (Content × Nat)
  deriving DecidableEq

/-- The parts that a processing reads and writes. -/
structure World where
  docs : Option Doc
  source : Option Content
  facts : Option Content
  resolves : Nat
  deriving DecidableEq

/-- One step of a processing; `broken` are the texts with more than ten syntax errors (L415-427). `none` as processing: it is over. -/
def procStep (broken : Content → Bool) (p : Proc) (w : World) : Option Proc × World :=
  match p.pc with
  | .check =>
    -- L345-381
    match w.docs with
    | some d => if d.indexed = some d.version then (none, { w with source := some p.content }) else (some { p with pc := .register }, w)
    | none => (some { p with pc := .register }, w)
  | .register => (some { p with pc := .version }, { w with source := some p.content })
  | .version =>
    -- L395-400
    (some { p with pc := .facts (match w.docs with | some d => d.version | none => 0) }, w)
  | .facts v =>
    let w' := { w with facts := some p.content, resolves := if p.full then w.resolves + 1 else w.resolves }
    if broken p.content then (none, w') else (some { p with pc := .insert v }, w')
  | .insert v => (some { p with pc := .mark }, { w with docs := some ⟨p.content, v, none⟩ })
  | .mark =>
    -- L583-587
    (none, { w with docs := w.docs.map (fun d => { d with indexed := some d.version }) })

def State.world (s : State) : World := ⟨s.docs, s.source, s.facts, s.resolves⟩

def State.set (s : State) (w : World) : State := { s with docs := w.docs, source := w.source, facts := w.facts, resolves := w.resolves }

/-- The text and version of a notification are stored: indexing.rs L162-181 and L392-410. -/
def store (docs : Option Doc) (c : Content) (v : Nat) : Doc :=
  match docs with
  | some d => { d with content := c, version := v }
  | none => ⟨c, v, none⟩

/-- What a handler does up to its first await after the lock. -/
def startStep (n : Notif) (s : State) : State :=
  match n with
  | .opened c v =>
    -- L150-158: `indexed_disk_content_matches` (L293-305)
    if s.source = some c ∧ s.disk = some c then
      { s with source := some c, docs := some { store s.docs c v with indexed := some v }, running := some .done }
    else { s with source := some c, docs := some (store s.docs c v), running := some (.proc ⟨c, false, .check⟩) }
  | .changed c v => { s with source := some c, docs := some (store s.docs c v), running := some (.proc ⟨c, false, .check⟩) }
  | .saved =>
    match s.docs with
    | none => { s with running := some .done }
    | some d => { s with running := some (.proc ⟨d.content, true, .check⟩) }
  | .closed => { s with docs := none, running := some .done }

/-- What the editor has after it has sent a notification; `none`: it does not send it. -/
def sendable (client : Option (Content × Nat)) : Notif → Option (Option (Content × Nat))
  | .opened c v => if client = none then some (some (c, v)) else none
  | .changed c v =>
    match client with
    | some (_, v') => if v' < v then some (some (c, v)) else none
    | none => none
  | .saved => if client = none then none else some client
  | .closed => if client = none then none else some none

/-- `clear_file_facts_if_kind` (L844-877). -/
def State.clear (s : State) : State :=
  match s.source with
  | none => s
  | some _ => { s with source := some 0, facts := some 0 }

inductive Action where
  /-- the editor sends a notification -/
  | send (n : Notif)
  /-- the handler of a notification that has come is first run: it waits for the lock -/
  | poll (i : Nat)
  /-- the first one that waits gets the lock -/
  | acquire
  /-- the handler with the lock goes on -/
  | handler
  /-- its processing fails (no resources, or L389) -/
  | fail
  /-- another handler takes the text to process it again -/
  | refresh
  /-- a change on disk is noticed -/
  | watch
  /-- a removal on disk is noticed -/
  | deleted
  /-- something that runs without the lock goes on -/
  | free (i : Nat)
  /-- or fails -/
  | freeFail (i : Nat)
  /-- the file is written or removed -/
  | write (d : Option Content)
  deriving DecidableEq

/-- One step; `none`: not possible. -/
def step (broken : Content → Bool) (a : Action) (s : State) : Option State :=
  match a with
  | .send n =>
    match sendable s.client n with
    | none => none
    | some client => some { s with client := client, inbox := s.inbox ++ [n] }
  | .poll i =>
    match s.inbox[i]? with
    | none => none
    | some n => some { s with inbox := s.inbox.eraseIdx i, queue := s.queue ++ [n] }
  | .acquire =>
    match s.running, s.queue with
    | none, n :: q => some { s with running := some (.start n), queue := q }
    | _, _ => none
  | .handler =>
    match s.running with
    | none => none
    | some (.start n) => some (startStep n s)
    | some (.proc p) =>
      let r := procStep broken p s.world
      some { s.set r.2 with running := some (match r.1 with | some p' => .proc p' | none => .done) }
    | some .done => some { s with running := none }
  | .fail =>
    match s.running with
    | some (.proc p) => if p.pc = .check ∨ p.pc = .register then some { s with running := some .done } else none
    | _ => none
  | .refresh =>
    match s.docs with
    | none => none
    | some d => some { s with free := s.free ++ [.refresh ⟨d.content, false, .register⟩] }
  | .watch =>
    -- L709-711
    match s.docs with
    | none => some { s with free := s.free ++ [.look] }
    | some _ => some s
  | .deleted =>
    match s.docs with
    | none => some s.clear
    | some _ => some s
  | .free i =>
    match s.free[i]? with
    | none => none
    | some (.refresh p) =>
      let r := procStep broken p s.world
      some { s.set r.2 with free := match r.1 with | some p' => s.free.set i (.refresh p') | none => s.free.eraseIdx i }
    | some .look =>
      match s.disk with
      | some c => some { s with free := s.free.set i (.found c) }
      | none => some { s.clear with free := s.free.eraseIdx i }
    | some (.found c) => some { s with source := some c, free := s.free.set i (.collected c) }
    | some (.collected c) => some { s with facts := some c, free := s.free.eraseIdx i }
  | .freeFail i =>
    match s.free[i]? with
    | some (.refresh p) => if p.pc = .register then some { s with free := s.free.eraseIdx i } else none
    | some (.found _) => some { s.clear with free := s.free.eraseIdx i }
    | _ => none
  | .write d => some { s with disk := d }

def steps (broken : Content → Bool) : List Action → State → Option State
  | [], s => some s
  | a :: as, s =>
    match step broken a s with
    | none => none
    | some s' => steps broken as s'

/-! ### The table of locks -/

/-- src/server.rs L385: locks by document, weakly held, and the references to locks that handlers hold. -/
structure Locks where
  table : List (Nat × Nat)
  held : List (Nat × Nat)
  next : Nat

/-- L555-564 `document_semantic_lock`; a handler for document `u` gets a reference. -/
def Locks.get (l : Locks) (u : Nat) : Locks :=
  let table := l.table.filter (fun e => l.held.any (fun h => h.2 == e.2))
  match table.find? (fun e => e.1 == u) with
  | some e => { l with table := table, held := (u, e.2) :: l.held }
  | none => { table := (u, l.next) :: table, held := (u, l.next) :: l.held, next := l.next + 1 }

/-- A handler ends. -/
def Locks.drop (l : Locks) (i : Nat) : Locks := { l with held := l.held.eraseIdx i }

end Verif.DocSync
