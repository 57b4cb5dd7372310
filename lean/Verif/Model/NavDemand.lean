import Verif.Model.Common
/-!
Model of `/repo/src/navigation_demand.rs`: the controller (L47-350) and the waiting side of its tickets (L352-391).

Every public operation is one critical section on the state mutex (a function here) followed, after the lock is released, by
`notify_change` if something changed; `owed` counts the notifications not yet sent.  A `watch` channel is its revision number; a
receiver is the revision it has seen.

Simplifications: keys are an arbitrary type (the normalization check of keys, L129-134 and L211-216, is in `Model/NavKey.lean`);
`BTreeSet`s are duplicate-free lists (only the order in which `drain` returns its keys is lost); the revision is unbounded.
-/
namespace Verif.NavDemand

inductive StageName where
  | project | dependency
  deriving DecidableEq

inductive Result where
  | targetProcessed | stageComplete | superseded | cancelled | saturated
  deriving DecidableEq

variable {K : Type}

/-- `StageState`, L33-39. -/
structure Stage (K : Type) where
  pending : List K
  inFlight : List K
  processed : List K
  complete : Bool

def Stage.empty : Stage K := { pending := [], inFlight := [], processed := [], complete := false }

/-- `NavigationDemandState`, L51-57. -/
structure Ctl (K : Type) where
  generation : Option Nat
  terminal : Option Result
  project : Stage K
  dependency : Stage K

def Ctl.init : Ctl K := { generation := none, terminal := none, project := Stage.empty, dependency := Stage.empty }

/-- L60-65. -/
def Ctl.stage (c : Ctl K) : StageName → Stage K
  | .project => c.project
  | .dependency => c.dependency

/-- L67-72. -/
def Ctl.setStage (c : Ctl K) (n : StageName) (st : Stage K) : Ctl K :=
  match n with
  | .project => { c with project := st }
  | .dependency => { c with dependency := st }

variable [DecidableEq K]

/-- `BTreeSet::insert`: the new set and whether the key is new. -/
def insert (l : List K) (k : K) : List K × Bool := if k ∈ l then (l, false) else (l ++ [k], true)

/-- `BTreeSet::remove`: the new set and whether the key was there. -/
def remove (l : List K) (k : K) : List K × Bool := (l.filter (· ≠ k), decide (k ∈ l))

/-- The critical section of `begin_generation`, L97-122. -/
def begin (c : Ctl K) (g : Nat) : Outcome (Ctl K) :=
  if g = 0 then .panic
  else if (match c.generation with | some previous => decide (previous < g) | none => true) then
    .ok { generation := some g, terminal := none, project := Stage.empty, dependency := Stage.empty }
  else .panic

/-- The critical section of `request`, L137-163: new state, immediate outcome, inserted. -/
def request (max : Nat) (c : Ctl K) (g : Nat) (n : StageName) (k : K) : Outcome (Ctl K × Option Result × Bool) :=
  if c.generation ≠ some g then .ok (c, some .superseded, false)
  else match c.terminal with
    | some t => .ok (c, some t, false)
    | none =>
      let st := c.stage n
      if k ∈ st.processed then .ok (c, some .targetProcessed, false)
      else if st.complete then .ok (c, some .stageComplete, false)
      else if k ∈ st.pending ∨ k ∈ st.inFlight then .ok (c, none, false)
      else if st.pending.length + st.inFlight.length ≥ max then .ok (c, some .saturated, false)
      else match insert st.pending k with
        | (pending, true) => .ok (c.setStage n { st with pending }, none, true)
        | (_, false) => .panic

/-- The loop of `drain`, L188-195. -/
def moveAll (inFlight : List K) : List K → Option (List K)
  | [] => some inFlight
  | k :: ks =>
    match insert inFlight k with
    | (l, true) => moveAll l ks
    | (_, false) => none

/-- `drain`, L178-203: new state and the drained keys. -/
def drain (c : Ctl K) (g : Nat) (n : StageName) : Outcome (Ctl K × List K) :=
  if c.generation ≠ some g ∨ c.terminal.isSome then .ok (c, [])
  else
    let st := c.stage n
    if st.complete then .ok (c, [])
    else match moveAll st.inFlight st.pending with
      | some l => .ok (c.setStage n { st with pending := [], inFlight := l }, st.pending)
      | none => .panic

/-- `claim_if_requested`, L205-246: new state, the answer, and whether a key moved. -/
def claim (c : Ctl K) (g : Nat) (n : StageName) (k : K) : Outcome (Ctl K × Bool × Bool) :=
  if c.generation ≠ some g ∨ c.terminal.isSome then .ok (c, false, false)
  else
    let st := c.stage n
    if st.complete ∨ k ∈ st.processed then .ok (c, false, false)
    else if k ∈ st.inFlight then .ok (c, true, false)
    else match remove st.pending k with
      | (pending, true) =>
        match insert st.inFlight k with
        | (inFlight, true) => .ok (c.setStage n { st with pending, inFlight }, true, true)
        | (_, false) => .panic
      | (_, false) => .ok (c, false, false)

/-- The loop of `complete_keys`, L260-270. -/
def completeLoop (st : Stage K) (changed : Bool) : List K → Option (Stage K × Bool)
  | [] => some (st, changed)
  | k :: ks =>
    match remove st.inFlight k with
    | (inFlight, true) =>
      let r := insert st.processed k
      completeLoop { st with inFlight, processed := r.1 } (changed || r.2) ks
    | (_, false) => none

/-- `complete_keys`, L248-276: new state and `changed`. -/
def completeKeys (c : Ctl K) (g : Nat) (n : StageName) (ks : List K) : Outcome (Ctl K × Bool) :=
  if c.generation ≠ some g ∨ c.terminal.isSome then .ok (c, false)
  else match completeLoop (c.stage n) false ks with
    | some (st, changed) => .ok (c.setStage n st, changed)
    | none => .panic

/-- `complete_stage`, L278-297. -/
def completeStage (c : Ctl K) (g : Nat) (n : StageName) : Ctl K × Bool :=
  if c.generation ≠ some g ∨ c.terminal.isSome then (c, false)
  else if (c.stage n).complete then (c, false)
  else (c.setStage n { c.stage n with complete := true, pending := [], inFlight := [] }, true)

/-- `cancel_generation`, L299-316. -/
def cancel (c : Ctl K) (g : Nat) : Ctl K × Bool :=
  if c.generation ≠ some g ∨ c.terminal.isSome then (c, false)
  else
    ({ c with
       terminal := some .cancelled
       project := { c.project with pending := [], inFlight := [] }
       dependency := { c.dependency with pending := [], inFlight := [] } }, true)

/-- `outcome_for`, L318-339. -/
def outcomeFor (c : Ctl K) (g : Nat) (n : StageName) (k : K) : Option Result :=
  if c.generation ≠ some g then some .superseded
  else match c.terminal with
    | some t => some t
    | none =>
      if k ∈ (c.stage n).processed then some .targetProcessed
      else if (c.stage n).complete then some .stageComplete
      else none

/-- Where the owner of a ticket is. -/
inductive Phase where
  /-- out of the critical section of `request`, `subscribe` (L173) not yet called -/
  | requested
  /-- about to call `outcome_for` (L377) -/
  | checking (seen : Nat)
  /-- in `changed().await` (L383) -/
  | asleep (seen : Nat)
  | done (r : Result)
  deriving DecidableEq

/-- `NavigationDemandTicket`, L352-360. -/
structure Ticket (K : Type) where
  generation : Nat
  stage : StageName
  key : K
  immediate : Option Result
  phase : Phase

structure State (K : Type) where
  ctl : Ctl K
  /-- the value of the watch channel -/
  revision : Nat
  /-- `notify_change` calls due -/
  owed : Nat
  tickets : List (Ticket K)
  /-- everything `drain` or `claim` ever handed out, newest first -/
  handed : List (Nat × StageName × K)

def init : State K := { ctl := Ctl.init, revision := 0, owed := 0, tickets := [], handed := [] }

def owe (b : Bool) : Nat := if b then 1 else 0

def setPhase (s : State K) (i : Nat) (p : Phase) : State K :=
  { s with tickets := s.tickets.modify i (fun t => { t with phase := p }) }

inductive Step (max : Nat) : State K → State K → Prop where
  | begin {s} (g : Nat) (c : Ctl K) (h : begin s.ctl g = .ok c) : Step max s { s with ctl := c, owed := s.owed + 1 }
  | request {s} (g : Nat) (n : StageName) (k : K) (c : Ctl K) (immediate : Option Result) (inserted : Bool)
      (h : request max s.ctl g n k = .ok (c, immediate, inserted)) :
      Step max s { s with
        ctl := c
        owed := s.owed + owe inserted
        tickets := s.tickets ++ [{ generation := g, stage := n, key := k, immediate, phase := .requested }] }
  | drain {s} (g : Nat) (n : StageName) (c : Ctl K) (ks : List K) (h : drain s.ctl g n = .ok (c, ks)) :
      Step max s { s with ctl := c, owed := s.owed + owe (!ks.isEmpty), handed := ks.map (fun k => (g, n, k)) ++ s.handed }
  | claim {s} (g : Nat) (n : StageName) (k : K) (c : Ctl K) (answer moved : Bool) (h : claim s.ctl g n k = .ok (c, answer, moved)) :
      Step max s { s with ctl := c, owed := s.owed + owe moved, handed := if moved then (g, n, k) :: s.handed else s.handed }
  | completeKeys {s} (g : Nat) (n : StageName) (ks : List K) (c : Ctl K) (changed : Bool) (h : completeKeys s.ctl g n ks = .ok (c, changed)) :
      Step max s { s with ctl := c, owed := s.owed + owe changed }
  | completeStage {s} (g : Nat) (n : StageName) :
      Step max s { s with ctl := (completeStage s.ctl g n).1, owed := s.owed + owe (completeStage s.ctl g n).2 }
  | cancel {s} (g : Nat) : Step max s { s with ctl := (cancel s.ctl g).1, owed := s.owed + owe (cancel s.ctl g).2 }
  /-- `notify_change`, L341-349. -/
  | notify {s} (h : 0 < s.owed) : Step max s { s with owed := s.owed - 1, revision := s.revision + 1 }
  /-- `wait`, L373-375. -/
  | immediate {s} (i : Nat) (t : Ticket K) (r : Result) (ht : s.tickets[i]? = some t) (hp : t.phase = .requested) (hr : t.immediate = some r) :
      Step max s (setPhase s i (.done r))
  /-- `subscribe`, L173, and the start of the loop of `wait`, L376. -/
  | subscribe {s} (i : Nat) (t : Ticket K) (ht : s.tickets[i]? = some t) (hp : t.phase = .requested) (hr : t.immediate = none) :
      Step max s (setPhase s i (.checking s.revision))
  /-- L377-382. -/
  | check {s} (i : Nat) (t : Ticket K) (seen : Nat) (ht : s.tickets[i]? = some t) (hp : t.phase = .checking seen) :
      Step max s (setPhase s i (match outcomeFor s.ctl t.generation t.stage t.key with | some r => .done r | none => .asleep seen))
  /-- `changed()` returns because the value is newer than the one seen, L383. -/
  | wake {s} (i : Nat) (t : Ticket K) (seen : Nat) (ht : s.tickets[i]? = some t) (hp : t.phase = .asleep seen) (hn : s.revision ≠ seen) :
      Step max s (setPhase s i (.checking s.revision))

inductive Reachable (max : Nat) : State K → Prop where
  | init : Reachable max init
  | step {s s'} : Reachable max s → Step max s s' → Reachable max s'

inductive Steps (max : Nat) : State K → State K → Prop where
  | refl (s) : Steps max s s
  | tail {s s' s''} : Steps max s s' → Step max s' s'' → Steps max s s''

end Verif.NavDemand
