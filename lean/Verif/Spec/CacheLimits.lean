import Verif.Model.CacheLimits
/-!
What the limits of a cache directory mean.
-/
namespace Verif.CacheLimits

/-- The sum of the sizes. -/
def size (es : List Entry) : Nat := (es.map Entry.bytes).sum

/-- Both limits are kept. -/
def Within (L : Limits) (es : List Entry) : Prop := es.length ≤ L.maxEntries ∧ size es ≤ L.maxBytes

/-- Limits that numbers of 64 bits can exceed (4096 and 2 GiB in the code). -/
def Limits.Small (L : Limits) : Prop := L.maxEntries < top ∧ L.maxBytes < top

/-- `a` has to go before `b`. -/
def Before (a b : Entry) : Prop := a.modified < b.modified ∨ (a.modified = b.modified ∧ a.path < b.path)

/-- `gone` is a right choice of what to evict from `disk`, `kept` being what is left: the limits are kept afterwards, what goes is
older than what stays, and not even the youngest of what goes could have stayed. -/
structure Evicts (L : Limits) (disk gone kept : List Entry) : Prop where
  split : (gone ++ kept).Perm disk
  within : Within L kept
  oldest : ∀ a ∈ gone, ∀ b ∈ kept, Before a b
  least : ∀ a ∈ gone, (∀ b ∈ gone, b ≠ a → Before b a) → ¬ Within L (a :: kept)

/-- Publications of a process whose call has not returned. -/
def Proc.inflight (q : Proc) : Nat := q.unrecorded.length + q.cleaning.length

/-- Publications whose call has not returned. -/
def inflight (s : State) : Nat := (s.procs.map Proc.inflight).sum

/-- The sizes of the files whose publication has not returned. -/
def inflightBytes (s : State) : Nat := (s.procs.map (fun q => q.unrecorded.sum + q.cleaning.sum)).sum

/-- What an event can make the accounting of its process lose, in publications: those that end without being cleaned up after
although they should be (the lock could not be had, a removal failed, the process ended), those recorded while the accounting is not
initialised, and everything since the last scan when `clear` sets the accounting after unlocking. -/
def loses (L : Limits) (s : State) : Event → Nat
  | .abandon _ _ => 1
  | .clean _ _ out =>
    match cleanup L out s.disk with
    | some (_, .done _ _) => 0
    | _ => 1
  | .record p _ =>
    match s.procs[p]? with
    | some q => if q.acct.initialized then 0 else 1
    | none => 0
  | .reset _ => rescan
  | .crash p _ =>
    match s.procs[p]? with
    | some q => q.inflight
    | none => 0
  | _ => 0

/-- The losses of all events of an execution. -/
def losses (L : Limits) : State → List Event → Nat
  | _, [] => 0
  | s, ev :: evs =>
    loses L s ev +
      match step L s ev with
      | none => 0
      | some s' => losses L s' evs

/-- An event that does not disturb the accounting: no compiled module is rejected, no cleanup fails, no process ends, and `clear`
changes the accounting before anything else is published. -/
def Calm (L : Limits) (s : State) : Event → Prop
  | .abandon _ _ => False
  | .invalidate _ _ => False
  | .crash _ _ => False
  | .reset _ => s.disk = []
  | .clean p b out => loses L s (.clean p b out) = 0
  | _ => True

/-- All events are calm when they happen. -/
def Calmly (L : Limits) : State → List Event → Prop
  | _, [] => True
  | s, ev :: evs => Calm L s ev ∧ ∀ s', step L s ev = some s' → Calmly L s' evs

/-- The events that take from process `p` what it knows, or end its cleanups without success. -/
def Undoes (L : Limits) (p : Nat) (s : State) : Event → Prop
  | .abandon p' _ => p' = p
  | .clean p' b out => p' = p ∧ loses L s (.clean p' b out) ≠ 0
  | .invalidate p' _ => p' = p
  | .reset p' => p' = p
  | .crash p' _ => p' = p
  | _ => False

/-- No event of an execution does. -/
def Undisturbed (L : Limits) (p : Nat) : State → List Event → Prop
  | _, [] => True
  | s, ev :: evs => ¬ Undoes L p s ev ∧ ∀ s', step L s ev = some s' → Undisturbed L p s' evs

/-- The number of publications that process `p` records. -/
def records (p : Nat) : List Event → Nat
  | [] => 0
  | .record p' _ :: evs => (if p' = p then 1 else 0) + records p evs
  | _ :: evs => records p evs

/-- At some time in an execution the limits are kept. -/
def SometimesWithin (L : Limits) (s : State) (evs : List Event) : Prop :=
  ∃ n s', n ≤ evs.length ∧ run L s (evs.take n) = some s' ∧ Within L s'.disk

end Verif.CacheLimits
