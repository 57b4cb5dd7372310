import Verif.Model.DocSync
/-!
What it means for a document to be in step with the editor.
-/
namespace Verif.DocSync

/-- Nothing the editor has sent is left to do. -/
def Idle (s : State) : Prop := s.inbox = [] ∧ s.queue = [] ∧ s.running = none

/-- The server has the text and the version that the editor has. -/
def SameText (s : State) : Prop :=
  match s.client with
  | some (c, v) => ∃ d, s.docs = some d ∧ d.content = c ∧ d.version = v
  | none => s.docs = none

/-- An execution all of whose steps are allowed. It starts with a closed document whose facts, if any, are those of its source. -/
inductive Reach (broken : Content → Bool) (ok : State → Action → Prop) : State → Prop
  | init (indexed disk : Option Content) : Reach broken ok ⟨[], [], none, none, indexed, indexed, disk, [], 0, none⟩
  | step {s s' : State} (a : Action) : Reach broken ok s → ok s a → step broken a s = some s' → Reach broken ok s'

/-- Handlers are first run in the order in which notifications come, and no other handler is processing the text again when a new
text is stored or the document is closed. -/
def Ordered (s : State) : Action → Prop
  | .poll i => i = 0
  | .handler => ∀ n, s.running = some (.start n) → n ≠ .saved → ∀ p, Free.refresh p ∉ s.free
  | _ => True

/-- And nothing at all is running without the lock then; changes on disk are looked at one at a time; nothing fails under the lock. -/
def Calm (s : State) : Action → Prop
  | .poll i => i = 0
  | .handler => ∀ n, s.running = some (.start n) → n ≠ .saved → s.free = []
  | .fail => False
  | .watch => s.docs = none → s.free = []
  | .deleted => s.docs = none → s.free = []
  | _ => True

/-- And no other handler is processing the text again at all. -/
def Alone (s : State) (a : Action) : Prop := Calm s a ∧ a ≠ .refresh

/-- What the server does for notifications that have come. -/
def Server (a : Action) : Prop := (∃ i, a = .poll i) ∨ a = .acquire ∨ a = .handler

/-- The table of locks in use. -/
inductive InUse : Locks → Prop
  | init : InUse ⟨[], [], 0⟩
  | get {l : Locks} (u : Nat) : InUse l → InUse (l.get u)
  | drop {l : Locks} (i : Nat) : InUse l → InUse (l.drop i)

end Verif.DocSync
