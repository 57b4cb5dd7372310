import Verif.Lemmas.Scheduler
import Mathlib.Order.Nat
/-!
Properties C01, C02, C03: the indexing scheduler (`/repo/src/indexing_scheduler.rs`).

Vocabulary of the specification: `s.permits` – the permits alive; `s.queued` – requests not yet granted;
`s.waiters id` – the task waiting for request `id`.
-/
namespace Verif.Scheduler
variable {P : Type} [LinearOrder P]

theorem reachable_of_steps {limit : Nat} {s t : State P} {ops : List (Op P)} (hs : Reachable limit s)
    (h : Steps s ops t) : Reachable limit t := by
  induction h with
  | nil => exact hs
  | cons h1 _ ih => exact ih (.step _ hs h1)

theorem reachable_of_run {limit : Nat} {ops : List (Op P)} {s t : State P} (hs : Reachable limit s)
    (h : run s ops = some t) : Reachable limit t := by
  induction ops generalizing s with
  | nil => simp only [run, Option.some.injEq] at h; subst h; exact hs
  | cons op ops ih =>
    simp only [run] at h
    split at h
    · rename_i u hu; exact ih (.step op hs hu) h
    · cases h

/-! ### C01 -/

/-- At every moment at most `limit` permits are alive and no two belong to the same project; the number the scheduler
reports as active is the number of permits alive. -/
theorem c01_permits_bounded_and_exclusive {limit : Nat} {s : State P} (h : Reachable limit s) :
    s.permits.length ≤ limit ∧ s.permits.Nodup ∧ s.active = s.permits.length := by
  have i := reachable_inv h
  have hl := i.permits_perm.length_eq
  refine ⟨?_, i.permits_perm.nodup_iff.mpr i.roots_nodup, by rw [i.active_eq, hl]⟩
  rw [hl, ← i.active_eq, ← i.limit_eq]
  exact i.active_le

/-- No assertion of the scheduler can fire, whatever is called next. -/
theorem c01_no_assertion_fires {limit : Nat} {s : State P} (h : Reachable limit s) (op : Op P) : step s op ≠ .panic :=
  not_panic (reachable_inv h) op

/-- A permit can always be released, and releasing frees exactly that permit. -/
theorem c01_release {limit : Nat} {s : State P} (h : Reachable limit s) {root : P} (hr : root ∈ s.permits) :
    ∃ t, step s (.release root) = .ok t ∧ t.permits = s.permits.erase root ∧ root ∉ t.permits := by
  have i := reachable_inv h
  have hmem : root ∈ s.activeRoots := i.permits_perm.mem_iff.mp hr
  have hpos : s.active ≠ 0 := by
    rw [i.active_eq]
    exact Nat.pos_iff_ne_zero.mp (List.length_pos_of_mem hmem)
  refine ⟨_, by simp only [step, List.contains_eq_mem, hr, decide_true, if_true, release, hpos, if_false, hmem,
    Bool.not_true, Bool.false_eq_true]; rfl, rfl, ?_⟩
  have hnd := i.permits_perm.nodup_iff.mpr i.roots_nodup
  exact List.Nodup.not_mem_erase hnd

/-- A concrete history: two projects running out of limit 2, a third request for project 7 (already running) queued. -/
def demo : List (Op Nat) :=
  [.register 7 .background, .register 8 .openDocument, .register 7 .activeDocument, .notify, .arm 2, .check 2,
   .arm 1, .check 1, .arm 0, .check 0]

example : (run (init 2) demo).map (fun s => (s.permits, s.queued.map (·.id), s.active)) = some ([8, 7], [0], 2) := by decide

/-! ### C02 -/

/-- A request that is queued while its project is not running. -/
def Runnable (s : State P) (e : Entry P) : Prop := e ∈ s.queued ∧ e.root ∉ s.permits

/-- A step that hands a permit to request `e`: it leaves the queue and its project joins the permits. -/
def Grants (s t : State P) (e : Entry P) : Prop :=
  (∃ op, step s op = .ok t) ∧ e ∈ s.queued ∧ e ∉ t.queued ∧ t.permits = e.root :: s.permits

/-- A background request that could run now. -/
def BackgroundRunnable (s : State P) : Prop := ∃ e, Runnable s e ∧ e.prio = .background

/-- Reachable states together with one bit of history: was the most recent grant made to a non-background request at a
moment when a background request could have run? -/
inductive History (limit : Nat) : State P → Bool → Prop where
  | init : History limit (init limit) false
  | grant {s t : State P} {b b' : Bool} (e : Entry P) : History limit s b → Grants s t e →
      (b' = true ↔ e.prio ≠ .background ∧ BackgroundRunnable s) → History limit t b'
  | other {s t : State P} {b : Bool} (op : Op P) : History limit s b → step s op = .ok t →
      t.permits.length ≤ s.permits.length → History limit t b

theorem history_reachable {limit : Nat} {s : State P} {b : Bool} (h : History limit s b) : Reachable limit s := by
  induction h with
  | init => exact .init
  | grant e _ hg _ ih => obtain ⟨⟨op, hop⟩, -⟩ := hg; exact .step op ih hop
  | other op _ ht _ ih => exact .step op ih ht

/-- What one step can do to the permits and the fairness counter. -/
theorem step_cases {s t : State P} {op : Op P} (ht : step s op = .ok t) :
    (t.permits.length ≤ s.permits.length ∧ t.counter = s.counter) ∨
    ∃ k e, bestWithFairness s.queued s.activeRoots s.counter = some k ∧ s.queued[k]? = some e ∧
      op = .check e.id ∧ t.permits = e.root :: s.permits ∧ t.queued = swapRemove s.queued k ∧
      (e.prio = .background ∨ ¬ BgRunnable s.queued s.activeRoots → t.counter = 0) ∧
      (e.prio ≠ .background → BgRunnable s.queued s.activeRoots → s.counter = 0 ∧ t.counter = 1) := by
  cases op with
  | check id =>
    simp only [step] at ht
    split at ht
    · rename_i w hw
      split at ht
      · have hs := check_spec s id w
        rw [ht] at hs
        cases hs with
        | sleep => exact Or.inl ⟨Nat.le_refl _, rfl⟩
        | admit k e c hlt hk hke hid hroot hc0 hc1 =>
          subst hid
          exact Or.inr ⟨k, e, hk, hke, rfl, rfl, rfl, hc0, hc1⟩
      · cases ht
    · cases ht
  | release root =>
    left
    simp only [step] at ht
    split at ht
    · unfold release at ht
      split at ht
      · cases ht
      · split at ht
        · cases ht
        · simp only [Outcome.ok.injEq] at ht; subst ht
          exact ⟨List.length_erase_le, rfl⟩
    · cases ht
  | register => left; simp only [step, Outcome.ok.injEq] at ht; subst ht; exact ⟨Nat.le_refl _, rfl⟩
  | prioritize => left; simp only [step, Outcome.ok.injEq] at ht; subst ht; exact ⟨Nat.le_refl _, rfl⟩
  | notify =>
    left; simp only [step] at ht
    split at ht
    · cases ht
    · simp only [Outcome.ok.injEq] at ht; subst ht; exact ⟨Nat.le_refl _, rfl⟩
  | cancel id =>
    left; simp only [step] at ht
    split at ht
    · simp only [Outcome.ok.injEq] at ht; subst ht; exact ⟨Nat.le_refl _, rfl⟩
    · cases ht
  | arm id =>
    left; simp only [step] at ht
    split at ht
    · split at ht
      · simp only [Outcome.ok.injEq] at ht; subst ht; exact ⟨Nat.le_refl _, rfl⟩
      · cases ht
    · cases ht
  | wake id =>
    left; simp only [step] at ht
    split at ht
    · split at ht
      · simp only [Outcome.ok.injEq] at ht; subst ht; exact ⟨Nat.le_refl _, rfl⟩
      · cases ht
    · cases ht
  | exitCancelled id =>
    left; simp only [step] at ht
    split at ht
    · split at ht
      · simp only [Outcome.ok.injEq] at ht; subst ht
        unfold dropRegistration
        simp only
        split <;> exact ⟨Nat.le_refl _, rfl⟩
      · cases ht
    · cases ht
  | drop id =>
    left; simp only [step] at ht
    split at ht
    · split at ht
      · simp only [Outcome.ok.injEq] at ht; subst ht
        unfold dropRegistration
        simp only
        split <;> exact ⟨Nat.le_refl _, rfl⟩
      · cases ht
    · cases ht

theorem bgRunnable_iff {limit : Nat} {s : State P} (h : Inv limit s) :
    BackgroundRunnable s ↔ BgRunnable s.queued s.activeRoots := by
  simp only [BackgroundRunnable, Runnable, BgRunnable, h.permits_perm.mem_iff]
  constructor
  · rintro ⟨e, ⟨h1, h2⟩, h3⟩; exact ⟨e, h1, h3, h2⟩
  · rintro ⟨e, h1, h3, h2⟩; exact ⟨e, ⟨h1, h2⟩, h3⟩

/-- The step that grants `e` selected `e`. -/
theorem grants_selected {limit : Nat} {s t : State P} (h : Inv limit s) {e : Entry P} (hg : Grants s t e) :
    ∃ k, bestWithFairness s.queued s.activeRoots s.counter = some k ∧ s.queued[k]? = some e ∧
      (e.prio = .background ∨ ¬ BgRunnable s.queued s.activeRoots → t.counter = 0) ∧
      (e.prio ≠ .background → BgRunnable s.queued s.activeRoots → s.counter = 0 ∧ t.counter = 1) := by
  obtain ⟨⟨op, hop⟩, hmem, hnot, hperm⟩ := hg
  rcases step_cases hop with ⟨hle, -⟩ | ⟨k, e', hk, hke, -, -, hq, hc0, hc1⟩
  · rw [hperm] at hle; simp at hle; omega
  · obtain ⟨-, h2, -⟩ := queue_remove h hke
    rw [hq] at hnot
    have : e.id = e'.id := by
      by_contra hne
      exact hnot ((h2 e).mpr ⟨hmem, hne⟩)
    have hee : e = e' := eq_of_id h.ids_nodup hmem (List.mem_of_getElem? hke) this
    subst hee
    exact ⟨k, hk, hke, hc0, hc1⟩

theorem history_counter {limit : Nat} {s : State P} {b : Bool} (h : History limit s b) :
    s.counter = if b then 1 else 0 := by
  induction h with
  | init => simp [init]
  | @grant s t b b' e hs hg hb ih =>
    have i := reachable_inv (history_reachable hs)
    obtain ⟨k, -, -, hc0, hc1⟩ := grants_selected i hg
    rw [bgRunnable_iff i] at hb
    by_cases hbt : b' = true
    · obtain ⟨h1, h2⟩ := hb.mp hbt
      simp [hbt, (hc1 h1 h2).2]
    · have : b' = false := by simpa using hbt
      subst this
      simp only [Bool.false_eq_true, if_false]
      apply hc0
      by_contra hcon
      push Not at hcon
      exact hbt (hb.mpr hcon)
  | other op hs ht hle ih =>
    have i := reachable_inv (history_reachable hs)
    rcases step_cases ht with ⟨-, hc⟩ | ⟨k, e, _, _, _, hp, _⟩
    · rw [hc]; exact ih
    · rw [hp] at hle; simp at hle; omega

/-- The only way a permit comes into being is a grant to a queued request by that request's own waiting task. -/
theorem c02_permits_come_from_the_queue {limit : Nat} {s t : State P} (h : Reachable limit s) {op : Op P}
    (ht : step s op = .ok t) (hmore : s.permits.length < t.permits.length) :
    ∃ e, op = .check e.id ∧ Runnable s e ∧ Grants s t e := by
  have i := reachable_inv h
  rcases step_cases ht with ⟨hle, -⟩ | ⟨k, e, hk, hke, hop, hp, hq, -, -⟩
  · omega
  · obtain ⟨e', hke', hroot, -⟩ := best_spec hk
    rw [hke] at hke'; cases hke'
    have hmem := List.mem_of_getElem? hke
    refine ⟨e, hop, ⟨hmem, fun hc => hroot (i.permits_perm.mem_iff.mp hc)⟩, ⟨op, ht⟩, hmem, ?_, hp⟩
    rw [hq, (queue_remove i hke).2.1]
    simp

/-- A request's class is the one it asked for, unless its project is the active one. -/
theorem c02_effective_priority {limit : Nat} {s : State P} (h : Reachable limit s) {e : Entry P} (he : e ∈ s.queued) :
    (s.activeProject = some e.root → e.prio = .activeDocument) ∧ (s.activeProject ≠ some e.root → e.prio = e.requested) := by
  have := ((reachable_inv h).entries e he).2.2
  simp only [effectivePriority] at this
  constructor <;> intro hc <;> simp [this, hc]

/-- Naming the active project takes effect at once on every queued request and changes nothing else about them. -/
theorem c02_prioritize {limit : Nat} {s : State P} (h : Reachable limit s) (root : P) :
    ∃ t, step s (.prioritize root) = .ok t ∧ t.activeProject = some root ∧ t.permits = s.permits ∧
      t.queued.map (fun e => (e.id, e.root, e.requested)) = s.queued.map (fun e => (e.id, e.root, e.requested)) ∧
      ∀ e ∈ t.queued, e.prio = if e.root = root then .activeDocument else e.requested := by
  refine ⟨_, rfl, rfl, rfl, by simp [prioritize], ?_⟩
  intro e he
  have := c02_effective_priority (.step (.prioritize root) h rfl) he
  simp only [prioritize] at this
  split
  · rename_i hr; exact this.1 (by rw [hr])
  · rename_i hr; exact this.2 (fun hc => hr (Option.some.inj hc).symm)

/-- After a bypass, the next grant made while background work can run goes to the oldest runnable background request;
in every other case the grant goes to the runnable request with the lowest class and, within it, the earliest
arrival.  (Arrival order is ticket order.) -/
theorem c02_grant_order {limit : Nat} {s t : State P} {b : Bool} {e : Entry P} (h : History limit s b)
    (hg : Grants s t e) :
    Runnable s e ∧
    (b = true ∧ BackgroundRunnable s → e.prio = .background ∧
      ∀ e', Runnable s e' → e'.prio = .background → e.id ≤ e'.id) ∧
    (¬ (b = true ∧ BackgroundRunnable s) → ∀ e', Runnable s e' →
      e.prio.rank < e'.prio.rank ∨ (e.prio.rank = e'.prio.rank ∧ e.id ≤ e'.id)) := by
  have i := reachable_inv (history_reachable h)
  have hc := history_counter h
  obtain ⟨k, hk, hke, -, -⟩ := grants_selected i hg
  obtain ⟨e', hke', hroot, hsel⟩ := best_spec hk
  rw [hke] at hke'; cases hke'
  have hmem := List.mem_of_getElem? hke
  have heo := (i.entries e hmem).2.1
  rw [← bgRunnable_iff i] at hsel
  have hone : 1 ≤ s.counter ↔ b = true := by rw [hc]; cases b <;> simp
  rw [hone] at hsel
  have hrun : ∀ e', Runnable s e' ↔ e' ∈ s.queued ∧ e'.root ∉ s.activeRoots := by
    intro e'; simp only [Runnable, i.permits_perm.mem_iff]
  refine ⟨(hrun e).mpr ⟨hmem, hroot⟩, ?_, ?_⟩
  · intro hb
    rcases hsel with ⟨-, -, hbg, hage⟩ | ⟨hn, -⟩
    · refine ⟨hbg, ?_⟩
      intro e' he' hp'
      obtain ⟨h1, h2⟩ := (hrun e').mp he'
      have := hage e' h1 hp' h2
      rw [ageLt_false, heo, (i.entries e' h1).2.1] at this
      omega
    · exact absurd hb hn
  · intro hb e' he'
    rcases hsel with ⟨h1, h2, -⟩ | ⟨-, hkey⟩
    · exact absurd ⟨h1, h2⟩ hb
    · obtain ⟨h1, h2⟩ := (hrun e').mp he'
      have := hkey e' h1 h2
      rw [keyLt_false, heo, (i.entries e' h1).2.1] at this
      omega

/-- Arrival order: a new request gets a ticket larger than every queued one. -/
theorem c02_tickets_in_arrival_order {limit : Nat} {s : State P} (h : Reachable limit s) (root : P) (prio : Prio) :
    ∃ t e, step s (.register root prio) = .ok t ∧ t.queued = s.queued ++ [e] ∧ e.root = root ∧ e.requested = prio ∧
      ∀ e' ∈ s.queued, e'.id < e.id := by
  refine ⟨_, _, rfl, rfl, rfl, rfl, ?_⟩
  intro e' he'
  exact ((reachable_inv h).entries e' he').1

/-- Concrete case: with limit 1, an open-document request bypasses background request 0, is released, and then – although
another open-document request waits – the background request is next. -/
def demoFair : List (Op Nat) :=
  [.register 5 .background, .register 6 .openDocument, .register 7 .openDocument,
   .arm 0, .arm 1, .arm 2, .check 0, .check 1, .notify, .release 6, .check 2, .notify, .wake 0, .arm 0, .check 0]

example : (run (init 1) demoFair).map (fun s => (s.permits, s.queued.map (·.id), s.counter)) = some ([5], [2], 0) := by
  decide

/-! ### C03 -/

/-- Whenever a slot is free and a queued request could run, exactly one request is next in line, and its task is not
asleep without a wakeup: it is running, or already woken, or a wakeup call is about to be made. -/
theorem c03_no_lost_wakeup {limit : Nat} {s : State P} (h : Reachable limit s) (hfree : s.permits.length < limit)
    (hrun : ∃ e, Runnable s e) :
    ∃ e w, Runnable s e ∧ s.waiters e.id = some w ∧
      (w.pc = .sleeping → w.notified = true ∨ 0 < s.pendingNotify) ∧
      -- and this request is granted as soon as its task looks at the state
      (∀ w', ∃ t, check s e.id w' = .ok t ∧ t.permits = e.root :: s.permits) := by
  have i := reachable_inv h
  obtain ⟨e0, he0, hr0⟩ := hrun
  have hr0' : e0.root ∉ s.activeRoots := fun hc => hr0 (i.permits_perm.mem_iff.mpr hc)
  obtain ⟨k, hk⟩ := best_isSome (c := s.counter) he0 hr0'
  obtain ⟨e, hke, hroot, -⟩ := best_spec hk
  have hmem := List.mem_of_getElem? hke
  have hw : s.waiters e.id ≠ none := (i.waiters_iff e.id).mp ⟨e, hmem, rfl⟩
  obtain ⟨w, hw⟩ := Option.ne_none_iff_exists'.mp hw
  have hlt : s.active < s.limit := by
    rw [i.active_eq, ← i.permits_perm.length_eq, i.limit_eq]; exact hfree
  refine ⟨e, w, ⟨hmem, fun hc => hroot (i.permits_perm.mem_iff.mp hc)⟩, hw, ?_, ?_⟩
  · intro hpc
    by_cases h0 : s.pendingNotify = 0
    · exact Or.inl (i.awake h0 hlt k e w hk hke hw hpc)
    · exact Or.inr (by omega)
  · intro w'
    have hs := check_spec s e.id w'
    generalize hr : check s e.id w' = r at hs
    cases hs with
    | sleep hn => exact absurd rfl (hn k e hlt hk hke)
    | admit k' e' c _ hk' hke' =>
      rw [hk] at hk'; cases hk'
      rw [hke] at hke'; cases hke'
      exact ⟨_, rfl, rfl⟩

theorem steps_notify (n : Nat) (s : State P) (hn : s.pendingNotify = n) :
    ∃ ws, Steps s (List.replicate n .notify) { s with waiters := ws, pendingNotify := 0 } ∧
      ∀ i, (ws i).map (·.cancelled) = (s.waiters i).map (·.cancelled) := by
  induction n generalizing s with
  | zero => exact ⟨s.waiters, by obtain ⟨⟩ := s; subst hn; exact .nil _, fun _ => rfl⟩
  | succ n ih =>
    obtain ⟨ws, h1, h2⟩ := ih { s with waiters := wakeAll s.waiters, pendingNotify := s.pendingNotify - 1 } (by simp [hn])
    refine ⟨ws, ?_, ?_⟩
    · rw [List.replicate_succ]
      exact .cons (by simp [step, hn]) h1
    · intro i
      rw [h2 i]
      simp only [wakeAll, Option.map_map]
      congr 1
      funext x
      simp only [Function.comp_apply]
      split <;> rfl

theorem steps_append {s t u : State P} {a b : List (Op P)} (h1 : Steps s a t) (h2 : Steps t b u) : Steps s (a ++ b) u := by
  induction h1 with
  | nil => exact h2
  | cons h _ ih => exact .cons h (ih h2)

theorem check_waiters_irrelevant {s t : State P} {id : Nat} {w : Waiter} {r : P} (h : check s id w = .ok t)
    (hp : t.permits = r :: s.permits) (ws : Nat → Option Waiter) :
    ∃ t', check { s with waiters := ws } id w = .ok t' ∧ t'.permits = r :: s.permits := by
  have h0 := check_spec s id w
  have h1 := check_spec ({ s with waiters := ws } : State P) id w
  rw [h] at h0
  generalize check ({ s with waiters := ws } : State P) id w = r1 at h1
  cases h0 with
  | sleep => simp at hp
  | admit k e c hlt hk hke hid =>
    cases h1 with
    | sleep hn => exact absurd hid (hn k e hlt hk hke)
    | admit k' e' c' _ hk' hke' hid' =>
      simp only at hk' hke'
      rw [hk] at hk'; cases hk'
      rw [hke] at hke'; cases hke'
      exact ⟨_, rfl, hp⟩

/-- Progress: whenever a slot is free and a queued request could run, the request next in line gets its permit by
delivering the outstanding wakeups and running that one request's own task – no other event is needed.  (If that request
has been cancelled, its task leaves the queue instead.) -/
theorem c03_progress {limit : Nat} {s : State P} (h : Reachable limit s) (hfree : s.permits.length < limit)
    (hrun : ∃ e, Runnable s e) :
    ∃ e w, Runnable s e ∧ s.waiters e.id = some w ∧
      (w.cancelled = true → ∃ t, step s (.exitCancelled e.id) = .ok t ∧ ∀ e' ∈ t.queued, e'.id ≠ e.id) ∧
      (w.cancelled = false → ∃ ops t, (∀ op ∈ ops, op = .notify ∨ op = .wake e.id ∨ op = .arm e.id ∨ op = .check e.id) ∧
        Steps s ops t ∧ t.permits = e.root :: s.permits) := by
  have i := reachable_inv h
  obtain ⟨ws, hsteps, hcan⟩ := steps_notify s.pendingNotify s rfl
  set s' : State P := { s with waiters := ws, pendingNotify := 0 } with hs'
  have hr' : Reachable limit s' := reachable_of_steps h hsteps
  have i' := reachable_inv hr'
  obtain ⟨e, w', hre, hw', hawake, hadm⟩ := c03_no_lost_wakeup hr' hfree hrun
  have hcan_e := hcan e.id
  have hw'' : ws e.id = some w' := hw'
  rw [hw''] at hcan_e
  obtain ⟨w, hw, hwc⟩ : ∃ w, s.waiters e.id = some w ∧ w.cancelled = w'.cancelled := by
    cases hx : s.waiters e.id with
    | none => rw [hx] at hcan_e; simp at hcan_e
    | some w => rw [hx] at hcan_e; exact ⟨w, rfl, by simpa using hcan_e.symm⟩
  refine ⟨e, w, hre, hw, ?_, ?_⟩
  · intro hc
    refine ⟨_, by simp only [step, hw, hc, if_true]; rfl, ?_⟩
    have hI := inv_dropRegistration i (id := e.id) (by simp [hw])
    intro e' he' hid
    have := (hI.waiters_iff e.id).mp ⟨e', he', hid⟩
    apply this
    unfold dropRegistration
    simp only
    split <;> simp [setWaiter]
  · intro hc
    rw [hc] at hwc
    -- the task arms and checks
    have arm_check : ∀ (s1 : State P) (w1 : Waiter), s1.waiters e.id = some w1 → w1.pc = .ready → w1.cancelled = false →
        s1 = { s' with waiters := s1.waiters } →
        ∃ t, Steps s1 [.arm e.id, .check e.id] t ∧ t.permits = e.root :: s.permits := by
      intro s1 w1 h1 hpc hcc heq
      set w2 : Waiter := { w1 with pc := .armed, notified := false } with hw2
      obtain ⟨t0, ht0, hp0⟩ := hadm w2
      obtain ⟨t, ht, hp⟩ := check_waiters_irrelevant ht0 hp0 (setWaiter s1.waiters e.id (some w2))
      refine ⟨t, .cons (t := { s' with waiters := setWaiter s1.waiters e.id (some w2) }) ?_ (.cons ?_ (.nil t)), hp⟩
      · simp only [step, h1, hpc, hcc, and_self, if_true, hw2]; rw [heq]
      · simp only [step, setWaiter, if_true, hw2, hcc, and_self]
        simpa only [hw2, hcc] using ht
    have hcheck : ∀ op, op ∈ ([.arm e.id, .check e.id] : List (Op P)) →
        op = .notify ∨ op = .wake e.id ∨ op = .arm e.id ∨ op = .check e.id := by
      intro op hop; simp only [List.mem_cons, List.not_mem_nil, or_false] at hop; grind
    have hrep : ∀ op, op ∈ (List.replicate s.pendingNotify .notify : List (Op P)) → op = .notify := by
      intro op hop; exact (List.mem_replicate.mp hop).2
    cases hpc : w'.pc with
    | ready =>
      obtain ⟨t, h1, h2⟩ := arm_check s' w' hw' hpc hwc.symm rfl
      refine ⟨_, t, ?_, steps_append hsteps h1, h2⟩
      intro op hop
      rcases List.mem_append.mp hop with ho | ho
      · exact Or.inl (hrep op ho)
      · exact hcheck op ho
    | armed =>
      obtain ⟨t, h1, h2⟩ := hadm w'
      refine ⟨_, t, ?_, steps_append hsteps (.cons (op := .check e.id) ?_ (.nil t)), h2⟩
      · intro op hop
        rcases List.mem_append.mp hop with ho | ho
        · exact Or.inl (hrep op ho)
        · simp only [List.mem_singleton] at ho; exact Or.inr (Or.inr (Or.inr ho))
      · simp only [step, hw', hpc, hwc.symm, and_self, if_true]; exact h1
    | sleeping =>
      have hnot : w'.notified = true := by
        rcases hawake hpc with hn | hn
        · exact hn
        · simp [hs'] at hn
      set w1 : Waiter := { w' with pc := .ready } with hw1
      obtain ⟨t, h1, h2⟩ := arm_check { s' with waiters := setWaiter s'.waiters e.id (some w1) } w1 (by simp [setWaiter])
        rfl hwc.symm rfl
      refine ⟨_, t, ?_, steps_append hsteps (.cons (op := .wake e.id) ?_ h1), h2⟩
      · intro op hop
        rcases List.mem_append.mp hop with ho | ho
        · exact Or.inl (hrep op ho)
        · rcases List.mem_cons.mp ho with rfl | ho
          · exact Or.inr (Or.inl rfl)
          · exact hcheck op ho
      · simp only [step, hw', hpc, hnot, and_self, if_true, hw1]

/-- Every queued request has a live task and every live task has exactly one queued request, so a cancelled or dropped
wait leaves nothing behind. -/
theorem c03_queue_matches_tasks {limit : Nat} {s : State P} (h : Reachable limit s) (id : Nat) :
    (s.waiters id ≠ none ↔ ∃ e ∈ s.queued, e.id = id) ∧
    (∀ e ∈ s.queued, ∀ e' ∈ s.queued, e.id = e'.id → e = e') := by
  have i := reachable_inv h
  exact ⟨(i.waiters_iff id).symm, fun e he e' he' hid => eq_of_id i.ids_nodup he he' hid⟩

/-- A cancelled task can always leave, a suspended or unpolled one can always be dropped, and either way its request is
gone from the queue while every other request stays. -/
theorem c03_cancelled_or_dropped_leaves {limit : Nat} {s : State P} (h : Reachable limit s) {id : Nat} {w : Waiter}
    (hw : s.waiters id = some w) :
    (w.cancelled = true → ∃ t, step s (.exitCancelled id) = .ok t ∧ t.waiters id = none ∧
        ∀ e, e ∈ t.queued ↔ e ∈ s.queued ∧ e.id ≠ id) ∧
    (w.pc ≠ .armed → ∃ t, step s (.drop id) = .ok t ∧ t.waiters id = none ∧
        ∀ e, e ∈ t.queued ↔ e ∈ s.queued ∧ e.id ≠ id) := by
  have i := reachable_inv h
  have key : (dropRegistration s id).waiters id = none ∧
      ∀ e, e ∈ (dropRegistration s id).queued ↔ e ∈ s.queued ∧ e.id ≠ id := by
    obtain ⟨e, he, rfl⟩ := (i.waiters_iff id).mpr (by simp [hw])
    unfold dropRegistration
    simp only
    split
    · rename_i k hk
      obtain ⟨hlt, hke, -⟩ := List.findIdx?_eq_some_iff_getElem.mp hk
      have hke' : s.queued[k].id = e.id := by simpa using hke
      have hk' : s.queued[k]? = some e := by
        rw [List.getElem?_eq_getElem hlt]
        congr 1
        exact eq_of_id i.ids_nodup (List.getElem_mem hlt) he hke'
      exact ⟨by simp [setWaiter], (queue_remove i hk').2.1⟩
    · rename_i hk
      rw [List.findIdx?_eq_none_iff] at hk
      have := hk e he
      simp at this
  constructor
  · intro hc
    exact ⟨_, by simp only [step, hw, hc, if_true], key⟩
  · intro hp
    exact ⟨_, by simp only [step, hw]; rw [if_pos hp], key⟩

/-- Concrete case: the winner is asleep with its wakeup still outstanding (the releasing task has not yet called
`notify_waiters`), slot free. -/
def demoWake : List (Op Nat) :=
  [.register 5 .background, .register 6 .background, .notify, .notify, .arm 0, .check 0, .notify, .arm 1, .check 1, .release 5]

example : (run (init 1) demoWake).map (fun s => (s.permits, s.queued.map (·.id), s.waiters 1, s.pendingNotify)) =
    some ([], [1], some { pc := .sleeping, notified := false, cancelled := false }, 1) := by decide

end Verif.Scheduler
