import Verif.Lemmas.Governor
import Mathlib.Order.Nat
/-!
Properties C04, C05, C06: the resource governor (`/repo/src/indexing_resources.rs`).

Vocabulary: `s.leases` – the leases alive (ticket and declared resources); `s.queued` – requests not yet admitted;
`s.waiters id` – the task waiting for request `id`.
-/
set_option linter.unnecessarySeqFocus false
namespace Verif.Governor
variable {P : Type} [LinearOrder P]

theorem reachable_of_run {policy : Policy} {ops : List (Op P)} {s t : State P} (hs : Reachable policy s)
    (h : run s ops = some t) : Reachable policy t := by
  induction ops generalizing s with
  | nil => simp only [run, Option.some.injEq] at h; subst h; exact hs
  | cons op ops ih =>
    simp only [run] at h
    split at h
    · rename_i u hu; exact ih (.step op hs hu) h
    · cases h

/-! ### C04 -/

/-- The reported use of every resource is the sum over the leases held, within the policy, and the recorded peaks lie
between current use and the policy. -/
theorem c04_accounting {policy : Policy} {s : State P} (h : Reachable policy s) :
    (s.tasks = s.leases.length ∧ s.tasks ≤ s.peakTasks ∧ s.peakTasks ≤ policy.tasks) ∧
    (s.cpu = (s.leases.map (·.2.cpu)).sum ∧ s.cpu ≤ s.peakCpu ∧ s.peakCpu ≤ policy.cpu) ∧
    (s.mem = (s.leases.map (·.2.mem)).sum ∧ s.mem ≤ s.peakMem ∧ s.peakMem ≤ policy.mem) ∧
    (s.io = (s.leases.map (·.2.io)).sum ∧ s.io ≤ s.peakIo ∧ s.peakIo ≤ policy.io) := by
  have i := reachable_inv h
  have hp := i.policy_eq
  subst hp
  exact ⟨⟨i.tasks_eq, i.tasks_le⟩, ⟨i.cpu_eq, i.cpu_le⟩, ⟨i.mem_eq, i.mem_le⟩, ⟨i.io_eq, i.io_le⟩⟩

/-- No over-commitment: the leases held together never exceed the policy. -/
theorem c04_never_overcommitted {policy : Policy} {s : State P} (h : Reachable policy s) :
    s.leases.length ≤ policy.tasks ∧ (s.leases.map (·.2.cpu)).sum ≤ policy.cpu ∧
    (s.leases.map (·.2.mem)).sum ≤ policy.mem ∧ (s.leases.map (·.2.io)).sum ≤ policy.io := by
  obtain ⟨⟨a1, a2, a3⟩, ⟨b1, b2, b3⟩, ⟨c1, c2, c3⟩, ⟨d1, d2, d3⟩⟩ := c04_accounting h
  omega

/-- The peaks never decrease. -/
theorem c04_peaks_monotone {s t : State P} {op : Op P} {policy : Policy} (h : Reachable policy s) (ht : step s op = .ok t) :
    s.peakTasks ≤ t.peakTasks ∧ s.peakCpu ≤ t.peakCpu ∧ s.peakMem ≤ t.peakMem ∧ s.peakIo ≤ t.peakIo := by
  have i := reachable_inv h
  cases op with
  | check id =>
    simp only [step] at ht
    split at ht
    · rename_i w hw
      split at ht
      · have hs := check_spec i id w
        rw [ht] at hs
        cases hs with
        | sleep => simp
        | admit => simp only; omega
      · cases ht
    · cases ht
  | drop id =>
    simp only [step] at ht
    split at ht
    · split at ht
      · simp only [Outcome.ok.injEq] at ht; subst ht
        unfold dropRegistration; simp only; split <;> simp
      · cases ht
    · cases ht
  | acquire => simp only [step, acquire] at ht; split at ht <;> cases ht; simp
  | prioritize => simp only [step, Outcome.ok.injEq] at ht; subst ht; simp [prioritize]
  | release =>
    simp only [step] at ht
    split at ht
    · unfold release at ht
      split at ht <;> cases ht
      simp
    · cases ht
  | arm => simp only [step] at ht; split at ht <;> (try split at ht) <;> cases ht <;> simp
  | wake => simp only [step] at ht; split at ht <;> (try split at ht) <;> cases ht <;> simp
  | cancel => simp only [step] at ht; split at ht <;> (try split at ht) <;> cases ht <;> simp
  | recordCancelled => simp only [step] at ht; split at ht <;> (try split at ht) <;> cases ht <;> simp
  | markPending => simp only [step] at ht; split at ht <;> cases ht <;> simp
  | markComplete => simp only [step] at ht; split at ht <;> cases ht <;> simp
  | notify => simp only [step] at ht; split at ht <;> cases ht <;> simp

/-- Provided every request fits the policy (otherwise `acquire` panics at once, before touching the state), no
assertion or checked subtraction of the governor can fail. -/
theorem c04_no_assertion_fires {policy : Policy} {s : State P} (h : Reachable policy s) {op : Op P}
    (hop : ∀ spec, op = .acquire spec → spec.cpu ≤ policy.cpu ∧ spec.mem ≤ policy.mem ∧ spec.io ≤ policy.io) :
    step s op ≠ .panic := by
  refine not_panic (reachable_inv h) ?_
  intro spec hspec
  have := hop spec hspec
  simp [fitsPolicy, this]

theorem release_eq {policy : Policy} {s : State P} (h : Reachable policy s) {id : Nat} {spec : Spec P}
    (hl : (id, spec) ∈ s.leases) (how : End) :
    step s (.release id how) = .ok { s with
      tasks := s.tasks - 1
      cpu := s.cpu - spec.cpu
      mem := s.mem - spec.mem
      io := s.io - spec.io
      completed := if how = .completed then s.completed + 1 else s.completed
      panicked := if how = .panicked then s.panicked + 1 else s.panicked
      cancelledAfter := if how = .cancelled then s.cancelledAfter + 1 else s.cancelledAfter
      leases := s.leases.erase (id, spec)
      pendingNotify := s.pendingNotify + 1 } ∧
    1 ≤ s.tasks ∧ spec.cpu ≤ s.cpu ∧ spec.mem ≤ s.mem ∧ spec.io ≤ s.io := by
  have i := reachable_inv h
  have hfind : s.leases.find? (fun l => l.1 == id) = some (id, spec) := by
    obtain ⟨l, hl'⟩ : ∃ l, s.leases.find? (fun l => l.1 == id) = some l := by
      rw [← Option.isSome_iff_exists, List.find?_isSome]
      exact ⟨_, hl, by simp⟩
    obtain ⟨hm, hid⟩ := find_lease hl'
    have := List.inj_on_of_nodup_map i.lease_ids hm hl hid
    rw [hl', this]
  have h1 := sum_erase (·.cpu) hl
  have h2 := sum_erase (·.mem) hl
  have h3 := sum_erase (·.io) hl
  have h4 := List.length_pos_of_mem hl
  have i1 := i.cpu_eq
  have i2 := i.mem_eq
  have i3 := i.io_eq
  have i4 := i.tasks_eq
  dsimp only at h1 h2 h3
  have hguard : ¬(s.tasks < 1 ∨ s.cpu < spec.cpu ∨ s.mem < spec.mem ∨ s.io < spec.io) := by omega
  refine ⟨by simp only [step, hfind, release]; rw [if_neg hguard], ?_⟩
  omega

/-- A lease can be released in any of the three ways, and that gives back exactly what it had reserved. -/
theorem c04_release_gives_back {policy : Policy} {s : State P} (h : Reachable policy s) {id : Nat} {spec : Spec P}
    (hl : (id, spec) ∈ s.leases) (how : End) :
    ∃ t, step s (.release id how) = .ok t ∧ t.leases = s.leases.erase (id, spec) ∧
      t.tasks + 1 = s.tasks ∧ t.cpu + spec.cpu = s.cpu ∧ t.mem + spec.mem = s.mem ∧ t.io + spec.io = s.io ∧
      -- exactly one end is counted, and as what it was
      t.completed + t.panicked + t.cancelledAfter = s.completed + s.panicked + s.cancelledAfter + 1 ∧
      (t.completed = s.completed + 1 ↔ how = .completed) ∧ (t.panicked = s.panicked + 1 ↔ how = .panicked) ∧
      (t.cancelledAfter = s.cancelledAfter + 1 ↔ how = .cancelled) := by
  obtain ⟨he, h1, h2, h3, h4⟩ := release_eq h hl how
  refine ⟨_, he, rfl, ?_, ?_, ?_, ?_, ?_⟩ <;> dsimp only <;> try omega
  cases how <;> simp <;> omega

/-- Concrete history: a 4-lane policy with two leases of 2 and 1 lanes, and a third request waiting. -/
def demoPolicy : Policy := { cpu := 4, tasks := 2, mem := 10, io := 2 }
def demoSpec (cpu : Nat) (prio : Prio) : Spec Nat :=
  { root := some 1, requested := prio, cpu, mem := 1, io := 0, projectParallel := false }

def demo : List (Op Nat) :=
  [.acquire (demoSpec 2 .background), .acquire (demoSpec 1 .openDocument), .acquire (demoSpec 1 .background),
   .arm 1, .check 1, .arm 0, .check 0, .arm 2, .check 2]

example : (run (init demoPolicy) demo).map (fun s => (s.leases.map (·.1), s.cpu, s.peakCpu, s.tasks, s.queued.map (·.id))) =
    some ([0, 1], 3, 3, 2, [2]) := by decide

/-! ### C05 -/

/-- A queued request for which all resources are free (and which is not held back by pending navigation). -/
def Fits (s : State P) (e : Entry P) : Prop :=
  e ∈ s.queued ∧ s.leases.length < s.policy.tasks ∧
  (s.leases.map (·.2.cpu)).sum + e.spec.cpu ≤ s.policy.cpu ∧
  (s.leases.map (·.2.mem)).sum + e.spec.mem ≤ s.policy.mem ∧
  (s.leases.map (·.2.io)).sum + e.spec.io ≤ s.policy.io ∧
  ¬(e.spec.projectParallel = true ∧ s.navPending = true ∧ s.activeProject ≠ e.spec.root)

/-- A step that hands a lease to request `e`. -/
def Grants (s t : State P) (e : Entry P) : Prop :=
  (∃ op, step s op = .ok t) ∧ e ∈ s.queued ∧ e ∉ t.queued ∧ t.leases = (e.id, e.spec) :: s.leases

/-- A grant of `e` bypasses background work: `e` is not background and some other queued background request fits. -/
def Bypass (s : State P) (e : Entry P) : Prop :=
  e.prio ≠ .background ∧ ∃ e', Fits s e' ∧ e'.prio = .background

theorem fits_fitsAvailable {policy : Policy} {s : State P} (h : Inv policy s) (e : Entry P) :
    Fits s e ↔ e ∈ s.queued ∧ fitsAvailable e.spec s = true := by
  rw [fits_iff]
  simp only [Fits, ← h.cpu_eq, ← h.mem_eq, ← h.io_eq, ← h.tasks_eq, blockedByNavigation, Bool.and_eq_false_iff,
    decide_eq_false_iff_not]
  grind

theorem bypass_bgFits {policy : Policy} {s : State P} (h : Inv policy s) :
    (∃ e', Fits s e' ∧ e'.prio = .background) ↔ BgFits s := by
  simp only [fits_fitsAvailable h, BgFits]
  constructor
  · rintro ⟨e, ⟨h1, h2⟩, h3⟩; exact ⟨e, h1, h3, h2⟩
  · rintro ⟨e, h1, h3, h2⟩; exact ⟨e, ⟨h1, h2⟩, h3⟩

theorem step_cases {policy : Policy} {s t : State P} (h : Inv policy s) {op : Op P} (ht : step s op = .ok t) :
    (t.leases.length ≤ s.leases.length ∧ t.counter = s.counter) ∨
    ∃ k e, best s = some k ∧ s.queued[k]? = some e ∧ IsBest s e ∧
      op = .check e.id ∧ t.leases = (e.id, e.spec) :: s.leases ∧ t.queued = swapRemove s.queued k ∧
      (e.prio = .background ∨ ¬ BgFits s → t.counter = 0) ∧
      (e.prio ≠ .background → BgFits s → s.counter = 0 ∧ t.counter = 1) := by
  cases op with
  | check id =>
    simp only [step] at ht
    split at ht
    · rename_i w hw
      split at ht
      · have hs := check_spec h id w
        rw [ht] at hs
        cases hs with
        | sleep => exact Or.inl ⟨Nat.le_refl _, rfl⟩
        | admit k e c hk hke hid hb hc0 hc1 =>
          subst hid
          exact Or.inr ⟨k, e, hk, hke, hb, rfl, rfl, rfl, hc0, hc1⟩
      · cases ht
    · cases ht
  | drop id =>
    left
    simp only [step] at ht
    split at ht
    · split at ht
      · simp only [Outcome.ok.injEq] at ht; subst ht
        unfold dropRegistration; simp only; split <;> simp
      · cases ht
    · cases ht
  | acquire => left; simp only [step, acquire] at ht; split at ht <;> cases ht; simp
  | prioritize => left; simp only [step, Outcome.ok.injEq] at ht; subst ht; simp [prioritize]
  | release =>
    left
    simp only [step] at ht
    split at ht
    · unfold release at ht
      split at ht <;> cases ht
      exact ⟨List.length_erase_le, rfl⟩
    · cases ht
  | arm => left; simp only [step] at ht; split at ht <;> (try split at ht) <;> cases ht <;> simp
  | wake => left; simp only [step] at ht; split at ht <;> (try split at ht) <;> cases ht <;> simp
  | cancel => left; simp only [step] at ht; split at ht <;> (try split at ht) <;> cases ht <;> simp
  | recordCancelled => left; simp only [step] at ht; split at ht <;> (try split at ht) <;> cases ht <;> simp
  | markPending => left; simp only [step] at ht; split at ht <;> cases ht <;> simp
  | markComplete => left; simp only [step] at ht; split at ht <;> cases ht <;> simp
  | notify => left; simp only [step] at ht; split at ht <;> cases ht <;> simp

theorem grants_selected {policy : Policy} {s t : State P} (h : Inv policy s) {e : Entry P} (hg : Grants s t e) :
    IsBest s e ∧ (e.prio = .background ∨ ¬ BgFits s → t.counter = 0) ∧
      (e.prio ≠ .background → BgFits s → s.counter = 0 ∧ t.counter = 1) := by
  obtain ⟨⟨op, hop⟩, hmem, hnot, hl⟩ := hg
  rcases step_cases h hop with ⟨hle, -⟩ | ⟨k, e', hk, hke, hb, -, hl', hq, hc0, hc1⟩
  · rw [hl] at hle; simp at hle; omega
  · obtain ⟨-, h2, -⟩ := queue_remove h hke
    rw [hq] at hnot
    have : e.id = e'.id := by
      by_contra hne
      exact hnot ((h2 e).mpr ⟨hmem, hne⟩)
    have hee : e = e' := eq_of_id h.ids_nodup hmem (List.mem_of_getElem? hke) this
    subst hee
    exact ⟨hb, hc0, hc1⟩

/-- Reachable states together with one bit of history: did the most recent admission bypass background work? -/
inductive History (policy : Policy) : State P → Bool → Prop where
  | init : History policy (init policy) false
  | grant {s t : State P} {b b' : Bool} (e : Entry P) : History policy s b → Grants s t e →
      (b' = true ↔ Bypass s e) → History policy t b'
  | other {s t : State P} {b : Bool} (op : Op P) : History policy s b → step s op = .ok t →
      t.leases.length ≤ s.leases.length → History policy t b

theorem history_reachable {policy : Policy} {s : State P} {b : Bool} (h : History policy s b) : Reachable policy s := by
  induction h with
  | init => exact .init
  | grant e _ hg _ ih => obtain ⟨⟨op, hop⟩, -⟩ := hg; exact .step op ih hop
  | other op _ ht _ ih => exact .step op ih ht

theorem history_counter {policy : Policy} {s : State P} {b : Bool} (h : History policy s b) :
    s.counter = if b then 1 else 0 := by
  induction h with
  | init => simp [init]
  | @grant s t b b' e hs hg hb ih =>
    have i := reachable_inv (history_reachable hs)
    obtain ⟨-, hc0, hc1⟩ := grants_selected i hg
    rw [Bypass, bypass_bgFits i] at hb
    by_cases hbt : b' = true
    · obtain ⟨h1, h2⟩ := hb.mp hbt
      simp [hbt, (hc1 h1 h2).2]
    · have : b' = false := by simpa using hbt
      subst this
      simp only [Bool.false_eq_true, if_false]
      apply hc0
      by_contra hcon
      push Not at hcon
      exact hbt (hb.mpr hcon)
  | other op hs ht hle ih =>
    have i := reachable_inv (history_reachable hs)
    rcases step_cases i ht with ⟨-, hc⟩ | ⟨k, e, _, _, _, _, hp, _⟩
    · rw [hc]; exact ih
    · rw [hp] at hle; simp at hle; omega

/-- Part of C05 that holds: two admissions in a row never both bypass background work; after a bypass, the next
admission made while a background request fits goes to the oldest fitting background request; every other admission
goes to the fitting request with the lowest class, then the earliest arrival.
Missing against C05: the first sentence bounds the bypasses between two background admissions by one; that is false
(`c05_unbounded_bypass`), because an admission made while no background request fits resets the counter. -/
theorem c05_no_two_bypasses_in_a_row_partial {policy : Policy} {s t : State P} {b : Bool} {e : Entry P}
    (h : History policy s b) (hg : Grants s t e) :
    Fits s e ∧ ¬(b = true ∧ Bypass s e) ∧
    (b = true ∧ (∃ e', Fits s e' ∧ e'.prio = .background) → e.prio = .background ∧
      ∀ e', Fits s e' → e'.prio = .background → e.id ≤ e'.id) ∧
    (¬(b = true ∧ (∃ e', Fits s e' ∧ e'.prio = .background)) → ∀ e', Fits s e' →
      e.prio.rank < e'.prio.rank ∨ (e.prio.rank = e'.prio.rank ∧ e.id ≤ e'.id)) := by
  have i := reachable_inv (history_reachable h)
  have hc := history_counter h
  obtain ⟨⟨hmem, hfit, hsel⟩, -, -⟩ := grants_selected i hg
  have heo := (i.entries e hmem).2.1
  have hone : 1 ≤ s.counter ↔ b = true := by rw [hc]; cases b <;> simp
  rw [hone, ← bypass_bgFits i] at hsel
  have hbg : b = true ∧ (∃ e', Fits s e' ∧ e'.prio = .background) → e.prio = .background ∧
      ∀ e', Fits s e' → e'.prio = .background → e.id ≤ e'.id := by
    intro hb
    rcases hsel with ⟨-, -, hbg, hage⟩ | ⟨hn, -⟩
    · refine ⟨hbg, ?_⟩
      intro e' he' hp'
      obtain ⟨h1, h2⟩ := (fits_fitsAvailable i e').mp he'
      have := hage e' h1 hp' h2
      rw [ageLt_false, heo, (i.entries e' h1).2.1] at this
      omega
    · exact absurd hb hn
  refine ⟨(fits_fitsAvailable i e).mpr ⟨hmem, hfit⟩, ?_, hbg, ?_⟩
  · rintro ⟨hb, hne, hex⟩
    exact hne (hbg ⟨hb, hex⟩).1
  · intro hb e' he'
    rcases hsel with ⟨h1, h2, -⟩ | ⟨-, hkey⟩
    · exact absurd ⟨h1, h2⟩ hb
    · obtain ⟨h1, h2⟩ := (fits_fitsAvailable i e').mp he'
      have := hkey e' h1 h2
      rw [keyLt_false, heo, (i.entries e' h1).2.1] at this
      omega

/-- `Starved policy id n s`: there is an execution ending in `s` during which request `id` was always queued as background
work and no background request was admitted, although `n` times it fitted the free resources and a non-background
request was admitted instead.  Its own task was free to look at any time: in every state of the execution a look would
not have been granted. -/
inductive Starved (policy : Policy) (id : Nat) : Nat → State P → Prop where
  | start {s : State P} : Reachable policy s → (∃ e ∈ s.queued, e.id = id ∧ e.prio = .background) →
      (∀ w t, check s id w = .ok t → t.leases = s.leases) → Starved policy id 0 s
  | bypassed {s t : State P} {n : Nat} (e b : Entry P) : Starved policy id n s → Grants s t e → e.prio ≠ .background →
      Fits s b → b.id = id → b.prio = .background → b ∈ t.queued →
      (∀ w t', check t id w = .ok t' → t'.leases = t.leases) → Starved policy id (n + 1) t
  | other {s t : State P} {n : Nat} (op : Op P) : Starved policy id n s → step s op = .ok t →
      (∀ e, Grants s t e → e.prio ≠ .background) → (∃ e ∈ t.queued, e.id = id ∧ e.prio = .background) →
      (∀ w t', check t id w = .ok t' → t'.leases = t.leases) → Starved policy id n t

namespace Starve

def bg : Entry Nat := { id := 0, spec := demoSpec 3 .background, prio := .background, order := 0 }
def pe (i : Nat) : Entry Nat := { id := i, spec := demoSpec 2 .openDocument, prio := .openDocument, order := i }

/-- Description of the states of the counterexample. -/
structure D (s : State Nat) (q : List (Entry Nat)) (l : List (Nat × Spec Nat)) (c n : Nat) : Prop where
  reach : Reachable demoPolicy s
  q_eq : s.queued = q
  l_eq : s.leases = l
  c_eq : s.counter = c
  n_eq : s.nextId = n
  a_eq : s.activeProject = none
  v_eq : s.navPending = false
  ready : ∀ e ∈ q, ∃ b, s.waiters e.id = some { pc := .ready, notified := b, cancelled := false }

theorem D.fits {s : State Nat} {q l c n} (d : D s q l c n) (sp : Spec Nat) : fitsAvailable sp s = true ↔
    l.length < 2 ∧ (l.map (·.2.cpu)).sum + sp.cpu ≤ 4 ∧ (l.map (·.2.mem)).sum + sp.mem ≤ 10 ∧ (l.map (·.2.io)).sum + sp.io ≤ 2 := by
  have i := reachable_inv d.reach
  rw [fits_iff, i.policy_eq, i.tasks_eq, i.cpu_eq, i.mem_eq, i.io_eq, d.l_eq]
  simp [blockedByNavigation, d.v_eq, demoPolicy]

/-- The background request is not granted if it is not the best. -/
theorem denied {s : State Nat} (hr : Reachable demoPolicy s) (hb : bg ∈ s.queued) (h : ¬ IsBest s bg) :
    ∀ w t, check s 0 w = .ok t → t.leases = s.leases := by
  intro w t ht
  have i := reachable_inv hr
  have hs := check_spec i 0 w
  rw [ht] at hs
  cases hs with
  | sleep => rfl
  | admit k e c hk hke hid hbest =>
    exfalso
    apply h
    have : e = bg := eq_of_id i.ids_nodup hbest.1 hb (by rw [hid]; rfl)
    rw [← this]; exact hbest

theorem D.acquire {s : State Nat} {q l c n} (d : D s q l c n) :
    ∃ t, step s (.acquire (demoSpec 2 .openDocument)) = .ok t ∧ D t (q ++ [pe n]) l c (n + 1) := by
  have i := reachable_inv d.reach
  refine ⟨{ s with
      nextId := s.nextId + 1
      queued := s.queued ++ [{ id := s.nextId, spec := demoSpec 2 .openDocument, prio := effectivePriority (demoSpec 2 .openDocument) s.activeProject, order := s.nextId }]
      waiters := setWaiter s.waiters s.nextId (some { pc := .ready, notified := false, cancelled := false }) }, ?_, ?_⟩
  · simp only [step, Governor.acquire, i.policy_eq]
    rfl
  · refine ⟨.step (.acquire (demoSpec 2 .openDocument)) d.reach ?_, ?_, d.l_eq, d.c_eq, ?_, d.a_eq, d.v_eq, ?_⟩
    · simp only [step, Governor.acquire, i.policy_eq]; rfl
    · simp only [d.q_eq, d.n_eq, d.a_eq]; rfl
    · simp only [d.n_eq]
    · intro e he
      simp only [setWaiter]
      by_cases hi : e.id = s.nextId
      · exact ⟨false, by simp [hi]⟩
      · simp only [hi, if_false]
        rcases List.mem_append.mp he with he | he
        · exact d.ready e he
        · simp only [List.mem_singleton] at he
          subst he
          exact absurd d.n_eq.symm hi

theorem D.grant {s : State Nat} {q l c n} (d : D s q l c n) {e : Entry Nat} (hb : IsBest s e) {k : Nat} (hk : q[k]? = some e)
    {c' : Nat}
    (hc : (e.prio = .background ∨ ¬ BgFits s → c' = 0) ∧ (e.prio ≠ .background → BgFits s → c' = 1)) :
    ∃ t u, step s (.arm e.id) = .ok t ∧ step t (.check e.id) = .ok u ∧ t.queued = s.queued ∧ t.leases = s.leases ∧
      D u (swapRemove q k) ((e.id, e.spec) :: l) c' n ∧ Grants t u e ∧ (∀ x, IsBest t x ↔ IsBest s x) ∧
      (∀ x, Fits t x ↔ Fits s x) ∧ Reachable demoPolicy t := by
  have i := reachable_inv d.reach
  have hmem : e ∈ q := List.mem_of_getElem? hk
  obtain ⟨b, hw⟩ := d.ready e hmem
  set t : State Nat := { s with waiters := setWaiter s.waiters e.id (some { pc := .armed, notified := false, cancelled := false }) } with ht
  have hstep : step s (.arm e.id) = .ok t := by simp only [step, hw, and_self, if_true, ht]
  have hrt : Reachable demoPolicy t := .step _ d.reach hstep
  have it := reachable_inv hrt
  have hbt : IsBest t e := hb
  have hspec := check_spec it e.id { pc := .armed, notified := false, cancelled := false }
  generalize hr : check t e.id { pc := .armed, notified := false, cancelled := false } = r at hspec
  have hchk : step t (.check e.id) = r := by
    simp only [step, ht, setWaiter, if_true, and_self]
    exact hr
  cases hspec with
  | sleep hn =>
    obtain ⟨k', hk'⟩ := best_isSome hbt.1 hbt.2.1
    obtain ⟨e', hke', hb'⟩ := best_spec hk'
    exact absurd (isBest_unique (fun e he => (it.entries e he).2.1) hb' hbt) (hn k' e' hk' hke')
  | admit k' e' c'' hk' hke' hid hb' hc0 hc1 =>
    have hee : e' = e := eq_of_id it.ids_nodup hb'.1 hbt.1 hid
    subst hee
    have hkk : k' = k := by
      have h1 : s.queued[k']? = some e' := hke'
      rw [d.q_eq] at h1
      have hnd : (q.map (·.id)).Nodup := by rw [← d.q_eq]; exact i.ids_nodup
      obtain ⟨l1, e1⟩ := List.getElem?_eq_some_iff.mp h1
      obtain ⟨l2, e2⟩ := List.getElem?_eq_some_iff.mp hk
      have := (List.Nodup.of_map _ hnd).getElem_inj_iff (hi := l1) (hj := l2)
      exact this.mp (e1.trans e2.symm)
    subst hkk
    have hcc : c'' = c' := by
      by_cases h1 : e'.prio = .background ∨ ¬ BgFits s
      · rw [hc.1 h1]; exact hc0 h1
      · push Not at h1
        rw [hc.2 h1.1 h1.2]; exact (hc1 h1.1 h1.2).2
    refine ⟨t, _, hstep, hchk, rfl, rfl, ?_, ⟨⟨_, hchk⟩, hb'.1, ?_, rfl⟩, fun _ => Iff.rfl, fun _ => Iff.rfl, hrt⟩
    · refine ⟨.step _ hrt hchk, ?_, ?_, hcc, d.n_eq, d.a_eq, d.v_eq, ?_⟩
      · simp only [ht, d.q_eq]
      · simp only [ht, d.l_eq]
      · intro x hx
        have hx' : x ∈ swapRemove s.queued k' := by rw [d.q_eq]; exact hx
        obtain ⟨hxm, hxn⟩ := ((queue_remove i (e := e') (by rw [d.q_eq]; exact hk)).2.1 x).mp hx'
        obtain ⟨b', hb''⟩ := d.ready x (by rw [← d.q_eq]; exact hxm)
        exact ⟨b', by simp only [setWaiter, hxn, if_false, ht]; exact hb''⟩
    · rw [(queue_remove it hke').2.1]; simp

theorem D.release {s : State Nat} {q l c n} (d : D s q l c n) {id : Nat} {sp : Spec Nat} (hl : (id, sp) ∈ l) :
    ∃ t, step s (.release id .completed) = .ok t ∧ D t q (l.erase (id, sp)) c n := by
  obtain ⟨he, -⟩ := release_eq d.reach (by rw [d.l_eq]; exact hl) .completed
  exact ⟨_, he, .step _ d.reach he, d.q_eq, by simp only [d.l_eq], d.c_eq, d.n_eq, d.a_eq, d.v_eq, d.ready⟩

theorem D.not_best_of_not_fits {s : State Nat} {q l c n} (d : D s q l c n) (h : ¬(l.length < 2 ∧ (l.map (·.2.cpu)).sum + 3 ≤ 4)) :
    ¬ IsBest s bg := by
  rintro ⟨-, hf, -⟩
  rw [d.fits] at hf
  exact h ⟨hf.1, hf.2.1⟩

theorem D.not_best_of_prio {s : State Nat} {q n} {i : Nat} (d : D s q [] 0 n) (hi : pe i ∈ q) : ¬ IsBest s bg := by
  rintro ⟨-, -, ⟨hc, -⟩ | ⟨-, hall⟩⟩
  · rw [d.c_eq] at hc; omega
  · have := hall (pe i) (by rw [d.q_eq]; exact hi) (by rw [d.fits]; simp [pe, demoSpec])
    rw [keyLt_false] at this
    simp [bg, pe, Prio.rank] at this

theorem no_grant {s t : State Nat} (h : t.leases.length ≤ s.leases.length) : ∀ e, Grants s t e → e.prio ≠ .background := by
  rintro e ⟨-, -, -, hl⟩
  rw [hl] at h; simp at h; omega

theorem grant_only {s t : State Nat} {e : Entry Nat} (hr : Reachable demoPolicy s) (hg : Grants s t e) (he : e.prio ≠ .background) :
    ∀ x, Grants s t x → x.prio ≠ .background := by
  rintro x ⟨-, h2, -, hl⟩
  obtain ⟨-, g2, -, gl⟩ := hg
  rw [gl] at hl
  have hid : e.id = x.id := by injection hl with h1 _; exact congrArg Prod.fst h1
  have := eq_of_id (reachable_inv hr).ids_nodup g2 h2 hid
  rw [← this]; exact he

theorem round {s : State Nat} {k i n : Nat} (hs : Starved demoPolicy 0 k s) (d : D s [bg, pe i] [] 0 n) :
    ∃ t j m, Starved demoPolicy 0 (k + 1) t ∧ D t [bg, pe j] [] 0 m := by
  have bgq : ∀ {s : State Nat} {q l c n}, D s (bg :: q) l c n → ∃ e ∈ s.queued, e.id = 0 ∧ e.prio = .background :=
    fun d => ⟨bg, by rw [d.q_eq]; simp, rfl, rfl⟩
  have bgm : ∀ {s : State Nat} {q l c n}, D s (bg :: q) l c n → bg ∈ s.queued := fun d => by rw [d.q_eq]; simp
  -- 1. a second priority request arrives
  obtain ⟨s1, h1, d1⟩ := d.acquire
  have st1 : Starved demoPolicy 0 k s1 := .other _ hs h1 (no_grant (by rw [d.l_eq, d1.l_eq])) (bgq d1)
    (denied d1.reach (bgm d1) (d1.not_best_of_prio (i := i) (by simp)))
  -- 2./3. the first one is admitted although the background request fits
  have i1 := reachable_inv d1.reach
  have id_lt : i < n := by
    have := (reachable_inv d.reach).entries (pe i) (by rw [d.q_eq]; simp)
    have h2 := d.n_eq
    simp only [pe] at this
    omega
  have best1 : IsBest s1 (pe i) := by
    refine ⟨by rw [d1.q_eq]; simp, by rw [d1.fits]; simp [pe, demoSpec], Or.inr ⟨by rw [d1.c_eq]; omega, ?_⟩⟩
    intro e' he' _
    rw [d1.q_eq] at he'
    rw [keyLt_false]
    simp only [List.cons_append, List.nil_append, List.mem_cons, List.not_mem_nil, or_false] at he'
    rcases he' with rfl | rfl | rfl
    · left; simp [pe, bg, Prio.rank]
    · right; refine ⟨rfl, Or.inr ⟨rfl, optLt_irr _⟩⟩
    · right; exact ⟨rfl, Or.inl id_lt⟩
  have bf1 : Fits s1 bg := (fits_fitsAvailable i1 bg).mpr ⟨bgm d1, by rw [d1.fits]; simp [bg, demoSpec]⟩
  have bgf1 : BgFits s1 := ⟨bg, bgm d1, rfl, ((fits_fitsAvailable i1 bg).mp bf1).2⟩
  obtain ⟨s2, s3, h2, h3, q2, l2, d3, g3, b2, f2, r2⟩ := d1.grant best1 (k := 1) (c' := 1) rfl
    ⟨by rintro (h | h) <;> [exact absurd h (by simp [pe]); exact absurd bgf1 h], fun _ _ => rfl⟩
  have st2 : Starved demoPolicy 0 k s2 := .other _ st1 h2 (no_grant (by rw [l2]))
    ⟨bg, by rw [q2]; exact bgm d1, rfl, rfl⟩
    (denied r2 (by rw [q2]; exact bgm d1) (fun h => (d1.not_best_of_prio (i := i) (by simp)) ((b2 bg).mp h)))
  have d3' : D s3 [bg, pe n] [(i, (pe i).spec)] 1 (n + 1) := d3
  have st3 : Starved demoPolicy 0 (k + 1) s3 := .bypassed (pe i) bg st2 g3 (by simp [pe]) ((f2 bg).mpr bf1) rfl rfl (bgm d3')
    (denied d3'.reach (bgm d3') (d3'.not_best_of_not_fits (by simp [pe, demoSpec])))
  -- 4./5. the second one is admitted while the background request does not fit; this resets the counter
  have nbf3 : ¬ BgFits s3 := by
    rintro ⟨e, he, hp, hf⟩
    rw [d3'.q_eq] at he
    simp only [List.mem_cons, List.not_mem_nil, or_false] at he
    rcases he with rfl | rfl
    · rw [d3'.fits] at hf; simp [bg, pe, demoSpec] at hf
    · simp [pe] at hp
  have best3 : IsBest s3 (pe n) := by
    refine ⟨by rw [d3'.q_eq]; simp, by rw [d3'.fits]; simp [pe, demoSpec], Or.inr ⟨fun h => nbf3 h.2, ?_⟩⟩
    intro e' he' hf
    rw [d3'.q_eq] at he'
    simp only [List.mem_cons, List.not_mem_nil, or_false] at he'
    rcases he' with rfl | rfl
    · rw [keyLt_false]; left; simp [pe, bg, Prio.rank]
    · rw [keyLt_false]; right; exact ⟨rfl, Or.inr ⟨rfl, optLt_irr _⟩⟩
  obtain ⟨s4, s5, h4, h5, q4, l4, d5, g5, b4, f4, r4⟩ := d3'.grant best3 (k := 1) (c' := 0) rfl
    ⟨fun _ => rfl, fun _ h => absurd h nbf3⟩
  have st4 : Starved demoPolicy 0 (k + 1) s4 := .other _ st3 h4 (no_grant (by rw [l4]))
    ⟨bg, by rw [q4]; exact bgm d3', rfl, rfl⟩
    (denied r4 (by rw [q4]; exact bgm d3')
      (fun h => (d3'.not_best_of_not_fits (by simp [pe, demoSpec])) ((b4 bg).mp h)))
  have d5' : D s5 [bg] [(n, (pe n).spec), (i, (pe i).spec)] 0 (n + 1) := d5
  have st5 : Starved demoPolicy 0 (k + 1) s5 := .other _ st4 h5 (grant_only r4 g5 (by simp [pe])) (bgq d5')
    (denied d5'.reach (bgm d5') (d5'.not_best_of_not_fits (by simp)))
  -- 6. another priority request arrives
  obtain ⟨s6, h6, d6⟩ := d5'.acquire
  have st6 : Starved demoPolicy 0 (k + 1) s6 := .other _ st5 h6 (no_grant (by rw [d5'.l_eq, d6.l_eq])) (bgq d6)
    (denied d6.reach (bgm d6) (d6.not_best_of_not_fits (by simp)))
  -- 7./8. both leases end
  obtain ⟨s7, h7, d7⟩ := d6.release (id := i) (sp := (pe i).spec) (by simp)
  have d7' : D s7 [bg, pe (n + 1)] [(n, (pe n).spec)] 0 (n + 1 + 1) := by
    have hne : ¬ n = i := by omega
    simpa [List.erase_cons, hne] using d7
  have st7 : Starved demoPolicy 0 (k + 1) s7 := .other _ st6 h7 (no_grant (by rw [d6.l_eq, d7'.l_eq]; simp)) (bgq d7')
    (denied d7'.reach (bgm d7') (d7'.not_best_of_not_fits (by simp [pe, demoSpec])))
  obtain ⟨s8, h8, d8⟩ := d7'.release (id := n) (sp := (pe n).spec) (by simp)
  have d8' : D s8 [bg, pe (n + 1)] [] 0 (n + 1 + 1) := by simpa using d8
  have st8 : Starved demoPolicy 0 (k + 1) s8 := .other _ st7 h8 (no_grant (by rw [d7'.l_eq, d8'.l_eq]; simp)) (bgq d8')
    (denied d8'.reach (bgm d8') (d8'.not_best_of_prio (i := n + 1) (by simp)))
  exact ⟨s8, n + 1, n + 1 + 1, st8, d8'⟩

end Starve

/-- C05's bypass bound is false: for every `n` there is an execution in which one background request that repeatedly fits
the free resources is bypassed `n` times, with no background request ever admitted. -/
theorem c05_unbounded_bypass (n : Nat) : ∃ s : State Nat, Starved demoPolicy 0 n s := by
  suffices ∃ s i m, Starved demoPolicy 0 n s ∧ Starve.D s [Starve.bg, Starve.pe i] [] 0 m by
    obtain ⟨s, _, _, h, _⟩ := this; exact ⟨s, h⟩
  induction n with
  | zero =>
    obtain ⟨s, hs⟩ : ∃ s, run (init demoPolicy) [.acquire (demoSpec 3 .background), .acquire (demoSpec 2 .openDocument)] = some s :=
      ⟨_, rfl⟩
    have hr : Reachable demoPolicy s := reachable_of_run .init hs
    have d : Starve.D s [Starve.bg, Starve.pe 1] [] 0 2 := by
      cases hs
      refine ⟨hr, rfl, rfl, rfl, rfl, rfl, rfl, ?_⟩
      intro e he
      simp only [List.mem_cons, List.not_mem_nil, or_false] at he
      rcases he with rfl | rfl <;> exact ⟨false, rfl⟩
    refine ⟨s, 1, 2, .start hr ⟨Starve.bg, by rw [d.q_eq]; simp, rfl, rfl⟩ ?_, d⟩
    exact Starve.denied hr (by rw [d.q_eq]; simp) (d.not_best_of_prio (i := 1) (by simp))
  | succ n ih =>
    obtain ⟨s, i, m, hs, d⟩ := ih
    exact Starve.round hs d

/-- While the active project's navigation is pending, no project-parallel task of another project is admitted. -/
theorem c05_navigation_blocks_other_projects {policy : Policy} {s t : State P} {e : Entry P} (h : Reachable policy s)
    (hg : Grants s t e) (hnav : s.navPending = true) (hpar : e.spec.projectParallel = true) :
    e.spec.root = s.activeProject := by
  have i := reachable_inv h
  obtain ⟨⟨hmem, hfit, -⟩, -, -⟩ := grants_selected i hg
  have := ((fits_fitsAvailable i e).mpr ⟨hmem, hfit⟩).2.2.2.2.2
  by_contra hne
  exact this ⟨hpar, hnav, fun h => hne h.symm⟩

/-- Opening a document of a project makes it the active project with the given reservation, keeps every queued request
(only classes change) and every lease; marking and completing act on the active project's reservation only. -/
theorem c05_navigation_marking (s : State P) (root : P) (b : Bool) :
    (∃ t, step s (.prioritize root b) = .ok t ∧ t.activeProject = some root ∧ t.navPending = b ∧ t.leases = s.leases ∧
      t.queued.map (fun e => (e.id, e.spec)) = s.queued.map (fun e => (e.id, e.spec))) ∧
    (s.activeProject = some root →
      (∃ t, step s (.markPending root) = .ok t ∧ t.activeProject = some root ∧ t.navPending = true) ∧
      (∃ t, step s (.markComplete root) = .ok t ∧ t.activeProject = some root ∧ t.navPending = false)) ∧
    (s.activeProject ≠ some root → step s (.markPending root) = .ok s ∧ step s (.markComplete root) = .ok s) := by
  refine ⟨⟨_, rfl, rfl, rfl, rfl, by simp [prioritize]⟩, fun h => ?_, fun h => by simp [step, h]⟩
  cases hn : s.navPending <;> simp [step, h, hn]

/-- Pending navigation stays pending until it is completed for the active project or the active project is set anew. -/
theorem c05_navigation_pending_until_completed {policy : Policy} {s t : State P} {op : Op P} (h : Reachable policy s) (ht : step s op = .ok t)
    (hnav : s.navPending = true) (h1 : ∀ root, s.activeProject = some root → op ≠ .markComplete root)
    (h2 : ∀ root b, op ≠ .prioritize root b) : t.navPending = true ∧ t.activeProject = s.activeProject := by
  cases op with
  | check id =>
    simp only [step] at ht
    split at ht
    · split at ht
      · rename_i w _ _
        have hs := check_spec (reachable_inv h) id w
        rw [ht] at hs
        cases hs <;> exact ⟨hnav, rfl⟩
      · cases ht
    · cases ht
  | drop id =>
    simp only [step] at ht
    split at ht
    · split at ht
      · simp only [Outcome.ok.injEq] at ht; subst ht
        unfold dropRegistration; simp only; split <;> exact ⟨hnav, rfl⟩
      · cases ht
    · cases ht
  | acquire => simp only [step, acquire] at ht; split at ht <;> cases ht; exact ⟨hnav, rfl⟩
  | prioritize r b => exact absurd rfl (h2 r b)
  | release =>
    simp only [step] at ht
    split at ht
    · unfold release at ht
      split at ht <;> cases ht
      exact ⟨hnav, rfl⟩
    · cases ht
  | arm => simp only [step] at ht; split at ht <;> (try split at ht) <;> cases ht <;> exact ⟨hnav, rfl⟩
  | wake => simp only [step] at ht; split at ht <;> (try split at ht) <;> cases ht <;> exact ⟨hnav, rfl⟩
  | cancel => simp only [step] at ht; split at ht <;> (try split at ht) <;> cases ht <;> exact ⟨hnav, rfl⟩
  | recordCancelled => simp only [step] at ht; split at ht <;> (try split at ht) <;> cases ht <;> exact ⟨hnav, rfl⟩
  | markPending => simp only [step] at ht; split at ht <;> cases ht <;> simp_all
  | markComplete r =>
    simp only [step] at ht
    split at ht
    · rename_i hc; exact absurd rfl (h1 r hc.1)
    · cases ht; exact ⟨hnav, rfl⟩
  | notify => simp only [step] at ht; split at ht <;> cases ht <;> exact ⟨hnav, rfl⟩

/-- Concrete case for navigation blocking: project 1 active with navigation pending; a project-parallel request of
project 2 (ticket 0) is passed over although it is older and everything is free. -/
def demoNav : List (Op Nat) :=
  [.prioritize 1 true,
   .acquire { root := some 2, requested := .activeDocument, cpu := 1, mem := 1, io := 0, projectParallel := true },
   .acquire { root := some 3, requested := .background, cpu := 1, mem := 1, io := 0, projectParallel := false },
   .arm 0, .check 0, .arm 1, .check 1]

example : (run (init demoPolicy) demoNav).map (fun s => (s.leases.map (·.1), s.queued.map (·.id), s.navPending)) =
    some ([1], [0], true) := by decide

/-! ### C06 -/

/-- The claim: whenever a queued request fits and would be granted if its task looked, that task is not asleep
without a wakeup. -/
def WorkConserving (s : State P) : Prop :=
  ∀ e w, e ∈ s.queued → s.waiters e.id = some w →
    (∃ t, check s e.id w = .ok t ∧ t.leases = (e.id, e.spec) :: s.leases) →
    w.pc = .sleeping → w.notified = true ∨ 0 < s.pendingNotify

def lostWakeup : List (Op Nat) :=
  [.acquire (demoSpec 1 .background), .acquire (demoSpec 2 .openDocument), .arm 0, .check 0, .arm 1, .check 1]

/-- C06 is false: a request that fits sleeps next to free resources, no wakeup is pending, and no task can make a step. -/
theorem c06_not_work_conserving :
    ∃ s : State Nat, Reachable demoPolicy s ∧ ¬ WorkConserving s ∧
      (∀ id, step s (.arm id) = .disabled ∧ step s (.check id) = .disabled ∧ step s (.wake id) = .disabled) ∧
      step s .notify = .disabled := by
  obtain ⟨s, hs⟩ : ∃ s, run (init demoPolicy) lostWakeup = some s := ⟨_, rfl⟩
  refine ⟨s, reachable_of_run .init hs, ?_, ?_, ?_⟩
  · cases hs
    intro hwc
    have := hwc { id := 0, spec := demoSpec 1 .background, prio := .background, order := 0 }
      { pc := .sleeping, notified := false, cancelled := false } (by decide) rfl ⟨_, rfl, rfl⟩ rfl
    revert this
    decide
  · cases hs
    intro id
    have hw : ∀ j, j ≠ 0 → j ≠ 1 → (((run (init demoPolicy) lostWakeup).map (fun s => s.waiters j)) = some none) := by
      intro j h0 h1
      simp [lostWakeup, run, step, init, acquire, fitsPolicy, demoPolicy, demoSpec, check, best, admit, enumerate, setWaiter,
        maxPriorityAdmissions, h0, h1, minBy, fitsAvailable, blockedByNavigation, keyLt, effectivePriority, Prio.rank]
    match id with
    | 0 => exact ⟨rfl, rfl, rfl⟩
    | 1 => exact ⟨rfl, rfl, rfl⟩
    | n + 2 => exact ⟨rfl, rfl, rfl⟩
  · cases hs; rfl

/-- Part of C06 that holds: the governor never goes completely idle. When no lease is held and a request fits, some
fitting request would be granted when its task looks, and that task is awake or about to be woken.  Missing: the same
while another lease is held. -/
theorem c06_never_idle_partial {policy : Policy} {s : State P} (h : Reachable policy s) (hidle : s.leases = [])
    (hrun : ∃ e, Fits s e) :
    ∃ e w, Fits s e ∧ s.waiters e.id = some w ∧
      (w.pc = .sleeping → w.notified = true ∨ 0 < s.pendingNotify) ∧
      (∀ w', ∃ t, check s e.id w' = .ok t ∧ t.leases = [(e.id, e.spec)]) := by
  have i := reachable_inv h
  obtain ⟨e0, he0⟩ := hrun
  obtain ⟨h1, h2⟩ := (fits_fitsAvailable i e0).mp he0
  obtain ⟨k, hk⟩ := best_isSome h1 h2
  obtain ⟨e, hke, hb⟩ := best_spec hk
  have hw : s.waiters e.id ≠ none := (i.waiters_iff e.id).mp ⟨e, hb.1, rfl⟩
  obtain ⟨w, hw⟩ := Option.ne_none_iff_exists'.mp hw
  refine ⟨e, w, (fits_fitsAvailable i e).mpr ⟨hb.1, hb.2.1⟩, hw, ?_, ?_⟩
  · intro hpc
    by_cases h0 : s.pendingNotify = 0
    · exact Or.inl (i.awake h0 hidle e w hb hw hpc)
    · exact Or.inr (by omega)
  · intro w'
    have hs := check_spec i e.id w'
    generalize hr : check s e.id w' = r at hs
    cases hs with
    | sleep hn => exact absurd rfl (hn k e hk hke)
    | admit k' e' c hk' hke' =>
      rw [hk] at hk'; cases hk'
      rw [hke] at hke'; cases hke'
      exact ⟨_, rfl, by rw [hidle]⟩

/-- Part of C06 that holds: a lost wakeup lasts at most until the next release, cancellation or reprioritisation – those
always leave a wakeup pending, and delivering it wakes every sleeping task. -/
theorem c06_release_wakes_everyone_partial {policy : Policy} {s t : State P} (h : Reachable policy s) {op : Op P}
    (hop : (∃ id how, op = .release id how) ∨ (∃ id, op = .drop id)) (ht : step s op = .ok t) :
    0 < t.pendingNotify ∧ ∃ u, step t .notify = .ok u ∧ u.queued = t.queued ∧ u.leases = t.leases ∧
      ∀ id w, u.waiters id = some w → w.pc = .sleeping → w.notified = true := by
  have i := reachable_inv h
  have hpos : 0 < t.pendingNotify := by
    rcases hop with ⟨id, how, rfl⟩ | ⟨id, rfl⟩
    · simp only [step] at ht
      split at ht
      · unfold release at ht
        split at ht <;> cases ht
        simp
      · cases ht
    · simp only [step] at ht
      split at ht
      · rename_i w hw
        split at ht
        · simp only [Outcome.ok.injEq] at ht; subst ht
          obtain ⟨k, e, -, -, heq⟩ := dropRegistration_eq i (id := id) (by simp [hw])
          rw [heq]; simp
        · cases ht
      · cases ht
  refine ⟨hpos, { t with waiters := wakeAll t.waiters, pendingNotify := t.pendingNotify - 1 },
    by simp only [step]; rw [if_neg (by omega)], rfl, rfl, ?_⟩
  intro id w hw hpc
  simp only [wakeAll, Option.map_eq_some_iff] at hw
  obtain ⟨x, _, rfl⟩ := hw
  split
  · rfl
  · rename_i hr; rw [if_neg hr] at hpc; exact absurd (Or.inr hpc) hr

end Verif.Governor
