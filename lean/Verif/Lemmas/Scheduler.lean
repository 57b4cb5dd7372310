import Verif.Model.Scheduler
import Verif.Lemmas.Common
import Mathlib.Data.List.Nodup
/-! Invariants of the indexing scheduler. -/
namespace Verif.Scheduler
variable {P : Type} [LinearOrder P]

theorem keyLt_false {a b : Entry P} : keyLt a b = false ↔
    b.prio.rank < a.prio.rank ∨ (a.prio.rank = b.prio.rank ∧ (b.order < a.order ∨ (a.order = b.order ∧ b.root ≤ a.root))) := by
  simp only [keyLt, Bool.or_eq_false_iff, decide_eq_false_iff_not, Bool.and_eq_false_iff, beq_eq_false_iff_ne, ne_eq, not_lt]
  grind

theorem ageLt_false {a b : Entry P} : ageLt a b = false ↔
    b.order < a.order ∨ (a.order = b.order ∧ b.root ≤ a.root) := by
  simp only [ageLt, Bool.or_eq_false_iff, decide_eq_false_iff_not, Bool.and_eq_false_iff, beq_eq_false_iff_ne, ne_eq, not_lt]
  grind

theorem keyLt_true {a b : Entry P} : keyLt a b = true ↔
    a.prio.rank < b.prio.rank ∨ (a.prio.rank = b.prio.rank ∧ (a.order < b.order ∨ (a.order = b.order ∧ a.root < b.root))) := by
  simp [keyLt]

theorem ageLt_true {a b : Entry P} : ageLt a b = true ↔
    a.order < b.order ∨ (a.order = b.order ∧ a.root < b.root) := by
  simp [ageLt]

theorem bestAdmissible_spec {q : List (Entry P)} {a : List P} {k : Nat} (h : bestAdmissible q a = some k) :
    ∃ e, q[k]? = some e ∧ e.root ∉ a ∧ ∀ e' ∈ q, e'.root ∉ a → keyLt e' e = false := by
  simp only [bestAdmissible, Option.map_eq_some_iff] at h
  obtain ⟨⟨k', e⟩, hm, rfl⟩ := h
  have hmem := minBy_mem hm
  have hle := minBy_le (by simp [keyLt]) (by simp only [keyLt_false, keyLt_true]; grind)
    (by simp only [keyLt_false]; intro a b c; grind) hm
  simp only [List.mem_filter, mem_enumerate, List.contains_eq_mem, Bool.not_eq_true', decide_eq_false_iff_not] at hmem hle
  refine ⟨e, hmem.1, hmem.2, ?_⟩
  intro e' he' hr
  obtain ⟨i, hi⟩ := List.mem_iff_getElem?.mp he'
  exact hle (i, e') ⟨hi, hr⟩

theorem bestAdmissible_none {q : List (Entry P)} {a : List P} (h : bestAdmissible q a = none) :
    ∀ e' ∈ q, e'.root ∈ a := by
  simp only [bestAdmissible, Option.map_eq_none_iff, minBy_none] at h
  intro e' he'
  by_contra hr
  obtain ⟨i, hi⟩ := mem_iff_exists_enumerate.mp he'
  have : (i, e') ∈ (enumerate q).filter fun e => !a.contains e.2.root := by
    simp [hi, hr]
  rw [h] at this
  simp at this

/-- Some queued background entry could run. -/
def BgRunnable (q : List (Entry P)) (a : List P) : Prop := ∃ e ∈ q, e.prio = .background ∧ e.root ∉ a

theorem best_spec {q : List (Entry P)} {a : List P} {c k : Nat} (h : bestWithFairness q a c = some k) :
    ∃ e, q[k]? = some e ∧ e.root ∉ a ∧
      ((1 ≤ c ∧ BgRunnable q a ∧ e.prio = .background ∧ ∀ e' ∈ q, e'.prio = .background → e'.root ∉ a → ageLt e' e = false) ∨
       (¬(1 ≤ c ∧ BgRunnable q a) ∧ ∀ e' ∈ q, e'.root ∉ a → keyLt e' e = false)) := by
  unfold bestWithFairness at h
  split at h
  · rename_i hc
    simp only [maxPriorityAdmissions, ge_iff_le] at hc
    split at h
    · rename_i b hb
      simp only [Option.some.injEq] at h
      subst h
      have hmem := minBy_mem hb
      have hle := minBy_le (by simp [ageLt]) (by simp only [ageLt_false, ageLt_true]; grind)
        (by simp only [ageLt_false]; intro a b c; grind) hb
      simp only [List.mem_filter, mem_enumerate, List.contains_eq_mem, Bool.and_eq_true, beq_iff_eq, Bool.not_eq_true',
        decide_eq_false_iff_not] at hmem hle
      refine ⟨b.2, hmem.1, hmem.2.2, Or.inl ⟨hc, ⟨b.2, List.mem_of_getElem? hmem.1, hmem.2.1, hmem.2.2⟩, hmem.2.1, ?_⟩⟩
      intro e' he' hp hr
      obtain ⟨i, hi⟩ := List.mem_iff_getElem?.mp he'
      exact hle (i, e') ⟨hi, hp, hr⟩
    · rename_i hb
      obtain ⟨e, h1, h2, h3⟩ := bestAdmissible_spec h
      refine ⟨e, h1, h2, Or.inr ⟨?_, h3⟩⟩
      rintro ⟨-, e', he', hp, hr⟩
      rw [minBy_none] at hb
      obtain ⟨i, hi⟩ := mem_iff_exists_enumerate.mp he'
      have : (i, e') ∈ (enumerate q).filter fun e => e.2.prio == .background && !a.contains e.2.root := by
        simp [hi, hr, hp]
      rw [hb] at this
      simp at this
  · rename_i hc
    simp only [maxPriorityAdmissions, ge_iff_le] at hc
    obtain ⟨e, h1, h2, h3⟩ := bestAdmissible_spec h
    exact ⟨e, h1, h2, Or.inr ⟨fun h => hc h.1, h3⟩⟩

theorem best_isSome {q : List (Entry P)} {a : List P} {c : Nat} {e : Entry P} (he : e ∈ q) (hr : e.root ∉ a) :
    ∃ k, bestWithFairness q a c = some k := by
  cases h : bestWithFairness q a c with
  | some k => exact ⟨k, rfl⟩
  | none =>
    exfalso
    unfold bestWithFairness at h
    have hn : bestAdmissible q a = none := by
      split at h
      · split at h <;> simp_all
      · exact h
    exact hr (bestAdmissible_none hn e he)

/-- The inductive invariant. -/
structure Inv (limit : Nat) (s : State P) : Prop where
  limit_eq : s.limit = limit
  roots_nodup : s.activeRoots.Nodup
  active_eq : s.active = s.activeRoots.length
  permits_perm : s.permits.Perm s.activeRoots
  active_le : s.active ≤ s.limit
  counter_le : s.counter ≤ 1
  ids_nodup : (s.queued.map (·.id)).Nodup
  entries : ∀ e ∈ s.queued, e.id < s.nextId ∧ e.order = e.id ∧
    e.prio = effectivePriority e.root e.requested s.activeProject
  waiters_iff : ∀ i, (∃ e ∈ s.queued, e.id = i) ↔ s.waiters i ≠ none
  awake : s.pendingNotify = 0 → s.active < s.limit → ∀ k e w, bestWithFairness s.queued s.activeRoots s.counter = some k →
    s.queued[k]? = some e → s.waiters e.id = some w → w.pc = .sleeping → w.notified = true

theorem inv_init (limit : Nat) : Inv limit (init limit : State P) := by
  constructor <;> simp [init]

omit [LinearOrder P] in
theorem eq_of_id {s : State P} (h : (s.queued.map (·.id)).Nodup) {a b : Entry P} (ha : a ∈ s.queued) (hb : b ∈ s.queued)
    (hid : a.id = b.id) : a = b :=
  List.inj_on_of_nodup_map h ha hb hid

/-- Removing the entry with a given id and its waiter. -/
theorem queue_remove {s : State P} {limit : Nat} (h : Inv limit s) {k : Nat} {e : Entry P} (hk : s.queued[k]? = some e) :
    ((swapRemove s.queued k).map (·.id)).Nodup ∧
    (∀ x, x ∈ swapRemove s.queued k ↔ x ∈ s.queued ∧ x.id ≠ e.id) ∧
    (∀ i, (∃ x ∈ swapRemove s.queued k, x.id = i) ↔ setWaiter s.waiters e.id none i ≠ none) := by
  have hp := swapRemove_perm hk
  have hmap := hp.map (·.id)
  have hnd : ((e :: swapRemove s.queued k).map (·.id)).Nodup := hmap.nodup_iff.mpr h.ids_nodup
  simp only [List.map_cons, List.nodup_cons, List.mem_map, not_exists, not_and] at hnd
  have hmem : ∀ x, x ∈ swapRemove s.queued k ↔ x ∈ s.queued ∧ x.id ≠ e.id := by
    intro x
    rw [← hp.mem_iff, List.mem_cons]
    constructor
    · intro hx; exact ⟨Or.inr hx, hnd.1 x hx⟩
    · rintro ⟨rfl | hx, hne⟩
      · exact absurd rfl hne
      · exact hx
  refine ⟨hnd.2, hmem, ?_⟩
  intro i
  simp only [hmem, setWaiter]
  have := h.waiters_iff i
  by_cases hi : i = e.id
  · subst hi; simp
  · simp only [hi, if_false]
    rw [← this]
    constructor
    · rintro ⟨x, ⟨hx, -⟩, rfl⟩; exact ⟨x, hx, rfl⟩
    · rintro ⟨x, hx, rfl⟩; exact ⟨x, ⟨hx, hi⟩, rfl⟩

theorem inv_dropRegistration {limit : Nat} {s : State P} (h : Inv limit s) {id : Nat} (hw : s.waiters id ≠ none) :
    Inv limit (dropRegistration s id) := by
  obtain ⟨e, he, rfl⟩ := (h.waiters_iff id).mpr hw
  unfold dropRegistration
  simp only
  split
  · rename_i k hk
    obtain ⟨hlt, hke, -⟩ := List.findIdx?_eq_some_iff_getElem.mp hk
    have hke' : s.queued[k].id = e.id := by simpa using hke
    have hk' : s.queued[k]? = some e := by
      rw [List.getElem?_eq_getElem hlt]
      congr 1
      exact eq_of_id h.ids_nodup (List.getElem_mem hlt) he hke'
    obtain ⟨h1, h2, h3⟩ := queue_remove h hk'
    refine ⟨h.limit_eq, h.roots_nodup, h.active_eq, h.permits_perm, h.active_le, h.counter_le, h1, ?_, h3, ?_⟩
    · intro x hx; exact h.entries x ((h2 x).mp hx).1
    · intro h0; simp at h0
  · rename_i hk
    rw [List.findIdx?_eq_none_iff] at hk
    have := hk e he
    simp at this

/-- Changing a live waiter's own state without changing anything else. -/
theorem inv_setWaiter {limit : Nat} {s : State P} (h : Inv limit s) {id : Nat} {w w' : Waiter}
    (hw : s.waiters id = some w)
    (hawake : s.pendingNotify = 0 → s.active < s.limit → ∀ k e, bestWithFairness s.queued s.activeRoots s.counter = some k →
      s.queued[k]? = some e → e.id = id → w'.pc = .sleeping → w'.notified = true) :
    Inv limit { s with waiters := setWaiter s.waiters id (some w') } := by
  refine ⟨h.limit_eq, h.roots_nodup, h.active_eq, h.permits_perm, h.active_le, h.counter_le, h.ids_nodup, h.entries, ?_, ?_⟩
  · intro i
    simp only [setWaiter]
    rw [h.waiters_iff i]
    by_cases hi : i = id
    · subst hi; simp [hw]
    · simp [hi]
  · intro h0 hlt k e x hk hke hx hpc
    simp only [setWaiter] at hx
    by_cases hi : e.id = id
    · simp only [hi, if_true, Option.some.injEq] at hx
      subst hx
      exact hawake h0 hlt k e hk hke hi hpc
    · simp only [hi, if_false] at hx
      exact h.awake h0 hlt k e x hk hke hx hpc

theorem any_background {q : List (Entry P)} {a : List P} :
    (q.any fun e => e.prio == .background && !a.contains e.root) = true ↔ BgRunnable q a := by
  simp [BgRunnable, List.any_eq_true]

/-- What `check` does. -/
inductive CheckSpec (s : State P) (id : Nat) (w : Waiter) : Outcome (State P) → Prop where
  | sleep (h : ∀ k e, s.active < s.limit → bestWithFairness s.queued s.activeRoots s.counter = some k →
        s.queued[k]? = some e → e.id ≠ id) :
      CheckSpec s id w (.ok { s with waiters := setWaiter s.waiters id (some { w with pc := .sleeping }) })
  | admit (k : Nat) (e : Entry P) (c : Nat) (hlt : s.active < s.limit)
      (hk : bestWithFairness s.queued s.activeRoots s.counter = some k) (hke : s.queued[k]? = some e)
      (hid : e.id = id) (hroot : e.root ∉ s.activeRoots)
      (hc0 : e.prio = .background ∨ ¬ BgRunnable s.queued s.activeRoots → c = 0)
      (hc1 : e.prio ≠ .background → BgRunnable s.queued s.activeRoots → s.counter = 0 ∧ c = 1) :
      CheckSpec s id w (.ok { s with
        queued := swapRemove s.queued k
        activeRoots := e.root :: s.activeRoots
        active := s.active + 1
        counter := c
        permits := e.root :: s.permits
        waiters := setWaiter s.waiters id none
        pendingNotify := s.pendingNotify + 1 })

theorem check_spec (s : State P) (id : Nat) (w : Waiter) :
    CheckSpec s id w (check s id w) := by
  unfold check
  simp only
  split
  · rename_i hlt
    split
    · rename_i k hk
      obtain ⟨e, hke, hroot, hsel⟩ := best_spec hk
      simp only [hke]
      split
      · rename_i hid
        unfold admit
        simp only [List.contains_eq_mem, hroot, decide_false, Bool.false_eq_true, if_false]
        set bw := (s.queued.any fun e => e.prio == Prio.background && !decide (e.root ∈ s.activeRoots)) with hbw
        have hb : bw = true ↔ BgRunnable s.queued s.activeRoots := by
          rw [hbw, ← any_background]; simp
        by_cases hcase : e.prio = .background ∨ bw = false
        · simp only [hcase, if_true, maxPriorityAdmissions, gt_iff_lt, Nat.not_lt_zero, if_false]
          refine CheckSpec.admit k e 0 hlt hk hke hid hroot (fun _ => rfl) ?_
          intro h1 h2
          rcases hcase with hc | hc
          · exact absurd hc h1
          · rw [hb.mpr h2] at hc; cases hc
        · have hne : e.prio ≠ .background := fun h => hcase (Or.inl h)
          have hbt : bw = true := by
            cases hbv : bw with
            | true => rfl
            | false => exact absurd (Or.inr hbv) hcase
          have hrun := hb.mp hbt
          have hc0 : s.counter = 0 := by
            rcases hsel with ⟨-, -, hbg, -⟩ | ⟨hn, -⟩
            · exact absurd hbg hne
            · by_contra hcne
              exact hn ⟨by omega, hrun⟩
          simp only [hcase, if_false, maxPriorityAdmissions, hc0, Nat.zero_add, gt_iff_lt, Nat.lt_irrefl]
          refine CheckSpec.admit k e 1 hlt hk hke hid hroot ?_ (fun _ _ => ⟨hc0, rfl⟩)
          rintro (hbg | hn)
          · exact absurd hbg hne
          · exact absurd hrun hn
      · rename_i hid
        refine CheckSpec.sleep ?_
        intro k' e' _ hk' hke'
        rw [hk] at hk'
        cases hk'
        rw [hke] at hke'
        cases hke'
        exact hid
    · rename_i hk
      refine CheckSpec.sleep ?_
      intro k' e' _ hk'
      rw [hk] at hk'
      cases hk'
  · rename_i hlt
    exact CheckSpec.sleep (fun _ _ h => absurd h hlt)

theorem inv_check {limit : Nat} {s t : State P} (h : Inv limit s) {id : Nat} {w : Waiter}
    (hw : s.waiters id = some w) (ht : check s id w = .ok t) : Inv limit t := by
  have hs := check_spec s id w
  rw [ht] at hs
  cases hs with
  | sleep hs =>
    refine inv_setWaiter h hw ?_
    intro _ hlt k e hk hke hid
    exact absurd hid (hs k e hlt hk hke)
  | admit k e c hlt hk hke hid hroot hc0 hc1 =>
    subst hid
    obtain ⟨h1, h2, h3⟩ := queue_remove h hke
    refine ⟨h.limit_eq, ?_, ?_, h.permits_perm.cons _, ?_, ?_, h1, ?_, h3, ?_⟩
    · exact List.nodup_cons.mpr ⟨hroot, h.roots_nodup⟩
    · simp [h.active_eq]
    · exact hlt
    · show c ≤ 1
      by_cases hbg : e.prio = .background
      · rw [hc0 (Or.inl hbg)]; omega
      · by_cases hr : BgRunnable s.queued s.activeRoots
        · exact Nat.le_of_eq (hc1 hbg hr).2
        · rw [hc0 (Or.inr hr)]; omega
    · intro x hx; exact h.entries x ((h2 x).mp hx).1
    · intro h0; simp at h0

theorem not_panic {limit : Nat} {s : State P} (h : Inv limit s) (op : Op P) : step s op ≠ .panic := by
  cases op with
  | register => simp [step]
  | arm id => simp only [step]; split <;> (try split) <;> simp
  | check id =>
    simp only [step]
    split
    · split
      · rename_i w _ _
        have := check_spec s id w
        intro hp
        rw [hp] at this
        cases this
      · simp
    · simp
  | wake id => simp only [step]; split <;> (try split) <;> simp
  | cancel id => simp only [step]; split <;> simp
  | exitCancelled id => simp only [step]; split <;> (try split) <;> simp
  | drop id => simp only [step]; split <;> (try split) <;> simp
  | prioritize => simp [step]
  | release root =>
    simp only [step]
    split
    · rename_i hc
      have hmem : root ∈ s.activeRoots := h.permits_perm.mem_iff.mp (by simpa using hc)
      have hpos : s.active ≠ 0 := by
        rw [h.active_eq]
        exact Nat.pos_iff_ne_zero.mp (List.length_pos_of_mem hmem)
      simp [release, hpos, hmem]
    · simp
  | notify => simp only [step]; split <;> simp

theorem wakeAll_ne_none (w : Nat → Option Waiter) (i : Nat) : wakeAll w i ≠ none ↔ w i ≠ none := by
  simp [wakeAll]

theorem inv_step {limit : Nat} {s t : State P} (h : Inv limit s) (op : Op P) (ht : step s op = .ok t) : Inv limit t := by
  cases op with
  | register root prio =>
    simp only [step, Outcome.ok.injEq] at ht
    subst ht
    refine ⟨h.limit_eq, h.roots_nodup, h.active_eq, h.permits_perm, h.active_le, h.counter_le, ?_, ?_, ?_, ?_⟩
    · simp only [register, List.map_append, List.map_cons, List.map_nil]
      rw [List.nodup_append]
      refine ⟨h.ids_nodup, by simp, ?_⟩
      intro a ha b hb
      simp only [List.mem_map] at ha
      obtain ⟨e, he, rfl⟩ := ha
      simp only [List.mem_singleton] at hb
      have := (h.entries e he).1
      omega
    · intro e he
      simp only [register, List.mem_append, List.mem_singleton] at he
      rcases he with he | rfl
      · obtain ⟨h1, h2, h3⟩ := h.entries e he
        exact ⟨Nat.lt_succ_of_lt h1, h2, h3⟩
      · exact ⟨Nat.lt_succ_self _, rfl, rfl⟩
    · intro i
      simp only [register, setWaiter, List.mem_append, List.mem_singleton]
      have := h.waiters_iff i
      by_cases hi : i = s.nextId
      · simp only [hi, if_true]
        constructor
        · intro _; simp
        · intro _; exact ⟨_, Or.inr rfl, rfl⟩
      · simp only [hi, if_false, ← this]
        constructor
        · rintro ⟨e, he | rfl, rfl⟩
          · exact ⟨e, he, rfl⟩
          · exact absurd rfl hi
        · rintro ⟨e, he, rfl⟩; exact ⟨e, Or.inl he, rfl⟩
    · intro h0; simp [register] at h0
  | arm id =>
    simp only [step] at ht
    split at ht
    · rename_i w hw
      split at ht
      · simp only [Outcome.ok.injEq] at ht; subst ht
        exact inv_setWaiter h hw (by simp)
      · cases ht
    · cases ht
  | check id =>
    simp only [step] at ht
    split at ht
    · rename_i w hw
      split at ht
      · exact inv_check h hw ht
      · cases ht
    · cases ht
  | wake id =>
    simp only [step] at ht
    split at ht
    · rename_i w hw
      split at ht
      · simp only [Outcome.ok.injEq] at ht; subst ht
        exact inv_setWaiter h hw (by simp)
      · cases ht
    · cases ht
  | cancel id =>
    simp only [step] at ht
    split at ht
    · rename_i w hw
      simp only [Outcome.ok.injEq] at ht; subst ht
      refine inv_setWaiter h hw ?_
      intro h0 hlt k e hk hke hid hpc
      subst hid
      exact h.awake h0 hlt k e w hk hke hw hpc
    · cases ht
  | exitCancelled id =>
    simp only [step] at ht
    split at ht
    · rename_i w hw
      split at ht
      · simp only [Outcome.ok.injEq] at ht; subst ht
        exact inv_dropRegistration h (by simp [hw])
      · cases ht
    · cases ht
  | drop id =>
    simp only [step] at ht
    split at ht
    · rename_i w hw
      split at ht
      · simp only [Outcome.ok.injEq] at ht; subst ht
        exact inv_dropRegistration h (by simp [hw])
      · cases ht
    · cases ht
  | prioritize root =>
    simp only [step, Outcome.ok.injEq] at ht
    subst ht
    refine ⟨h.limit_eq, h.roots_nodup, h.active_eq, h.permits_perm, h.active_le, h.counter_le, ?_, ?_, ?_, ?_⟩
    · simp only [prioritize, List.map_map]
      exact h.ids_nodup
    · intro e he
      simp only [prioritize, List.mem_map] at he
      obtain ⟨x, hx, rfl⟩ := he
      obtain ⟨h1, h2, -⟩ := h.entries x hx
      exact ⟨h1, h2, rfl⟩
    · intro i
      simp only [prioritize, List.mem_map]
      rw [← h.waiters_iff i]
      constructor
      · rintro ⟨e, ⟨x, hx, rfl⟩, rfl⟩; exact ⟨x, hx, rfl⟩
      · rintro ⟨x, hx, rfl⟩; exact ⟨_, ⟨x, hx, rfl⟩, rfl⟩
    · intro h0 hlt k e w hk hke hw hpc
      simp only [prioritize] at h0 hlt hk hke hw
      split at h0
      · simp at h0
      · rename_i hch
        push Not at hch
        rw [hch.2] at hk hke
        exact h.awake h0 hlt k e w hk hke hw hpc
  | release root =>
    simp only [step] at ht
    split at ht
    · rename_i hc
      have hmem : root ∈ s.activeRoots := h.permits_perm.mem_iff.mp (by simpa using hc)
      unfold release at ht
      split at ht
      · cases ht
      · split at ht
        · cases ht
        · simp only [Outcome.ok.injEq] at ht; subst ht
          refine ⟨h.limit_eq, h.roots_nodup.erase _, ?_, h.permits_perm.erase _, ?_, h.counter_le, h.ids_nodup, h.entries,
            h.waiters_iff, ?_⟩
          · simp only [List.length_erase_of_mem hmem, h.active_eq]
          · have := h.active_le
            show s.active - 1 ≤ s.limit
            omega
          · intro h0; simp at h0
    · cases ht
  | notify =>
    simp only [step] at ht
    split at ht
    · cases ht
    · simp only [Outcome.ok.injEq] at ht; subst ht
      refine ⟨h.limit_eq, h.roots_nodup, h.active_eq, h.permits_perm, h.active_le, h.counter_le, h.ids_nodup, h.entries, ?_, ?_⟩
      · intro i
        rw [h.waiters_iff i]
        exact (wakeAll_ne_none s.waiters i).symm
      · intro _ _ k e w _ _ hw hpc
        simp only [wakeAll, Option.map_eq_some_iff] at hw
        obtain ⟨x, _, rfl⟩ := hw
        split
        · rename_i hr; simp [hr] at hpc
        · rfl

theorem reachable_inv {limit : Nat} {s : State P} (h : Reachable limit s) : Inv limit s := by
  induction h with
  | init => exact inv_init limit
  | step op _ ht ih => exact inv_step ih op ht

end Verif.Scheduler
