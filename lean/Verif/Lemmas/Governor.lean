import Verif.Model.Governor
import Verif.Lemmas.Common
import Mathlib.Data.List.Nodup
import Mathlib.Algebra.BigOperators.Group.List.Basic
/-! Invariants of the resource governor. -/
namespace Verif.Governor
variable {P : Type} [LinearOrder P]

theorem optLt_irr (a : Option P) : optLt a a = false := by cases a <;> simp [optLt]
theorem optLt_asymm {a b : Option P} : optLt a b = true → optLt b a = false := by
  cases a <;> cases b <;> simp [optLt]; exact fun h => le_of_lt h
theorem optLt_trans {a b c : Option P} : optLt b a = false → optLt c b = false → optLt c a = false := by
  cases a <;> cases b <;> cases c <;> simp [optLt]; exact fun h1 h2 => le_trans h1 h2

theorem keyLt_false {a b : Entry P} : keyLt a b = false ↔
    b.prio.rank < a.prio.rank ∨ (a.prio.rank = b.prio.rank ∧
      (b.order < a.order ∨ (a.order = b.order ∧ optLt a.spec.root b.spec.root = false))) := by
  simp only [keyLt, Bool.or_eq_false_iff, decide_eq_false_iff_not, Bool.and_eq_false_iff, beq_eq_false_iff_ne, ne_eq]
  grind

theorem ageLt_false {a b : Entry P} : ageLt a b = false ↔
    b.order < a.order ∨ (a.order = b.order ∧ optLt a.spec.root b.spec.root = false) := by
  simp only [ageLt, Bool.or_eq_false_iff, decide_eq_false_iff_not, Bool.and_eq_false_iff, beq_eq_false_iff_ne, ne_eq]
  grind

theorem keyLt_true {a b : Entry P} : keyLt a b = true ↔
    a.prio.rank < b.prio.rank ∨ (a.prio.rank = b.prio.rank ∧
      (a.order < b.order ∨ (a.order = b.order ∧ optLt a.spec.root b.spec.root = true))) := by
  simp [keyLt]

theorem ageLt_true {a b : Entry P} : ageLt a b = true ↔
    a.order < b.order ∨ (a.order = b.order ∧ optLt a.spec.root b.spec.root = true) := by
  simp [ageLt]

/-- Some queued background entry fits. -/
def BgFits (s : State P) : Prop := ∃ e ∈ s.queued, e.prio = .background ∧ fitsAvailable e.spec s = true

/-- `e` is the entry `best` chooses. -/
def IsBest (s : State P) (e : Entry P) : Prop :=
  e ∈ s.queued ∧ fitsAvailable e.spec s = true ∧
    ((1 ≤ s.counter ∧ BgFits s ∧ e.prio = .background ∧
        ∀ e' ∈ s.queued, e'.prio = .background → fitsAvailable e'.spec s = true → ageLt e' e = false) ∨
     (¬(1 ≤ s.counter ∧ BgFits s) ∧ ∀ e' ∈ s.queued, fitsAvailable e'.spec s = true → keyLt e' e = false))

theorem byKey_spec {s : State P} {m : Nat × Entry P}
    (h : minBy (fun a b : Nat × Entry P => keyLt a.2 b.2) ((enumerate s.queued).filter fun e => fitsAvailable e.2.spec s) = some m) :
    s.queued[m.1]? = some m.2 ∧ fitsAvailable m.2.spec s = true ∧
      ∀ e' ∈ s.queued, fitsAvailable e'.spec s = true → keyLt e' m.2 = false := by
  have hmem := minBy_mem h
  have hle := minBy_le (by intro a; simp [keyLt, optLt_irr])
    (by simp only [keyLt_false, keyLt_true]; intro a b; have := @optLt_asymm P _ a.2.spec.root b.2.spec.root; grind)
    (by simp only [keyLt_false]; intro a b c; have := @optLt_trans P _ a.2.spec.root b.2.spec.root c.2.spec.root; grind) h
  simp only [List.mem_filter, mem_enumerate] at hmem hle
  refine ⟨hmem.1, hmem.2, ?_⟩
  intro e' he' hf
  obtain ⟨i, hi⟩ := List.mem_iff_getElem?.mp he'
  exact hle (i, e') ⟨hi, hf⟩

theorem best_spec {s : State P} {k : Nat} (h : best s = some k) : ∃ e, s.queued[k]? = some e ∧ IsBest s e := by
  unfold best at h
  simp only at h
  split at h
  · rename_i hc
    simp only [maxPriorityAdmissions, ge_iff_le] at hc
    split at h
    · rename_i b hb
      simp only [Option.some.injEq] at h
      subst h
      have hmem := minBy_mem hb
      have hle := minBy_le (by intro a; simp [ageLt, optLt_irr])
        (by simp only [ageLt_false, ageLt_true]; intro a b; have := @optLt_asymm P _ a.2.spec.root b.2.spec.root; grind)
        (by simp only [ageLt_false]; intro a b c; have := @optLt_trans P _ a.2.spec.root b.2.spec.root c.2.spec.root; grind) hb
      simp only [List.mem_filter, mem_enumerate, Bool.and_eq_true, beq_iff_eq] at hmem hle
      have hq := List.mem_of_getElem? hmem.1
      refine ⟨b.2, hmem.1, hq, hmem.2.2, Or.inl ⟨hc, ⟨b.2, hq, hmem.2.1, hmem.2.2⟩, hmem.2.1, ?_⟩⟩
      intro e' he' hp hf
      obtain ⟨i, hi⟩ := List.mem_iff_getElem?.mp he'
      exact hle (i, e') ⟨hi, hp, hf⟩
    · rename_i hb
      simp only [Option.map_eq_some_iff] at h
      obtain ⟨m, hm, rfl⟩ := h
      obtain ⟨h1, h2, h3⟩ := byKey_spec hm
      refine ⟨m.2, h1, List.mem_of_getElem? h1, h2, Or.inr ⟨?_, h3⟩⟩
      rintro ⟨-, e', he', hp, hf⟩
      rw [minBy_none] at hb
      obtain ⟨i, hi⟩ := mem_iff_exists_enumerate.mp he'
      have : (i, e') ∈ (enumerate s.queued).filter fun e => e.2.prio == .background && fitsAvailable e.2.spec s := by
        simp [hi, hf, hp]
      rw [hb] at this
      simp at this
  · rename_i hc
    simp only [maxPriorityAdmissions, ge_iff_le] at hc
    simp only [Option.map_eq_some_iff] at h
    obtain ⟨m, hm, rfl⟩ := h
    obtain ⟨h1, h2, h3⟩ := byKey_spec hm
    exact ⟨m.2, h1, List.mem_of_getElem? h1, h2, Or.inr ⟨fun h => hc h.1, h3⟩⟩

theorem best_isSome {s : State P} {e : Entry P} (he : e ∈ s.queued) (hf : fitsAvailable e.spec s = true) :
    ∃ k, best s = some k := by
  obtain ⟨i, hi⟩ := mem_iff_exists_enumerate.mp he
  have hne : (minBy (fun a b : Nat × Entry P => keyLt a.2 b.2)
      ((enumerate s.queued).filter fun e => fitsAvailable e.2.spec s)) ≠ none := by
    rw [Ne, minBy_none]
    intro hnil
    have : (i, e) ∈ (enumerate s.queued).filter fun e => fitsAvailable e.2.spec s := by simp [hi, hf]
    rw [hnil] at this
    simp at this
  obtain ⟨m, hm⟩ := Option.ne_none_iff_exists'.mp hne
  unfold best
  simp only [hm, Option.map_some]
  split
  · split <;> exact ⟨_, rfl⟩
  · exact ⟨_, rfl⟩

theorem isBest_unique {s : State P} (hord : ∀ e ∈ s.queued, e.order = e.id) {a b : Entry P}
    (ha : IsBest s a) (hb : IsBest s b) : a.id = b.id := by
  obtain ⟨ha1, ha2, ha3⟩ := ha
  obtain ⟨hb1, hb2, hb3⟩ := hb
  have oa := hord a ha1
  have ob := hord b hb1
  rcases ha3 with ⟨hc, hbg, hap, hall⟩ | ⟨hn, hall⟩
  · rcases hb3 with ⟨-, -, hbp, hball⟩ | ⟨hn, -⟩
    · have h1 := hall b hb1 hbp hb2
      have h2 := hball a ha1 hap ha2
      rw [ageLt_false] at h1 h2
      omega
    · exact absurd ⟨hc, hbg⟩ hn
  · rcases hb3 with ⟨hc, hbg, -⟩ | ⟨-, hball⟩
    · exact absurd ⟨hc, hbg⟩ hn
    · have h1 := hall b hb1 hb2
      have h2 := hball a ha1 ha2
      rw [keyLt_false] at h1 h2
      omega

/-- The inductive invariant. -/
structure Inv (policy : Policy) (s : State P) : Prop where
  policy_eq : s.policy = policy
  tasks_eq : s.tasks = s.leases.length
  cpu_eq : s.cpu = (s.leases.map (·.2.cpu)).sum
  mem_eq : s.mem = (s.leases.map (·.2.mem)).sum
  io_eq : s.io = (s.leases.map (·.2.io)).sum
  tasks_le : s.tasks ≤ s.peakTasks ∧ s.peakTasks ≤ s.policy.tasks
  cpu_le : s.cpu ≤ s.peakCpu ∧ s.peakCpu ≤ s.policy.cpu
  mem_le : s.mem ≤ s.peakMem ∧ s.peakMem ≤ s.policy.mem
  io_le : s.io ≤ s.peakIo ∧ s.peakIo ≤ s.policy.io
  counter_le : s.counter ≤ 1
  ids_nodup : (s.queued.map (·.id)).Nodup
  entries : ∀ e ∈ s.queued, e.id < s.nextId ∧ e.order = e.id ∧ e.prio = effectivePriority e.spec s.activeProject
  waiters_iff : ∀ i, (∃ e ∈ s.queued, e.id = i) ↔ s.waiters i ≠ none
  lease_ids : (s.leases.map (·.1)).Nodup
  lease_lt : ∀ l ∈ s.leases, l.1 < s.nextId ∧ ∀ e ∈ s.queued, e.id ≠ l.1
  awake : s.pendingNotify = 0 → s.leases = [] → ∀ e w, IsBest s e → s.waiters e.id = some w →
    w.pc = .sleeping → w.notified = true

theorem inv_init (policy : Policy) : Inv policy (init policy : State P) := by
  constructor <;> simp [init]

omit [LinearOrder P] in
theorem eq_of_id {s : State P} (h : (s.queued.map (·.id)).Nodup) {a b : Entry P} (ha : a ∈ s.queued) (hb : b ∈ s.queued)
    (hid : a.id = b.id) : a = b :=
  List.inj_on_of_nodup_map h ha hb hid

theorem queue_remove {s : State P} {policy : Policy} (h : Inv policy s) {k : Nat} {e : Entry P} (hk : s.queued[k]? = some e) :
    ((swapRemove s.queued k).map (·.id)).Nodup ∧
    (∀ x, x ∈ swapRemove s.queued k ↔ x ∈ s.queued ∧ x.id ≠ e.id) ∧
    (∀ i, (∃ x ∈ swapRemove s.queued k, x.id = i) ↔ setWaiter s.waiters e.id none i ≠ none) := by
  have hp := swapRemove_perm hk
  have hmap := hp.map (·.id)
  have hnd : ((e :: swapRemove s.queued k).map (·.id)).Nodup := hmap.nodup_iff.mpr h.ids_nodup
  simp only [List.map_cons, List.nodup_cons, List.mem_map, not_exists, not_and] at hnd
  have hmem : ∀ x, x ∈ swapRemove s.queued k ↔ x ∈ s.queued ∧ x.id ≠ e.id := by
    intro x
    rw [← hp.mem_iff, List.mem_cons]
    constructor
    · intro hx; exact ⟨Or.inr hx, hnd.1 x hx⟩
    · rintro ⟨rfl | hx, hne⟩
      · exact absurd rfl hne
      · exact hx
  refine ⟨hnd.2, hmem, ?_⟩
  intro i
  simp only [hmem, setWaiter]
  have := h.waiters_iff i
  by_cases hi : i = e.id
  · subst hi; simp
  · simp only [hi, if_false]
    rw [← this]
    constructor
    · rintro ⟨x, ⟨hx, -⟩, rfl⟩; exact ⟨x, hx, rfl⟩
    · rintro ⟨x, hx, rfl⟩; exact ⟨x, ⟨hx, hi⟩, rfl⟩

theorem dropRegistration_eq {policy : Policy} {s : State P} (h : Inv policy s) {id : Nat} (hw : s.waiters id ≠ none) :
    ∃ k e, s.queued[k]? = some e ∧ e.id = id ∧ dropRegistration s id =
      { s with waiters := setWaiter s.waiters id none, queued := swapRemove s.queued k, pendingNotify := s.pendingNotify + 1 } := by
  obtain ⟨e, he, rfl⟩ := (h.waiters_iff id).mpr hw
  unfold dropRegistration
  simp only
  split
  · rename_i k hk
    obtain ⟨hlt, hke, -⟩ := List.findIdx?_eq_some_iff_getElem.mp hk
    have hke' : s.queued[k].id = e.id := by simpa using hke
    refine ⟨k, e, ?_, rfl, rfl⟩
    rw [List.getElem?_eq_getElem hlt]
    congr 1
    exact eq_of_id h.ids_nodup (List.getElem_mem hlt) he hke'
  · rename_i hk
    rw [List.findIdx?_eq_none_iff] at hk
    have := hk e he
    simp at this

theorem inv_dropRegistration {policy : Policy} {s : State P} (h : Inv policy s) {id : Nat} (hw : s.waiters id ≠ none) :
    Inv policy (dropRegistration s id) := by
  obtain ⟨k, e, hk, rfl, heq⟩ := dropRegistration_eq h hw
  rw [heq]
  obtain ⟨h1, h2, h3⟩ := queue_remove h hk
  refine ⟨h.policy_eq, h.tasks_eq, h.cpu_eq, h.mem_eq, h.io_eq, h.tasks_le, h.cpu_le, h.mem_le, h.io_le, h.counter_le, h1,
    ?_, h3, h.lease_ids, ?_, ?_⟩
  · intro x hx; exact h.entries x ((h2 x).mp hx).1
  · intro l hl; exact ⟨(h.lease_lt l hl).1, fun x hx => (h.lease_lt l hl).2 x ((h2 x).mp hx).1⟩
  · intro h0; simp at h0

theorem inv_setWaiter {policy : Policy} {s : State P} (h : Inv policy s) {id : Nat} {w w' : Waiter} {n : Nat}
    (hw : s.waiters id = some w)
    (hawake : s.pendingNotify = 0 → s.leases = [] → ∀ e, IsBest s e → e.id = id → w'.pc = .sleeping → w'.notified = true) :
    Inv policy { s with waiters := setWaiter s.waiters id (some w'), cancelledBefore := n } := by
  refine ⟨h.policy_eq, h.tasks_eq, h.cpu_eq, h.mem_eq, h.io_eq, h.tasks_le, h.cpu_le, h.mem_le, h.io_le, h.counter_le,
    h.ids_nodup, h.entries, ?_, h.lease_ids, h.lease_lt, ?_⟩
  · intro i
    simp only [setWaiter]
    rw [h.waiters_iff i]
    by_cases hi : i = id
    · subst hi; simp [hw]
    · simp [hi]
  · intro h0 hl e x hb hx hpc
    simp only [setWaiter] at hx
    by_cases hi : e.id = id
    · simp only [hi, if_true, Option.some.injEq] at hx
      subst hx
      exact hawake h0 hl e hb hi hpc
    · simp only [hi, if_false] at hx
      exact h.awake h0 hl e x hb hx hpc

/-- What `check` does. -/
inductive CheckSpec (s : State P) (id : Nat) (w : Waiter) : Outcome (State P) → Prop where
  | sleep (h : ∀ k e, best s = some k → s.queued[k]? = some e → e.id ≠ id) :
      CheckSpec s id w (.ok { s with waiters := setWaiter s.waiters id (some { w with pc := .sleeping }) })
  | admit (k : Nat) (e : Entry P) (c : Nat)
      (hk : best s = some k) (hke : s.queued[k]? = some e) (hid : e.id = id) (hb : IsBest s e)
      (hc0 : e.prio = .background ∨ ¬ BgFits s → c = 0)
      (hc1 : e.prio ≠ .background → BgFits s → s.counter = 0 ∧ c = 1) :
      CheckSpec s id w (.ok { s with
        queued := swapRemove s.queued k
        tasks := s.tasks + 1
        cpu := s.cpu + e.spec.cpu
        mem := s.mem + e.spec.mem
        io := s.io + e.spec.io
        peakTasks := max s.peakTasks (s.tasks + 1)
        peakCpu := max s.peakCpu (s.cpu + e.spec.cpu)
        peakMem := max s.peakMem (s.mem + e.spec.mem)
        peakIo := max s.peakIo (s.io + e.spec.io)
        counter := c
        leases := (id, e.spec) :: s.leases
        waiters := setWaiter s.waiters id none })

theorem check_spec {policy : Policy} {s : State P} (h : Inv policy s) (id : Nat) (w : Waiter) :
    CheckSpec s id w (check s id w) := by
  unfold check
  simp only
  split
  · rename_i k hk
    obtain ⟨e, hke, hb⟩ := best_spec hk
    simp only [hke]
    split
    · rename_i hid
      subst hid
      obtain ⟨hmem, hfit, hsel⟩ := id hb
      unfold admit
      simp only [hfit, if_true]
      generalize hbw : (s.queued.any fun x => decide (x.id ≠ e.id) && x.prio == Prio.background && fitsAvailable x.spec s) = bw
      have hbt : e.prio ≠ .background → (bw = true ↔ BgFits s) := by
        intro hne
        rw [← hbw]
        simp only [List.any_eq_true, Bool.and_eq_true, decide_eq_true_eq, beq_iff_eq, BgFits]
        constructor
        · rintro ⟨x, hx, ⟨-, h1⟩, h2⟩; exact ⟨x, hx, h1, h2⟩
        · rintro ⟨x, hx, h1, h2⟩
          refine ⟨x, hx, ⟨?_, h1⟩, h2⟩
          intro hid
          have := eq_of_id h.ids_nodup hx hmem hid
          subst this
          exact hne h1
      by_cases hcase : e.prio = .background ∨ bw = false
      · simp only [hcase, if_true, maxPriorityAdmissions, gt_iff_lt, Nat.not_lt_zero, if_false]
        refine CheckSpec.admit k e 0 hk hke rfl hb (fun _ => rfl) ?_
        intro h1 h2
        rcases hcase with hc | hc
        · exact absurd hc h1
        · rw [(hbt h1).mpr h2] at hc; cases hc
      · have hne : e.prio ≠ .background := fun h => hcase (Or.inl h)
        have hbv : bw = true := by
          cases hbv : bw with
          | true => rfl
          | false => exact absurd (Or.inr hbv) hcase
        have hrun := (hbt hne).mp hbv
        have hc0 : s.counter = 0 := by
          rcases hsel with ⟨-, -, hbg, -⟩ | ⟨hn, -⟩
          · exact absurd hbg hne
          · by_contra hcne
            exact hn ⟨by omega, hrun⟩
        simp only [hcase, if_false, maxPriorityAdmissions, hc0, Nat.zero_add, gt_iff_lt, Nat.lt_irrefl]
        refine CheckSpec.admit k e 1 hk hke rfl hb ?_ (fun _ _ => ⟨hc0, rfl⟩)
        rintro (hbg | hn)
        · exact absurd hbg hne
        · exact absurd hrun hn
    · rename_i hid
      refine CheckSpec.sleep ?_
      intro k' e' hk' hke'
      rw [hk] at hk'
      cases hk'
      rw [hke] at hke'
      cases hke'
      exact hid
  · rename_i hk
    refine CheckSpec.sleep ?_
    intro k' e' hk'
    rw [hk] at hk'
    cases hk'

theorem fits_iff {spec : Spec P} {s : State P} : fitsAvailable spec s = true ↔
    blockedByNavigation spec s = false ∧ s.tasks < s.policy.tasks ∧ s.cpu + spec.cpu ≤ s.policy.cpu ∧
      s.mem + spec.mem ≤ s.policy.mem ∧ s.io + spec.io ≤ s.policy.io := by
  simp [fitsAvailable, and_assoc]

theorem inv_check {policy : Policy} {s t : State P} (h : Inv policy s) {id : Nat} {w : Waiter}
    (hw : s.waiters id = some w) (ht : check s id w = .ok t) : Inv policy t := by
  have hs := check_spec h id w
  rw [ht] at hs
  cases hs with
  | sleep hs =>
    refine inv_setWaiter (n := s.cancelledBefore) h hw ?_
    intro _ _ e hb hid
    obtain ⟨k, hk⟩ := best_isSome hb.1 hb.2.1
    obtain ⟨e', hke', hb'⟩ := best_spec hk
    have := isBest_unique (fun e he => (h.entries e he).2.1) hb hb'
    exact absurd (this.symm.trans hid) (hs k e' hk hke')
  | admit k e c hk hke hid hb hc0 hc1 =>
    subst hid
    obtain ⟨hmem, hfit, hsel⟩ := hb
    obtain ⟨-, ft, fc, fm, fi⟩ := fits_iff.mp hfit
    obtain ⟨h1, h2, h3⟩ := queue_remove h hke
    have tl := h.tasks_le
    have cl := h.cpu_le
    have ml := h.mem_le
    have il := h.io_le
    refine ⟨h.policy_eq, ?_, ?_, ?_, ?_, ?_, ?_, ?_, ?_, ?_, h1, ?_, h3, ?_, ?_, ?_⟩
    · simp [h.tasks_eq]
    · simp only [List.map_cons, List.sum_cons, h.cpu_eq]; omega
    · simp only [List.map_cons, List.sum_cons, h.mem_eq]; omega
    · simp only [List.map_cons, List.sum_cons, h.io_eq]; omega
    · simp only; omega
    · simp only; omega
    · simp only; omega
    · simp only; omega
    · show c ≤ 1
      by_cases hbg : e.prio = .background
      · rw [hc0 (Or.inl hbg)]; omega
      · by_cases hr : BgFits s
        · exact Nat.le_of_eq (hc1 hbg hr).2
        · rw [hc0 (Or.inr hr)]; omega
    · intro x hx; exact h.entries x ((h2 x).mp hx).1
    · simp only [List.map_cons, List.nodup_cons]
      refine ⟨?_, h.lease_ids⟩
      intro hc
      obtain ⟨l, hl, hle⟩ := List.mem_map.mp hc
      exact (h.lease_lt l hl).2 e hmem hle.symm
    · intro l hl
      rcases List.mem_cons.mp hl with rfl | hl
      · exact ⟨(h.entries e hmem).1, fun x hx => ((h2 x).mp hx).2⟩
      · exact ⟨(h.lease_lt l hl).1, fun x hx => (h.lease_lt l hl).2 x ((h2 x).mp hx).1⟩
    · intro _ hl; simp at hl

omit [LinearOrder P] in
theorem find_lease {s : State P} {id : Nat} {l : Nat × Spec P} (h : s.leases.find? (fun l => l.1 == id) = some l) :
    l ∈ s.leases ∧ l.1 = id := by
  exact ⟨List.mem_of_find?_eq_some h, by simpa using List.find?_some h⟩

theorem sum_erase {l : List (Nat × Spec P)} {x : Nat × Spec P} (f : Spec P → Nat) (h : x ∈ l) :
    f x.2 + ((l.erase x).map (fun y => f y.2)).sum = (l.map (fun y => f y.2)).sum := by
  have := ((List.perm_cons_erase h).map (fun y => f y.2)).sum_eq
  simpa using this.symm

theorem release_ok {policy : Policy} {s : State P} (h : Inv policy s) {id : Nat} {spec : Spec P} {how : End}
    (hl : (id, spec) ∈ s.leases) : release s id spec how ≠ .panic := by
  unfold release
  have h1 := sum_erase (·.cpu) hl
  have h2 := sum_erase (·.mem) hl
  have h3 := sum_erase (·.io) hl
  have h4 := List.length_pos_of_mem hl
  simp only at h1 h2 h3
  rw [← h.cpu_eq] at h1
  rw [← h.mem_eq] at h2
  rw [← h.io_eq] at h3
  rw [← h.tasks_eq] at h4
  rw [if_neg (by omega)]
  simp

theorem not_panic {policy : Policy} {s : State P} (h : Inv policy s) {op : Op P}
    (hop : ∀ spec, op = .acquire spec → fitsPolicy spec policy = true) : step s op ≠ .panic := by
  cases op with
  | acquire spec => simp [step, acquire, h.policy_eq, hop spec rfl]
  | arm id => simp only [step]; split <;> (try split) <;> simp
  | check id =>
    simp only [step]
    split
    · split
      · rename_i w _ _
        have := check_spec h id w
        intro hp
        rw [hp] at this
        cases this
      · simp
    · simp
  | wake id => simp only [step]; split <;> (try split) <;> simp
  | cancel id => simp only [step]; split <;> simp
  | recordCancelled id => simp only [step]; split <;> (try split) <;> simp
  | drop id => simp only [step]; split <;> (try split) <;> simp
  | prioritize => simp [step]
  | markPending => simp only [step]; split <;> simp
  | markComplete => simp only [step]; split <;> simp
  | release id how =>
    simp only [step]
    split
    · rename_i l hl
      obtain ⟨h1, rfl⟩ := find_lease hl
      exact release_ok h h1
    · simp
  | notify => simp only [step]; split <;> simp

theorem wakeAll_ne_none (w : Nat → Option Waiter) (i : Nat) : wakeAll w i ≠ none ↔ w i ≠ none := by
  simp [wakeAll]

theorem inv_step {policy : Policy} {s t : State P} (h : Inv policy s) (op : Op P) (ht : step s op = .ok t) : Inv policy t := by
  cases op with
  | acquire spec =>
    simp only [step, acquire] at ht
    split at ht
    · simp only [Outcome.ok.injEq] at ht
      subst ht
      refine ⟨h.policy_eq, h.tasks_eq, h.cpu_eq, h.mem_eq, h.io_eq, h.tasks_le, h.cpu_le, h.mem_le, h.io_le, h.counter_le,
        ?_, ?_, ?_, h.lease_ids, ?_, ?_⟩
      · simp only [List.map_append, List.map_cons, List.map_nil]
        rw [List.nodup_append]
        refine ⟨h.ids_nodup, by simp, ?_⟩
        intro a ha b hb
        simp only [List.mem_map] at ha
        obtain ⟨e, he, rfl⟩ := ha
        simp only [List.mem_singleton] at hb
        have := (h.entries e he).1
        omega
      · intro e he
        simp only [List.mem_append, List.mem_singleton] at he
        rcases he with he | rfl
        · obtain ⟨h1, h2, h3⟩ := h.entries e he
          exact ⟨Nat.lt_succ_of_lt h1, h2, h3⟩
        · exact ⟨Nat.lt_succ_self _, rfl, rfl⟩
      · intro i
        simp only [setWaiter, List.mem_append, List.mem_singleton]
        have := h.waiters_iff i
        by_cases hi : i = s.nextId
        · simp only [hi, if_true]
          constructor
          · intro _; simp
          · intro _; exact ⟨_, Or.inr rfl, rfl⟩
        · simp only [hi, if_false, ← this]
          constructor
          · rintro ⟨e, he | rfl, rfl⟩
            · exact ⟨e, he, rfl⟩
            · exact absurd rfl hi
          · rintro ⟨e, he, rfl⟩; exact ⟨e, Or.inl he, rfl⟩
      · intro l hl
        obtain ⟨h1, h2⟩ := h.lease_lt l hl
        refine ⟨Nat.lt_succ_of_lt h1, ?_⟩
        intro e he
        simp only [List.mem_append, List.mem_singleton] at he
        rcases he with he | rfl
        · exact h2 e he
        · simp only; omega
      · intro h0 hl e w hb hw hpc
        simp only [setWaiter] at hw
        by_cases hi : e.id = s.nextId
        · simp only [hi, if_true, Option.some.injEq] at hw
          subst hw
          simp at hpc
        · simp only [hi, if_false] at hw
          refine h.awake h0 hl e w ?_ hw hpc
          obtain ⟨hm, hf, hsel⟩ := hb
          simp only [List.mem_append, List.mem_singleton] at hm
          have hm' : e ∈ s.queued := by
            rcases hm with hm | rfl
            · exact hm
            · exact absurd rfl hi
          refine ⟨hm', hf, ?_⟩
          have fits_same : ∀ sp : Spec P, fitsAvailable sp { s with
              nextId := s.nextId + 1
              queued := s.queued ++ [{ id := s.nextId, spec, prio := effectivePriority spec s.activeProject, order := s.nextId }]
              waiters := setWaiter s.waiters s.nextId (some { pc := .ready, notified := false, cancelled := false }) }
              = fitsAvailable sp s := fun _ => rfl
          rcases hsel with ⟨hc, -, hp, hall⟩ | ⟨hn, hall⟩
          · left
            refine ⟨hc, ⟨e, hm', hp, hf⟩, hp, ?_⟩
            intro e' he' hp' hf'
            exact hall e' (List.mem_append_left _ he') hp' hf'
          · right
            refine ⟨?_, ?_⟩
            · rintro ⟨hc, x, hx, hxp, hxf⟩
              exact hn ⟨hc, x, List.mem_append_left _ hx, hxp, hxf⟩
            · intro e' he' hf'
              exact hall e' (List.mem_append_left _ he') hf'
    · cases ht
  | arm id =>
    simp only [step] at ht
    split at ht
    · rename_i w hw
      split at ht
      · simp only [Outcome.ok.injEq] at ht; subst ht
        exact inv_setWaiter (n := s.cancelledBefore) h hw (by simp)
      · cases ht
    · cases ht
  | check id =>
    simp only [step] at ht
    split at ht
    · rename_i w hw
      split at ht
      · exact inv_check h hw ht
      · cases ht
    · cases ht
  | wake id =>
    simp only [step] at ht
    split at ht
    · rename_i w hw
      split at ht
      · simp only [Outcome.ok.injEq] at ht; subst ht
        exact inv_setWaiter (n := s.cancelledBefore) h hw (by simp)
      · cases ht
    · cases ht
  | cancel id =>
    simp only [step] at ht
    split at ht
    · rename_i w hw
      simp only [Outcome.ok.injEq] at ht; subst ht
      refine inv_setWaiter (n := s.cancelledBefore) h hw ?_
      intro h0 hl e hb hid hpc
      subst hid
      exact h.awake h0 hl e w hb hw hpc
    · cases ht
  | recordCancelled id =>
    simp only [step] at ht
    split at ht
    · rename_i w hw
      split at ht
      · simp only [Outcome.ok.injEq] at ht; subst ht
        exact inv_setWaiter h hw (by simp)
      · cases ht
    · cases ht
  | drop id =>
    simp only [step] at ht
    split at ht
    · rename_i w hw
      split at ht
      · simp only [Outcome.ok.injEq] at ht; subst ht
        exact inv_dropRegistration h (by simp [hw])
      · cases ht
    · cases ht
  | prioritize root nav =>
    simp only [step, Outcome.ok.injEq] at ht
    subst ht
    refine ⟨h.policy_eq, h.tasks_eq, h.cpu_eq, h.mem_eq, h.io_eq, h.tasks_le, h.cpu_le, h.mem_le, h.io_le, h.counter_le,
      ?_, ?_, ?_, h.lease_ids, ?_, ?_⟩
    · simp only [prioritize, List.map_map]
      exact h.ids_nodup
    · intro e he
      simp only [prioritize, List.mem_map] at he
      obtain ⟨x, hx, rfl⟩ := he
      obtain ⟨h1, h2, -⟩ := h.entries x hx
      exact ⟨h1, h2, rfl⟩
    · intro i
      simp only [prioritize, List.mem_map]
      rw [← h.waiters_iff i]
      constructor
      · rintro ⟨e, ⟨x, hx, rfl⟩, rfl⟩; exact ⟨x, hx, rfl⟩
      · rintro ⟨x, hx, rfl⟩; exact ⟨_, ⟨x, hx, rfl⟩, rfl⟩
    · intro l hl
      obtain ⟨h1, h2⟩ := h.lease_lt l hl
      refine ⟨h1, ?_⟩
      intro e he
      simp only [prioritize, List.mem_map] at he
      obtain ⟨x, hx, rfl⟩ := he
      exact h2 x hx
    · intro h0 hl e w hb hw hpc
      have h0' := h0
      simp only [prioritize] at h0'
      split at h0'
      · simp at h0'
      · rename_i hch
        push Not at hch
        obtain ⟨c1, c2, c3⟩ := hch
        have heq : prioritize s root nav = s := by
          have hn : ¬(s.activeProject ≠ some root ∨ s.navPending ≠ nav ∨
            (s.queued.map fun e => { e with prio := effectivePriority e.spec (some root) }) ≠ s.queued) := by
            push Not; exact ⟨c1, c2, c3⟩
          unfold prioritize
          simp only [c3]
          rw [if_neg (by simp [c1]), ← c1, ← c2]
          simp
        rw [heq] at hb hw
        exact h.awake h0' hl e w hb hw hpc
  | markPending root =>
    simp only [step] at ht
    split at ht
    · simp only [Outcome.ok.injEq] at ht; subst ht
      exact ⟨h.policy_eq, h.tasks_eq, h.cpu_eq, h.mem_eq, h.io_eq, h.tasks_le, h.cpu_le, h.mem_le, h.io_le, h.counter_le,
        h.ids_nodup, h.entries, h.waiters_iff, h.lease_ids, h.lease_lt, by intro h0; simp at h0⟩
    · simp only [Outcome.ok.injEq] at ht; subst ht; exact h
  | markComplete root =>
    simp only [step] at ht
    split at ht
    · simp only [Outcome.ok.injEq] at ht; subst ht
      exact ⟨h.policy_eq, h.tasks_eq, h.cpu_eq, h.mem_eq, h.io_eq, h.tasks_le, h.cpu_le, h.mem_le, h.io_le, h.counter_le,
        h.ids_nodup, h.entries, h.waiters_iff, h.lease_ids, h.lease_lt, by intro h0; simp at h0⟩
    · simp only [Outcome.ok.injEq] at ht; subst ht; exact h
  | release id how =>
    simp only [step] at ht
    split at ht
    · rename_i l hl
      obtain ⟨hmem, rfl⟩ := find_lease hl
      obtain ⟨lid, lspec⟩ := l
      unfold release at ht
      split at ht
      · cases ht
      · simp only [Outcome.ok.injEq] at ht; subst ht
        have h1 := sum_erase (·.cpu) hmem
        have h2 := sum_erase (·.mem) hmem
        have h3 := sum_erase (·.io) hmem
        dsimp only at h1 h2 h3
        have tl := h.tasks_le
        have cl := h.cpu_le
        have ml := h.mem_le
        have il := h.io_le
        refine ⟨h.policy_eq, ?_, ?_, ?_, ?_, ?_, ?_, ?_, ?_, h.counter_le, h.ids_nodup, h.entries, h.waiters_iff, ?_, ?_, ?_⟩
        · simp only [List.length_erase_of_mem hmem, h.tasks_eq]
        · have := h.cpu_eq; simp only; omega
        · have := h.mem_eq; simp only; omega
        · have := h.io_eq; simp only; omega
        · simp only; omega
        · simp only; omega
        · simp only; omega
        · simp only; omega
        · exact h.lease_ids.sublist ((List.erase_sublist).map _)
        · intro x hx; exact h.lease_lt x (List.mem_of_mem_erase hx)
        · intro h0; simp at h0
    · cases ht
  | notify =>
    simp only [step] at ht
    split at ht
    · cases ht
    · simp only [Outcome.ok.injEq] at ht; subst ht
      refine ⟨h.policy_eq, h.tasks_eq, h.cpu_eq, h.mem_eq, h.io_eq, h.tasks_le, h.cpu_le, h.mem_le, h.io_le, h.counter_le,
        h.ids_nodup, h.entries, ?_, h.lease_ids, h.lease_lt, ?_⟩
      · intro i
        rw [h.waiters_iff i]
        exact (wakeAll_ne_none s.waiters i).symm
      · intro _ _ e w _ hw hpc
        simp only [wakeAll, Option.map_eq_some_iff] at hw
        obtain ⟨x, _, rfl⟩ := hw
        split
        · rfl
        · rename_i hr; rw [if_neg hr] at hpc; exact absurd (Or.inr hpc) hr

theorem reachable_inv {policy : Policy} {s : State P} (h : Reachable policy s) : Inv policy s := by
  induction h with
  | init => exact inv_init policy
  | step op _ ht ih => exact inv_step ih op ht

end Verif.Governor
