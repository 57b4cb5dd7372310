import Verif.Spec.CacheLimits
import Verif.Lemmas.Sort
/-!
Lemmas on the limits of the persistent cache.
-/
namespace Verif.CacheLimits

theorem size_nil : size [] = 0 := rfl
theorem size_cons (e : Entry) (es : List Entry) : size (e :: es) = e.bytes + size es := by simp [size]
theorem size_append (a b : List Entry) : size (a ++ b) = size a + size b := by simp [size]

theorem size_filter_le (f : Entry → Bool) (es : List Entry) : size (es.filter f) ≤ size es := by
  induction es with
  | nil => exact Nat.le_refl _
  | cons e es ih =>
    rw [List.filter_cons]
    split
    · rw [size_cons, size_cons]; omega
    · rw [size_cons]; omega

theorem size_perm {a b : List Entry} (h : a.Perm b) : size a = size b := (h.map _).sum_nat

theorem checkedSum_some {es : List Entry} {t r : Nat} (h : checkedSum es t = some r) : r = t + size es := by
  induction es generalizing t with
  | nil => rw [checkedSum] at h; injection h with h; rw [size_nil]; omega
  | cons e es ih =>
    rw [checkedSum] at h
    split at h
    · have := ih h; rw [size_cons]; omega
    · exact absurd h (by simp)

theorem checkedSum_small {es : List Entry} {t : Nat} (h : t + size es ≤ top) : checkedSum es t = some (t + size es) := by
  induction es generalizing t with
  | nil => rfl
  | cons e es ih =>
    rw [size_cons] at h
    rw [checkedSum, if_pos (by omega), ih (by omega), size_cons]
    congr 1; omega

/-- Whatever the removals answer, a first part of the list is gone. -/
theorem sweep_prefix (L : Limits) (out : Entry → Removal) (es : List Entry) (c t : Nat) : ∃ rest, es = (sweep L out es c t).1 ++ rest := by
  induction es generalizing c t with
  | nil => exact ⟨[], rfl⟩
  | cons e es ih =>
    rw [sweep]
    split
    · exact ⟨e :: es, rfl⟩
    · split
      · split
        · obtain ⟨rest, hr⟩ := ih (c - 1) (t - e.bytes)
          exact ⟨rest, by rw [List.cons_append]; exact congrArg _ hr⟩
        · exact ⟨es, rfl⟩
      · obtain ⟨rest, hr⟩ := ih c t
        exact ⟨rest, by rw [List.cons_append]; exact congrArg _ hr⟩
      · exact ⟨e :: es, rfl⟩

/-- The loop never underflows: what it counts is never less than what is there. -/
theorem sweep_no_underflow (L : Limits) (out : Entry → Removal) (es : List Entry) (c t : Nat) (hc : es.length ≤ c) (ht : size es ≤ t) :
    (sweep L out es c t).2 ≠ .underflow := by
  induction es generalizing c t with
  | nil => simp [sweep]
  | cons e es ih =>
    rw [size_cons] at ht
    rw [List.length_cons] at hc
    rw [sweep]
    split
    · simp
    · split
      · rw [if_pos (by omega)]
        exact ih (c - 1) (t - e.bytes) (by omega) (by omega)
      · exact ih c t (by omega) (by omega)
      · simp

theorem sweep_done {L : Limits} {out : Entry → Removal} {es gone : List Entry} {c t c' t' : Nat} (h : sweep L out es c t = (gone, .done c' t'))
    (hc : es.length ≤ c) (ht : size es ≤ t) :
    ∃ rest, es = gone ++ rest ∧ rest.length ≤ c' ∧ size rest ≤ t' ∧ (rest = [] ∨ (c' ≤ L.maxEntries ∧ t' ≤ L.maxBytes)) := by
  induction es generalizing gone c t with
  | nil =>
    rw [sweep] at h
    injection h with h1 h2
    injection h2 with h2 h3
    subst h1; subst h2; subst h3
    exact ⟨[], rfl, Nat.zero_le _, Nat.zero_le _, .inl rfl⟩
  | cons e es ih =>
    have ht0 := ht
    rw [size_cons] at ht
    rw [List.length_cons] at hc
    rw [sweep] at h
    split at h
    · next hl =>
      injection h with h1 h2
      injection h2 with h2 h3
      subst h1; subst h2; subst h3
      exact ⟨e :: es, rfl, by rw [List.length_cons]; omega, ht0, .inr hl⟩
    · split at h
      · rw [if_pos (by omega)] at h
        injection h with h1 h2
        obtain ⟨rest, hr, h3⟩ := ih (Prod.ext rfl h2 : sweep L out es (c - 1) (t - e.bytes) = ((sweep L out es (c - 1) (t - e.bytes)).1, .done c' t')) (by omega) (by omega)
        exact ⟨rest, by rw [← h1, List.cons_append, ← hr], h3⟩
      · injection h with h1 h2
        obtain ⟨rest, hr, h3⟩ := ih (Prod.ext rfl h2 : sweep L out es c t = ((sweep L out es c t).1, .done c' t')) (by omega) (by omega)
        exact ⟨rest, by rw [← h1, List.cons_append, ← hr], h3⟩
      · injection h with h1 h2
        exact absurd h2 (by simp)

theorem remaining_le {disk gone rest : List Entry} (h : disk.Perm (gone ++ rest)) :
    (remaining disk gone).length ≤ rest.length ∧ size (remaining disk gone) ≤ size rest := by
  have hp : (remaining disk gone).Perm (remaining (gone ++ rest) gone) := h.filter _
  have he : remaining (gone ++ rest) gone = rest.filter (fun e => !gone.contains e) := by
    rw [remaining, List.filter_append]
    have : gone.filter (fun e => !gone.contains e) = [] := by
      rw [List.filter_eq_nil_iff]
      intro a ha
      simp [ha]
    rw [this, List.nil_append]
  rw [he] at hp
  rw [hp.length_eq, size_perm hp]
  exact ⟨List.length_filter_le _ _, size_filter_le _ _⟩

theorem cleanup_cases {L : Limits} {out : Entry → Removal} {disk gone : List Entry} {o : Outcome} (h : cleanup L out disk = some (gone, o)) :
    sweep L out (stableSort entryLe disk) disk.length (size disk) = (gone, o) := by
  rw [cleanup] at h
  split at h
  · exact absurd h (by simp)
  · next total ht =>
    have := checkedSum_some ht
    rw [Nat.zero_add] at this
    subst this
    injection h

/-- After a cleanup that ends, what is left keeps the limits, and the accounting counts at least what is left. -/
theorem cleanup_within {L : Limits} {out : Entry → Removal} {disk gone : List Entry} {c t : Nat} (h : cleanup L out disk = some (gone, .done c t)) :
    Within L (remaining disk gone) ∧ (remaining disk gone).length ≤ c ∧ size (remaining disk gone) ≤ t := by
  have hs := cleanup_cases h
  have hp : (stableSort entryLe disk).Perm disk := stableSort_perm disk
  obtain ⟨rest, he, hc, ht, hl⟩ := sweep_done hs (Nat.le_of_eq hp.length_eq) (Nat.le_of_eq (size_perm hp))
  rw [he] at hp
  have hr := remaining_le hp.symm
  refine ⟨?_, by omega, by omega⟩
  rcases hl with hl | hl
  · subst hl
    rw [List.length_nil, size_nil] at hr
    exact ⟨by omega, by omega⟩
  · exact ⟨by omega, by omega⟩

theorem remaining_small (disk gone : List Entry) : (remaining disk gone).length ≤ disk.length ∧ size (remaining disk gone) ≤ size disk :=
  ⟨List.length_filter_le _ _, size_filter_le _ _⟩

/-! The order. -/

theorem entryLe_order : IsOrder entryLe where
  total a b := by
    unfold entryLe
    by_cases h1 : a.modified < b.modified
    · simp [h1]
    · by_cases h2 : b.modified < a.modified
      · simp [h2]
      · simp [h1, h2]; omega
  trans a b c := by
    unfold entryLe
    intro hab hbc
    by_cases h1 : a.modified < b.modified <;> by_cases h2 : b.modified < a.modified <;> by_cases h3 : b.modified < c.modified <;>
      by_cases h4 : c.modified < b.modified <;> simp [h1, h2, h3, h4] at hab hbc <;> by_cases h5 : a.modified < c.modified <;>
      by_cases h6 : c.modified < a.modified <;> simp [h5, h6] <;> omega

theorem entryLe_before {a b : Entry} (h : entryLe a b = true) (hp : a.path ≠ b.path) : Before a b := by
  unfold entryLe at h
  split at h
  · exact .inl (by assumption)
  · split at h
    · exact absurd h (by simp)
    · exact .inr ⟨by omega, by simp at h; omega⟩

theorem before_asymm {a b : Entry} (h : Before a b) : ¬ Before b a := by
  rcases h with h | ⟨h, h'⟩ <;> rintro (g | ⟨g, g'⟩) <;> omega

/-! Sums over processes. -/

theorem sum_set {f : Proc → Nat} {ps : List Proc} {p : Nat} {q q' : Proc} (h : ps[p]? = some q) :
    ((ps.set p q').map f).sum + f q = (ps.map f).sum + f q' := by
  induction ps generalizing p with
  | nil => exact absurd h (by simp)
  | cons a ps ih =>
    cases p with
    | zero =>
      simp at h; subst h
      simp; omega
    | succ p =>
      simp at h
      have := ih h
      simp only [List.set_cons_succ, List.map_cons, List.sum_cons]; omega

/-! How far the limits can be exceeded. -/

/-- How many publications of a process may have gone unnoticed since its last scan. -/
def due (L : Limits) (q : Proc) : Nat :=
  if q.acct.initialized = true ∧ q.acct.entries ≤ L.maxEntries ∧ q.acct.bytes ≤ L.maxBytes then min rescan q.acct.since else rescan

theorem due_le (L : Limits) (q : Proc) : due L q ≤ rescan := by
  unfold due
  split <;> omega

def debt (L : Limits) (q : Proc) : Nat := due L q + q.inflight

def debts (L : Limits) (s : State) : Nat := (s.procs.map (debt L)).sum

def Bound (L : Limits) (disk : List Entry) (k : Nat) : Prop := disk.length ≤ L.maxEntries + k ∧ size disk ≤ L.maxBytes + entryMax * k

theorem Bound.mono {L : Limits} {disk disk' : List Entry} {k k' : Nat} (h : Bound L disk k) (h1 : disk'.length ≤ disk.length) (h2 : size disk' ≤ size disk)
    (hk : k ≤ k') : Bound L disk' k' := by
  have := Nat.mul_le_mul_left entryMax hk
  exact ⟨by have := h.1; omega, by have := h.2; omega⟩

theorem Within.bound {L : Limits} {disk : List Entry} (h : Within L disk) (k : Nat) : Bound L disk k :=
  ⟨by have := h.1; omega, by have := h.2; omega⟩

theorem debts_put {L : Limits} {s : State} {p : Nat} {q q' : Proc} (h : s.procs[p]? = some q) :
    ((s.procs.set p q').map (debt L)).sum + debt L q = debts L s + debt L q' := sum_set h

theorem due_congr {L : Limits} {q q' : Proc} (h : q'.acct = q.acct) : due L q' = due L q := by
  unfold due; rw [h]

theorem erase_length {l : List Nat} {b : Nat} (h : b ∈ l) : (l.erase b).length + 1 = l.length := by
  have := List.length_erase_of_mem h
  have := List.length_pos_of_mem h
  omega

theorem note_fits {L : Limits} (hL : L.Small) {a : Accounting} {b : Nat} (ho : (a.note b).over L = false) :
    a.entries + 1 ≤ L.maxEntries ∧ a.bytes + b ≤ L.maxBytes ∧ a.since + 1 < rescan ∧ (a.note b).entries = a.entries + 1 ∧ (a.note b).bytes = a.bytes + b ∧
      (a.note b).since = a.since + 1 := by
  have h1 : (a.note b).entries = saturate a.entries 1 := rfl
  have h2 : (a.note b).bytes = saturate a.bytes b := rfl
  have h3 : (a.note b).since = saturate a.since 1 := rfl
  obtain ⟨l1, l2⟩ := hL
  unfold Accounting.over at ho
  rw [h1, h2, h3] at ho
  rw [h1, h2, h3]
  simp only [Bool.or_eq_false_iff, decide_eq_false_iff_not] at ho
  obtain ⟨⟨g1, g2⟩, g3⟩ := ho
  unfold saturate rescan at *
  have : top = 18446744073709551615 := rfl
  refine ⟨by omega, by omega, by omega, by omega, by omega, by omega⟩

theorem note_due {L : Limits} (hL : L.Small) {q q' : Proc} {b : Nat} (ho : (q.acct.note b).over L = false) (hq : q'.acct = q.acct.note b)
    (hi : q.acct.initialized = true) : due L q' = due L q + 1 := by
  obtain ⟨h1, h2, h3, h4, h5, h6⟩ := note_fits hL ho
  have h7 : (q.acct.note b).initialized = q.acct.initialized := rfl
  unfold due
  rw [hq, h4, h5, h6, h7, if_pos ⟨hi, h1, h2⟩, if_pos ⟨hi, by omega, by omega⟩]
  omega

theorem note_due_le {L : Limits} (hL : L.Small) {q q' : Proc} {b : Nat} (hq : q'.acct = q.acct.note b) : due L q ≤ due L q' := by
  have h1 : (q.acct.note b).entries = saturate q.acct.entries 1 := rfl
  have h2 : (q.acct.note b).bytes = saturate q.acct.bytes b := rfl
  have h3 : (q.acct.note b).since = saturate q.acct.since 1 := rfl
  have h4 : (q.acct.note b).initialized = q.acct.initialized := rfl
  obtain ⟨l1, l2⟩ := hL
  have ht : 64 ≤ top := by decide
  by_cases hw : q'.acct.initialized = true ∧ q'.acct.entries ≤ L.maxEntries ∧ q'.acct.bytes ≤ L.maxBytes
  · have e1 : due L q' = min rescan q'.acct.since := by unfold due; rw [if_pos hw]
    obtain ⟨g1, g2, g3⟩ := hw
    rw [hq, h4] at g1
    rw [hq, h1] at g2
    rw [hq, h2] at g3
    have e2 : due L q = min rescan q.acct.since := by
      unfold due
      unfold saturate at g2 g3
      clear h1 h2 h3 h4 hq e1
      generalize top = T at *
      rw [if_pos ⟨g1, by omega, by omega⟩]
    rw [e1, e2, hq, h3]
    unfold saturate rescan
    clear h1 h2 h3 h4 hq e1 e2 g2 g3
    generalize top = T at *
    omega
  · have e1 : due L q' = rescan := by unfold due; rw [if_neg hw]
    rw [e1]
    exact due_le L q

theorem due_fresh (L : Limits) {q : Proc} (h : q.acct.initialized = false) : due L q = rescan := by
  unfold due
  rw [if_neg (by rw [h]; simp)]

/-- One step exceeds the limits by no more than is owed. -/
theorem step_bound {L : Limits} (hL : L.Small) {s s' : State} {ev : Event} {k : Nat} (hb : Bound L s.disk (debts L s + k)) (h : step L s ev = some s') :
    Bound L s'.disk (debts L s' + (k + loses L s ev)) := by
  have same : ∀ {p : Nat} {q q' : Proc} {disk : List Entry} {temps : List Nat}, s.procs[p]? = some q →
      disk.length ≤ s.disk.length → size disk ≤ size s.disk → debt L q ≤ debt L q' + loses L s ev →
      Bound L disk (debts L { s with disk := disk, temps := temps, procs := s.procs.set p q' } + (k + loses L s ev)) := by
    intro p q q' disk temps hp h1 h2 h3
    have := debts_put (L := L) (q' := q') hp
    refine hb.mono h1 h2 ?_
    show _ ≤ ((s.procs.set p q').map (debt L)).sum + _
    omega
  have filt : ∀ path : Nat, (s.disk.filter (fun e => e.path != path)).length ≤ s.disk.length ∧ size (s.disk.filter (fun e => e.path != path)) ≤ size s.disk :=
    fun path => ⟨List.length_filter_le _ _, size_filter_le _ _⟩
  cases ev with
  | init p =>
    rw [step] at h
    split at h
    · exact absurd h (by simp)
    · next q hp =>
      split at h
      · exact absurd h (by simp)
      · split at h
        · exact absurd h (by simp)
        · next total ht =>
          injection h with h
          subst h
          have ht := checkedSum_some ht
          rw [Nat.zero_add] at ht
          by_cases hw : Within L s.disk
          · exact hw.bound _
          · refine same hp (Nat.le_refl _) (Nat.le_refl _) ?_
            have h1 : due L { q with acct := ⟨true, s.disk.length, total, 0⟩ } = rescan := by
              unfold due
              rw [if_neg]
              rintro ⟨-, h1, h2⟩
              exact hw ⟨h1, by rw [← ht]; exact h2⟩
            have h2 := due_le L q
            unfold debt
            rw [h1]
            exact Nat.le_trans (Nat.add_le_add_right h2 _) (Nat.le_add_right _ _)
  | look p =>
    rw [step] at h
    split at h
    · exact absurd h (by simp)
    · next q hp =>
      split at h
      · injection h with h
        subst h
        exact same hp (Nat.le_refl _) (Nat.le_refl _) (Nat.le_add_right _ _)
      · exact absurd h (by simp)
  | leave p =>
    rw [step] at h
    split at h
    · exact absurd h (by simp)
    · next q hp =>
      split at h
      · injection h with h
        subst h
        exact same hp (Nat.le_refl _) (Nat.le_refl _) (Nat.le_add_right _ _)
      · exact absurd h (by simp)
  | reserve p path =>
    rw [step] at h
    split at h
    · exact absurd h (by simp)
    · next q hp =>
      split at h
      · injection h with h
        subst h
        exact same hp (filt path).1 (filt path).2 (Nat.le_add_right _ _)
      · exact absurd h (by simp)
  | drop p =>
    rw [step] at h
    split at h
    · exact absurd h (by simp)
    · next q hp =>
      split at h
      · injection h with h
        subst h
        exact same hp (Nat.le_refl _) (Nat.le_refl _) (Nat.le_add_right _ _)
      · exact absurd h (by simp)
  | publish p e =>
    rw [step] at h
    split at h
    · exact absurd h (by simp)
    · next q hp =>
      split at h
      · next hc =>
        injection h with h
        subst h
        have hs := debts_put (L := L) (q' := { q with holding := q.holding - 1, unrecorded := e.bytes :: q.unrecorded }) hp
        have h1 : debt L { q with holding := q.holding - 1, unrecorded := e.bytes :: q.unrecorded } = debt L q + 1 := by
          unfold debt Proc.inflight
          rw [due_congr (q := q) (q' := { q with holding := q.holding - 1, unrecorded := e.bytes :: q.unrecorded }) rfl]
          simp only [List.length_cons]
          omega
        have hk : debts L { s with disk := e :: s.disk.filter (fun x => x.path != e.path), procs := s.procs.set p { q with holding := q.holding - 1, unrecorded := e.bytes :: q.unrecorded } } =
            debts L s + 1 := by
          show ((s.procs.set p _).map (debt L)).sum = _
          omega
        have f := filt e.path
        have hb1 := hb.1
        have hb2 := hb.2
        have hc := hc.2
        show Bound L (e :: _) (debts L { s with disk := e :: s.disk.filter (fun x => x.path != e.path), procs := s.procs.set p { q with holding := q.holding - 1, unrecorded := e.bytes :: q.unrecorded } } + _)
        rw [hk]
        have hm : entryMax * (debts L s + k) + entryMax ≤ entryMax * (debts L s + 1 + (k + loses L s (.publish p e))) := by
          rw [← Nat.mul_succ]
          exact Nat.mul_le_mul_left _ (by omega)
        exact ⟨by rw [List.length_cons]; omega, by rw [size_cons]; omega⟩
      · exact absurd h (by simp)
  | record p b =>
    rw [step] at h
    split at h
    · exact absurd h (by simp)
    · next q hp =>
      split at h
      · next hm =>
        have he := erase_length hm
        split at h
        · injection h with h
          subst h
          refine same hp (Nat.le_refl _) (Nat.le_refl _) ?_
          by_cases hi : q.acct.initialized = true
          · unfold debt Proc.inflight
            simp only [List.length_cons]
            have := note_due_le hL (q := q) (q' := { q with acct := q.acct.note b, unrecorded := q.unrecorded.erase b, cleaning := b :: q.cleaning }) (b := b) rfl
            omega
          · have hi : q.acct.initialized = false := by simpa using hi
            have h1 : due L { q with acct := q.acct.note b, unrecorded := q.unrecorded.erase b, cleaning := b :: q.cleaning } = rescan := due_fresh L hi
            unfold debt Proc.inflight
            rw [h1, due_fresh L hi]
            simp only [List.length_cons]
            omega
        · next ho =>
          injection h with h
          subst h
          refine same hp (Nat.le_refl _) (Nat.le_refl _) ?_
          have ho : (q.acct.note b).over L = false := by simpa using ho
          by_cases hi : q.acct.initialized = true
          · have h1 := note_due hL (q' := { q with acct := q.acct.note b, unrecorded := q.unrecorded.erase b }) ho rfl hi
            unfold debt Proc.inflight
            rw [h1]
            simp only
            omega
          · have hi : q.acct.initialized = false := by simpa using hi
            have h1 : due L { q with acct := q.acct.note b, unrecorded := q.unrecorded.erase b } = rescan := due_fresh L hi
            have h2 : loses L s (.record p b) = 1 := by simp [loses, hp, hi]
            unfold debt Proc.inflight
            rw [h1, due_fresh L hi, h2]
            simp only
            omega
      · exact absurd h (by simp)
  | clean p b out =>
    rw [step] at h
    split at h
    · exact absurd h (by simp)
    · next q hp =>
      split at h
      · next hm =>
        have he := erase_length hm.1
        split at h
        · exact absurd h (by simp)
        · next gone c t hc =>
          injection h with h
          subst h
          exact (cleanup_within hc).1.bound _
        · next gone o ho hc =>
          injection h with h
          subst h
          have hl : loses L s (.clean p b out) = 1 := by
            rw [loses, hc]
            cases o with
            | done c t => exact absurd rfl (ho c t)
            | failed => rfl
            | underflow => rfl
          have hr := remaining_small s.disk gone
          refine same hp hr.1 hr.2 ?_
          unfold debt Proc.inflight
          rw [due_congr (q := q) (q' := { q with cleaning := q.cleaning.erase b }) rfl, hl]
          simp only
          omega
      · exact absurd h (by simp)
  | abandon p b =>
    rw [step] at h
    split at h
    · exact absurd h (by simp)
    · next q hp =>
      split at h
      · next hm =>
        have he := erase_length hm
        injection h with h
        subst h
        refine same hp (Nat.le_refl _) (Nat.le_refl _) ?_
        unfold debt Proc.inflight
        rw [due_congr (q := q) (q' := { q with cleaning := q.cleaning.erase b }) rfl, loses]
        simp only
        omega
      · exact absurd h (by simp)
  | invalidate p path =>
    rw [step] at h
    split at h
    · exact absurd h (by simp)
    · next q hp =>
      split at h
      · split at h
        · injection h with h
          subst h
          refine same hp (filt path).1 (filt path).2 ?_
          have h1 : due L { q with acct := .fresh } = rescan := due_fresh L rfl
          have h2 := due_le L q
          unfold debt
          rw [h1]
          exact Nat.le_trans (Nat.add_le_add_right h2 _) (Nat.le_add_right _ _)
        · injection h with h
          subst h
          exact hb
      · exact absurd h (by simp)
  | clear p =>
    rw [step] at h
    split at h
    · exact absurd h (by simp)
    · next q hp =>
      split at h
      · injection h with h
        subst h
        exact Within.bound ⟨Nat.zero_le _, Nat.zero_le _⟩ _
      · exact absurd h (by simp)
  | reset p =>
    rw [step] at h
    split at h
    · exact absurd h (by simp)
    · next q hp =>
      split at h
      · injection h with h
        subst h
        refine same hp (Nat.le_refl _) (Nat.le_refl _) ?_
        have h2 := due_le L q
        unfold debt
        rw [loses]
        exact Nat.le_trans (Nat.add_le_add_right h2 _) (by rw [Nat.add_comm]; exact Nat.add_le_add_right (Nat.le_add_left _ _) _)
      · exact absurd h (by simp)
  | crash p temps =>
    rw [step] at h
    split at h
    · exact absurd h (by simp)
    · next q hp =>
      split at h
      · injection h with h
        subst h
        refine same hp (Nat.le_refl _) (Nat.le_refl _) ?_
        have h1 : due L .fresh = rescan := due_fresh L rfl
        have h2 := due_le L q
        have h3 : loses L s (.crash p temps) = q.inflight := by simp [loses, hp]
        unfold debt
        rw [h1, h3]
        have h4 : Proc.fresh.inflight = 0 := rfl
        rw [h4]
        omega
      · exact absurd h (by simp)
  | vanish path =>
    rw [step] at h
    injection h with h
    subst h
    exact hb.mono (filt path).1 (filt path).2 (Nat.add_le_add_left (Nat.le_add_right _ _) _)

theorem run_bound {L : Limits} (hL : L.Small) {s s' : State} {evs : List Event} {k : Nat} (hb : Bound L s.disk (debts L s + k)) (h : run L s evs = some s') :
    Bound L s'.disk (debts L s' + (k + losses L s evs)) := by
  induction evs generalizing s k with
  | nil =>
    rw [run] at h
    injection h with h
    subst h
    exact hb
  | cons ev evs ih =>
    rw [run] at h
    split at h
    · exact absurd h (by simp)
    · next s1 h1 =>
      have := ih (step_bound hL hb h1) h
      rw [losses, h1]
      rw [show k + (loses L s ev + losses L s1 evs) = k + loses L s ev + losses L s1 evs by omega]
      exact this

end Verif.CacheLimits
