import Verif.Lemmas.NavDemand
/-!
C10 and C11: outstanding navigation keys are bounded, kept apart and handed out once; no ticket is lost and its outcome is final.
Everything below holds for every number of concurrent callers: a caller is a sequence of `Step`s.
-/
namespace Verif.NavDemand

variable {K : Type} [DecidableEq K]

/-! ### C10 -/

/-- Outstanding keys never exceed the limit. -/
theorem c10_bounded {max : Nat} {s : State K} (h : Reachable max s) (n : StageName) :
    (s.ctl.stage n).pending.length + (s.ctl.stage n).inFlight.length ≤ max := ((reachable_inv h).ctl.stages n).bound

/-- The three sets of a stage hold no key twice and share none. -/
theorem c10_disjoint {max : Nat} {s : State K} (h : Reachable max s) (n : StageName) :
    ((s.ctl.stage n).pending ++ (s.ctl.stage n).inFlight ++ (s.ctl.stage n).processed).Nodup := by
  have hs := (reachable_inv h).ctl.stages n
  rw [List.nodup_append, List.nodup_append]
  refine ⟨⟨hs.pending, hs.inFlight, ?_⟩, hs.processed, ?_⟩
  · rintro a ha b hb rfl; exact hs.pf a ha hb
  · rintro a ha b hb rfl
    rcases List.mem_append.mp ha with ha | ha
    · exact hs.pp a ha hb
    · exact hs.fp a ha hb

/-- A key is handed out (by `drain` or `claim`) at most once per generation and stage. -/
theorem c10_handed_once {max : Nat} {s : State K} (h : Reachable max s) : s.handed.Nodup := (reachable_inv h).nodup

/-- Only keys somebody waits for are handed out. -/
theorem c10_handed_requested {max : Nat} {s : State K} (h : Reachable max s) {g : Nat} {n : StageName} {k : K} (hk : (g, n, k) ∈ s.handed) :
    ∃ t ∈ s.tickets, t.generation = g ∧ t.stage = n ∧ t.key = k ∧ t.immediate = none := (reachable_inv h).handedTicket g n k hk

/-- `drain` of an open stage of the current generation hands out exactly the pending keys, which are then in flight. -/
theorem c10_drain {max : Nat} {s : State K} (h : Reachable max s) {g : Nat} {n : StageName} (hg : s.ctl.generation = some g)
    (ht : s.ctl.terminal = none) (hc : (s.ctl.stage n).complete = false) :
    ∃ c, drain s.ctl g n = .ok (c, (s.ctl.stage n).pending) ∧ (c.stage n).pending = [] ∧
      (∀ k, k ∈ (c.stage n).inFlight ↔ k ∈ (s.ctl.stage n).inFlight ∨ k ∈ (s.ctl.stage n).pending) := by
  obtain ⟨c, ks, h1, h2, h3, h4, h5, h6, h7⟩ := drain_spec (reachable_inv h).ctl g n
  obtain ⟨rfl, h8⟩ := h6 ⟨hg, ht, hc⟩
  refine ⟨c, h1, h8, ?_⟩
  intro k
  constructor
  · intro hk
    obtain ⟨-, hf⟩ := drain_back h1
    rcases hf n k hk with hx | hx
    · exact Or.inl hx
    · obtain ⟨k', hk', he⟩ := List.mem_map.mp hx
      cases he; exact Or.inr hk'
  · rintro (hk | hk)
    · rcases h3.kept n k (Or.inr hk) with hx | hx | hx | hx
      · rw [h8] at hx; simpa using hx
      · exfalso
        unfold drain at h1
        rw [if_neg (by simp [hg, ht])] at h1
        dsimp only at h1
        rw [if_neg (by simp [hc])] at h1
        split at h1
        · cases h1
          rw [stage_setStage, if_pos rfl] at hx
          exact ((reachable_inv h).ctl.stages n).fp k hk hx
        · cases h1
      · exfalso
        unfold drain at h1
        rw [if_neg (by simp [hg, ht])] at h1
        dsimp only at h1
        rw [if_neg (by simp [hc])] at h1
        split at h1
        · cases h1
          rw [stage_setStage, if_pos rfl] at hx
          dsimp only at hx
          rw [hc] at hx; cases hx
        · cases h1
      · exfalso
        unfold drain at h1
        rw [if_neg (by simp [hg, ht])] at h1
        dsimp only at h1
        rw [if_neg (by simp [hc])] at h1
        split at h1
        · cases h1
          rw [setStage_terminal, ht] at hx; cases hx
        · cases h1
    · exact (h7 k hk).2

/-- The internal assertions of `request`, `drain` and `claim` never fire. -/
theorem c10_never_panics {max : Nat} {s : State K} (h : Reachable max s) (g : Nat) (n : StageName) (k : K) :
    request max s.ctl g n k ≠ .panic ∧ drain s.ctl g n ≠ .panic ∧ claim s.ctl g n k ≠ .panic := by
  have hi := (reachable_inv h).ctl
  refine ⟨?_, ?_, ?_⟩
  · obtain ⟨_, _, _, he, _⟩ := request_spec hi g n k
    rw [he]; simp
  · obtain ⟨_, _, he, _⟩ := drain_spec hi g n
    rw [he]; simp
  · obtain ⟨_, _, _, he, _⟩ := claim_spec hi g n k
    rw [he]; simp

theorem completeLoop_iff {st : Stage K} (b : Bool) {ks : List K} (hn : st.inFlight.Nodup) :
    completeLoop st b ks ≠ none ↔ ks.Nodup ∧ ∀ k ∈ ks, k ∈ st.inFlight := by
  induction ks generalizing st b with
  | nil => simp [completeLoop]
  | cons k ks ih =>
    unfold completeLoop
    cases hr : remove st.inFlight k with
    | mk l found =>
      cases found with
      | true =>
        obtain ⟨hk, rfl⟩ := remove_true hr
        dsimp only
        rw [ih _ (hn.filter _), List.nodup_cons]
        dsimp only
        constructor
        · rintro ⟨h1, h2⟩
          refine ⟨⟨fun hm => ?_, h1⟩, ?_⟩
          · have := (List.mem_filter.mp (h2 k hm)).2
            simp at this
          · intro x hx
            rcases List.mem_cons.mp hx with rfl | hx
            · exact hk
            · exact (List.mem_filter.mp (h2 x hx)).1
        · rintro ⟨⟨h1, h2⟩, h3⟩
          refine ⟨h2, fun x hx => List.mem_filter.mpr ⟨h3 x (List.mem_cons_of_mem _ hx), ?_⟩⟩
          simp only [ne_eq, decide_eq_true_eq]
          rintro rfl
          exact h1 hx
      | false =>
        have := remove_false hr
        dsimp only
        constructor
        · intro h; exact absurd rfl h
        · rintro ⟨-, h⟩; exact absurd (h k (by simp)) this

/-- `complete_keys` asserts that the caller holds the keys: it succeeds exactly when the keys are distinct and in flight. -/
theorem c10_complete_keys_iff {max : Nat} {s : State K} (h : Reachable max s) {g : Nat} (hg : s.ctl.generation = some g)
    (ht : s.ctl.terminal = none) (n : StageName) (ks : List K) :
    completeKeys s.ctl g n ks ≠ .panic ↔ ks.Nodup ∧ ∀ k ∈ ks, k ∈ (s.ctl.stage n).inFlight := by
  unfold completeKeys
  rw [if_neg (by simp [hg, ht]), ← completeLoop_iff false ((reachable_inv h).ctl.stages n).inFlight]
  split
  · rename_i h1; simp [h1]
  · rename_i h1; simp [h1]

/-- Completing one's keys processes them and nothing else. -/
theorem c10_complete_keys {max : Nat} {s : State K} (h : Reachable max s) {g : Nat} (hg : s.ctl.generation = some g)
    (ht : s.ctl.terminal = none) {n : StageName} {ks : List K} {c : Ctl K} {b : Bool} (hc : completeKeys s.ctl g n ks = .ok (c, b)) (k : K) :
    k ∈ (c.stage n).processed ↔ k ∈ (s.ctl.stage n).processed ∨ k ∈ ks := by
  obtain ⟨a1, a2, a3, a4⟩ := completeKeys_spec (reachable_inv h).ctl hc
  constructor
  · intro hk
    unfold completeKeys at hc
    rw [if_neg (by simp [hg, ht])] at hc
    split at hc
    · rename_i st b hl
      cases hc
      rw [stage_setStage, if_pos rfl] at hk
      exact (completeLoop_spec ((reachable_inv h).ctl.stages n) hl).2.2.2.2.2.2.1 k hk
    · cases hc
  · rintro (hk | hk)
    · exact a2.processed n k hk
    · exact a4 hg ht k hk

/-- A request is turned away as saturated only if the stage is full. -/
theorem c10_saturated_only_full {max : Nat} {c c' : Ctl K} {g : Nat} {n : StageName} {k : K} {b : Bool} (hm : c.terminal ≠ some .saturated)
    (h : request max c g n k = .ok (c', some .saturated, b)) : max ≤ (c.stage n).pending.length + (c.stage n).inFlight.length ∧ c' = c := by
  unfold request at h
  split at h
  · cases h
  · split at h
    · rename_i t ht; cases h; exact absurd ht hm
    · dsimp only at h
      split at h
      · cases h
      · split at h
        · cases h
        · split at h
          · cases h
          · split at h
            · rename_i hfull; cases h; exact ⟨hfull, rfl⟩
            · split at h <;> cases h

/-! ### C11 -/

/-- A ticket that was told to wait has an outcome, or its key is still outstanding in its stage of the current generation. -/
theorem c11_not_lost {max : Nat} {s : State K} (h : Reachable max s) {t : Ticket K} (ht : t ∈ s.tickets) (hi : t.immediate = none) :
    outcomeFor s.ctl t.generation t.stage t.key ≠ none ∨
      (s.ctl.generation = some t.generation ∧ (t.key ∈ (s.ctl.stage t.stage).pending ∨ t.key ∈ (s.ctl.stage t.stage).inFlight)) := by
  by_cases ho : outcomeFor s.ctl t.generation t.stage t.key = none
  · right
    rw [outcome_none] at ho
    obtain ⟨h1, h2, h3, h4⟩ := ho
    refine ⟨h1, ?_⟩
    rcases ((reachable_inv h).tickets t ht).live hi h1 h2 h4 with hk | hk
    · exact absurd hk h3
    · exact hk
  · exact Or.inl ho

theorem step_outcome {max : Nat} {s s' : State K} (h : Inv max s) (hs : Step max s s') {t : Ticket K} (ht : t ∈ s.tickets) (hi : t.immediate = none)
    (ho : outcomeFor s.ctl t.generation t.stage t.key ≠ none) : outcomeFor s'.ctl t.generation t.stage t.key ≠ none := by
  cases hs with
  | begin g c hb =>
    obtain ⟨b1, b2, b3, b4, b5⟩ := begin_spec (max := max) hb
    obtain ⟨cur, hc, hle⟩ := (h.tickets t ht).current hi
    have := b4 cur hc
    intro h0
    have h0 := (outcome_none.mp h0).1
    change c.generation = _ at h0
    rw [b2] at h0
    cases h0; omega
  | request g n k c imm ins hb =>
    obtain ⟨c2, imm2, ins2, heq, a1, a2, -⟩ := request_spec h.ctl g n k
    rw [heq] at hb; cases hb
    exact ext_outcome a2 ho
  | drain g n c ks hb =>
    obtain ⟨c2, ks2, heq, a1, a2, -⟩ := drain_spec h.ctl g n
    rw [heq] at hb; cases hb
    exact ext_outcome a2 ho
  | claim g n k c ans moved hb =>
    obtain ⟨c2, ans2, moved2, heq, a1, a2, -⟩ := claim_spec h.ctl g n k
    rw [heq] at hb; cases hb
    exact ext_outcome a2 ho
  | completeKeys g n ks c changed hb => exact ext_outcome (completeKeys_spec h.ctl hb).2.1 ho
  | completeStage g n => exact ext_outcome (completeStage_spec h.ctl g n).2 ho
  | cancel g => exact ext_outcome (cancel_spec h.ctl g).2 ho
  | notify => exact ho
  | immediate => exact ho
  | subscribe => exact ho
  | check => exact ho
  | wake => exact ho

theorem step_ticket {max : Nat} {s s' : State K} (hs : Step max s s') {i : Nat} {t : Ticket K} (ht : s.tickets[i]? = some t) :
    ∃ t', s'.tickets[i]? = some t' ∧ t'.generation = t.generation ∧ t'.stage = t.stage ∧ t'.key = t.key ∧ t'.immediate = t.immediate ∧
      (∀ r, t.phase = .done r → t'.phase = .done r) := by
  have same : ∃ t', s.tickets[i]? = some t' ∧ t'.generation = t.generation ∧ t'.stage = t.stage ∧ t'.key = t.key ∧ t'.immediate = t.immediate ∧
      (∀ r, t.phase = .done r → t'.phase = .done r) := ⟨t, ht, rfl, rfl, rfl, rfl, fun _ h => h⟩
  have upd : ∀ (j : Nat) (tj : Ticket K) (p : Phase), s.tickets[j]? = some tj → (∀ r, tj.phase ≠ .done r) →
      ∃ t', (setPhase s j p).tickets[i]? = some t' ∧ t'.generation = t.generation ∧ t'.stage = t.stage ∧ t'.key = t.key ∧ t'.immediate = t.immediate ∧
      (∀ r, t.phase = .done r → t'.phase = .done r) := by
    intro j tj p hj hnd
    by_cases hij : j = i
    · subst hij
      rw [ht] at hj; cases hj
      refine ⟨{ t with phase := p }, ?_, rfl, rfl, rfl, rfl, fun r hr => absurd hr (hnd r)⟩
      show (s.tickets.modify j _)[j]? = _
      rw [List.getElem?_modify, ht]; simp
    · refine ⟨t, ?_, rfl, rfl, rfl, rfl, fun _ h => h⟩
      show (s.tickets.modify j _)[i]? = _
      rw [List.getElem?_modify, ht]; simp [hij]
  cases hs with
  | begin => exact same
  | request =>
    refine ⟨t, ?_, rfl, rfl, rfl, rfl, fun _ h => h⟩
    show (s.tickets ++ [_])[i]? = _
    rw [List.getElem?_append_left (List.getElem?_eq_some_iff.mp ht).1]; exact ht
  | drain => exact same
  | claim => exact same
  | completeKeys => exact same
  | completeStage => exact same
  | cancel => exact same
  | notify => exact same
  | immediate j tj r hj hp => exact upd j tj _ hj (by rw [hp]; simp)
  | subscribe j tj hj hp => exact upd j tj _ hj (by rw [hp]; simp)
  | check j tj seen hj hp => exact upd j tj _ hj (by rw [hp]; simp)
  | wake j tj seen hj hp => exact upd j tj _ hj (by rw [hp]; simp)

theorem steps_reachable {max : Nat} {s s' : State K} (h : Reachable max s) (hs : Steps max s s') : Reachable max s' := by
  induction hs with
  | refl => exact h
  | tail _ hs ih => exact .step ih hs

/-- Once a waiting ticket has an outcome it has one for ever. -/
theorem c11_outcome_stays {max : Nat} {s s' : State K} (h : Reachable max s) (hs : Steps max s s') {i : Nat} {t : Ticket K}
    (ht : s.tickets[i]? = some t) (hi : t.immediate = none) (ho : outcomeFor s.ctl t.generation t.stage t.key ≠ none) :
    outcomeFor s'.ctl t.generation t.stage t.key ≠ none := by
  have key : outcomeFor s'.ctl t.generation t.stage t.key ≠ none ∧
      ∃ t', s'.tickets[i]? = some t' ∧ t'.generation = t.generation ∧ t'.stage = t.stage ∧ t'.key = t.key ∧ t'.immediate = t.immediate := by
    induction hs with
    | refl => exact ⟨ho, t, ht, rfl, rfl, rfl, rfl⟩
    | @tail s1 s2 hp hst ih =>
      obtain ⟨h1, t1, ht1, e1, e2, e3, e4⟩ := ih
      obtain ⟨t2, ht2, f1, f2, f3, f4, -⟩ := step_ticket hst ht1
      refine ⟨?_, t2, ht2, f1.trans e1, f2.trans e2, f3.trans e3, f4.trans e4⟩
      have := step_outcome (reachable_inv (steps_reachable h hp)) hst (List.mem_iff_getElem?.mpr ⟨i, ht1⟩) (e4.trans hi) (by rw [e1, e2, e3]; exact h1)
      rw [e1, e2, e3] at this
      exact this
  exact key.1

/-- What a ticket returned is never changed. -/
theorem c11_final {max : Nat} {s s' : State K} (hs : Steps max s s') {i : Nat} {t : Ticket K} {r : Result}
    (ht : s.tickets[i]? = some t) (hd : t.phase = .done r) : ∃ t', s'.tickets[i]? = some t' ∧ t'.phase = .done r := by
  induction hs with
  | refl => exact ⟨t, ht, hd⟩
  | tail _ hst ih =>
    obtain ⟨t1, h1, h2⟩ := ih
    obtain ⟨t2, h3, -, -, -, -, h4⟩ := step_ticket hst h1
    exact ⟨t2, h3, h4 r h2⟩

/-- A ticket that waited and returned said the truth: its key was handed out and is processed, or its stage is complete, or its
generation was cancelled or replaced. -/
theorem c11_truthful {max : Nat} {s : State K} (h : Reachable max s) {t : Ticket K} (ht : t ∈ s.tickets) (hi : t.immediate = none) {r : Result}
    (hd : t.phase = .done r) :
    match r with
    | .targetProcessed => (t.generation, t.stage, t.key) ∈ s.handed ∧ (s.ctl.generation = some t.generation → t.key ∈ (s.ctl.stage t.stage).processed)
    | .stageComplete => s.ctl.generation = some t.generation → (s.ctl.stage t.stage).complete = true
    | .superseded => s.ctl.generation ≠ some t.generation
    | .cancelled => s.ctl.generation = some t.generation → s.ctl.terminal = some .cancelled
    | .saturated => False := by
  have := ((reachable_inv h).tickets t ht).answer r hd hi
  cases r <;> exact this

/-- A sleeping ticket with an outcome will be woken: a notification is due, or the channel holds a value it has not seen. -/
theorem c11_no_lost_wakeup {max : Nat} {s : State K} (h : Reachable max s) {t : Ticket K} (ht : t ∈ s.tickets) {seen : Nat}
    (hp : t.phase = .asleep seen) (ho : outcomeFor s.ctl t.generation t.stage t.key ≠ none) : 0 < s.owed ∨ s.revision ≠ seen := by
  rcases ((reachable_inv h).tickets t ht).wake seen hp ho with h1 | h1
  · exact Or.inl h1
  · exact Or.inr (by omega)

/-- Calls that carry a generation other than the current one change nothing and hand out nothing. -/
theorem c11_stale_ignored (max : Nat) {c : Ctl K} {g : Nat} (hg : c.generation ≠ some g) (n : StageName) (k : K) (ks : List K) :
    request max c g n k = .ok (c, some .superseded, false) ∧ drain c g n = .ok (c, []) ∧ claim c g n k = .ok (c, false, false) ∧
    completeKeys c g n ks = .ok (c, false) ∧ completeStage c g n = (c, false) ∧ cancel c g = (c, false) := by
  unfold request drain claim completeKeys completeStage cancel
  simp [hg]

/-- A ticket with an outcome can return, by the pending notification and its own steps alone. -/
theorem c11_can_return {max : Nat} {s : State K} (h : Reachable max s) {i : Nat} {t : Ticket K} (ht : s.tickets[i]? = some t)
    (ho : t.immediate ≠ none ∨ outcomeFor s.ctl t.generation t.stage t.key ≠ none) :
    ∃ s' t' r, Steps max s s' ∧ s'.tickets[i]? = some t' ∧ t'.phase = .done r ∧ s'.ctl = s.ctl := by
  have hk := (reachable_inv h).tickets t (List.mem_iff_getElem?.mpr ⟨i, ht⟩)
  have get : ∀ (u : State K) (x : Ticket K) (p : Phase), u.tickets[i]? = some x → (setPhase u i p).tickets[i]? = some { x with phase := p } := by
    intro u x p hx
    show (u.tickets.modify i _)[i]? = _
    rw [List.getElem?_modify, hx]; simp
  -- from `checking`
  have chk : ∀ (u : State K) (x : Ticket K) (seen : Nat), Steps max s u → u.tickets[i]? = some x → x.phase = .checking seen →
      outcomeFor u.ctl x.generation x.stage x.key ≠ none → u.ctl = s.ctl →
      ∃ s' t' r, Steps max s s' ∧ s'.tickets[i]? = some t' ∧ t'.phase = .done r ∧ s'.ctl = s.ctl := by
    intro u x seen hu hx hp hout hc
    cases hr : outcomeFor u.ctl x.generation x.stage x.key with
    | none => exact absurd hr hout
    | some r =>
      refine ⟨_, _, r, .tail hu (.check i x seen hx hp), get u x _ hx, ?_, hc⟩
      simp only [hr]
  -- from `asleep` with a newer value
  have slp : ∀ (u : State K) (x : Ticket K) (seen : Nat), Steps max s u → u.tickets[i]? = some x → x.phase = .asleep seen → u.revision ≠ seen →
      outcomeFor u.ctl x.generation x.stage x.key ≠ none → u.ctl = s.ctl →
      ∃ s' t' r, Steps max s s' ∧ s'.tickets[i]? = some t' ∧ t'.phase = .done r ∧ s'.ctl = s.ctl := by
    intro u x seen hu hx hp hn hout hc
    exact chk _ _ _ (.tail hu (.wake i x seen hx hp hn)) (get u x _ hx) rfl hout hc
  cases hp : t.phase with
  | done r => exact ⟨s, t, r, .refl _, ht, hp, rfl⟩
  | requested =>
    cases hi : t.immediate with
    | some r => exact ⟨_, _, r, .tail (.refl _) (.immediate i t r ht hp hi), get s t _ ht, rfl, rfl⟩
    | none =>
      have ho' : outcomeFor s.ctl t.generation t.stage t.key ≠ none := by
        rcases ho with h1 | h1
        · exact absurd hi h1
        · exact h1
      exact chk _ _ _ (.tail (.refl _) (.subscribe i t ht hp hi)) (get s t _ ht) rfl ho' rfl
  | checking seen =>
    have hi := (hk.checking seen hp).2
    have ho' : outcomeFor s.ctl t.generation t.stage t.key ≠ none := by
      rcases ho with h1 | h1
      · exact absurd hi h1
      · exact h1
    exact chk s t seen (.refl _) ht hp ho' rfl
  | asleep seen =>
    have hi := (hk.asleep seen hp).2
    have ho' : outcomeFor s.ctl t.generation t.stage t.key ≠ none := by
      rcases ho with h1 | h1
      · exact absurd hi h1
      · exact h1
    rcases hk.wake seen hp ho' with h1 | h1
    · refine slp _ t seen (.tail (.refl _) (.notify h1)) ht hp ?_ ho' rfl
      show s.revision + 1 ≠ seen
      have := (hk.asleep seen hp).1
      omega
    · exact slp s t seen (.refl _) ht hp (by omega) ho' rfl

/-! ### Concrete runs -/

/-- Two waiters on one key and one on another: one drain hands out both keys, completing one of them wakes its two waiters, and
closing the stage answers the third. -/
theorem c11_example : ∃ s : State Nat, Reachable 2 s ∧ s.handed = [(1, .project, 7), (1, .project, 8)] ∧
    s.tickets.map (·.phase) = [.done .targetProcessed, .done .targetProcessed, .done .stageComplete, .done .saturated] := by
  have r : Reachable 2 (init : State Nat) := .init
  have r := r.step (.begin 1 _ rfl)
  have r := r.step (.request 1 .project 7 _ _ _ rfl)
  have r := r.step (.request 1 .project 7 _ _ _ rfl)
  have r := r.step (.request 1 .project 8 _ _ _ rfl)
  have r := r.step (.request 1 .project 9 _ _ _ rfl)
  have r := r.step (.subscribe 0 _ rfl rfl rfl)
  have r := r.step (.subscribe 1 _ rfl rfl rfl)
  have r := r.step (.subscribe 2 _ rfl rfl rfl)
  have r := r.step (.immediate 3 _ _ rfl rfl rfl)
  have r := r.step (.check 0 _ _ rfl rfl)
  have r := r.step (.drain 1 .project _ _ rfl)
  have r := r.step (.completeKeys 1 .project [7] _ _ rfl)
  have r := r.step (.notify (by decide))
  have r := r.step (.wake 0 _ _ rfl rfl (by decide))
  have r := r.step (.check 0 _ _ rfl rfl)
  have r := r.step (.check 1 _ _ rfl rfl)
  have r := r.step (.completeStage 1 .project)
  have r := r.step (.check 2 _ _ rfl rfl)
  exact ⟨_, r, rfl, rfl⟩

/-- `c10_complete_keys_iff` bites: completing a key that closing the stage has dropped panics. -/
theorem c10_example_panic : ∃ s : State Nat, Reachable 2 s ∧ completeKeys s.ctl 1 .project [7] = .panic ∧
    (1, .project, 7) ∈ s.handed := by
  have r : Reachable 2 (init : State Nat) := .init
  have r := r.step (.begin 1 _ rfl)
  have r := r.step (.request 1 .project 7 _ _ _ rfl)
  have r := r.step (.drain 1 .project _ _ rfl)
  have r := r.step (.completeStage 1 .project)
  exact ⟨_, r, rfl, by decide⟩

end Verif.NavDemand
