import Verif.Lemmas.Status
/-!
C12 and C13: the status of a project only moves forward; old runs cannot touch it; at most the newest run is uncancelled.
-/
namespace Verif.Status

variable {F : Type}

/-! ### C12 -/

/-- Sequence numbers identify what was published: if the number did not grow, nothing visible changed. -/
theorem c12_sequence {s s' : State F} (h : Steps s s') : s.sequence ≤ s'.sequence ∧
    (s'.sequence = s.sequence → (snapshot s') = { snapshot s with elapsed := (snapshot s').elapsed }) := by
  obtain ⟨-, h⟩ := steps_sequence h
  rcases h with hv | hl
  · refine ⟨Nat.le_of_eq hv.sequence.symm, fun _ => ?_⟩
    unfold snapshot
    simp only [hv.generation, hv.sequence, hv.phase, hv.completed, hv.total, hv.projectReady, hv.dependencyReady, hv.failure]
  · exact ⟨Nat.le_of_lt hl, fun he => absurd he (by omega)⟩

/-- Every accepted call publishes a number exactly one higher; every other call changes nothing. -/
theorem c12_accepted (s : State F) (g : Nat) (ph : Phase) (co tot : Option Nat) (f : F) :
    (∀ s' r, transition s g ph co tot = .ok (s', r) → (r = none ∧ s' = s) ∨ (∃ n, r = some n ∧ n = snapshot s' ∧ n.sequence = s.sequence + 1 ∧ n.phase = ph ∧ n.generation = g)) ∧
    (((fail s g f).2 = none ∧ (fail s g f).1 = s) ∨ (∃ n, (fail s g f).2 = some n ∧ n = snapshot (fail s g f).1 ∧ n.sequence = s.sequence + 1 ∧ n.phase = .failed ∧ n.failure = some f ∧ n.generation = g)) ∧
    (((cancel s g).2 = none ∧ (cancel s g).1 = s) ∨ (∃ n, (cancel s g).2 = some n ∧ n = snapshot (cancel s g).1 ∧ n.sequence = s.sequence + 1 ∧ n.phase = .cancelled ∧ n.generation = g)) := by
  refine ⟨?_, ?_, ?_⟩
  · intro s' r h
    obtain ⟨-, h⟩ := transition_ok h
    rcases h with ⟨h1, h2, -⟩ | ⟨h1, hm⟩
    · exact Or.inl ⟨h2, h1⟩
    · exact Or.inr ⟨_, h1, rfl, hm.sequence, hm.phase, hm.generation.trans hm.current.symm⟩
  · unfold fail
    split
    · exact Or.inl ⟨rfl, rfl⟩
    · rename_i hc
      refine Or.inr ⟨_, rfl, rfl, rfl, rfl, rfl, ?_⟩
      by_contra hne
      exact hc (Or.inl (fun he => hne he.symm))
  · unfold cancel
    split
    · exact Or.inl ⟨rfl, rfl⟩
    · rename_i hc
      refine Or.inr ⟨_, rfl, rfl, rfl, rfl, ?_⟩
      by_contra hne
      exact hc (Or.inl (fun he => hne he.symm))

/-- Within one run the phase never goes back, and a terminal phase is the last. -/
theorem c12_forward {s s' : State F} (h : Steps s s') (hg : s'.generation = s.generation) :
    s.phase.rank ≤ s'.phase.rank ∧ (s.phase.isTerminal = true → Visible s s') := by
  have key : s.generation ≤ s'.generation ∧ (s'.generation = s.generation → s.phase.rank ≤ s'.phase.rank ∧ (s.phase.isTerminal = true → Visible s s')) := by
    clear hg
    induction h with
    | refl => exact ⟨Nat.le_refl _, fun _ => ⟨Nat.le_refl _, fun _ => Visible.refl _⟩⟩
    | @tail s1 s2 _ hs ih =>
      obtain ⟨h1, h2⟩ := ih
      rcases step_cases hs with hv | rfl | ⟨hg, -, hl, hr, -⟩
      · refine ⟨by rw [hv.generation]; exact h1, fun he => ?_⟩
        obtain ⟨h3, h4⟩ := h2 (hv.generation ▸ he)
        exact ⟨by rw [hv.phase]; exact h3, fun ht => (h4 ht).trans hv⟩
      · refine ⟨Nat.le_succ_of_le h1, fun he => ?_⟩
        change s1.generation + 1 = _ at he
        omega
      · refine ⟨by rw [hg]; exact h1, fun he => ?_⟩
        obtain ⟨h3, h4⟩ := h2 (hg ▸ he)
        refine ⟨Nat.le_trans h3 hr, fun ht => ?_⟩
        have := (h4 ht).phase
        rw [this, ht] at hl
        cases hl
  exact key.2 hg

/-- Generations only grow. -/
theorem c12_generation {s s' : State F} (h : Steps s s') : s.generation ≤ s'.generation := (steps_sequence h).1

/-- A call on behalf of another run, or after a terminal phase, changes nothing. -/
theorem c12_stale_ignored (s : State F) {g : Nat} (hg : g ≠ s.generation ∨ s.phase.isTerminal = true) (ph : Phase) (co tot : Option Nat) (f : F) :
    (∀ s' r, transition s g ph co tot = .ok (s', r) → s' = s ∧ r = none) ∧ fail s g f = (s, none) ∧ cancel s g = (s, none) := by
  refine ⟨?_, ?_, ?_⟩
  · intro s' r h
    obtain ⟨-, h⟩ := transition_ok h
    rcases h with ⟨h1, h2, -⟩ | ⟨-, hm⟩
    · exact ⟨h1, h2⟩
    · rcases hg with hg | hg
      · exact absurd hm.current hg
      · rw [hm.live] at hg; cases hg
  · unfold fail; rw [if_pos hg]
  · unfold cancel; rw [if_pos hg]

/-- Published progress always makes sense, and a failure text appears only in the failed phase. -/
theorem c12_wellformed {s : State F} (h : Reachable s) : s.completed.isSome = s.total.isSome ∧
    (∀ c t, s.completed = some c → s.total = some t → c ≤ t) ∧ (s.failure.isSome = true → s.phase = .failed) := by
  induction h with
  | init => exact ⟨rfl, (by intro c t h; cases h), (by intro h; cases h)⟩
  | step _ hs ih =>
    rcases step_cases hs with hv | rfl | ⟨-, -, -, -, -, -, h1, h2, h3, -⟩
    · rw [hv.completed, hv.total, hv.failure, hv.phase]; exact ih
    · exact ⟨rfl, (by intro c t h; cases h), (by intro h; cases h)⟩
    · exact ⟨h1, h2, h3⟩

/-- Within one phase of one run a single call never lowers the count or changes the total. -/
theorem c12_progress {s s' : State F} (h : Step s s') (hg : s'.generation = s.generation) (hp : s'.phase = s.phase) {p n : Nat}
    (hs : s.completed = some p) (hn : s'.completed = some n) : p ≤ n ∧ (∀ t u, s.total = some t → s'.total = some u → u = t) := by
  rcases step_cases h with hv | rfl | ⟨-, -, -, -, -, -, -, -, -, h4, -⟩
  · rw [hv.completed, hs] at hn
    cases hn
    refine ⟨Nat.le_refl _, fun t u h1 h2 => ?_⟩
    rw [hv.total, h1] at h2; cases h2; rfl
  · change s.generation + 1 = _ at hg
    omega
  · obtain ⟨h5, h6⟩ := h4 hp
    exact ⟨h5 p n hs hn, h6⟩

theorem le_match_false (a b : Option Nat) : ((match a, b with | some p, some n => decide (p ≤ n) | _, _ => true) = false) ↔
    (∃ p n, a = some p ∧ b = some n ∧ n < p) := by
  cases a <;> cases b <;> simp

theorem eq_match_false (a b : Option Nat) : ((match a, b with | some p, some n => decide (n = p) | _, _ => true) = false) ↔
    (∃ p n, a = some p ∧ b = some n ∧ ¬ n = p) := by
  cases a <;> cases b <;> simp

/-- Exactly when `transition` panics. -/
theorem c12_panics_iff (s : State F) (g : Nat) (ph : Phase) (co tot : Option Nat) : transition s g ph co tot = .panic ↔
    (co.isSome ≠ tot.isSome ∨ (∃ c t, co = some c ∧ tot = some t ∧ t < c) ∨ ph = .discovered ∨ ph = .queued) ∨
    (g = s.generation ∧ s.phase.isTerminal = false ∧
      (ph.rank < s.phase.rank ∨ (ph = s.phase ∧ ((∃ p n, s.completed = some p ∧ co = some n ∧ n < p) ∨ (∃ p n, s.total = some p ∧ tot = some n ∧ n ≠ p))))) := by
  have hargs : argsOk ph co tot = false ↔ (co.isSome ≠ tot.isSome ∨ (∃ c t, co = some c ∧ tot = some t ∧ t < c) ∨ ph = .discovered ∨ ph = .queued) := by
    unfold argsOk
    cases co with
    | none => cases tot with
      | none => cases ph <;> simp
      | some t => simp
    | some c => cases tot with
      | none => simp
      | some t =>
        by_cases hct : c ≤ t
        · have : ¬ t < c := by omega
          cases ph <;> simp [hct, this]
        · have : t < c := by omega
          cases ph <;> simp [this]
  have hfwd : forward s ph co tot = false ↔ (ph.rank < s.phase.rank ∨ (ph = s.phase ∧ ((∃ p n, s.completed = some p ∧ co = some n ∧ n < p) ∨ (∃ p n, s.total = some p ∧ tot = some n ∧ n ≠ p)))) := by
    unfold forward
    simp only [Bool.and_eq_false_iff, Bool.or_eq_false_iff, decide_eq_false_iff_not, Nat.not_le, ne_eq, not_not]
    exact or_congr Iff.rfl (and_congr Iff.rfl (or_congr (le_match_false _ _) (eq_match_false _ _)))
  rw [← hargs, ← hfwd]
  unfold transition
  cases argsOk ph co tot with
  | false => simp
  | true =>
    simp only [if_true, Bool.true_eq_false, false_or]
    by_cases hc : g ≠ s.generation ∨ s.phase.isTerminal = true
    · rw [if_pos hc]
      constructor
      · intro h; cases h
      · rintro ⟨h1, h2, -⟩
        rcases hc with hc | hc
        · exact absurd h1 hc
        · rw [h2] at hc; cases hc
    · rw [if_neg hc]
      have hg : g = s.generation := by
        by_contra hne; exact hc (Or.inl hne)
      have hl : s.phase.isTerminal = false := by
        cases hx : s.phase.isTerminal with
        | false => rfl
        | true => exact absurd (Or.inr hx) hc
      cases forward s ph co tot with
      | true => simp
      | false => simp [hg, hl]

/-! ### C13 -/

/-- Every run but the newest is cancelled. -/
theorem c13_older_cancelled {s : State F} (h : Reachable s) {g : Nat} (hg : g < s.generation) : s.tokens[g]? = some true :=
  (tokens_reachable h).older g hg

/-- A run that may still publish is the newest one, and its token is not cancelled. -/
theorem c13_current_run {s : State F} {g : Nat} : isCurrentRun s g = true ↔
    g = s.generation ∧ s.phase.isTerminal = false ∧ s.tokens[g]? = some false := by
  unfold isCurrentRun
  simp only [Bool.and_eq_true, decide_eq_true_eq, Bool.not_eq_true', and_assoc]
  constructor
  · rintro ⟨h1, h2⟩; exact ⟨h1.symm, h2⟩
  · rintro ⟨h1, h2⟩; exact ⟨h1.symm, h2⟩

/-- Cancelling a named run touches no other run's token, and if the run is not the newest nothing at all. -/
theorem c13_cancel_named (s : State F) (g : Nat) : (∀ i, i ≠ g → (cancel s g).1.tokens[i]? = s.tokens[i]?) ∧ (g ≠ s.generation → (cancel s g).1 = s) := by
  unfold cancel
  split
  · exact ⟨fun _ _ => rfl, fun _ => rfl⟩
  · rename_i hc
    have hg : g = s.generation := by
      by_contra hne; exact hc (Or.inl hne)
    refine ⟨?_, fun h => absurd hg h⟩
    intro i hi
    show (cancelToken s.tokens s.generation)[i]? = _
    rw [getElem?_cancelToken, if_neg (by omega)]

/-- Cancelling the newest run of a live project cancels its token. -/
theorem c13_cancel_current {s : State F} (h : Reachable s) (hl : s.phase.isTerminal = false) :
    (cancel s s.generation).1.tokens[s.generation]? = some true ∧ (cancel s s.generation).1.phase = .cancelled ∧ isCurrentRun (cancel s s.generation).1 s.generation = false := by
  have hlen := (tokens_reachable h).length
  unfold cancel
  rw [if_neg (by simp [hl])]
  refine ⟨?_, rfl, ?_⟩
  · show (cancelToken s.tokens s.generation)[s.generation]? = _
    rw [getElem?_cancelToken, if_pos rfl, List.getElem?_eq_getElem (by rw [hlen]; omega)]; rfl
  · simp [isCurrentRun, Phase.isTerminal]

/-- A new run starts uncancelled and is the current one; all earlier ones are cancelled. -/
theorem c13_begin {s : State F} (h : Reachable s) : (beginRun s).generation = s.generation + 1 ∧ isCurrentRun (beginRun s) (s.generation + 1) = true ∧
    ∀ g, g ≤ s.generation → (beginRun s).tokens[g]? = some true := by
  refine ⟨rfl, ?_, ?_⟩
  · rw [c13_current_run]
    refine ⟨rfl, rfl, ?_⟩
    show (cancelToken s.tokens s.generation ++ [false])[s.generation + 1]? = _
    rw [List.getElem?_append_right (by rw [length_cancelToken, (tokens_reachable h).length]; exact Nat.le_refl _), length_cancelToken, (tokens_reachable h).length]
    simp
  · intro g hg
    exact (tokens_reachable (.step h .begin)).older g (Nat.lt_succ_of_le hg)

/-- Cancelled is for ever. -/
theorem c13_cancelled_stays {s s' : State F} (h : Reachable s) (hs : Steps s s') {g : Nat} (hg : s.tokens[g]? = some true) : s'.tokens[g]? = some true := by
  induction hs with
  | refl => exact hg
  | tail hp hst ih => exact token_mono (tokens_reachable (steps_reachable h hp)) hst ih

/-! ### Concrete runs -/

/-- Two overlapping runs: the old one's call is ignored, the new one reaches `Ready`, later calls are ignored. -/
theorem c12_example : ∃ s : State String, Reachable s ∧ s.generation = 2 ∧ s.phase = .ready ∧ s.sequence = 4 ∧ s.tokens = [true, true, false] ∧
    isCurrentRun s 2 = false := by
  have r : Reachable (init 0 : State String) := .init 0
  have r := r.step .begin
  have r := r.step .begin
  have r := r.step (.transition 1 .indexingProject (some 1) (some 2) _ rfl)
  have r := r.step (.transition 2 .indexingProject (some 1) (some 2) _ rfl)
  have r := r.step (.transition 2 .ready none none _ rfl)
  have r := r.step (.fail 2 "late")
  exact ⟨_, r, rfl, rfl, rfl, rfl, rfl⟩

/-- `c12_progress` is about single calls only: a call without progress in between lets the count go back within one phase (the code's
own message at L293-297 says it must not). -/
theorem c12_progress_can_go_back : ∃ s s' : State String, Reachable s ∧ Steps s s' ∧ s'.generation = s.generation ∧ s'.phase = s.phase ∧
    s.completed = some 5 ∧ s'.completed = some 3 := by
  have r : Reachable (init 0 : State String) := .init 0
  have r := r.step .begin
  have r := r.step (.transition 1 .indexingProject (some 5) (some 9) _ rfl)
  exact ⟨_, _, r, .tail (.tail (.refl _) (.transition 1 .indexingProject none none _ rfl)) (.transition 1 .indexingProject (some 3) (some 4) _ rfl), rfl, rfl, rfl, rfl⟩

/-- `transition` to `Failed` is accepted and leaves a failed project without a failure text and with a running clock (L339-343 says users
need one). -/
theorem c12_failed_without_reason : ∃ s : State String, Reachable s ∧ s.phase = .failed ∧ s.failure = none ∧ s.completedElapsed = none := by
  have r : Reachable (init 0 : State String) := .init 0
  have r := r.step .begin
  have r := r.step (.transition 1 .failed none none _ rfl)
  exact ⟨_, r, rfl, rfl, rfl⟩

end Verif.Status
