import Verif.Model.Status
import Verif.Lemmas.Common
set_option linter.unnecessarySeqFocus false
namespace Verif.Status

variable {F : Type}

/-- Everything a client can see in a snapshot except the clock reading. -/
structure Visible (s s' : State F) : Prop where
  generation : s'.generation = s.generation
  sequence : s'.sequence = s.sequence
  phase : s'.phase = s.phase
  completed : s'.completed = s.completed
  total : s'.total = s.total
  projectReady : s'.projectReady = s.projectReady
  dependencyReady : s'.dependencyReady = s.dependencyReady
  failure : s'.failure = s.failure
  startedAt : s'.startedAt = s.startedAt
  completedElapsed : s'.completedElapsed = s.completedElapsed

theorem Visible.refl (s : State F) : Visible s s := by constructor <;> rfl

theorem Visible.trans {a b c : State F} (h : Visible a b) (h' : Visible b c) : Visible a c := by
  constructor
  · exact h'.generation.trans h.generation
  · exact h'.sequence.trans h.sequence
  · exact h'.phase.trans h.phase
  · exact h'.completed.trans h.completed
  · exact h'.total.trans h.total
  · exact h'.projectReady.trans h.projectReady
  · exact h'.dependencyReady.trans h.dependencyReady
  · exact h'.failure.trans h.failure
  · exact h'.startedAt.trans h.startedAt
  · exact h'.completedElapsed.trans h.completedElapsed

/-- What an accepted `transition` leaves. -/
structure Moved (s s' : State F) (g : Nat) (ph : Phase) (co tot : Option Nat) : Prop where
  current : g = s.generation
  live : s.phase.isTerminal = false
  rank : s.phase.rank ≤ ph.rank
  completedMono : ph = s.phase → ∀ p n, s.completed = some p → co = some n → p ≤ n
  totalSame : ph = s.phase → ∀ p n, s.total = some p → tot = some n → n = p
  generation : s'.generation = s.generation
  sequence : s'.sequence = s.sequence + 1
  phase : s'.phase = ph
  completed : s'.completed = co
  total : s'.total = tot
  failure : s'.failure = none
  tokens : s'.tokens = s.tokens
  now : s'.now = s.now
  startedAt : s'.startedAt = s.startedAt
  elapsedReady : ph = .ready → s'.completedElapsed = some (elapsed s)
  elapsedKept : ph ≠ .ready → s'.completedElapsed = s.completedElapsed

theorem transition_ok {s s' : State F} {g : Nat} {phase : Phase} {completed total : Option Nat} {r : Option (Snapshot F)}
    (h : transition s g phase completed total = .ok (s', r)) :
    argsOk phase completed total = true ∧
      ((s' = s ∧ r = none ∧ (g ≠ s.generation ∨ s.phase.isTerminal = true)) ∨ (r = some (snapshot s') ∧ Moved s s' g phase completed total)) := by
  unfold transition at h
  split at h
  · rename_i ha
    refine ⟨ha, ?_⟩
    split at h
    · rename_i hc; cases h; exact Or.inl ⟨rfl, rfl, hc⟩
    · rename_i hc
      split at h
      · rename_i hf
        right
        have hg : g = s.generation := by
          by_contra hne; exact hc (Or.inl hne)
        have hl : s.phase.isTerminal = false := by
          cases hx : s.phase.isTerminal with
          | false => rfl
          | true => exact absurd (Or.inr hx) hc
        unfold forward at hf
        simp only [Bool.and_eq_true, decide_eq_true_eq, Bool.or_eq_true] at hf
        obtain ⟨hr, hp⟩ := hf
        cases h
        refine ⟨rfl, ?_⟩
        constructor
        · exact hg
        · exact hl
        · exact hr
        · intro he p n h1 h2
          rcases hp with hp | hp
          · exact absurd he hp
          · rw [h1, h2] at hp; simpa using hp.1
        · intro he p n h1 h2
          rcases hp with hp | hp
          · exact absurd he hp
          · rw [h1, h2] at hp; simpa using hp.2
        all_goals cases phase <;> simp [elapsed]
      · cases h
  · cases h

/-- One call leaves everything visible alone, or starts a run, or moves the current run forward. -/
theorem step_cases {s s' : State F} (h : Step s s') :
    Visible s s' ∨ s' = beginRun s ∨
    (s'.generation = s.generation ∧ s'.sequence = s.sequence + 1 ∧ s.phase.isTerminal = false ∧ s.phase.rank ≤ s'.phase.rank ∧ s'.now = s.now ∧ s'.startedAt = s.startedAt ∧
      s'.completed.isSome = s'.total.isSome ∧ (∀ c t, s'.completed = some c → s'.total = some t → c ≤ t) ∧ (s'.failure.isSome = true → s'.phase = .failed) ∧
      (s'.phase = s.phase → (∀ p n, s.completed = some p → s'.completed = some n → p ≤ n) ∧ (∀ p n, s.total = some p → s'.total = some n → n = p)) ∧
      s'.phase ≠ .discovered ∧ s'.phase ≠ .queued) := by
  cases h with
  | begin => exact Or.inr (Or.inl rfl)
  | transition g phase completed total r h =>
    obtain ⟨ha, h⟩ := transition_ok h
    rcases h with ⟨rfl, -, -⟩ | ⟨-, hm⟩
    · exact Or.inl (Visible.refl _)
    · right; right
      unfold argsOk at ha
      simp only [Bool.and_eq_true, decide_eq_true_eq] at ha
      obtain ⟨⟨h1, h2⟩, h3⟩ := ha
      refine ⟨hm.generation, hm.sequence, hm.live, by rw [hm.phase]; exact hm.rank, hm.now, hm.startedAt, by rw [hm.completed, hm.total]; exact h1, ?_, ?_, ?_, ?_⟩
      · intro c t hc ht
        rw [hm.completed] at hc; rw [hm.total] at ht
        subst hc; subst ht
        simpa using h2
      · intro hf; rw [hm.failure] at hf; cases hf
      · intro he
        rw [hm.phase] at he
        rw [hm.completed, hm.total]
        exact ⟨hm.completedMono he, hm.totalSame he⟩
      · rw [hm.phase]; exact h3
  | fail g f =>
    unfold fail
    split
    · exact Or.inl (Visible.refl _)
    · rename_i hc
      have hl : s.phase.isTerminal = false := by
        cases hx : s.phase.isTerminal with
        | false => rfl
        | true => exact absurd (Or.inr hx) hc
      right; right
      refine ⟨rfl, rfl, hl, ?_, rfl, rfl, rfl, by simp, by simp, ?_, by simp, by simp⟩
      · show s.phase.rank ≤ 12
        cases s.phase <;> decide
      · intro _; exact ⟨by simp, by simp⟩
  | cancel g =>
    unfold cancel
    split
    · exact Or.inl (Visible.refl _)
    · rename_i hc
      have hl : s.phase.isTerminal = false := by
        cases hx : s.phase.isTerminal with
        | false => rfl
        | true => exact absurd (Or.inr hx) hc
      right; right
      refine ⟨rfl, rfl, hl, ?_, rfl, rfl, rfl, by simp, by simp, ?_, by simp, by simp⟩
      · show s.phase.rank ≤ 12
        cases s.phase <;> decide
      · intro _; exact ⟨by simp, by simp⟩
  | token g => exact Or.inl ⟨rfl, rfl, rfl, rfl, rfl, rfl, rfl, rfl, rfl, rfl⟩
  | tick d => exact Or.inl ⟨rfl, rfl, rfl, rfl, rfl, rfl, rfl, rfl, rfl, rfl⟩

theorem steps_reachable {s s' : State F} (h : Reachable s) (hs : Steps s s') : Reachable s' := by
  induction hs with
  | refl => exact h
  | tail _ hs ih => exact .step ih hs

/-- Either nothing visible changed or the sequence number grew; generations only grow. -/
theorem steps_sequence {s s' : State F} (h : Steps s s') :
    s.generation ≤ s'.generation ∧ (Visible s s' ∨ s.sequence < s'.sequence) := by
  induction h with
  | refl => exact ⟨Nat.le_refl _, Or.inl (Visible.refl _)⟩
  | tail _ hs ih =>
    obtain ⟨h1, h2⟩ := ih
    rcases step_cases hs with hv | rfl | ⟨hg, hq, -⟩
    · refine ⟨by rw [hv.generation]; exact h1, ?_⟩
      rcases h2 with h2 | h2
      · exact Or.inl (h2.trans hv)
      · exact Or.inr (by rw [hv.sequence]; exact h2)
    · refine ⟨Nat.le_succ_of_le h1, Or.inr ?_⟩
      rcases h2 with h2 | h2
      · rw [← h2.sequence]; exact Nat.lt_succ_self _
      · exact Nat.lt_succ_of_lt h2
    · refine ⟨by rw [hg]; exact h1, Or.inr ?_⟩
      rw [hq]
      rcases h2 with h2 | h2
      · rw [← h2.sequence]; exact Nat.lt_succ_self _
      · exact Nat.lt_succ_of_lt h2

/-! ### Tokens -/

theorem getElem?_cancelToken (l : List Bool) (g i : Nat) :
    (cancelToken l g)[i]? = if g = i then l[i]?.map (fun _ => true) else l[i]? := by
  unfold cancelToken
  rw [List.getElem?_modify]
  split
  · rename_i h; subst h; cases l[g]? <;> simp
  · cases l[i]? <;> simp

theorem length_cancelToken (l : List Bool) (g : Nat) : (cancelToken l g).length = l.length := by
  unfold cancelToken; simp

structure Tokens (s : State F) : Prop where
  length : s.tokens.length = s.generation + 1
  older : ∀ g, g < s.generation → s.tokens[g]? = some true

theorem tokens_step {s s' : State F} (ht : Tokens s) (h : Step s s') : Tokens s' := by
  cases h with
  | begin =>
    constructor
    · show (cancelToken s.tokens s.generation ++ [false]).length = _
      rw [List.length_append, length_cancelToken, ht.length]; rfl
    · intro g hg
      show (cancelToken s.tokens s.generation ++ [false])[g]? = _
      change g < s.generation + 1 at hg
      rw [List.getElem?_append_left (by rw [length_cancelToken, ht.length]; exact hg), getElem?_cancelToken]
      split
      · rename_i h; subst h
        rw [List.getElem?_eq_getElem (by rw [ht.length]; exact hg)]; rfl
      · rename_i h
        exact ht.older g (by omega)
  | transition g phase completed total r h =>
    obtain ⟨-, h⟩ := transition_ok h
    rcases h with ⟨rfl, -, -⟩ | ⟨-, hm⟩
    · exact ht
    · exact ⟨by rw [hm.tokens, hm.generation]; exact ht.length, by rw [hm.tokens, hm.generation]; exact ht.older⟩
  | fail g f =>
    unfold fail
    split
    · exact ht
    · exact ⟨ht.length, ht.older⟩
  | cancel g =>
    unfold cancel
    split
    · exact ht
    · constructor
      · show (cancelToken s.tokens s.generation).length = _
        rw [length_cancelToken]; exact ht.length
      · intro g' hg
        show (cancelToken s.tokens s.generation)[g']? = _
        rw [getElem?_cancelToken]
        change g' < s.generation at hg
        rw [if_neg (by omega)]
        exact ht.older g' hg
  | token g =>
    constructor
    · show (cancelToken s.tokens g).length = _
      rw [length_cancelToken]; exact ht.length
    · intro g' hg
      show (cancelToken s.tokens g)[g']? = _
      rw [getElem?_cancelToken]
      change g' < s.generation at hg
      split
      · rw [ht.older g' hg]; rfl
      · exact ht.older g' hg
  | tick d => exact ⟨ht.length, ht.older⟩

theorem tokens_reachable {s : State F} (h : Reachable s) : Tokens s := by
  induction h with
  | init => exact ⟨rfl, by intro g hg; exact absurd hg (Nat.not_lt_zero g)⟩
  | step _ hs ih => exact tokens_step ih hs

/-- Every step keeps cancelled tokens cancelled. -/
theorem token_mono {s s' : State F} (ht : Tokens s) (h : Step s s') {g : Nat} (hg : s.tokens[g]? = some true) : s'.tokens[g]? = some true := by
  have key : ∀ i, (cancelToken s.tokens i)[g]? = some true := by
    intro i
    rw [getElem?_cancelToken, hg]; split <;> rfl
  cases h with
  | begin =>
    show (cancelToken s.tokens s.generation ++ [false])[g]? = _
    rw [List.getElem?_append_left (by rw [length_cancelToken]; exact (List.getElem?_eq_some_iff.mp hg).1)]
    exact key _
  | transition g' phase completed total r h =>
    obtain ⟨-, h⟩ := transition_ok h
    rcases h with ⟨rfl, -, -⟩ | ⟨-, hm⟩
    · exact hg
    · rw [hm.tokens]; exact hg
  | fail g' f => unfold fail; split <;> exact hg
  | cancel g' =>
    unfold cancel
    split
    · exact hg
    · exact key _
  | token g' => exact key _
  | tick d => exact hg

end Verif.Status
