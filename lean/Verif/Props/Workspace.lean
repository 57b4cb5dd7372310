import Verif.Model.Workspace
import Verif.Lemmas.NavDemand
import Verif.Lemmas.Status
/-!
C42: starting an indexing run changes the status and the demand controller in two steps.  If such calls never overlap the controller's
assertion (a new generation is newer than the last, navigation_demand.rs L98-112) holds; if they may overlap it can fail.
-/
namespace Verif.Workspace

variable {F K : Type}

structure Inv (s : State F K) : Prop where
  demands : ∀ p, s.demands.generation = some p → p ≤ s.status.generation
  fresh : ∀ p, s.demands.generation = some p → p ∉ s.beginning
  beginning : ∀ g ∈ s.beginning, 0 < g ∧ g ≤ s.status.generation
  nodup : s.beginning.Nodup

theorem cancel_status_generation (s : Status.State F) (g : Nat) : (Status.cancel s g).1.generation = s.generation := by
  unfold Status.cancel; split <;> rfl

theorem cancel_demand_generation (c : NavDemand.Ctl K) (g : Nat) : (NavDemand.cancel c g).1.generation = c.generation := by
  unfold NavDemand.cancel; split <;> rfl

theorem begin_generation {c c' : NavDemand.Ctl K} {g : Nat} (h : NavDemand.begin c g = .ok c') : c'.generation = some g :=
  (NavDemand.begin_spec (max := 0) h).2.1

theorem inv_step {s s' : State F K} (h : Inv s) (hs : Step s s') : Inv s' := by
  cases hs with
  | beginStatus =>
    constructor
    · intro p hp; exact Nat.le_succ_of_le (h.demands p hp)
    · intro p hp hm
      rcases List.mem_append.mp hm with hm | hm
      · exact h.fresh p hp hm
      · simp at hm
        have := h.demands p hp
        omega
    · intro g hg
      rcases List.mem_append.mp hg with hg | hg
      · exact ⟨(h.beginning g hg).1, Nat.le_succ_of_le (h.beginning g hg).2⟩
      · simp at hg; subst hg; exact ⟨by omega, Nat.le_refl _⟩
    · show (s.beginning ++ [_]).Nodup
      rw [List.nodup_append]
      refine ⟨h.nodup, by simp, ?_⟩
      intro a ha b hb
      simp at hb
      have := (h.beginning a ha).2
      omega
  | beginDemand i g c hi hb =>
    have hg := begin_generation hb
    constructor
    · intro p hp
      change c.generation = _ at hp
      rw [hg] at hp; cases hp
      exact (h.beginning g (List.mem_iff_getElem?.mpr ⟨i, hi⟩)).2
    · intro p hp hm
      change c.generation = _ at hp
      rw [hg] at hp; cases hp
      obtain ⟨hl, rfl⟩ := List.getElem?_eq_some_iff.mp hi
      rw [← List.Nodup.erase_getElem h.nodup i hl] at hm
      exact (List.Nodup.mem_erase_iff h.nodup).mp hm |>.1 rfl
    · intro g' hg'
      exact h.beginning g' (List.mem_of_mem_eraseIdx hg')
    · exact h.nodup.sublist (List.eraseIdx_sublist _ _)
  | cancelRead => exact ⟨h.demands, h.fresh, h.beginning, h.nodup⟩
  | cancelStatus i g hi =>
    constructor
    · intro p hp
      show p ≤ (Status.cancel _ _).1.generation
      rw [cancel_status_generation]; exact h.demands p hp
    · exact h.fresh
    · intro g hg
      show 0 < g ∧ g ≤ (Status.cancel _ _).1.generation
      rw [cancel_status_generation]; exact h.beginning g hg
    · exact h.nodup
  | cancelDemand i g hi =>
    constructor
    · intro p hp
      change (NavDemand.cancel s.demands g).1.generation = _ at hp
      rw [cancel_demand_generation] at hp
      exact h.demands p hp
    · intro p hp
      change (NavDemand.cancel s.demands g).1.generation = _ at hp
      rw [cancel_demand_generation] at hp
      exact h.fresh p hp
    · exact h.beginning
    · exact h.nodup

theorem inv_init (now : Nat) : Inv (init now : State F K) := by
  constructor
  · intro p hp; cases hp
  · intro p hp; cases hp
  · intro g hg; cases hg
  · exact List.Pairwise.nil

theorem reachable_inv {s : State F K} (h : Reachable s) : Inv s := by
  induction h with
  | init now => exact inv_init now
  | step _ hs ih => exact inv_step ih hs

/-- A pending call panics exactly when a later run's call has overtaken it. -/
theorem c42_panics_iff {s : State F K} (h : Reachable s) {g : Nat} (hg : g ∈ s.beginning) :
    NavDemand.begin s.demands g = .panic ↔ ∃ p, s.demands.generation = some p ∧ g < p := by
  have hi := reachable_inv h
  have h0 : g ≠ 0 := by have := (hi.beginning g hg).1; omega
  unfold NavDemand.begin
  rw [if_neg h0]
  cases hp : s.demands.generation with
  | none => simp
  | some p =>
    have hne : p ≠ g := by rintro rfl; exact hi.fresh p hp hg
    by_cases hlt : p < g
    · have : ¬ g < p := by omega
      simp [hlt, this]
    · have : g < p := by omega
      simp [hlt, this]

/-- If starting runs is serialized, starting one never panics. -/
theorem c42_serial_never_panics {s : State F K} (h : Serial s) {g : Nat} (hg : g ∈ s.beginning) : NavDemand.begin s.demands g ≠ .panic := by
  have key : ∀ s : State F K, Serial s → Reachable s ∧ s.beginning.length ≤ 1 ∧ (∀ g ∈ s.beginning, g = s.status.generation) := by
    intro s h
    induction h with
    | init now => exact ⟨.init now, Nat.zero_le _, fun g hg => by cases hg⟩
    | @step s s' _ hs hl ih =>
      obtain ⟨h1, h2, h3⟩ := ih
      refine ⟨.step h1 hs, hl, ?_⟩
      cases hs with
      | beginStatus =>
        intro g hg
        change (s.beginning ++ [_]).length ≤ 1 at hl
        rw [List.length_append] at hl
        have : s.beginning = [] := by
          cases hb : s.beginning with
          | nil => rfl
          | cons a l => rw [hb] at hl; simp at hl
        change g ∈ s.beginning ++ [_] at hg
        rw [this] at hg
        simp at hg
        exact hg
      | beginDemand i g c hi hb =>
        intro g' hg'
        exact h3 g' (List.mem_of_mem_eraseIdx hg')
      | cancelRead => exact h3
      | cancelStatus i g hi =>
        intro g' hg'
        show g' = (Status.cancel _ _).1.generation
        rw [cancel_status_generation]; exact h3 g' hg'
      | cancelDemand => exact h3
  obtain ⟨h1, h2, h3⟩ := key s h
  intro hp
  obtain ⟨p, hp1, hp2⟩ := (c42_panics_iff h1 hg).mp hp
  have := (reachable_inv h1).demands p hp1
  have := h3 g hg
  omega

/-- Two overlapping calls can panic: run 2 reaches the controller before run 1. -/
theorem c42_overlap_panics : ∃ s : State String Nat, Reachable s ∧ s.beginning = [1] ∧ NavDemand.begin s.demands 1 = .panic := by
  have r : Reachable (init 0 : State String Nat) := .init 0
  have r := r.step .beginStatus
  have r := r.step .beginStatus
  have r := r.step (.beginDemand 1 2 _ rfl rfl)
  exact ⟨_, r, rfl, rfl⟩

/-- `cancel_current_indexing_run` reads the generation twice: a run started in between is cancelled in the status while the controller
keeps accepting navigation requests for it (until another run starts), so their tickets wait for a run that has stopped. -/
theorem c42_cancel_misses_controller : ∃ s : State String Nat, Reachable s ∧ s.beginning = [] ∧ s.cancelling = [] ∧ s.status.phase = .cancelled ∧
    s.demands.generation = some s.status.generation ∧ s.demands.terminal = none := by
  have r : Reachable (init 0 : State String Nat) := .init 0
  have r := r.step .beginStatus
  have r := r.step (.beginDemand 0 1 _ rfl rfl)
  have r := r.step .cancelRead
  have r := r.step .beginStatus
  have r := r.step (.beginDemand 0 2 _ rfl rfl)
  have r := r.step (.cancelStatus 0 1 rfl)
  have r := r.step (.cancelDemand 0 1 rfl)
  exact ⟨_, r, rfl, rfl, rfl, rfl, rfl⟩

end Verif.Workspace
