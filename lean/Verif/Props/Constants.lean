import Verif.Model.Constants
import Mathlib.Tactic.Common
/-! Property C34. -/
namespace Verif.Constants

variable {C : Type} (isNamespace isConstant : List C → Bool)

/-- A path is defined when it names a namespace or a constant. -/
def Defined (path : List C) : Prop := isNamespace path = true ∨ isConstant path = true

/-- Specification: `pre` is the innermost enclosing namespace of `context` under which `parts` is defined. -/
def Innermost (parts context pre : List C) : Prop :=
  pre <+: context ∧ Defined isNamespace isConstant (pre ++ parts) ∧
    ∀ q, q <+: context → Defined isNamespace isConstant (q ++ parts) → q.length ≤ pre.length

/-- The answer for a defined path: a namespace wins over a plain constant. -/
def answer (path : List C) : Found C := if isNamespace path = true then .namespace path else .constant path

theorem probe_some {path : List C} (h : Defined isNamespace isConstant path) :
    probe isNamespace isConstant path = some (answer isNamespace path) := by
  unfold probe answer
  rcases h with h | h
  · simp [h]
  · split <;> simp [*]

theorem probe_none {path : List C} (h : ¬ Defined isNamespace isConstant path) : probe isNamespace isConstant path = none := by
  unfold Defined at h
  push Not at h
  simp [probe, h.1, h.2]

theorem prefix_dropLast {q l : List C} (h : q <+: l) (hne : q ≠ l) : q <+: l.dropLast := by
  obtain ⟨r, rfl⟩ := h
  have hr : r ≠ [] := by rintro rfl; simp at hne
  exact ⟨r.dropLast, by rw [List.dropLast_append_of_ne_nil hr]⟩

theorem resolveFrom_spec (parts : List C) (n : Nat) : ∀ search : List C, search.length = n →
    (∀ pre, Innermost isNamespace isConstant parts search pre →
      resolveFrom isNamespace isConstant parts false search = some (answer isNamespace (pre ++ parts))) ∧
    ((∀ q, q <+: search → ¬ Defined isNamespace isConstant (q ++ parts)) →
      resolveFrom isNamespace isConstant parts false search = none) := by
  induction n with
  | zero =>
    intro search hs
    have : search = [] := List.length_eq_zero_iff.mp hs
    subst this
    constructor
    · rintro pre ⟨hp, hd, -⟩
      have : pre = [] := List.prefix_nil.mp hp
      subst this
      rw [resolveFrom, probe_some _ _ hd]
    · intro h
      rw [resolveFrom, probe_none _ _ (h [] (List.nil_prefix))]
      simp
  | succ n ih =>
    intro search hs
    have hne : search ≠ [] := by rintro rfl; simp at hs
    have hlen : search.dropLast.length = n := by rw [List.length_dropLast]; omega
    obtain ⟨ih1, ih2⟩ := ih search.dropLast hlen
    have hemp : search.isEmpty = false := by cases search <;> simp_all
    constructor
    · rintro pre ⟨hp, hd, hmax⟩
      rw [resolveFrom]
      by_cases hself : Defined isNamespace isConstant (search ++ parts)
      · have : pre = search := hp.eq_of_length_le (hmax search List.prefix_rfl hself)
        rw [this, probe_some _ _ hself]
      · rw [probe_none _ _ hself]
        have hpne : pre ≠ search := by rintro rfl; exact hself hd
        simp only [hemp, Bool.or_self, Bool.false_eq_true, if_false]
        refine ih1 pre ⟨prefix_dropLast hp hpne, hd, ?_⟩
        intro q hq
        exact hmax q (hq.trans (List.dropLast_prefix _))
    · intro h
      rw [resolveFrom, probe_none _ _ (h search List.prefix_rfl)]
      simp only [hemp, Bool.or_self, Bool.false_eq_true, if_false]
      exact ih2 (fun q hq => h q (hq.trans (List.dropLast_prefix _)))

/-- If any prefix defines the path, an innermost one exists. -/
theorem exists_innermost (parts : List C) (context q : List C) (hq : q <+: context)
    (hd : Defined isNamespace isConstant (q ++ parts)) : ∃ pre, Innermost isNamespace isConstant parts context pre := by
  induction hn : context.length - q.length using Nat.strongRecOn generalizing q with
  | ind n ih =>
    by_cases h : ∃ q', q' <+: context ∧ Defined isNamespace isConstant (q' ++ parts) ∧ q.length < q'.length
    · obtain ⟨q', hq', hd', hlt⟩ := h
      have hl := hq'.length_le
      exact ih (context.length - q'.length) (by omega) q' hq' hd' rfl
    · push Not at h
      exact ⟨q, hq, hd, fun q' a b => Nat.le_of_not_lt (h q' a b)⟩

/-! ### C34 -/

/-- A relative path resolves to what is defined under the innermost enclosing namespace that defines it. -/
theorem c34_innermost {parts context pre : List C} (h : Innermost isNamespace isConstant parts context pre) :
    resolveConstant isNamespace isConstant parts false context = some (answer isNamespace (pre ++ parts)) :=
  (resolveFrom_spec isNamespace isConstant parts context.length context rfl).1 pre h

/-- A relative path resolves to nothing exactly when no enclosing namespace (nor the top level) defines it. -/
theorem c34_none_iff (parts context : List C) :
    resolveConstant isNamespace isConstant parts false context = none ↔
      ∀ q, q <+: context → ¬ Defined isNamespace isConstant (q ++ parts) := by
  constructor
  · intro h q hq hd
    obtain ⟨pre, hpre⟩ := exists_innermost isNamespace isConstant parts context q hq hd
    rw [c34_innermost isNamespace isConstant hpre] at h
    cases h
  · exact (resolveFrom_spec isNamespace isConstant parts context.length context rfl).2

/-- Whatever a relative path resolves to is defined, under a unique innermost prefix, and is reported as a namespace
whenever it is one. -/
theorem c34_sound {parts context : List C} {f : Found C}
    (h : resolveConstant isNamespace isConstant parts false context = some f) :
    ∃ pre, Innermost isNamespace isConstant parts context pre ∧
      ((isNamespace (pre ++ parts) = true ∧ f = .namespace (pre ++ parts)) ∨
       (isNamespace (pre ++ parts) = false ∧ isConstant (pre ++ parts) = true ∧ f = .constant (pre ++ parts))) := by
  have hex : ∃ q, q <+: context ∧ Defined isNamespace isConstant (q ++ parts) := by
    by_contra hc
    push Not at hc
    rw [(c34_none_iff isNamespace isConstant parts context).mpr hc] at h
    cases h
  obtain ⟨q, hq, hd⟩ := hex
  obtain ⟨pre, hpre⟩ := exists_innermost isNamespace isConstant parts context q hq hd
  refine ⟨pre, hpre, ?_⟩
  rw [c34_innermost isNamespace isConstant hpre] at h
  cases h
  unfold answer
  rcases hb : isNamespace (pre ++ parts) with _ | _
  · rcases hpre.2.1 with h1 | h1
    · rw [hb] at h1; cases h1
    · simp [h1]
  · simp

/-- An absolute path (`::A::B`) resolves at the top level only, wherever it is written. -/
theorem c34_absolute (parts context : List C) :
    resolveConstant isNamespace isConstant parts true context =
      if isNamespace parts = true then some (.namespace parts)
      else if isConstant parts = true then some (.constant parts) else none := by
  simp only [resolveConstant, if_true]
  rw [resolveFrom]
  simp only [probe, List.nil_append, Bool.true_or, if_true]
  split <;> simp_all

/-- Concrete case: `B` is looked up from inside `A::X::Y`, where both `A::B` and top-level `B` exist. -/
theorem demo : Innermost (C := String) (fun p => p == ["A", "B"]) (fun p => p == ["B"]) ["B"] ["A", "X", "Y"] ["A"] := by
  refine ⟨⟨["X", "Y"], rfl⟩, Or.inl rfl, ?_⟩
  intro q hq hd
  rcases hd with h | h <;> simp only [beq_iff_eq] at h
  · have : q.length + 1 = 2 := by simpa using congrArg List.length h
    simp; omega
  · have : q.length + 1 = 1 := by simpa using congrArg List.length h
    simp; omega

example : resolveConstant (C := String) (fun p => p == ["A", "B"]) (fun p => p == ["B"]) ["B"] false ["A", "X", "Y"] =
    some (.namespace ["A", "B"]) := by
  rw [c34_innermost _ _ demo]; rfl

end Verif.Constants
