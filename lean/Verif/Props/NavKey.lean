import Verif.Model.NavKey
/-!
C41: are the keys made by the normalizer accepted by the controller?  Only if lower-casing an alphanumeric character gives alphanumeric
characters, which Unicode does not guarantee: U+0130 (`İ`, a letter that may start a Ruby constant) lower-cases to `i` followed by the
combining mark U+0307.
-/
namespace Verif.NavKey

variable {alnum : Char → Bool} {lower : Char → List Char}

/-- Every key sent by the definition handler passes the assertion exactly when lower-casing keeps characters alphanumeric. -/
theorem c41_accepted_iff : (∀ name key, definitionKey alnum lower name = some key → accepted alnum key = true) ↔
    ∀ c, alnum c = true → ∀ d ∈ lower c, alnum d = true := by
  constructor
  · intro h c hc d hd
    have hn : normalize alnum lower [c] = lower c := by simp [normalize, hc]
    have hk : definitionKey alnum lower [c] = some (lower c) := by
      unfold definitionKey
      rw [hn]
      have : (lower c).isEmpty = false := by
        cases hl : lower c with
        | nil => rw [hl] at hd; cases hd
        | cons => rfl
      simp [this]
    have := h [c] _ hk
    simp only [accepted, Bool.and_eq_true, List.all_eq_true] at this
    exact this.2 d hd
  · intro h name key hk
    unfold definitionKey at hk
    dsimp only at hk
    split at hk
    · cases hk
    · rename_i hne
      cases hk
      simp only [accepted, Bool.and_eq_true, List.all_eq_true]
      refine ⟨by simpa using hne, ?_⟩
      intro d hd
      obtain ⟨c, hc, hd⟩ := List.mem_flatMap.mp hd
      exact h c (List.mem_filter.mp hc).2 d hd

/-- With what Unicode says about `İ`, the key of the constant `İstanbul` is sent to `request` and fails its assertion. -/
theorem c41_dotted_i_panics (h1 : alnum 'İ' = true) (h2 : lower 'İ' = ['i', '̇']) (h3 : alnum '̇' = false) (rest : List Char) :
    ∃ key, definitionKey alnum lower ('İ' :: rest) = some key ∧ accepted alnum key = false := by
  refine ⟨normalize alnum lower ('İ' :: rest), ?_, ?_⟩
  · unfold definitionKey
    simp [normalize, h1, h2]
  · simp [accepted, normalize, h1, h2, h3]

/-- `claim_if_requested` is called with keys that were not tested for emptiness (coordinator.rs L2583, L2823); a gem name without
alphanumeric characters would fail its assertion. -/
theorem c41_empty_key_rejected {name : List Char} (h : ∀ c ∈ name, alnum c = false) : accepted alnum (normalize alnum lower name) = false := by
  have : name.filter alnum = [] := by
    rw [List.filter_eq_nil_iff]
    intro c hc
    simp [h c hc]
  simp [accepted, normalize, this]

/-- The normalizer does not depend on separators: names that differ only in other characters get one key. -/
theorem c41_separators_ignored {a b : List Char} (h : a.filter alnum = b.filter alnum) : normalize alnum lower a = normalize alnum lower b := by
  unfold normalize; rw [h]

/-- On ASCII-like tables the hypothesis of `c41_accepted_iff` holds and keys are what one expects. -/
example : definitionKey Char.isAlphanum (fun c => [c.toLower]) "Active_Record".toList = some "activerecord".toList := by decide

end Verif.NavKey
