import Verif.Model.Common
import Mathlib.Data.List.Perm.Basic
import Mathlib.Tactic.Common
/-! Lemmas about the shared building blocks. -/
namespace Verif

theorem swapRemove_perm {α : Type} {l : List α} {i : Nat} {x : α} (h : l[i]? = some x) :
    (x :: swapRemove l i).Perm l := by
  rcases List.eq_nil_or_concat l with rfl | ⟨init, z, rfl⟩
  · simp at h
  · rw [List.concat_eq_append] at *
    obtain ⟨hi, hx⟩ := List.getElem?_eq_some_iff.mp h
    simp only [swapRemove, List.getLast?_concat]
    by_cases hlt : i < init.length
    · rw [List.set_append_left i z hlt, List.dropLast_concat]
      have hx' : init[i] = x := by rw [← hx, List.getElem_append_left hlt]
      have h1 := List.set_perm_cons_eraseIdx hlt z
      have h2 := List.getElem_cons_eraseIdx_perm hlt
      rw [hx'] at h2
      refine (h1.cons x).trans ((List.Perm.swap z x _).trans ?_)
      exact ((h2.cons z).trans (List.perm_append_singleton z init).symm)
    · have : i = init.length := by simp at hi; omega
      subst this
      have hx' : z = x := by simpa using hx
      subst hx'
      rw [List.set_append_right _ _ (Nat.le_refl _)]
      simp only [Nat.sub_self, List.set_cons_zero, List.dropLast_concat]
      exact (List.perm_append_singleton z init).symm

theorem minBy_mem {α : Type} {lt : α → α → Bool} {l : List α} {m : α} (h : minBy lt l = some m) : m ∈ l := by
  cases l with
  | nil => simp [minBy] at h
  | cons a l =>
    simp only [minBy, Option.some.injEq] at h
    subst h
    suffices ∀ (l : List α) (a : α), l.foldl (fun acc x => if lt x acc then x else acc) a ∈ a :: l from this l a
    intro l
    induction l with
    | nil => simp
    | cons b l ih =>
      intro a
      simp only [List.foldl_cons]
      have := ih (if lt b a then b else a)
      simp only [List.mem_cons] at this ⊢
      split at this <;> grind

theorem minBy_none {α : Type} {lt : α → α → Bool} {l : List α} : minBy lt l = none ↔ l = [] := by
  cases l <;> simp [minBy]

/-- No element is smaller than the chosen one, for comparisons whose negation is transitive (`b ≤ a → c ≤ b → c ≤ a`
read with `≤` as "not greater"). -/
theorem minBy_le {α : Type} {lt : α → α → Bool}
    (irr : ∀ a, lt a a = false)
    (asymm : ∀ a b, lt a b = true → lt b a = false)
    (trans : ∀ a b c, lt b a = false → lt c b = false → lt c a = false)
    {l : List α} {m : α} (h : minBy lt l = some m) : ∀ x ∈ l, lt x m = false := by
  cases l with
  | nil => simp [minBy] at h
  | cons a l =>
    simp only [minBy, Option.some.injEq] at h
    subst h
    suffices ∀ (l : List α) (a : α),
        lt a (l.foldl (fun acc x => if lt x acc then x else acc) a) = false ∧
        ∀ x ∈ l, lt x (l.foldl (fun acc x => if lt x acc then x else acc) a) = false by
      intro x hx
      rcases List.mem_cons.mp hx with rfl | hx
      · exact (this l x).1
      · exact (this l a).2 x hx
    intro l
    induction l with
    | nil => intro a; simp [irr]
    | cons b l ih =>
      intro a
      simp only [List.foldl_cons]
      obtain ⟨h1, h2⟩ := ih (if lt b a then b else a)
      by_cases hb : lt b a = true
      · simp only [hb, if_true] at h1 h2 ⊢
        refine ⟨trans _ _ _ h1 (asymm _ _ hb), ?_⟩
        intro x hx
        rcases List.mem_cons.mp hx with rfl | hx
        · exact h1
        · exact h2 x hx
      · simp only [hb] at h1 h2 ⊢
        refine ⟨h1, ?_⟩
        intro x hx
        rcases List.mem_cons.mp hx with rfl | hx
        · exact trans _ _ _ h1 (by simpa using hb)
        · exact h2 x hx

theorem mem_enumerate {α : Type} {l : List α} {p : Nat × α} : p ∈ enumerate l ↔ l[p.1]? = some p.2 := by
  obtain ⟨i, x⟩ := p
  simp only [enumerate, List.mem_map, Prod.mk.injEq, Prod.exists]
  constructor
  · rintro ⟨a, b, h, rfl, rfl⟩
    simpa [List.mem_zipIdx_iff_getElem?] using h
  · intro h
    exact ⟨x, i, by simpa [List.mem_zipIdx_iff_getElem?] using h, rfl, rfl⟩

theorem mem_iff_exists_enumerate {α : Type} {l : List α} {x : α} : x ∈ l ↔ ∃ i, (i, x) ∈ enumerate l := by
  simp only [mem_enumerate]
  exact List.mem_iff_getElem?

end Verif
