import Verif.Model.Sort
import Mathlib.Tactic.Common
import Mathlib.Data.List.Nodup
namespace Verif

variable {α : Type} {le : α → α → Bool}

/-- A total preorder given as a Boolean test. -/
structure IsOrder (le : α → α → Bool) : Prop where
  total : ∀ a b, le a b = true ∨ le b a = true
  trans : ∀ a b c, le a b = true → le b c = true → le a c = true

theorem insertSorted_perm (a : α) (l : List α) : (insertSorted le a l).Perm (a :: l) := by
  induction l with
  | nil => exact .refl _
  | cons b l ih =>
    simp only [insertSorted]
    split
    · exact .refl _
    · exact (ih.cons b).trans (.swap a b l)

theorem stableSort_perm (l : List α) : (stableSort le l).Perm l := by
  induction l with
  | nil => exact .refl _
  | cons a l ih => exact (insertSorted_perm a _).trans (ih.cons a)

theorem mem_stableSort {a : α} {l : List α} : a ∈ stableSort le l ↔ a ∈ l := (stableSort_perm l).mem_iff

theorem mem_insertSorted {a b : α} {l : List α} : a ∈ insertSorted le b l ↔ a = b ∨ a ∈ l := by
  rw [(insertSorted_perm b l).mem_iff, List.mem_cons]

def Sorted (le : α → α → Bool) (l : List α) : Prop := l.Pairwise (fun a b => le a b = true)

theorem insertSorted_sorted (o : IsOrder le) (a : α) {l : List α} (h : Sorted le l) : Sorted le (insertSorted le a l) := by
  induction l with
  | nil => exact List.pairwise_singleton _ _
  | cons b l ih =>
    simp only [insertSorted]
    have hb := List.pairwise_cons.mp h
    split
    · rename_i hab
      refine List.pairwise_cons.mpr ⟨?_, h⟩
      intro x hx
      rcases List.mem_cons.mp hx with rfl | hx
      · exact hab
      · exact o.trans _ _ _ hab (hb.1 x hx)
    · rename_i hab
      refine List.pairwise_cons.mpr ⟨?_, ih hb.2⟩
      intro x hx
      rcases mem_insertSorted.mp hx with rfl | hx
      · exact (o.total b x).resolve_right hab
      · exact hb.1 x hx

theorem stableSort_sorted (o : IsOrder le) (l : List α) : Sorted le (stableSort le l) := by
  induction l with
  | nil => exact List.Pairwise.nil
  | cons a l ih => exact insertSorted_sorted o a ih

theorem insertSorted_of_le {a : α} {l : List α} (h : ∀ b ∈ l, le a b = true) : insertSorted le a l = a :: l := by
  cases l with
  | nil => rfl
  | cons b l => simp [insertSorted, h b (by simp)]

/-- A sorted list is left alone. -/
theorem stableSort_of_sorted {l : List α} (h : Sorted le l) : stableSort le l = l := by
  induction l with
  | nil => rfl
  | cons a l ih =>
    have hb := List.pairwise_cons.mp h
    simp only [stableSort]
    rw [ih hb.2, insertSorted_of_le hb.1]

/-- Stability: elements that compare equal keep their relative order. -/
theorem filter_insertSorted {q : α → Bool} {a : α} {l : List α}
    (hq : ∀ b, q a = true → q b = true → le a b = true) :
    (insertSorted le a l).filter q = if q a then a :: l.filter q else l.filter q := by
  induction l with
  | nil => simp [insertSorted, List.filter_cons]
  | cons b l ih =>
    simp only [insertSorted]
    split
    · rw [List.filter_cons]
    · rename_i hab
      rw [List.filter_cons, ih]
      by_cases ha : q a
      · have hb : ¬ q b = true := fun hb => hab (hq b ha hb)
        simp [ha, hb, List.filter_cons]
      · simp [ha, List.filter_cons]

theorem filter_stableSort {q : α → Bool} {l : List α} (hq : ∀ a b, q a = true → q b = true → le a b = true) :
    (stableSort le l).filter q = l.filter q := by
  induction l with
  | nil => rfl
  | cons a l ih =>
    simp only [stableSort]
    rw [filter_insertSorted (fun b => hq a b), ih]
    simp [List.filter_cons]

/-- Uniqueness: a sorted list that agrees with `l` on every class of equal keys is the stable sort of `l`. -/
theorem stableSort_unique (o : IsOrder le) {l l' : List α} (hs : Sorted le l')
    (hf : ∀ k : α, l'.filter (fun a => le a k && le k a) = l.filter (fun a => le a k && le k a)) : l' = stableSort le l := by
  have hf' : ∀ k : α, l'.filter (fun a => le a k && le k a) = (stableSort le l).filter (fun a => le a k && le k a) := by
    intro k
    rw [hf k, filter_stableSort]
    intro a b ha hb
    simp only [Bool.and_eq_true] at ha hb
    exact o.trans _ _ _ ha.1 hb.2
  have hs2 := stableSort_sorted o l
  generalize stableSort le l = l2 at hf' hs2
  clear hf
  induction l' generalizing l2 with
  | nil =>
    cases l2 with
    | nil => rfl
    | cons b l2 =>
      have := hf' b
      have hbb : le b b = true := by rcases o.total b b with h | h <;> exact h
      simp [hbb] at this
  | cons a l' ih =>
    have haa : le a a = true := by rcases o.total a a with h | h <;> exact h
    cases l2 with
    | nil =>
      have := hf' a
      simp [haa] at this
    | cons b l2 =>
      have h1 := List.pairwise_cons.mp hs
      have h2 := List.pairwise_cons.mp hs2
      have hbb : le b b = true := by rcases o.total b b with h | h <;> exact h
      -- b occurs in a :: l', a occurs in b :: l2
      have hab : le a b = true := by
        have : b ∈ (a :: l').filter (fun x => le x b && le b x) := by rw [hf' b]; simp [hbb]
        rcases List.mem_cons.mp (List.mem_filter.mp this).1 with rfl | hm
        · exact haa
        · exact h1.1 b hm
      have hba : le b a = true := by
        have : a ∈ (b :: l2).filter (fun x => le x a && le a x) := by rw [← hf' a]; simp [haa]
        rcases List.mem_cons.mp (List.mem_filter.mp this).1 with rfl | hm
        · exact hbb
        · exact h2.1 a hm
      have heq := hf' a
      simp only [List.filter_cons, haa, hab, hba, Bool.and_self, if_true, List.cons.injEq] at heq
      obtain ⟨rfl, heq⟩ := heq
      congr 1
      refine ih h1.2 l2 ?_ h2.2
      intro k
      have := hf' k
      simp only [List.filter_cons] at this
      split at this
      · exact (List.cons.inj this).2
      · exact this

/-- Sorting does not depend on the original order when equal keys mean equal elements. -/
theorem stableSort_perm_eq (o : IsOrder le) (anti : ∀ a b, le a b = true → le b a = true → a = b) {l l' : List α}
    (h : l.Perm l') : stableSort le l = stableSort le l' := by
  refine stableSort_unique o (stableSort_sorted o l) ?_
  intro k
  have hp : ((stableSort le l).filter (fun a => le a k && le k a)).Perm (l'.filter (fun a => le a k && le k a)) :=
    ((stableSort_perm l).trans h).filter _
  have hall : ∀ (m : List α) (x : α), x ∈ m.filter (fun a => le a k && le k a) → x = k := by
    intro m x hx
    have := (List.mem_filter.mp hx).2
    simp only [Bool.and_eq_true] at this
    exact anti _ _ this.1 this.2
  have h1 := List.eq_replicate_of_mem (hall (stableSort le l))
  have h2 := List.eq_replicate_of_mem (hall l')
  rw [h1, h2, hp.length_eq]

variable [DecidableEq α]

theorem mem_dedupAdj {a : α} {l : List α} : a ∈ dedupAdj l ↔ a ∈ l := by
  induction l with
  | nil => simp [dedupAdj]
  | cons b l ih =>
    simp only [dedupAdj]
    split
    · rename_i h
      rw [h] at ih
      simp only [List.mem_cons, ← ih]
    · rename_i c l' h
      rw [h] at ih
      split
      · rename_i hbc
        subst hbc
        rw [ih, List.mem_cons]
        constructor
        · exact Or.inr
        · rintro (rfl | h')
          · exact ih.mp (by simp)
          · exact h'
      · rw [List.mem_cons, ih, List.mem_cons]

theorem dedupAdj_sublist (l : List α) : (dedupAdj l).Sublist l := by
  induction l with
  | nil => exact List.Sublist.refl _
  | cons b l ih =>
    simp only [dedupAdj]
    split
    · rename_i h
      exact List.Sublist.cons_cons b (List.nil_sublist l)
    · rename_i c l' h
      rw [h] at ih
      split
      · exact ih.cons b
      · exact ih.cons_cons b

/-- Deduplicating a list sorted by a total order leaves each element once. -/
theorem dedupAdj_nodup (anti : ∀ a b, le a b = true → le b a = true → a = b) {l : List α} (h : Sorted le l) : (dedupAdj l).Nodup := by
  induction l with
  | nil => exact List.nodup_nil
  | cons a l ih =>
    have hb := List.pairwise_cons.mp h
    have ih := ih hb.2
    have hsub := dedupAdj_sublist l
    simp only [dedupAdj]
    split
    · exact List.nodup_singleton a
    · rename_i c l' heq
      rw [heq] at ih hsub
      split
      · exact ih
      · rename_i hac
        refine List.nodup_cons.mpr ⟨?_, ih⟩
        intro hm
        rcases List.mem_cons.mp hm with rfl | hm
        · exact hac rfl
        · -- c ≤ a (sorted) and a ≤ c
          have hs : Sorted le (c :: l') := List.Pairwise.sublist hsub hb.2
          have h1 := (List.pairwise_cons.mp hs).1 a hm
          have h2 := hb.1 c (hsub.subset (by simp))
          exact hac (anti _ _ h2 h1)

end Verif
