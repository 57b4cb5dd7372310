import Verif.Model.Suggest
import Verif.Spec.Suggest

namespace Verif.Suggest

/-- Alignments. -/
inductive Align : List Char → List Char → Nat → Prop
  | nil : Align [] [] 0
  | keep {x a b n} : Align a b n → Align (x :: a) (x :: b) n
  | subst {x y a b n} : Align a b n → Align (x :: a) (y :: b) (n + 1)
  | del {x a b n} : Align a b n → Align (x :: a) b (n + 1)
  | ins {y a b n} : Align a b n → Align a (y :: b) (n + 1)

theorem Align.change {a b : List Char} {n : Nat} (h : Align a b n) :
    ∀ {c : List Char}, Change b c → ∃ m, m ≤ n + 1 ∧ Align a c m := by
  induction h with
  | nil => intro c hc; cases hc; exact ⟨1, by omega, .ins .nil⟩
  | keep h ih =>
    intro c hc
    cases hc with
    | replace => exact ⟨_, Nat.le_refl _, .subst h⟩
    | insert => exact ⟨_, Nat.le_refl _, .ins (.keep h)⟩
    | delete => exact ⟨_, Nat.le_refl _, .del h⟩
    | later hc => obtain ⟨m, hm, hA⟩ := ih hc; exact ⟨m, hm, .keep hA⟩
  | subst h ih =>
    intro c hc
    cases hc with
    | replace => exact ⟨_, Nat.le_succ _, .subst h⟩
    | insert => exact ⟨_, Nat.le_refl _, .ins (.subst h)⟩
    | delete => exact ⟨_, Nat.le_succ _, .del h⟩
    | later hc => obtain ⟨m, hm, hA⟩ := ih hc; exact ⟨m + 1, by omega, .subst hA⟩
  | del h ih =>
    intro c hc
    obtain ⟨m, hm, hA⟩ := ih hc
    exact ⟨m + 1, by omega, .del hA⟩
  | ins h ih =>
    intro c hc
    cases hc with
    | replace => exact ⟨_, Nat.le_succ _, .ins h⟩
    | insert => exact ⟨_, Nat.le_refl _, .ins (.ins h)⟩
    | delete => exact ⟨_, by omega, h⟩
    | later hc => obtain ⟨m, hm, hA⟩ := ih hc; exact ⟨m + 1, by omega, .ins hA⟩

theorem Align.refl : ∀ a : List Char, Align a a 0
  | [] => .nil
  | _ :: a => .keep (Align.refl a)

theorem align_of_changes {a b : List Char} {n : Nat} (h : Changes a b n) : ∃ m, m ≤ n ∧ Align a b m := by
  induction h with
  | none => exact ⟨0, Nat.le_refl _, Align.refl _⟩
  | more _ hc ih =>
    obtain ⟨m, hm, hA⟩ := ih
    obtain ⟨k, hk, hB⟩ := hA.change hc
    exact ⟨k, by omega, hB⟩

theorem Changes.cons {a b : List Char} {n : Nat} (h : Changes a b n) (x : Char) : Changes (x :: a) (x :: b) n := by
  induction h with
  | none => exact .none
  | more _ hc ih => exact .more ih (.later hc)

theorem Changes.first {a b c : List Char} {n : Nat} (h1 : Change a b) (h : Changes b c n) : Changes a c (n + 1) := by
  induction h with
  | none => exact .more .none h1
  | more _ hc ih => exact .more ih hc

theorem changes_of_align {a b : List Char} {n : Nat} (h : Align a b n) : Changes a b n := by
  induction h with
  | nil => exact .none
  | keep _ ih => exact ih.cons _
  | subst _ ih => exact .more (ih.cons _) .replace
  | del _ ih => exact .first .delete ih
  | ins _ ih => exact .more ih .insert

theorem Change.append {a b : List Char} (h : Change a b) (c : List Char) : Change (a ++ c) (b ++ c) := by
  induction h with
  | replace => exact .replace
  | insert => exact .insert
  | delete => exact .delete
  | later _ ih => exact .later ih

theorem Change.prepend {a b : List Char} (h : Change a b) : ∀ c : List Char, Change (c ++ a) (c ++ b)
  | [] => h
  | _ :: c => .later (h.prepend c)

theorem Change.reverse {a b : List Char} (h : Change a b) : Change a.reverse b.reverse := by
  induction h with
  | replace => rw [List.reverse_cons, List.reverse_cons]; exact Change.prepend .replace _
  | @insert y l =>
    rw [List.reverse_cons]
    simpa using Change.prepend (.insert (y := y) (l := [])) l.reverse
  | @delete x l =>
    rw [List.reverse_cons]
    simpa using Change.prepend (.delete (x := x) (l := [])) l.reverse
  | later _ ih => rw [List.reverse_cons, List.reverse_cons]; exact ih.append _

theorem Changes.reverse {a b : List Char} {n : Nat} (h : Changes a b n) : Changes a.reverse b.reverse n := by
  induction h with
  | none => exact .none
  | more _ hc ih => exact .more ih hc.reverse

/-- The recursion behind the table, on reversed prefixes. -/
def d : List Char → List Char → Nat
  | [], b => b.length
  | a :: as, [] => as.length + 1
  | x :: a, y :: b => min (min (d a (y :: b) + 1) (d (x :: a) b + 1)) (d a b + if x ≠ y then 1 else 0)
termination_by a b => a.length + b.length

theorem d_nil (b : List Char) : d [] b = b.length := by unfold d; rfl
theorem d_nil_right (a : List Char) : d a [] = a.length := by cases a <;> simp [d]
theorem d_cons (x y : Char) (a b : List Char) : d (x :: a) (y :: b) =
    min (min (d a (y :: b) + 1) (d (x :: a) b + 1)) (d a b + if x ≠ y then 1 else 0) := by rw [d]

theorem align_length : ∀ b : List Char, Align [] b b.length
  | [] => .nil
  | _ :: b => .ins (align_length b)

theorem align_length_left : ∀ a : List Char, Align a [] a.length
  | [] => .nil
  | _ :: a => .del (align_length_left a)

theorem d_align (a b : List Char) : Align a b (d a b) := by
  induction a generalizing b with
  | nil => rw [d_nil]; exact align_length b
  | cons x a iha =>
    induction b with
    | nil => rw [d_nil_right]; exact align_length_left _
    | cons y b ihb =>
      rw [d_cons]
      have h1 : Align (x :: a) (y :: b) (d a (y :: b) + 1) := .del (iha _)
      have h2 : Align (x :: a) (y :: b) (d (x :: a) b + 1) := .ins ihb
      have h3 : Align (x :: a) (y :: b) (d a b + if x ≠ y then 1 else 0) := by
        by_cases e : x = y
        · subst e; simpa using Align.keep (x := x) (iha b)
        · simpa [e] using Align.subst (x := x) (y := y) (iha b)
      generalize d a (y :: b) + 1 = A at h1 ⊢
      generalize d (x :: a) b + 1 = B at h2 ⊢
      generalize (d a b + if x ≠ y then 1 else 0) = C at h3 ⊢
      have h : min (min A B) C = A ∨ min (min A B) C = B ∨ min (min A B) C = C := by omega
      rcases h with h | h | h
      · rw [h]; exact h1
      · rw [h]; exact h2
      · rw [h]; exact h3

theorem d_le_tail (x : Char) (a b : List Char) : d (x :: a) b ≤ d a b + 1 := by
  cases b with
  | nil => simp [d_nil_right]
  | cons y b => rw [d_cons]; omega

theorem d_le_tail_right (y : Char) (a b : List Char) : d a (y :: b) ≤ d a b + 1 := by
  cases a with
  | nil => simp [d_nil]
  | cons x a => rw [d_cons]; omega

theorem d_min {a b : List Char} {n : Nat} (h : Align a b n) : d a b ≤ n := by
  induction h with
  | nil => simp [d_nil]
  | @keep x a b n _ ih => rw [d_cons]; simp; omega
  | @subst x y a b n _ ih => rw [d_cons]; split <;> omega
  | @del x a b n _ ih => have := d_le_tail x a b; omega
  | @ins y a b n _ ih => have := d_le_tail_right y a b; omega

theorem d_distance (a b : List Char) : Distance a b (d a.reverse b.reverse) := by
  refine ⟨?_, ?_⟩
  · have := (changes_of_align (d_align a.reverse b.reverse)).reverse
    simpa using this
  · intro m hm
    obtain ⟨k, hk, hA⟩ := align_of_changes hm.reverse
    have := d_min hA
    omega

/-- A row of the table from column `pb` on. -/
def tableRow (ra : List Char) : List Char → List Char → List Nat
  | pb, [] => [d ra pb]
  | pb, c :: bs => d ra pb :: tableRow ra (c :: pb) bs

theorem row_eq (ca : Char) (ra : List Char) : ∀ (bs pb : List Char),
    d (ca :: ra) pb :: row ca bs (tableRow ra pb bs) (d (ca :: ra) pb) = tableRow (ca :: ra) pb bs := by
  intro bs
  induction bs with
  | nil => intro pb; simp [tableRow, row]
  | cons cb bs ih =>
    intro pb
    have h : ∃ l, tableRow ra (cb :: pb) bs = d ra (cb :: pb) :: l := by cases bs <;> exact ⟨_, rfl⟩
    obtain ⟨l, hl⟩ := h
    rw [tableRow, tableRow, ← ih (cb :: pb), hl, row]
    have e : min (min (d ra (cb :: pb) + 1) (d (ca :: ra) pb + 1)) (d ra pb + if ca ≠ cb then 1 else 0) = d (ca :: ra) (cb :: pb) :=
      (d_cons ..).symm
    simp only [e]

theorem rows_eq (b : List Char) : ∀ (a ra : List Char),
    rows b a ra.length (tableRow ra [] b) = tableRow (a.reverse ++ ra) [] b := by
  intro a
  induction a with
  | nil => intro ra; rfl
  | cons c a ih =>
    intro ra
    have h1 := row_eq c ra b []
    rw [d_nil_right] at h1
    rw [rows]
    simp only [List.length_cons] at h1
    rw [h1]
    have := ih (c :: ra)
    simp only [List.length_cons] at this
    rw [this]
    simp

theorem first_row : ∀ (b pb : List Char), tableRow [] pb b = (List.range (b.length + 1)).map (· + pb.length) := by
  intro b
  induction b with
  | nil => intro pb; simp [tableRow, d_nil, List.range_succ]
  | cons c b ih =>
    intro pb
    rw [tableRow, ih, d_nil]
    rw [show (c :: b).length + 1 = (b.length + 1) + 1 from rfl, List.range_succ_eq_map (n := b.length + 1)]
    simp only [List.map_cons, List.map_map, Nat.zero_add, List.length_cons]
    congr 1
    apply List.map_congr_left
    intro i _
    simp only [Function.comp]
    omega

theorem tableRow_last (ra : List Char) : ∀ (b pb : List Char), (tableRow ra pb b)[b.length]? = some (d ra (b.reverse ++ pb)) := by
  intro b
  induction b with
  | nil => intro pb; simp [tableRow]
  | cons c b ih => intro pb; simpa [tableRow] using ih (c :: pb)

theorem distance_unique {a b : List Char} {m n : Nat} (h1 : Distance a b m) (h2 : Distance a b n) : m = n :=
  Nat.le_antisymm (h1.2 _ h2.1) (h2.2 _ h1.1)

theorem levenshtein_distance (a b : List Char) : Distance a b (levenshtein a b) := by
  unfold levenshtein
  split
  · rename_i h; subst h; exact ⟨.none, fun _ _ => Nat.zero_le _⟩
  · split
    · rename_i h
      have : a = [] := by simpa using h
      subst this
      have := d_distance [] b
      simpa [d_nil] using this
    · split
      · rename_i h
        have : b = [] := by simpa using h
        subst this
        have := d_distance a []
        simpa [d_nil_right] using this
      · have h := first_row b []
        simp only [List.length_nil, Nat.add_zero, List.map_id'] at h
        rw [← h]
        have h2 := rows_eq b a []
        simp only [List.length_nil, List.append_nil] at h2
        rw [h2, tableRow_last]
        simpa using d_distance a b

end Verif.Suggest
