import Verif.Lemmas.Suggest

/-!
C50: suggested names are the nearest ones.
-/
namespace Verif.Suggest

/-- The two-row table computes the edit distance. -/
theorem c50_distance (a b : List Char) : Distance a b (levenshtein a b) := levenshtein_distance a b

/-- The first of the nearest names of a list within `t` changes of the target. -/
structure Nearest (target : List Char) (t : Nat) (l : List (List Char)) (c : List Char) : Prop where
  near : ∃ n, Distance c target n ∧ n ≤ t
  least : ∀ x ∈ l, ∀ n m, Distance c target n → Distance x target m → n ≤ m
  first : ∃ pre post, l = pre ++ c :: post ∧ ∀ x ∈ pre, ∀ n m, Distance c target n → Distance x target m → n < m

/-- What the loop knows. -/
def Best (target : List Char) (t : Nat) (l : List (List Char)) : Option (List Char × Nat) → Prop
  | none => ∀ x ∈ l, t < levenshtein x target
  | some (c, n) => n = levenshtein c target ∧ n ≤ t ∧ (∀ x ∈ l, n ≤ levenshtein x target) ∧
      ∃ pre post, l = pre ++ c :: post ∧ ∀ x ∈ pre, n < levenshtein x target

theorem best_step {target : List Char} {t : Nat} {l : List (List Char)} {b : Option (List Char × Nat)} (h : Best target t l b)
    (c : List Char) : Best target t (l ++ [c]) (better target t b c) := by
  unfold better
  simp only
  split
  · rename_i hlt
    cases b with
    | none =>
      intro x hx
      rcases List.mem_append.1 hx with hx | hx
      · exact h x hx
      · rw [List.mem_singleton.1 hx]; exact hlt
    | some p =>
      obtain ⟨c', n⟩ := p
      obtain ⟨h1, h2, h3, pre, post, rfl, h4⟩ := h
      refine ⟨h1, h2, ?_, pre, post ++ [c], by simp, h4⟩
      intro x hx
      rcases List.mem_append.1 hx with hx | hx
      · exact h3 x hx
      · rw [List.mem_singleton.1 hx]; omega
  · rename_i hge
    cases b with
    | none =>
      refine ⟨rfl, by omega, ?_, l, [], rfl, ?_⟩
      · intro x hx
        rcases List.mem_append.1 hx with hx | hx
        · have := h x hx; omega
        · rw [List.mem_singleton.1 hx]; exact Nat.le_refl _
      · intro x hx
        have := h x hx
        omega
    | some p =>
      obtain ⟨c', n⟩ := p
      obtain ⟨h1, h2, h3, pre, post, rfl, h4⟩ := h
      simp only
      split
      · rename_i hle
        refine ⟨h1, h2, ?_, pre, post ++ [c], by simp, h4⟩
        intro x hx
        rcases List.mem_append.1 hx with hx | hx
        · exact h3 x hx
        · rw [List.mem_singleton.1 hx]; exact hle
      · rename_i hlt
        refine ⟨rfl, by omega, ?_, pre ++ c' :: post, [], rfl, ?_⟩
        · intro x hx
          rcases List.mem_append.1 hx with hx | hx
          · have := h3 x hx; omega
          · rw [List.mem_singleton.1 hx]; exact Nat.le_refl _
        · intro x hx
          have := h3 x hx
          omega

theorem best_fold {target : List Char} {t : Nat} (l : List (List Char)) : ∀ {seen : List (List Char)}
    {b : Option (List Char × Nat)}, Best target t seen b → Best target t (seen ++ l) (l.foldl (better target t) b) := by
  induction l with
  | nil => intro seen b h; simpa using h
  | cons c l ih =>
    intro seen b h
    have := ih (best_step h c)
    simpa using this

theorem nearest_of_best {target : List Char} {t : Nat} {l : List (List Char)} {c : List Char} {n : Nat}
    (h : Best target t l (some (c, n))) : Nearest target t l c := by
  obtain ⟨h1, h2, h3, pre, post, h5, h4⟩ := h
  have hu : ∀ {x m}, Distance x target m → m = levenshtein x target := fun hm => distance_unique hm (c50_distance _ _)
  refine ⟨⟨n, h1 ▸ c50_distance c target, h2⟩, ?_, pre, post, h5, ?_⟩
  · intro x hx a b ha hb
    rw [hu ha, hu hb, ← h1]
    exact h3 x hx
  · intro x hx a b ha hb
    rw [hu ha, hu hb, ← h1]
    exact h4 x hx

/-- How many changes are tolerated. -/
def tolerance (target : List Char) : Nat := if byteLen target ≤ 2 then 0 else if byteLen target ≤ 8 then 2 else 3

/-- The suggested keyword is the first of the nearest declared ones. -/
theorem c50_closest {target : List Char} {declared : List (List Char)} {c : List Char}
    (h : closestKeyword target declared = some c) : Nearest target (tolerance target) declared c := by
  unfold closestKeyword at h
  simp only at h
  split at h
  · cases h
  · have hb := best_fold (target := target) (t := threshold (byteLen target)) declared (seen := []) (b := none) (by simp [Best])
    cases hf : declared.foldl (better target (threshold (byteLen target))) none with
    | none => simp [hf] at h
    | some p =>
      obtain ⟨c', n⟩ := p
      rw [hf] at h hb
      simp only [Option.map_some, Option.some.injEq] at h
      subst h
      simp only [List.nil_append] at hb
      exact nearest_of_best hb

/-- There is no suggestion exactly when the name has at most two bytes or all declared ones are too far away. -/
theorem c50_none {target : List Char} {declared : List (List Char)} : closestKeyword target declared = none ↔
    byteLen target ≤ 2 ∨ ∀ x ∈ declared, ∀ n, Distance x target n → tolerance target < n := by
  have ht : threshold (byteLen target) = 0 ↔ byteLen target ≤ 2 := by
    unfold threshold
    split
    · simp [*]
    · split <;> simp [*]
  unfold closestKeyword
  simp only
  split
  · rename_i h; simp [ht.1 h]
  · rename_i hne
    have hb := best_fold (target := target) (t := threshold (byteLen target)) declared (seen := []) (b := none) (by simp [Best])
    simp only [List.nil_append] at hb
    have hne' : ¬ byteLen target ≤ 2 := fun h => hne (ht.2 h)
    cases hf : declared.foldl (better target (threshold (byteLen target))) none with
    | none =>
      rw [hf] at hb
      simp only [Option.map_none, true_iff]
      right
      intro x hx n hn
      rw [distance_unique hn (c50_distance _ _)]
      exact hb x hx
    | some p =>
      obtain ⟨c', n⟩ := p
      rw [hf] at hb
      obtain ⟨h1, h2, _, pre, post, h5, _⟩ := hb
      simp only [Option.map_some, reduceCtorEq, false_iff, not_or]
      refine ⟨hne', fun hall => ?_⟩
      have := hall c' (by simp [h5]) n (h1 ▸ c50_distance _ _)
      change threshold (byteLen target) < n at this
      omega

theorem change_length {a b : List Char} (h : Change a b) : a.length ≤ b.length + 1 ∧ b.length ≤ a.length + 1 := by
  induction h <;> simp_all <;> omega

theorem changes_length {a b : List Char} {n : Nat} (h : Changes a b n) : a.length ≤ b.length + n ∧ b.length ≤ a.length + n := by
  induction h with
  | none => simp
  | more _ hc ih => have := change_length hc; omega

/-- Only characters of one byte. -/
def Ascii (s : List Char) : Prop := ∀ c ∈ s, c.utf8Size = 1

theorem ascii_byteLen {s : List Char} (h : Ascii s) : byteLen s = s.length := by
  induction s with
  | nil => rfl
  | cons c s ih =>
    have h1 := h c (List.mem_cons_self ..)
    have h2 := ih (fun c hc => h c (List.mem_cons_of_mem _ hc))
    unfold byteLen at *
    simp [h1, h2]; omega

/-- The suggested method is the first of the nearest among the other names.  Missing: names with characters of several bytes
(`c50_wide_character_missed`). -/
theorem c50_method_partial {target : List Char} {names : List (List Char)} (ha : Ascii target) (hn : ∀ x ∈ names, Ascii x) :
    (∀ c, findMethodSuggestion target names = some c →
      Nearest target (tolerance target) ((names.filter (· ≠ target))) c) ∧
    (findMethodSuggestion target names = none ↔
      byteLen target ≤ 2 ∨ ∀ x ∈ names, x ≠ target → ∀ n, Distance x target n → tolerance target < n) := by
  have key : findMethodSuggestion target names = closestKeyword target (names.filter (· ≠ target)) := by
    unfold findMethodSuggestion closestKeyword
    simp only
    split
    · rfl
    · congr 1
      have : ∀ (l : List (List Char)) (b : Option (List Char × Nat)), (∀ x ∈ l, Ascii x) →
          (l.filter (considered target (threshold (byteLen target)))).foldl (better target (threshold (byteLen target))) b =
          (l.filter (· ≠ target)).foldl (better target (threshold (byteLen target))) b := by
        intro l
        induction l with
        | nil => intro b _; rfl
        | cons c l ih =>
          intro b hl
          have ih' := fun b => ih b (fun x hx => hl x (List.mem_cons_of_mem _ hx))
          by_cases hc : c = target
          · have h1 : considered target (threshold (byteLen target)) c = false := by simp [considered, hc]
            rw [List.filter_cons_of_neg (by simp [h1]), List.filter_cons_of_neg (by simp [hc])]
            exact ih' b
          · by_cases hd : threshold (byteLen target) < absDiff (byteLen c) (byteLen target)
            · have h1 : considered target (threshold (byteLen target)) c = false := by simp [considered, hd]
              rw [List.filter_cons_of_neg (by simp [h1]), List.filter_cons_of_pos (by simp [hc]), List.foldl_cons]
              have h2 : better target (threshold (byteLen target)) b c = b := by
                have := changes_length (c50_distance c target).1
                have e1 := ascii_byteLen (hl c (List.mem_cons_self ..))
                have e2 := ascii_byteLen ha
                have : threshold (byteLen target) < levenshtein c target := by
                  unfold absDiff at hd
                  split at hd <;> omega
                simp [better, this]
              rw [h2]
              exact ih' b
            · have h1 : considered target (threshold (byteLen target)) c = true := by simp [considered, hd, hc]
              rw [List.filter_cons_of_pos h1, List.filter_cons_of_pos (by simp [hc]), List.foldl_cons, List.foldl_cons]
              exact ih' _
      exact this names none hn
  refine ⟨?_, ?_⟩
  · intro c hc
    rw [key] at hc
    exact c50_closest hc
  · rw [key, c50_none]
    simp

/-- `lenght` is two changes from `length`, and `length` is suggested for it. -/
theorem c50_example :
    levenshtein "lenght".toList "length".toList = 2 ∧
    closestKeyword "lenght".toList ["width".toList, "length".toList, "lengths".toList] = some "length".toList := by
  constructor <;> decide +kernel

/-- `ab𝑥` (six bytes) is one change from `aby` (three bytes), which is not suggested. -/
theorem c50_wide_character_missed :
    Distance ['a', 'b', 'y'] ['a', 'b', '𝑥'] 1 ∧ tolerance ['a', 'b', '𝑥'] = 2 ∧
    findMethodSuggestion ['a', 'b', '𝑥'] [['a', 'b', 'y']] = none := by
  refine ⟨?_, by decide, by decide⟩
  have : levenshtein ['a', 'b', 'y'] ['a', 'b', '𝑥'] = 1 := by decide
  exact this ▸ c50_distance _ _

end Verif.Suggest
