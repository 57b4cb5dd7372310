import Verif.Lemmas.Types
/-!
C23: every hash shape is well formed.
-/
namespace Verif.Types
open Verif.Store

theorem hasUnknownList_iff {l : List Ty} (h : ∀ t ∈ l, hasUnknown t = true ↔ OccursUnknown t) :
    hasUnknownList l = true ↔ ∃ t ∈ l, OccursUnknown t := by
  induction l with
  | nil => simp [hasUnknownList]
  | cons a l ih =>
    simp only [hasUnknownList, Bool.or_eq_true, h a (by simp), ih (fun t ht => h t (by simp [ht])), List.mem_cons, or_and_right,
      exists_or, exists_eq_left]

theorem hasUnknownFields_iff {l : List Field} (h : ∀ f ∈ l, hasUnknown f.2.2 = true ↔ OccursUnknown f.2.2) :
    hasUnknownFields l = true ↔ ∃ f ∈ l, OccursUnknown f.2.2 := by
  induction l with
  | nil => simp [hasUnknownFields]
  | cons a l ih =>
    obtain ⟨k, p, t⟩ := a
    have ha := h (k, p, t) (by simp)
    simp only [hasUnknownFields, Bool.or_eq_true, List.mem_cons, or_and_right, exists_or, exists_eq_left,
      ih (fun t ht => h t (by simp [ht]))]
    rw [ha]

/-- The code's test for unknown parts finds exactly those. -/
theorem hasUnknown_iff : ∀ t : Ty, hasUnknown t = true ↔ OccursUnknown t := by
  refine Ty.ind ?_ ?_ ?_ ?_ ?_ ?_ ?_ ?_ ?_ ?_
  · intro n; simp only [hasUnknown]; exact ⟨fun h => (by cases h), fun h => (by cases h)⟩
  · intro n; simp only [hasUnknown]; exact ⟨fun h => (by cases h), fun h => (by cases h)⟩
  · intro n; simp only [hasUnknown]; exact ⟨fun h => (by cases h), fun h => (by cases h)⟩
  · intro n; simp only [hasUnknown]; exact ⟨fun h => (by cases h), fun h => (by cases h)⟩
  · intro n; simp only [hasUnknown]; exact ⟨fun h => (by cases h), fun h => (by cases h)⟩
  · intro ts ih
    simp only [hasUnknown]
    rw [hasUnknownList_iff ih]
    exact ⟨fun ⟨t, h1, h2⟩ => .array h1 h2, fun h => by cases h with | array h1 h2 => exact ⟨_, h1, h2⟩⟩
  · intro ks vs ih1 ih2
    simp only [hasUnknown, Bool.or_eq_true]
    rw [hasUnknownList_iff ih1, hasUnknownList_iff ih2]
    constructor
    · rintro (⟨t, h1, h2⟩ | ⟨t, h1, h2⟩)
      · exact .key h1 h2
      · exact .value h1 h2
    · intro h
      cases h with
      | key h1 h2 => exact .inl ⟨_, h1, h2⟩
      | value h1 h2 => exact .inr ⟨_, h1, h2⟩
  · intro fs r o z d ih1 ih2
    simp only [hasUnknown, Bool.or_eq_true]
    rw [hasUnknownFields_iff ih1]
    constructor
    · rintro (⟨f, h1, h2⟩ | h)
      · exact .field h1 h2
      · match r, h with
        | some (k, v), h =>
          simp only [hasUnknownRest, Bool.or_eq_true, (ih2 k v rfl).1, (ih2 k v rfl).2] at h
          rcases h with h | h
          · exact .restKey h
          · exact .restValue h
    · intro h
      cases h with
      | field h1 h2 => exact .inl ⟨_, h1, h2⟩
      | @restKey _ k v _ _ _ h =>
        refine .inr ?_
        simp only [hasUnknownRest, Bool.or_eq_true, (ih2 k v rfl).1]
        exact .inl h
      | @restValue _ k v _ _ _ h =>
        refine .inr ?_
        simp only [hasUnknownRest, Bool.or_eq_true, (ih2 k v rfl).2]
        exact .inr h
  · intro ts ih
    simp only [hasUnknown]
    rw [hasUnknownList_iff ih]
    exact ⟨fun ⟨t, h1, h2⟩ => .union h1 h2, fun h => by cases h with | union h1 h2 => exact ⟨_, h1, h2⟩⟩
  · simp only [hasUnknown]
    exact ⟨fun _ => .here, fun _ => trivial⟩

/-! ### sorting the fields -/

theorem fieldLe_order : IsOrder fieldLe := ⟨fun _ _ => lexLe_total _ _, fun _ _ _ => lexLe_trans _ _ _⟩

/-- On a sorted list the neighbour test finds every repeated key. -/
theorem hasDup_iff {l : List Field} (h : Sorted fieldLe l) : hasDup l = false ↔ l.Pairwise (fun a b => a.1 ≠ b.1) := by
  induction l with
  | nil => simp [hasDup]
  | cons a l ih =>
    have hp := List.pairwise_cons.mp h
    cases l with
    | nil => simp [hasDup]
    | cons b l =>
      simp only [hasDup, Bool.or_eq_false_iff, decide_eq_false_iff_not]
      rw [ih hp.2, List.pairwise_cons (a := a)]
      constructor
      · rintro ⟨h1, h2⟩
        refine ⟨?_, h2⟩
        intro c hc heq
        rcases List.mem_cons.mp hc with rfl | hc
        · exact h1 heq
        · have h3 : fieldLe a b = true := hp.1 b (by simp)
          have h4 : fieldLe b c = true := (List.pairwise_cons.mp hp.2).1 c hc
          have h5 : fieldLe b a = true := by
            unfold fieldLe at h4 ⊢
            rw [heq]; exact h4
          exact h1 (litLe_antisymm _ _ h3 h5)
      · rintro ⟨h1, h2⟩
        exact ⟨h1 b (by simp), h2⟩

theorem sorted_keys {l : List Field} (h : Sorted fieldLe l) (hd : hasDup l = false) :
    l.Pairwise (fun a b => litLe a.1 b.1 = true ∧ a.1 ≠ b.1) :=
  h.and ((hasDup_iff h).mp hd)

theorem keys_nodup_iff {l m : List Field} (h : l.Perm m) :
    l.Pairwise (fun a b => a.1 ≠ b.1) ↔ (m.map (·.1)).Nodup := by
  rw [← (h.map (·.1)).nodup_iff, List.Nodup, List.pairwise_map]

/-- C23: a shape is built exactly from at most 32 fields with different keys, without unknown parts, no rest if it is exact, and
nesting below the bound; the result has the same fields, sorted. -/
theorem c23_try_new {fs : List Field} {r : Option (Ty × Ty)} {o z : Bool} {t : Ty} :
    tryNew fs r o z = .ok t ↔
      fs.length ≤ 32 ∧ (o = false → r = none) ∧ (fs.map (·.1)).Nodup ∧ (∀ f ∈ fs, ¬ OccursUnknown f.2.2) ∧
      (∀ k v, r = some (k, v) → ¬ OccursUnknown k ∧ ¬ OccursUnknown v) ∧ nestedDepth (stableSort fieldLe fs) r + 1 ≤ 8 ∧
      t = .shape (stableSort fieldLe fs) r o z (nestedDepth (stableSort fieldLe fs) r + 1) := by
  have hsort := stableSort_sorted fieldLe_order fs
  have hperm := stableSort_perm (le := fieldLe) fs
  have hdup : hasDup (stableSort fieldLe fs) = false ↔ (fs.map (·.1)).Nodup := by
    rw [hasDup_iff hsort, keys_nodup_iff hperm]
  have hunk : (stableSort fieldLe fs).any (fun f => hasUnknown f.2.2) = true ↔ ¬ ∀ f ∈ fs, ¬ OccursUnknown f.2.2 := by
    simp only [List.any_eq_true, mem_stableSort, hasUnknown_iff]
    constructor
    · rintro ⟨f, h1, h2⟩ h; exact h f h1 h2
    · intro h; push Not at h; exact h
  have hrest : r.any (fun r => hasUnknown r.1 || hasUnknown r.2) = true ↔
      ¬ ∀ k v, r = some (k, v) → ¬ OccursUnknown k ∧ ¬ OccursUnknown v := by
    match r with
    | none => simp
    | some (k, v) =>
      simp only [Option.any_some, Bool.or_eq_true, hasUnknown_iff, Option.some.injEq, Prod.mk.injEq]
      constructor
      · rintro h h'
        have := h' k v ⟨rfl, rfl⟩
        rcases h with h | h
        · exact this.1 h
        · exact this.2 h
      · intro h
        push Not at h
        obtain ⟨k', v', ⟨rfl, rfl⟩, h⟩ := h
        by_cases hk : OccursUnknown k
        · exact .inl hk
        · exact .inr (h hk)
  unfold tryNew
  split
  · rename_i h
    constructor
    · intro h; cases h
    · intro h'; unfold maxFields at h; omega
  rename_i h1
  split
  · rename_i h
    constructor
    · intro h; cases h
    · rintro ⟨-, h', -⟩
      cases o <;> simp at h
      rw [h' rfl] at h; simp at h
  rename_i h2
  dsimp only
  split
  · rename_i h
    constructor
    · intro h; cases h
    · rintro ⟨-, -, h', -⟩
      rw [← hdup, h] at h'; cases h'
  rename_i h3
  split
  · rename_i h
    constructor
    · intro h; cases h
    · rintro ⟨-, -, -, h', -⟩
      exact absurd h' (hunk.mp h)
  rename_i h4
  split
  · rename_i h
    constructor
    · intro h; cases h
    · rintro ⟨-, -, -, -, h', -⟩
      exact absurd h' (hrest.mp h)
  rename_i h5
  split
  · rename_i h
    constructor
    · intro h; cases h
    · rintro ⟨-, -, -, -, -, h', -⟩
      unfold maxDepth at h; omega
  · rename_i h6
    constructor
    · intro h
      cases h
      refine ⟨by unfold maxFields at h1; omega, ?_, hdup.mp (by simpa using h3), ?_, ?_, by unfold maxDepth at h6; omega, rfl⟩
      · rintro rfl; cases r <;> simp at h2 ⊢
      · by_contra h; exact h4 (hunk.mpr h)
      · by_contra h; exact h5 (hrest.mpr h)
    · rintro ⟨-, -, -, -, -, -, rfl⟩; rfl

/-- C23: a built shape is well formed. -/
theorem c23_well_formed {fs : List Field} {r : Option (Ty × Ty)} {o z : Bool} {t : Ty} (h : tryNew fs r o z = .ok t) :
    ∃ gs d, t = .shape gs r o z d ∧ WellFormed gs r o ∧ gs.Perm fs ∧ d ≤ 8 := by
  have hh := c23_try_new.mp h
  obtain ⟨h1, h2, h3, h4, h5, h6, h7⟩ := hh
  have hsort := stableSort_sorted fieldLe_order fs
  have hperm := stableSort_perm (le := fieldLe) fs
  refine ⟨_, _, h7, ⟨?_, ?_, h2, ?_, h5⟩, hperm, h6⟩
  · rw [hperm.length_eq]; exact h1
  · exact sorted_keys hsort ((hasDup_iff hsort).mpr ((keys_nodup_iff hperm).mpr h3))
  · intro f hf
    exact h4 f (mem_stableSort.mp hf)

/-! ### the depth -/

theorem le_depthList {l : List Ty} {t : Ty} (h : t ∈ l) : depthIn t ≤ depthList l := by
  induction l with
  | nil => simp at h
  | cons a l ih =>
    simp only [depthList]
    rcases List.mem_cons.mp h with rfl | h
    · omega
    · have := ih h; omega

theorem depthList_attained {l : List Ty} : depthList l = 0 ∨ ∃ t ∈ l, depthIn t = depthList l := by
  induction l with
  | nil => exact .inl rfl
  | cons a l ih =>
    simp only [depthList]
    by_cases h : depthList l ≤ depthIn a
    · exact .inr ⟨a, by simp, by omega⟩
    · rcases ih with h0 | ⟨t, ht, he⟩
      · omega
      · exact .inr ⟨t, by simp [ht], by omega⟩

/-- C23: the stored depth of a shape is the real nesting of shapes in it: no deeper chain exists and one of that length does. -/
theorem c23_depth_exact {t : Ty} (h : Built t) : ShapeNest t (depthIn t) ∧ ∀ n, ShapeNest t n → n ≤ depthIn t := by
  have listOk : ∀ l : List Ty, (∀ t ∈ l, ShapeNest t (depthIn t) ∧ ∀ n, ShapeNest t n → n ≤ depthIn t) →
      (depthList l = 0 ∨ ∃ t ∈ l, ShapeNest t (depthList l)) ∧ ∀ t ∈ l, ∀ n, ShapeNest t n → n ≤ depthList l := by
    intro l hl
    constructor
    · rcases depthList_attained (l := l) with h | ⟨t, ht, he⟩
      · exact .inl h
      · exact .inr ⟨t, ht, he ▸ (hl t ht).1⟩
    · intro t ht n hn
      exact Nat.le_trans ((hl t ht).2 n hn) (le_depthList ht)
  induction h with
  | cls n => exact ⟨.zero _, fun n h => by cases h; simp⟩
  | mod n => exact ⟨.zero _, fun n h => by cases h; simp⟩
  | clsRef n => exact ⟨.zero _, fun n h => by cases h; simp⟩
  | modRef n => exact ⟨.zero _, fun n h => by cases h; simp⟩
  | unknown => exact ⟨.zero _, fun n h => by cases h; simp⟩
  | lit v => exact ⟨.zero _, fun n h => by cases h; simp⟩
  | @array ts _ ih =>
    obtain ⟨h1, h2⟩ := listOk ts ih
    simp only [depthIn]
    constructor
    · rcases h1 with h1 | ⟨t, ht, hn⟩
      · rw [h1]; exact .zero _
      · exact .array ht hn
    · intro n hn
      cases hn with
      | zero => omega
      | array ht hn => exact h2 _ ht n hn
  | @union ts _ ih =>
    obtain ⟨h1, h2⟩ := listOk ts ih
    simp only [depthIn]
    constructor
    · rcases h1 with h1 | ⟨t, ht, hn⟩
      · rw [h1]; exact .zero _
      · exact .union ht hn
    · intro n hn
      cases hn with
      | zero => omega
      | union ht hn => exact h2 _ ht n hn
  | @hash ks vs _ _ ih1 ih2 =>
    obtain ⟨h1, h2⟩ := listOk ks ih1
    obtain ⟨g1, g2⟩ := listOk vs ih2
    simp only [depthIn]
    constructor
    · by_cases hle : depthList ks ≤ depthList vs
      · rw [Nat.max_eq_right hle]
        rcases g1 with g1 | ⟨t, ht, hn⟩
        · rw [g1]; exact .zero _
        · exact .value ht hn
      · rw [Nat.max_eq_left (by omega)]
        rcases h1 with h1 | ⟨t, ht, hn⟩
        · rw [h1]; exact .zero _
        · exact .key ht hn
    · intro n hn
      cases hn with
      | zero => omega
      | key ht hn => have := h2 _ ht n hn; omega
      | value ht hn => have := g2 _ ht n hn; omega
  | @shape fs r o z t _ _ _ ht ih1 ih2 ih3 =>
    obtain ⟨-, -, -, -, -, -, rfl⟩ := c23_try_new.mp ht
    obtain ⟨h1, h2⟩ := listOk ((stableSort fieldLe fs).map fun f => f.2.2) (by
      intro t ht
      obtain ⟨f, hf, rfl⟩ := List.mem_map.mp ht
      exact ih1 f (mem_stableSort.mp hf))
    simp only [depthIn, nestedDepth]
    have h2' : ∀ f ∈ stableSort fieldLe fs, ∀ n, ShapeNest f.2.2 n → n ≤ depthList ((stableSort fieldLe fs).map fun f => f.2.2) :=
      fun f hf n hn => h2 f.2.2 (List.mem_map.mpr ⟨f, hf, rfl⟩) n hn
    have h1' : ∀ r' d', ShapeNest (.shape (stableSort fieldLe fs) r' o z d')
        (depthList ((stableSort fieldLe fs).map fun f => f.2.2) + 1) := by
      intro r' d'
      rcases h1 with h1 | ⟨t, ht, hn⟩
      · rw [h1]; exact .leaf
      · obtain ⟨f, hf, rfl⟩ := List.mem_map.mp ht
        exact .field hf hn
    match r, ih2, ih3 with
    | none, _, _ =>
      simp only [Nat.max_zero]
      refine ⟨h1' _ _, ?_⟩
      intro n hn
      cases hn with
      | zero => omega
      | leaf => omega
      | field hf hn => have := h2' _ hf _ hn; omega
    | some (k, v), ih2, ih3 =>
      have hk := ih2 k v rfl
      have hv := ih3 k v rfl
      simp only
      constructor
      · by_cases ha : max (depthIn k) (depthIn v) ≤ depthList ((stableSort fieldLe fs).map fun f => f.2.2)
        · rw [Nat.max_eq_left ha]; exact h1' _ _
        · rw [Nat.max_eq_right (by omega)]
          by_cases hb : depthIn k ≤ depthIn v
          · rw [Nat.max_eq_right hb]; exact .restValue hv.1
          · rw [Nat.max_eq_left (by omega)]; exact .restKey hk.1
      · intro n hn
        cases hn with
        | zero => omega
        | leaf => omega
        | field hf hn => have := h2' _ hf _ hn; omega
        | restKey hn => have := hk.2 _ hn; omega
        | restValue hn => have := hv.2 _ hn; omega

/-! ### looking up a field -/

/-- The search ends at the position of the key, if the key is there. -/
theorem searchStep_spec {fs : List Field} {k : Lit} (hs : fs.Pairwise (fun a b => litLe a.1 b.1 = true ∧ a.1 ≠ b.1))
    {i : Nat} {f : Field} (hi : fs[i]? = some f) (hk : f.1 = k) :
    ∀ n base size, size ≤ n + 1 → 1 ≤ size → base ≤ i → i < base + size → base + size ≤ fs.length →
      searchStep fs k n base size = i := by
  intro n
  have hpair : ∀ (a b : Nat) (x y : Field), fs[a]? = some x → fs[b]? = some y → a < b → litLe x.1 y.1 = true ∧ x.1 ≠ y.1 := by
    intro a b x y ha hb hab
    obtain ⟨ha1, ha2⟩ := List.getElem?_eq_some_iff.mp ha
    obtain ⟨hb1, hb2⟩ := List.getElem?_eq_some_iff.mp hb
    have := List.pairwise_iff_getElem.mp hs a b ha1 hb1 hab
    rwa [ha2, hb2] at this
  induction n with
  | zero =>
    intro base size h1 h2 h3 h4 _
    simp only [searchStep]; omega
  | succ n ih =>
    intro base size h1 h2 h3 h4 h5
    simp only [searchStep]
    split
    · omega
    · rename_i hsz
      have hmid : base + size / 2 < fs.length := by omega
      rw [List.getElem?_eq_getElem hmid]
      dsimp only
      have hgm : fs[base + size / 2]? = some (fs[base + size / 2]) := List.getElem?_eq_getElem hmid
      split
      · rename_i hle
        refine ih (base + size / 2) (size - size / 2) (by omega) (by omega) ?_ (by omega) (by omega)
        by_contra hlt
        have := hpair i (base + size / 2) _ _ hi hgm (Nat.lt_of_not_le hlt)
        exact this.2 (litLe_antisymm _ _ this.1 (hk ▸ hle))
      · rename_i hle
        refine ih _ _ (by omega) (by omega) (by omega) ?_ (by omega)
        by_contra hlt
        rcases Nat.lt_or_ge (base + size / 2) i with hc | hc
        · exact hle (hk ▸ (hpair _ _ _ _ hgm hi hc).1)
        · have he : i = base + size / 2 := by omega
          subst he
          rw [hgm] at hi
          cases hi
          refine hle ?_
          rw [hk]
          exact lexLe_refl _

/-- C23: looking up a key in a built shape finds a field exactly when one was given for that key, and it is that field. -/
theorem c23_field_lookup {fs gs : List Field} {r : Option (Ty × Ty)} {o z : Bool} {d : Nat}
    (h : tryNew fs r o z = .ok (.shape gs r o z d)) (k : Lit) (f : Field) : field gs k = some f ↔ f ∈ fs ∧ f.1 = k := by
  obtain ⟨gs', d', he, hw, hp, -⟩ := c23_well_formed h
  cases he
  rw [← hp.mem_iff]
  constructor
  · intro hf
    unfold field at hf
    split at hf
    · cases hf
    · split at hf
      · cases hf
      · rename_i g hg
        split at hf
        · rename_i hk
          cases hf
          exact ⟨List.mem_of_getElem? hg, hk⟩
        · cases hf
  · rintro ⟨hm, hk⟩
    obtain ⟨i, hi⟩ := List.getElem?_of_mem hm
    have hlen : i < gs.length := (List.getElem?_eq_some_iff.mp hi).1
    unfold field
    rw [if_neg (by cases gs <;> simp_all), searchStep_spec hw.sorted hi hk _ _ _ (by omega) (by omega) (by omega) (by omega) (by omega),
      hi]
    dsimp only
    rw [if_pos hk]

/-- A concrete shape: fields are sorted, both lookups work, and a repeated key or an unknown part is refused. -/
theorem c23_example :
    let a : Lit := ⟨false, [97]⟩
    let b : Lit := ⟨true, [98]⟩
    let c : Lit := ⟨false, [99]⟩
    tryNew [(b, true, stringTy), (c, false, nilTy), (a, false, .array [stringTy])] none false false =
      .ok (.shape [(a, false, .array [stringTy]), (c, false, nilTy), (b, true, stringTy)] none false false 1) ∧
    field [(a, false, .array [stringTy]), (c, false, nilTy), (b, true, stringTy)] b = some (b, true, stringTy) ∧
    field [(a, false, .array [stringTy]), (c, false, nilTy), (b, true, stringTy)] ⟨false, [98]⟩ = none ∧
    tryNew [(a, false, stringTy), (b, false, nilTy), (a, true, nilTy)] none false false = .error .duplicateField ∧
    tryNew [(a, false, .array [.unknown])] none true false = .error .unprovenField ∧
    tryNew [] (some (stringTy, stringTy)) false false = .error .exactHasRest := by
  decide

end Verif.Types
