import Verif.Model.Selection
import Verif.Lemmas.Sort
/-! Property C39. -/
namespace Verif.Selection

/-- `outer` strictly contains `inner`. -/
def StrictlyContains (outer inner : Range) : Prop :=
  outer.start ≤ inner.start ∧ inner.stop ≤ outer.stop ∧ (outer.start < inner.start ∨ inner.stop < outer.stop)

/-- `r` covers the character at `offset`. -/
def Covers (r : Range) (offset : Nat) : Prop := r.start ≤ offset ∧ offset < r.stop

def size (r : Range) : Nat := r.stop - r.start

theorem keyLe_iff (a b : Range) : keyLe a b = true ↔
    size a < size b ∨ (size a = size b ∧ (b.start < a.start ∨ (b.start = a.start ∧ a.stop ≤ b.stop))) := by
  simp [keyLe, size]

theorem keyLe_order : IsOrder keyLe := by
  constructor
  · intro a b
    rw [keyLe_iff, keyLe_iff]; omega
  · intro a b c
    rw [keyLe_iff, keyLe_iff, keyLe_iff]; omega

theorem keyLe_anti (a b : Range) (h1 : keyLe a b = true) (h2 : keyLe b a = true) : a = b := by
  rw [keyLe_iff] at h1 h2
  cases a; cases b
  simp only [size, Range.mk.injEq] at *
  omega

/-- The chain loop as a recursion: what is appended after `inner`. -/
def chainFrom (inner : Range) : List Range → List Range
  | [] => []
  | r :: rs => if r.start ≤ inner.start && r.stop ≥ inner.stop then r :: chainFrom r rs else chainFrom inner rs

theorem foldl_chainStep (rs : List Range) (pre : List Range) (inner : Range) :
    rs.foldl chainStep (pre ++ [inner]) = pre ++ inner :: chainFrom inner rs := by
  induction rs generalizing pre inner with
  | nil => simp [chainFrom]
  | cons r rs ih =>
    simp only [List.foldl_cons, chainFrom]
    have hl : (pre ++ [inner]).getLast? = some inner := by simp
    have hstep : chainStep (pre ++ [inner]) r =
        if r.start ≤ inner.start && r.stop ≥ inner.stop then pre ++ [inner] ++ [r] else pre ++ [inner] := by
      simp only [chainStep, hl]
    rw [hstep]
    split
    · rw [ih (pre ++ [inner]) r]; simp
    · rw [ih pre inner]

theorem chainFrom_spec {inner : Range} {rs : List Range} (hs : Sorted keyLe (inner :: rs)) (hn : (inner :: rs).Nodup) :
    (∀ r ∈ chainFrom inner rs, r ∈ rs) ∧ (inner :: chainFrom inner rs).Pairwise (fun a b => StrictlyContains b a) := by
  induction rs generalizing inner with
  | nil => simp [chainFrom]
  | cons r rs ih =>
    have hs' := List.pairwise_cons.mp hs
    have hn' := List.nodup_cons.mp hn
    have hsub : Sorted keyLe (inner :: rs) := List.Pairwise.sublist (List.Sublist.cons_cons _ (List.sublist_cons_self r rs)) hs
    have hnsub : (inner :: rs).Nodup := List.Nodup.sublist (List.Sublist.cons_cons _ (List.sublist_cons_self r rs)) hn
    simp only [chainFrom]
    split
    · rename_i hc
      simp only [ge_iff_le, Bool.and_eq_true, decide_eq_true_eq] at hc
      obtain ⟨h1, h2⟩ := ih hs'.2 hn'.2
      have hne : r ≠ inner := by rintro rfl; exact hn'.1 (by simp)
      have hstrict : StrictlyContains r inner := by
        refine ⟨hc.1, hc.2, ?_⟩
        by_contra hcc
        apply hne
        cases r; cases inner
        simp only [Range.mk.injEq] at *
        omega
      refine ⟨?_, ?_⟩
      · intro x hx
        rcases List.mem_cons.mp hx with rfl | hx
        · simp
        · exact List.mem_cons_of_mem _ (h1 x hx)
      · refine List.pairwise_cons.mpr ⟨?_, h2⟩
        intro x hx
        rcases List.mem_cons.mp hx with rfl | hx
        · exact hstrict
        · have := (List.pairwise_cons.mp h2).1 x hx
          simp only [StrictlyContains] at *
          omega
    · obtain ⟨h1, h2⟩ := ih hsub hnsub
      exact ⟨fun x hx => List.mem_cons_of_mem _ (h1 x hx), h2⟩

/-- If everything after `inner` contains it, and ranges are pairwise nested, nothing is left out. -/
theorem chainFrom_all {inner : Range} {rs : List Range} (hs : Sorted keyLe (inner :: rs))
    (hnest : ∀ a ∈ inner :: rs, ∀ b ∈ inner :: rs, size a ≤ size b → b.start ≤ a.start ∧ a.stop ≤ b.stop) :
    chainFrom inner rs = rs := by
  induction rs generalizing inner with
  | nil => rfl
  | cons r rs ih =>
    have hs' := List.pairwise_cons.mp hs
    have hle := hs'.1 r (by simp)
    rw [keyLe_iff] at hle
    have := hnest inner (by simp) r (by simp) (by omega)
    simp only [chainFrom]
    rw [if_pos (by simp [this]), ih hs'.2]
    intro a ha b hb
    exact hnest a (List.mem_cons_of_mem _ ha) b (List.mem_cons_of_mem _ hb)

theorem chain_eq (candidates : List Range) : (dedupAdj (stableSort keyLe candidates)).foldl chainStep [] =
    match dedupAdj (stableSort keyLe candidates) with
    | [] => []
    | r :: rs => r :: chainFrom r rs := by
  cases dedupAdj (stableSort keyLe candidates) with
  | nil => rfl
  | cons r rs =>
    simp only [List.foldl_cons]
    have : chainStep [] r = [] ++ [r] := rfl
    rw [this, foldl_chainStep]; rfl

theorem mem_collect {offset : Nat} {locations : List Range} {r : Range} :
    r ∈ collect offset locations ↔ r ∈ locations ∧ Covers r offset := by
  simp only [collect, List.mem_filter, Bool.and_eq_true, decide_eq_true_eq, Covers]
  constructor
  · rintro ⟨h, ⟨-, h1⟩, h2⟩; exact ⟨h, h1, h2⟩
  · rintro ⟨h, h1, h2⟩; exact ⟨h, ⟨by omega, h1⟩, h2⟩

/-- Everything about one cursor. -/
theorem finish_spec (offset : Nat) (locations : List Range) :
    (finish offset (collect offset locations)).Pairwise (fun a b => StrictlyContains b a) ∧
    ((∀ r ∈ locations, ¬ Covers r offset) ∧ finish offset (collect offset locations) = [⟨offset, offset⟩] ∨
     ∃ r rs, finish offset (collect offset locations) = r :: rs ∧ (∀ x ∈ r :: rs, x ∈ locations ∧ Covers x offset) ∧
      (∀ x ∈ locations, Covers x offset → size r ≤ size x) ∧
      ((∀ a ∈ locations, ∀ b ∈ locations, Covers a offset → Covers b offset → size a ≤ size b → b.start ≤ a.start ∧ a.stop ≤ b.stop) →
        ∀ x ∈ locations, Covers x offset → x ∈ r :: rs)) := by
  unfold finish
  simp only [chain_eq]
  set l := dedupAdj (stableSort keyLe (collect offset locations)) with hl
  have hmem : ∀ x, x ∈ l ↔ x ∈ locations ∧ Covers x offset := by
    intro x; rw [hl, mem_dedupAdj, mem_stableSort, mem_collect]
  have hsorted : Sorted keyLe l :=
    List.Pairwise.sublist (dedupAdj_sublist _) (stableSort_sorted keyLe_order (collect offset locations))
  have hnodup : l.Nodup := dedupAdj_nodup keyLe_anti (stableSort_sorted keyLe_order _)
  clear_value l
  cases l with
  | nil =>
    refine ⟨by simp, Or.inl ⟨?_, by simp⟩⟩
    intro r hr hc
    have := (hmem r).mpr ⟨hr, hc⟩
    simp at this
  | cons r rs =>
    obtain ⟨h1, h2⟩ := chainFrom_spec hsorted hnodup
    simp only [List.cons_ne_nil, if_false]
    refine ⟨h2, Or.inr ⟨r, chainFrom r rs, rfl, ?_, ?_, ?_⟩⟩
    · intro x hx
      apply (hmem x).mp
      rcases List.mem_cons.mp hx with rfl | hx
      · simp
      · exact List.mem_cons_of_mem _ (h1 x hx)
    · intro x hx hc
      rcases List.mem_cons.mp ((hmem x).mpr ⟨hx, hc⟩) with rfl | hx
      · exact Nat.le_refl _
      · have := (List.pairwise_cons.mp hsorted).1 x hx
        rw [keyLe_iff] at this
        omega
    · intro hnest x hx hc
      rw [chainFrom_all hsorted]
      · exact (hmem x).mpr ⟨hx, hc⟩
      · intro a ha b hb
        obtain ⟨ha1, ha2⟩ := (hmem a).mp ha
        obtain ⟨hb1, hb2⟩ := (hmem b).mp hb
        exact hnest a ha1 b hb1 ha2 hb2

/-! ### C39 -/

/-- One chain per cursor, none empty. -/
theorem c39_one_chain_per_cursor (locations : List Range) (offsets : List Nat) :
    (selectionRangeChains locations offsets).length = offsets.length ∧ ∀ chain ∈ selectionRangeChains locations offsets, chain ≠ [] := by
  refine ⟨by simp [selectionRangeChains], ?_⟩
  intro chain hc
  simp only [selectionRangeChains, List.mem_map] at hc
  obtain ⟨o, -, rfl⟩ := hc
  rcases (finish_spec o locations).2 with ⟨-, h⟩ | ⟨r, rs, h, -⟩ <;> simp [h]

/-- Every range strictly contains all ranges before it. -/
theorem c39_strictly_expanding (locations : List Range) (offsets : List Nat) :
    ∀ chain ∈ selectionRangeChains locations offsets, chain.Pairwise (fun inner outer => StrictlyContains outer inner) := by
  intro chain hc
  simp only [selectionRangeChains, List.mem_map] at hc
  obtain ⟨o, -, rfl⟩ := hc
  exact (finish_spec o locations).1

/-- The chain of the `i`-th cursor: if some location covers the cursor, it consists of such locations and starts with a
smallest one; otherwise it is the empty range at the cursor. -/
theorem c39_covers_cursor (locations : List Range) (offsets : List Nat) (i offset : Nat) (hi : offsets[i]? = some offset) :
    ∃ chain, (selectionRangeChains locations offsets)[i]? = some chain ∧
      ((∃ r ∈ locations, Covers r offset) →
        (∀ r ∈ chain, r ∈ locations ∧ Covers r offset) ∧
        (∃ r, chain.head? = some r ∧ ∀ x ∈ locations, Covers x offset → size r ≤ size x)) ∧
      ((¬ ∃ r ∈ locations, Covers r offset) → chain = [⟨offset, offset⟩]) := by
  refine ⟨finish offset (collect offset locations), by simp [selectionRangeChains, hi], ?_⟩
  rcases (finish_spec offset locations).2 with ⟨hno, h⟩ | ⟨r, rs, h, h1, h2, -⟩
  · exact ⟨fun ⟨r, hr, hc⟩ => absurd hc (hno r hr), fun _ => h⟩
  · refine ⟨fun _ => ⟨by rw [h]; exact h1, r, by rw [h]; rfl, h2⟩, fun hno => ?_⟩
    exact absurd ⟨r, h1 r (by simp)⟩ hno

/-- When the covering locations are nested in one another (as the nodes of a syntax tree are), the chain contains each of
them: no syntax level is skipped. -/
theorem c39_no_level_skipped (locations : List Range) (offsets : List Nat) (i offset : Nat) (hi : offsets[i]? = some offset)
    (hnest : ∀ a ∈ locations, ∀ b ∈ locations, Covers a offset → Covers b offset → size a ≤ size b →
      b.start ≤ a.start ∧ a.stop ≤ b.stop) :
    ∃ chain, (selectionRangeChains locations offsets)[i]? = some chain ∧ ∀ r ∈ locations, Covers r offset → r ∈ chain := by
  refine ⟨finish offset (collect offset locations), by simp [selectionRangeChains, hi], ?_⟩
  rcases (finish_spec offset locations).2 with ⟨hno, h⟩ | ⟨r, rs, h, -, -, h3⟩
  · exact fun r hr hc => absurd hc (hno r hr)
  · rw [h]; exact h3 hnest

/-- `foo(bar)` with the cursor in `bar`, plus a location elsewhere and a duplicate. -/
example : selectionRangeChains [⟨0, 9⟩, ⟨0, 8⟩, ⟨4, 7⟩, ⟨4, 7⟩, ⟨8, 9⟩, ⟨2, 2⟩] [5, 20] = [[⟨4, 7⟩, ⟨0, 8⟩, ⟨0, 9⟩], [⟨20, 20⟩]] := by
  decide

end Verif.Selection
