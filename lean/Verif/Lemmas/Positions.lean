import Verif.Model.Positions
import Verif.Lemmas.Utf8
import Mathlib.Data.List.Nodup
import Mathlib.Data.List.Induction
namespace Verif.Positions

theorem utf8Size_pos (c : Char) : 0 < c.utf8Size := Char.utf8Size_pos c
theorem utf16Len_pos (c : Char) : 0 < utf16Len c := by unfold utf16Len; split <;> omega

@[simp] theorem byteLen_nil : byteLen [] = 0 := rfl
@[simp] theorem byteLen_cons (c : Char) (t : Text) : byteLen (c :: t) = c.utf8Size + byteLen t := rfl
@[simp] theorem byteLen_append (a b : Text) : byteLen (a ++ b) = byteLen a + byteLen b := by simp [byteLen]
@[simp] theorem utf16Sum_nil : utf16Sum [] = 0 := rfl
@[simp] theorem utf16Sum_cons (c : Char) (t : Text) : utf16Sum (c :: t) = utf16Len c + utf16Sum t := rfl
@[simp] theorem utf16Sum_append (a b : Text) : utf16Sum (a ++ b) = utf16Sum a + utf16Sum b := by simp [utf16Sum]

theorem byteLen_eq_zero {t : Text} : byteLen t = 0 ↔ t = [] := by
  cases t with
  | nil => simp
  | cons c t => have := utf8Size_pos c; simp; omega

theorem dropBytes_eq_some {n : Nat} {t b : Text} : dropBytes n t = some b ↔ ∃ a, t = a ++ b ∧ byteLen a = n := by
  induction t generalizing n with
  | nil =>
    cases n with
    | zero =>
      simp only [dropBytes, Option.some.injEq]
      constructor
      · rintro rfl; exact ⟨[], rfl, rfl⟩
      · rintro ⟨a, h, -⟩; exact ((List.append_eq_nil_iff.mp h.symm).2).symm
    | succ n =>
      simp only [dropBytes]
      constructor
      · intro h; cases h
      · rintro ⟨a, h, hl⟩
        rw [(List.append_eq_nil_iff.mp h.symm).1] at hl
        simp at hl
  | cons c t ih =>
    cases n with
    | zero =>
      simp only [dropBytes, Option.some.injEq]
      constructor
      · rintro rfl; exact ⟨[], rfl, rfl⟩
      · rintro ⟨a, h, hl⟩
        rw [byteLen_eq_zero] at hl
        subst hl; exact h
    | succ n =>
      simp only [dropBytes]
      have hc := utf8Size_pos c
      split
      · rename_i hle
        rw [ih]
        constructor
        · rintro ⟨a, rfl, hl⟩
          exact ⟨c :: a, rfl, by rw [byteLen_cons]; omega⟩
        · rintro ⟨a, h, hl⟩
          cases a with
          | nil => simp at hl
          | cons c' a =>
            simp only [List.cons_append, List.cons.injEq] at h
            obtain ⟨rfl, rfl⟩ := h
            exact ⟨a, rfl, by rw [byteLen_cons] at hl; omega⟩
      · rename_i hle
        constructor
        · intro h; cases h
        · rintro ⟨a, h, hl⟩
          cases a with
          | nil => simp at hl
          | cons c' a =>
            simp only [List.cons_append, List.cons.injEq] at h
            obtain ⟨rfl, rfl⟩ := h
            rw [byteLen_cons] at hl; omega

theorem takeBytes_append {a b : Text} : takeBytes (byteLen a) (a ++ b) = some a := by
  induction a with
  | nil => simp [takeBytes]
  | cons c a ih =>
    have hc := utf8Size_pos c
    obtain ⟨n, hn⟩ : ∃ n, byteLen (c :: a) = n + 1 := ⟨byteLen (c :: a) - 1, by rw [byteLen_cons]; omega⟩
    rw [hn, List.cons_append, takeBytes]
    rw [byteLen_cons] at hn
    rw [if_pos (by omega)]
    have : n + 1 - c.utf8Size = byteLen a := by omega
    rw [this, ih]; rfl

theorem dropBytes_append (a b : Text) : dropBytes (byteLen a) (a ++ b) = some b := dropBytes_eq_some.mpr ⟨a, rfl, rfl⟩

theorem slice_append (a w b : Text) : slice (a ++ w ++ b) (byteLen a) (byteLen a + byteLen w) = some w := by
  unfold slice
  rw [if_pos (by omega), List.append_assoc, dropBytes_append]
  simp only [Option.bind_some]
  have : byteLen a + byteLen w - byteLen a = byteLen w := by omega
  rw [this, takeBytes_append]

theorem isCharBoundary_iff {t : Text} {n : Nat} : isCharBoundary t n = true ↔ ∃ a b, t = a ++ b ∧ byteLen a = n := by
  unfold isCharBoundary
  rw [Option.isSome_iff_exists]
  constructor
  · rintro ⟨b, h⟩
    obtain ⟨a, h1, h2⟩ := dropBytes_eq_some.mp h
    exact ⟨a, b, h1, h2⟩
  · rintro ⟨a, b, h1, h2⟩
    exact ⟨b, dropBytes_eq_some.mpr ⟨a, h1, h2⟩⟩

theorem roundDown_spec (t : Text) (n : Nat) :
    roundDown t n ≤ n ∧ isCharBoundary t (roundDown t n) = true ∧ ∀ m, m ≤ n → isCharBoundary t m = true → m ≤ roundDown t n := by
  induction n with
  | zero => exact ⟨Nat.le_refl _, isCharBoundary_iff.mpr ⟨[], t, rfl, rfl⟩, fun m hm _ => hm⟩
  | succ n ih =>
    simp only [roundDown]
    split
    · rename_i h
      exact ⟨Nat.le_refl _, h, fun m hm _ => hm⟩
    · rename_i h
      refine ⟨by omega, ih.2.1, ?_⟩
      intro m hm hb
      by_cases hmn : m = n + 1
      · subst hmn; exact absurd hb h
      · exact ih.2.2 m (by omega) hb

theorem utf8_length (t : Text) : (utf8 t).length = byteLen t := by
  induction t with
  | nil => rfl
  | cons c t ih => simp [ih]

/-! Line starts -/

theorem lineStarts_append (off : Nat) (a b : Text) :
    lineStarts off (a ++ b) = lineStarts off a ++ lineStarts (off + byteLen a) b := by
  induction a generalizing off with
  | nil => simp [lineStarts]
  | cons c a ih =>
    simp only [List.cons_append, lineStarts]
    rw [ih]
    have : off + c.utf8Size + byteLen a = off + byteLen (c :: a) := by rw [byteLen_cons]; omega
    rw [this]
    split <;> rfl

theorem length_lineStarts (off : Nat) (t : Text) : (lineStarts off t).length = t.count '\n' := by
  induction t generalizing off with
  | nil => rfl
  | cons c t ih =>
    simp only [lineStarts]
    rw [List.count_cons]
    split
    · rename_i h; simp [ih, h]
    · rename_i h
      simp [ih, h]

theorem lineStarts_gt {off x : Nat} {t : Text} (h : x ∈ lineStarts off t) : off < x ∧ x ≤ off + byteLen t := by
  induction t generalizing off with
  | nil => simp [lineStarts] at h
  | cons c t ih =>
    have hc := utf8Size_pos c
    simp only [lineStarts] at h
    split at h
    · rcases List.mem_cons.mp h with rfl | h
      · rw [byteLen_cons]; omega
      · have := ih h; rw [byteLen_cons]; omega
    · have := ih h; rw [byteLen_cons]; omega

theorem lineStarts_none {off : Nat} {w : Text} (h : '\n' ∉ w) : lineStarts off w = [] := by
  apply List.eq_nil_of_length_eq_zero
  rw [length_lineStarts]
  exact List.count_eq_zero.mpr h

theorem lineStarts_sorted (off : Nat) (t : Text) : (lineStarts off t).Pairwise (· < ·) := by
  induction t generalizing off with
  | nil => exact List.Pairwise.nil
  | cons c t ih =>
    simp only [lineStarts]
    split
    · exact List.pairwise_cons.mpr ⟨fun x hx => (lineStarts_gt hx).1, ih _⟩
    · exact ih _

/-- Complete lines: empty, or ending in a newline. -/
def Complete (a : Text) : Prop := a = [] ∨ ∃ x, a = x ++ ['\n']

theorem lineStarts_complete {a : Text} (h : Complete a) : (0 :: lineStarts 0 a).getLast? = some (byteLen a) := by
  rcases h with rfl | ⟨x, rfl⟩
  · rfl
  · rw [lineStarts_append]
    have : lineStarts (0 + byteLen x) ['\n'] = [byteLen x + 1] := by
      simp [lineStarts]
      rfl
    rw [this, ← List.cons_append, List.getLast?_append]
    simp
    rfl

/-- Every text is complete lines followed by a piece without newline. -/
theorem exists_complete (a : Text) : ∃ a0 w, a = a0 ++ w ∧ Complete a0 ∧ '\n' ∉ w := by
  induction a using List.reverseRecOn with
  | nil => exact ⟨[], [], rfl, Or.inl rfl, by simp⟩
  | append_singleton a c ih =>
    obtain ⟨a0, w, rfl, h1, h2⟩ := ih
    by_cases hc : c = '\n'
    · exact ⟨a0 ++ w ++ [c], [], by simp, Or.inr ⟨a0 ++ w, by rw [hc]⟩, by simp⟩
    · refine ⟨a0, w ++ [c], by simp, h1, ?_⟩
      simp only [List.mem_append, List.mem_singleton, not_or]
      exact ⟨h2, fun h => hc h.symm⟩

theorem complete_prefix {a0 w : Text} (h : Complete (a0 ++ w)) (hw : '\n' ∉ w) : w = [] := by
  rcases h with h | ⟨x, h⟩
  · exact (List.append_eq_nil_iff.mp h).2
  · cases hl : w.getLast? with
    | none => exact List.getLast?_eq_none_iff.mp hl
    | some c =>
      exfalso
      have h1 : (a0 ++ w).getLast? = some c := by rw [List.getLast?_append, hl]; rfl
      rw [h, List.getLast?_append] at h1
      simp at h1
      subst h1
      exact hw (List.mem_of_getLast? hl)

/-- All line offsets: the starts, and the length unless it is already there. -/
theorem computeLineOffsets_eq (t : Text) {a0 w : Text} (ht : t = a0 ++ w) (h0 : Complete a0) (hw : '\n' ∉ w) :
    computeLineOffsets t = (0 :: lineStarts 0 a0) ++ (if w = [] then [] else [byteLen t]) := by
  subst ht
  unfold computeLineOffsets
  have hs : lineStarts 0 (a0 ++ w) = lineStarts 0 a0 := by rw [lineStarts_append, lineStarts_none hw]; simp
  rw [hs]
  simp only []
  rw [lineStarts_complete h0]
  by_cases hwn : w = []
  · subst hwn; simp
  · have : byteLen w ≠ 0 := fun h => hwn (byteLen_eq_zero.mp h)
    rw [if_pos, if_neg hwn]
    simp; omega

theorem computeLineOffsets_sorted (t : Text) : (computeLineOffsets t).Pairwise (· < ·) := by
  obtain ⟨a0, w, ht, h0, hw⟩ := exists_complete t
  rw [computeLineOffsets_eq t ht h0 hw]
  have hs : (0 :: lineStarts 0 a0).Pairwise (· < ·) :=
    List.pairwise_cons.mpr ⟨fun x hx => (lineStarts_gt hx).1, lineStarts_sorted _ _⟩
  split
  · simpa using hs
  · rename_i hwn
    refine List.pairwise_append.mpr ⟨hs, List.pairwise_singleton _ _, ?_⟩
    intro x hx y hy
    have : byteLen w ≠ 0 := fun h => hwn (byteLen_eq_zero.mp h)
    simp only [List.mem_singleton] at hy
    subst hy
    rw [ht, byteLen_append]
    rcases List.mem_cons.mp hx with rfl | hx
    · omega
    · have := (lineStarts_gt hx).2; omega

/-- On a strictly increasing list, searching for an element gives its index; searching for a value between two elements
gives the later index. -/
theorem binarySearch_found {l : List Nat} (h : l.Pairwise (· < ·)) {i x : Nat} (hi : l[i]? = some x) : binarySearch l x = .inl i := by
  unfold binarySearch
  have : l.findIdx? (· == x) = some i := by
    rw [List.findIdx?_eq_some_iff_getElem]
    obtain ⟨hlt, hx⟩ := List.getElem?_eq_some_iff.mp hi
    refine ⟨hlt, by simp [hx], ?_⟩
    intro j hj
    have := List.pairwise_iff_getElem.mp h j i (by omega) hlt hj
    simp; omega
  rw [this]

theorem binarySearch_between {l r : List Nat} {x : Nat} (hl : ∀ y ∈ l, y < x) (hr : ∀ y ∈ r, x < y) :
    binarySearch (l ++ r) x = .inr l.length := by
  unfold binarySearch
  have h1 : (l ++ r).findIdx? (· == x) = none := by
    rw [List.findIdx?_eq_none_iff]
    intro y hy
    rcases List.mem_append.mp hy with h | h
    · have := hl y h; simp; omega
    · have := hr y h; simp; omega
  rw [h1]
  have h2 : (l ++ r).takeWhile (fun y => decide (y < x)) = l := by
    rw [List.takeWhile_append]
    have : l.takeWhile (fun y => decide (y < x)) = l := by
      clear h1
      induction l with
      | nil => rfl
      | cons z l ihl =>
        rw [List.takeWhile_cons, if_pos (by simpa using hl z (by simp)), ihl (fun y hy => hl y (List.mem_cons_of_mem _ hy))]
    rw [this]
    simp only [if_true]
    cases r with
    | nil => simp
    | cons y r =>
      have := hr y (by simp)
      rw [List.takeWhile_cons]
      simp; omega
  rw [h2]

/-- The index found for a position: the number of newlines before it, one more at the very end of an incomplete text. -/
theorem search_spec (a0 w b : Text) (h0 : Complete a0) (hw : '\n' ∉ w) :
    let t := a0 ++ w ++ b
    let offs := computeLineOffsets t
    let o := byteLen a0 + byteLen w
    (w ≠ [] ∧ b = [] → binarySearch offs o = .inl (a0.count '\n' + 1) ∧ offs[a0.count '\n' + 1]? = some o) ∧
    (¬(w ≠ [] ∧ b = []) → (binarySearch offs o = .inl (a0.count '\n') ∨ binarySearch offs o = .inr (a0.count '\n' + 1)) ∧
      offs[a0.count '\n']? = some (byteLen a0)) ∧
    offs[a0.count '\n']? = some (byteLen a0) := by
  intro t offs o
  have hget0 : ∀ r, ((0 :: lineStarts 0 a0) ++ r)[a0.count '\n']? = some (byteLen a0) := by
    intro r
    have hlen : (0 :: lineStarts 0 a0).length = a0.count '\n' + 1 := by simp [length_lineStarts]
    rw [List.getElem?_append_left (by omega)]
    have := lineStarts_complete h0
    rw [List.getLast?_eq_getElem?, hlen] at this
    simpa using this
  have hsorted := computeLineOffsets_sorted t
  obtain ⟨b0, v, hb, hb0, hv⟩ := exists_complete (w ++ b)
  -- all offsets: starts of a0, then later ones
  have hoffs : ∃ r, offs = (0 :: lineStarts 0 a0) ++ r ∧ ((w ≠ [] ∧ b = [] → r = [o]) ∧ (¬(w ≠ [] ∧ b = []) → w ≠ [] → ∀ y ∈ r, o < y)) := by
    obtain ⟨c0, v, hcv, hc0, hv⟩ := exists_complete t
    have hst : lineStarts 0 c0 = lineStarts 0 a0 ++ lineStarts o b := by
      have h1 : lineStarts 0 t = lineStarts 0 c0 := by
        rw [hcv, lineStarts_append, lineStarts_none hv]; simp
      rw [← h1]
      show lineStarts 0 (a0 ++ w ++ b) = _
      rw [List.append_assoc, lineStarts_append, lineStarts_append, lineStarts_none hw]
      simp [o]
    refine ⟨lineStarts o b ++ (if v = [] then [] else [byteLen t]), ?_, ?_, ?_⟩
    · show computeLineOffsets t = _
      rw [computeLineOffsets_eq t hcv hc0 hv, hst]; simp
    · rintro ⟨hwn, rfl⟩
      have hvn : v ≠ [] := by
        rintro rfl
        apply hwn
        apply complete_prefix (a0 := a0) _ hw
        have : a0 ++ w = c0 := by simpa [t] using hcv
        rw [this]; exact hc0
      simp [lineStarts, hvn, t, o]
    · intro hne hwn y hy
      have hbn : b ≠ [] := fun h => hne ⟨hwn, h⟩
      have hbl : byteLen b ≠ 0 := fun h => hbn (byteLen_eq_zero.mp h)
      rcases List.mem_append.mp hy with h | h
      · exact (lineStarts_gt h).1
      · split at h
        · simp at h
        · simp only [List.mem_singleton] at h
          subst h
          simp only [t, o, byteLen_append]; omega
  obtain ⟨r, hr, hr1, hr2⟩ := hoffs
  have hlen : (0 :: lineStarts 0 a0).length = a0.count '\n' + 1 := by simp [length_lineStarts]
  have hbase : offs[a0.count '\n']? = some (byteLen a0) := by rw [hr]; exact hget0 r
  refine ⟨?_, ?_, hbase⟩
  · intro hcase
    have hget : offs[a0.count '\n' + 1]? = some o := by
      rw [hr, hr1 hcase, List.getElem?_append_right (by omega), hlen]; simp
    exact ⟨binarySearch_found hsorted hget, hget⟩
  · intro hcase
    refine ⟨?_, hbase⟩
    by_cases hwn : w = []
    · left
      have : o = byteLen a0 := by simp [o, hwn]
      rw [this]
      exact binarySearch_found hsorted hbase
    · right
      rw [hr, binarySearch_between ?_ (hr2 hcase hwn), hlen]
      intro y hy
      have : byteLen w ≠ 0 := fun h => hwn (byteLen_eq_zero.mp h)
      rcases List.mem_cons.mp hy with rfl | hy
      · simp only [o]; omega
      · have := (lineStarts_gt hy).2; simp only [o]; omega

/-! The engine's byte-based line index is the same list. -/

theorem lineStartsBytes_append (off : Nat) (a b : List UInt8) :
    lineStartsBytes off (a ++ b) = lineStartsBytes off a ++ lineStartsBytes (off + a.length) b := by
  induction a generalizing off with
  | nil => simp [lineStartsBytes]
  | cons x a ih =>
    simp only [List.cons_append, lineStartsBytes, List.length_cons]
    rw [ih]
    have : off + 1 + a.length = off + (a.length + 1) := by omega
    rw [this]
    split <;> rfl

theorem lineStartsBytes_none {off : Nat} {a : List UInt8} (h : ∀ x ∈ a, x ≠ 0x0A) : lineStartsBytes off a = [] := by
  induction a generalizing off with
  | nil => rfl
  | cons x a ih =>
    simp only [lineStartsBytes]
    rw [if_neg (h x (by simp)), ih (fun y hy => h y (List.mem_cons_of_mem _ hy))]

theorem lineStartsBytes_utf8 (off : Nat) (t : Text) : lineStartsBytes off (utf8 t) = lineStarts off t := by
  induction t generalizing off with
  | nil => rfl
  | cons c t ih =>
    rw [utf8_cons, lineStartsBytes_append, ih, String.length_utf8EncodeChar]
    simp only [lineStarts]
    split
    · rename_i hc
      subst hc
      rfl
    · rename_i hc
      rw [lineStartsBytes_none, List.nil_append]
      intro x hx
      rintro rfl
      rcases encodeChar_cases c with ⟨-, b, hb, hn⟩ | ⟨-, b, r, hb, hn, -, hr⟩
      · rw [hb] at hx
        simp only [List.mem_singleton] at hx
        subst hx
        apply hc
        apply Char.toNat_inj.mp
        rw [← hn]; rfl
      · rw [hb] at hx
        rcases List.mem_cons.mp hx with h | h
        · rw [← h] at hn; revert hn; decide
        · have := hr _ h; revert this; decide

theorem engineLineOffsets_eq (t : Text) : engineLineOffsets t = computeLineOffsets t := by
  simp only [engineLineOffsets, computeLineOffsets, lineStartsBytes_utf8, utf8_length]

end Verif.Positions
