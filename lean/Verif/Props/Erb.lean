import Verif.Lemmas.Erb
/-!
C31: ERB masking preserves every offset and only exposes Ruby code.
-/
namespace Verif.Erb
open Spec

/-- Offset `i` is inside one of the ranges. -/
def InRuby (ranges : List (Nat × Nat)) (i : Nat) : Prop := ∃ r ∈ ranges, r.1 ≤ i ∧ i < r.2

/-- Two byte lists related position by position, positions counted from `off`. -/
def PW (Q : Nat → UInt8 → UInt8 → Prop) (off : Nat) (a b : List UInt8) : Prop :=
  ∀ (i : Nat) (x y : UInt8), a[i]? = some x → b[i]? = some y → Q (off + i) x y

theorem PW.append {Q : Nat → UInt8 → UInt8 → Prop} {off : Nat} {a a' b b' : List UInt8} (hl : a.length = b.length) (h : PW Q off a b)
    (h' : PW Q (off + a.length) a' b') : PW Q off (a ++ a') (b ++ b') := by
  intro i x y hx hy
  by_cases hi : i < a.length
  · rw [List.getElem?_append_left hi] at hx
    rw [List.getElem?_append_left (by omega)] at hy
    exact h i x y hx hy
  · rw [List.getElem?_append_right (by omega)] at hx
    rw [List.getElem?_append_right (by omega), ← hl] at hy
    have := h' _ x y hx hy
    have e : off + a.length + (i - a.length) = off + i := by omega
    rwa [e] at this

def Shown (ranges : List (Nat × Nat)) (j : Nat) (x y : UInt8) : Prop :=
  (InRuby ranges j → y = x) ∧ (¬ InRuby ranges j → y = blank x ∨ (y = 0x3B ∧ x = 0x25))

theorem PW.blank {rs : List (Nat × Nat)} {off : Nat} {a : List UInt8} (h : ∀ j, off ≤ j → j < off + a.length → ¬ InRuby rs j) :
    PW (Shown rs) off a (a.map blank) := by
  intro i x y hx hy
  obtain ⟨hlt, -⟩ := List.getElem?_eq_some_iff.mp hx
  rw [List.getElem?_map, hx] at hy
  simp only [Option.map_some, Option.some.injEq] at hy
  exact ⟨fun hr => absurd hr (h _ (by omega) (by omega)), fun _ => Or.inl hy.symm⟩

theorem masks_shown {off bytes out rs u} (h : Masks off bytes out rs u) (rs0 : List (Nat × Nat))
    (h0 : ∀ j, off ≤ j → (InRuby rs0 j ↔ InRuby rs j)) : PW (Shown rs0) off bytes out := by
  induction h with
  | text h => exact PW.blank (fun j hj _ hr => by simpa [InRuby] using (h0 j hj).mp hr)
  | unclosed h1 h2 => exact PW.blank (fun j hj _ hr => by simpa [InRuby] using (h0 j hj).mp hr)
  | @silent off pre first inner post ranges u out h1 h2 h3 hrest ih =>
    have hlen : (pre ++ [0x3C, 0x25] ++ first :: inner ++ [0x25, 0x3E]).length = pre.length + 2 + (first :: inner).length + 2 := by simp; omega
    refine PW.append (by simp) (PW.blank ?_) ?_
    · intro j hj hj2 hr
      obtain ⟨r, hr, hr1, hr2⟩ := (h0 j hj).mp hr
      have := (hrest.ranges.1 r hr).1
      rw [hlen] at hj2
      omega
    · have := ih (fun j hj => h0 j (by omega))
      rw [hlen]
      have e : off + (pre.length + 2 + (first :: inner).length + 2) = off + pre.length + 2 + (first :: inner).length + 2 := by omega
      rw [e]; exact this
  | @code off pre first inner post ranges u lead body trail out h1 h2 h3 hrest ih =>
    obtain ⟨he, hb, -⟩ := ruby_some h3
    have hl := congrArg List.length he
    simp only [List.length_append] at hl
    have hrs := hrest.ranges.1
    have hIn : ∀ j, off ≤ j → j < off + pre.length + 2 + (first :: inner).length + 2 →
        (InRuby rs0 j ↔ off + pre.length + 2 + lead.length ≤ j ∧ j < off + pre.length + 2 + lead.length + body.length) := by
      intro j hj hj2
      rw [h0 j hj]
      constructor
      · rintro ⟨r, hr, hr1, hr2⟩
        rcases List.mem_cons.mp hr with rfl | hr
        · exact ⟨hr1, hr2⟩
        · have := (hrs r hr).1; omega
      · rintro ⟨ha, hb⟩
        exact ⟨_, List.mem_cons_self, ha, hb⟩
    have eb : pre ++ [0x3C, 0x25] ++ first :: inner ++ [0x25, 0x3E] ++ post =
      (pre ++ [0x3C, 0x25] ++ lead) ++ body ++ trail ++ [0x25, 0x3E] ++ post := by rw [he]; simp
    rw [eb]
    refine PW.append (by simp) (PW.append (by simp) (PW.append (by simp) (PW.append (by simp) (PW.blank ?_) ?_) (PW.blank ?_)) ?_) ?_
    · intro j hj hj2 hr
      simp only [List.length_append, List.length_cons, List.length_nil] at hj2
      have := (hIn j hj (by omega)).mp hr
      omega
    · intro i x y hx hy
      obtain ⟨hlt, -⟩ := List.getElem?_eq_some_iff.mp hx
      rw [hx, Option.some.injEq] at hy
      refine ⟨fun _ => hy.symm, fun hn => absurd ?_ hn⟩
      simp only [List.length_append, List.length_cons, List.length_nil] at *
      exact (hIn _ (by omega) (by omega)).mpr (by omega)
    · intro j hj hj2 hr
      simp only [List.length_append, List.length_cons, List.length_nil] at *
      have := (hIn j (by omega) (by omega)).mp hr
      omega
    · intro i x y hx hy
      obtain ⟨hlt, -⟩ := List.getElem?_eq_some_iff.mp hx
      simp only [List.length_append, List.length_cons, List.length_nil] at *
      have hni : ¬ InRuby rs0 (off + (pre.length + (0 + 1 + 1) + lead.length + body.length + trail.length) + i) := by
        intro hr
        have := (hIn _ (by omega) (by omega)).mp hr
        omega
      refine ⟨fun hr => absurd hr hni, fun _ => ?_⟩
      match i, hlt with
      | 0, _ => simp at hx hy; exact Or.inr ⟨hy.symm, hx.symm⟩
      | 1, _ => simp at hx hy; left; rw [← hx, ← hy]; rfl
    · have := ih (fun j hj => by
        rw [h0 j (by omega)]
        constructor
        · rintro ⟨r, hr, hr1, hr2⟩
          rcases List.mem_cons.mp hr with rfl | hr
          · dsimp only at *; omega
          · exact ⟨r, hr, hr1, hr2⟩
        · rintro ⟨r, hr, hr'⟩; exact ⟨r, List.mem_cons_of_mem _ hr, hr'⟩)
      have e : off + ((pre ++ [0x3C, 0x25] ++ lead) ++ body ++ trail ++ [0x25, 0x3E]).length =
        off + pre.length + 2 + (first :: inner).length + 2 := by rw [hl]; simp; omega
      rw [e]; exact this

theorem maskErb_masks (t : List Char) : ∃ e, maskErb t = some e ∧ Masks 0 (utf8 t) e.source e.ranges e.unclosed ∧ ValidUtf8 e.source := by
  obtain ⟨out, rs, u, h1, h2⟩ := maskLoop_spec (utf8 t).length [] (utf8 t) [] [] (Nat.le_refl _) rfl
  have hv := h2.valid ⟨t, rfl⟩
  refine ⟨⟨out, rs, u⟩, ?_, h2, hv⟩
  unfold maskErb
  simp only [List.nil_append, List.length_nil] at h1
  simp only [h1]
  rw [if_pos ⟨hv, h2.length⟩]

/-- **C31**: masking never panics, whatever the template. -/
theorem c31_never_panics (t : List Char) : ∃ e, maskErb t = some e := by
  obtain ⟨e, h, -⟩ := maskErb_masks t
  exact ⟨e, h⟩

theorem masks_of {t : List Char} {e : Embedded} (h : maskErb t = some e) :
    Masks 0 (utf8 t) e.source e.ranges e.unclosed ∧ ValidUtf8 e.source := by
  obtain ⟨e', h', hm⟩ := maskErb_masks t
  rw [h] at h'
  cases h'
  exact hm

/-- **C31**: the reported ranges are exactly the Ruby code of the template's tags, and the reported unclosed tag is exactly the
first tag that is never closed. -/
theorem c31_ranges {t : List Char} {e : Embedded} (h : maskErb t = some e) : Tags 0 (utf8 t) e.ranges e.unclosed :=
  (masks_of h).1.tags

/-- **C31**: the ranges are non-empty, inside the template, in order and apart. -/
theorem c31_ordered {t : List Char} {e : Embedded} (h : maskErb t = some e) :
    (∀ r ∈ e.ranges, r.1 < r.2 ∧ r.2 ≤ (utf8 t).length) ∧ e.ranges.Pairwise (fun a b => a.2 < b.1) := by
  have := (masks_of h).1.ranges
  refine ⟨fun r hr => ?_, this.2⟩
  have := this.1 r hr
  omega

theorem shown_at {t : List Char} {e : Embedded} (h : maskErb t = some e) {i : Nat} {x : UInt8} (hx : (utf8 t)[i]? = some x) :
    ∃ y, e.source[i]? = some y ∧ Shown e.ranges i x y := by
  have hm := (masks_of h).1
  have hl := hm.length
  obtain ⟨hlt, -⟩ := List.getElem?_eq_some_iff.mp hx
  obtain ⟨y, hy⟩ : ∃ y, e.source[i]? = some y := ⟨_, List.getElem?_eq_getElem (by omega)⟩
  have := masks_shown hm e.ranges (fun j _ => Iff.rfl) i x y hx hy
  rw [Nat.zero_add] at this
  exact ⟨y, hy, this⟩

theorem isRubyOffset_iff (e : Embedded) (i : Nat) : e.isRubyOffset i = true ↔ InRuby e.ranges i := by
  unfold Embedded.isRubyOffset InRuby
  simp [List.any_eq_true]

/-- **C31**: the masked source has the template's length, is valid UTF-8 and has the same line breaks at the same places. -/
theorem c31_offsets_kept {t : List Char} {e : Embedded} (h : maskErb t = some e) :
    e.source.length = (utf8 t).length ∧ ValidUtf8 e.source ∧
      ∀ (i : Nat) (x : UInt8), isBreak x → (e.source[i]? = some x ↔ (utf8 t)[i]? = some x) := by
  refine ⟨(masks_of h).1.length, (masks_of h).2, ?_⟩
  have hl := (masks_of h).1.length
  intro i x hx
  by_cases hi : i < (utf8 t).length
  · obtain ⟨z, hz⟩ : ∃ z, (utf8 t)[i]? = some z := ⟨_, List.getElem?_eq_getElem hi⟩
    obtain ⟨y, hy, h1, h2⟩ := shown_at h hz
    rw [hy, hz, Option.some.injEq, Option.some.injEq]
    by_cases hr : InRuby e.ranges i
    · rw [h1 hr]
    · rcases h2 hr with h2 | ⟨h2, h3⟩
      · rw [h2]
        unfold blank
        split
        · rfl
        · rename_i hb
          simp only [Bool.or_eq_true, decide_eq_true_eq, not_or] at hb
          rcases hx with rfl | rfl
          · constructor
            · intro h; exact absurd h (by decide)
            · intro h; exact absurd h hb.1
          · constructor
            · intro h; exact absurd h (by decide)
            · intro h; exact absurd h hb.2
      · rw [h2, h3]
        rcases hx with rfl | rfl <;> decide
  · rw [List.getElem?_eq_none (by omega), List.getElem?_eq_none (by omega)]

/-- **C31**: an offset reported as Ruby shows the template's own byte. -/
theorem c31_ruby_verbatim {t : List Char} {e : Embedded} (h : maskErb t = some e) (i : Nat) (hr : e.isRubyOffset i = true) :
    i < (utf8 t).length ∧ e.source[i]? = (utf8 t)[i]? := by
  have hin := (isRubyOffset_iff e i).mp hr
  obtain ⟨r, hmem, hr1, hr2⟩ := hin
  have hlt : i < (utf8 t).length := by have := (c31_ordered h).1 r hmem; omega
  obtain ⟨z, hz⟩ : ∃ z, (utf8 t)[i]? = some z := ⟨_, List.getElem?_eq_getElem hlt⟩
  obtain ⟨y, hy, h1, h2⟩ := shown_at h hz
  rw [hy, hz, h1 ⟨r, hmem, hr1, hr2⟩]
  exact ⟨hlt, rfl⟩

/-- **C31**: everywhere else the mask shows a line break (the template's own), a blank, or a `;` in place of a `%`. -/
theorem c31_outside_blank {t : List Char} {e : Embedded} (h : maskErb t = some e) (i : Nat) (hr : e.isRubyOffset i = false) (y : UInt8)
    (hy : e.source[i]? = some y) :
    (isBreak y ∧ (utf8 t)[i]? = some y) ∨ y = 0x20 ∨ (y = 0x3B ∧ (utf8 t)[i]? = some 0x25) := by
  have hl := (masks_of h).1.length
  obtain ⟨hlt, -⟩ := List.getElem?_eq_some_iff.mp hy
  obtain ⟨z, hz⟩ : ∃ z, (utf8 t)[i]? = some z := ⟨_, List.getElem?_eq_getElem (by omega)⟩
  obtain ⟨y', hy', h1, h2⟩ := shown_at h hz
  rw [hy, Option.some.injEq] at hy'
  subst hy'
  have hn : ¬ InRuby e.ranges i := by rw [← isRubyOffset_iff, hr]; decide
  rcases h2 hn with h2 | ⟨h2, h3⟩
  · unfold blank at h2
    split at h2
    · rename_i hb
      simp only [Bool.or_eq_true, decide_eq_true_eq] at hb
      left
      rw [h2]
      exact ⟨hb, hz⟩
    · exact Or.inr (Or.inl h2)
  · exact Or.inr (Or.inr ⟨h2, by rw [hz, h3]⟩)

theorem masks_separator {off bytes out rs u} (h : Masks off bytes out rs u) :
    ∀ r ∈ rs, ∃ k, (k = r.2 ∨ k = r.2 + 1) ∧ off ≤ k ∧ out[k - off]? = some 0x3B := by
  induction h with
  | text h => simp
  | unclosed h1 h2 => simp
  | @silent off pre first inner post ranges u out h1 h2 h3 hrest ih =>
    intro r hr
    obtain ⟨k, hk, hk1, hk2⟩ := ih r hr
    refine ⟨k, hk, by omega, ?_⟩
    have hlen : ((pre ++ [0x3C, 0x25] ++ first :: inner ++ [0x25, 0x3E]).map blank).length = pre.length + 2 + (first :: inner).length + 2 := by simp; omega
    rw [List.getElem?_append_right (by omega), hlen, ← hk2]
    congr 1; omega
  | @code off pre first inner post ranges u lead body trail out h1 h2 h3 hrest ih =>
    obtain ⟨he, hb, -, -, -, -, ht⟩ := ruby_some h3
    have hl := congrArg List.length he
    simp only [List.length_append] at hl
    have ht1 : trail.length ≤ 1 := by
      rw [ht]; unfold untrim; split <;> simp
    intro r hr
    rcases List.mem_cons.mp hr with rfl | hr
    · refine ⟨off + pre.length + 2 + lead.length + body.length + trail.length, by dsimp only; omega, by omega, ?_⟩
      have hlen : ((pre ++ [0x3C, 0x25] ++ lead).map blank ++ body ++ trail.map blank).length =
        pre.length + 2 + lead.length + body.length + trail.length := by simp; omega
      rw [List.append_assoc, List.getElem?_append_right (by rw [hlen]; omega), hlen]
      have : off + pre.length + 2 + lead.length + body.length + trail.length - off - (pre.length + 2 + lead.length + body.length + trail.length) = 0 := by omega
      rw [this]; rfl
    · obtain ⟨k, hk, hk1, hk2⟩ := ih r hr
      refine ⟨k, hk, by omega, ?_⟩
      have hlen : ((pre ++ [0x3C, 0x25] ++ lead).map blank ++ body ++ trail.map blank ++ [0x3B, 0x20]).length =
        pre.length + 2 + (first :: inner).length + 2 := by rw [hl]; simp; omega
      rw [List.getElem?_append_right (by rw [hlen]; omega), hlen, ← hk2]
      congr 1; omega

/-- **C31**: every piece of Ruby code is followed by a statement separator, so pieces never run together. -/
theorem c31_separated {t : List Char} {e : Embedded} (h : maskErb t = some e) :
    ∀ r ∈ e.ranges, e.source[r.2]? = some 0x3B ∨ e.source[r.2 + 1]? = some 0x3B := by
  intro r hr
  obtain ⟨k, hk, -, hk2⟩ := masks_separator (masks_of h).1 r hr
  rw [Nat.sub_zero] at hk2
  rcases hk with rfl | rfl
  · exact Or.inl hk2
  · exact Or.inr hk2

/-! A concrete template: `a<%= b -%>` shows `     b  ; ` -/
def sampleBytes : List UInt8 := [97, 60, 37, 61, 32, 98, 32, 45, 37, 62]

theorem sample_loop : maskLoop (utf8 ['a', '<', '%', '=', ' ', 'b', ' ', '-', '%', '>']) 0 ((utf8 ['a', '<', '%', '=', ' ', 'b', ' ', '-', '%', '>']).map blank) [] =
    some (utf8 [' ', ' ', ' ', ' ', ' ', 'b', ' ', ' ', ';', ' '], [(4, 7)], none) := by
  have e : utf8 ['a', '<', '%', '=', ' ', 'b', ' ', '-', '%', '>'] = sampleBytes := by decide
  rw [e, maskLoop, if_neg (by decide)]
  split
  · rename_i h; exact absurd h (by decide)
  · rename_i ro h
    have h1 : findBytes openTag (List.drop 0 sampleBytes) = some 1 := by decide
    rw [h1, Option.some.injEq] at h
    subst h
    have h2 : findBytes closeTag (List.drop (min (0 + 1 + 3) (List.length sampleBytes))
      sampleBytes) = some 4 := by decide
    simp only [h2]
    rw [if_neg (by decide), if_neg (by decide)]
    have h3 : (copySlice (List.map blank sampleBytes) sampleBytes
      (bodyStart sampleBytes (0 + 1))
      (bodyEnd sampleBytes (bodyStart sampleBytes (0 + 1))
        (min (0 + 1 + 3) (List.length sampleBytes) + 4))).bind
      (fun x => setByte x (min (0 + 1 + 3) (List.length sampleBytes) + 4) 59) =
      some (utf8 [' ', ' ', ' ', ' ', ' ', 'b', ' ', ' ', ';', ' ']) := by decide
    simp only [h3]
    rw [maskLoop, if_neg (by decide)]
    split
    · rfl
    · rename_i ro h
      simp [sampleBytes, findBytes] at h

example : ∃ e, maskErb ['a', '<', '%', '=', ' ', 'b', ' ', '-', '%', '>'] = some e ∧ e.ranges = [(4, 7)] ∧
    e.source = utf8 [' ', ' ', ' ', ' ', ' ', 'b', ' ', ' ', ';', ' '] ∧ e.isRubyOffset 5 = true := by
  unfold maskErb
  simp only [sample_loop]
  rw [if_pos ⟨⟨_, rfl⟩, by decide⟩]
  exact ⟨_, rfl, rfl, rfl, by decide⟩

end Verif.Erb
