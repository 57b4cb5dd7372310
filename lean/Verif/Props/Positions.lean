import Verif.Lemmas.Positions
/-!
C29 (offsets and positions convert back and forth) and C30 (positions on existing lines).

Spec vocabulary: a text is a list of characters; a byte offset at a character boundary is the byte length of a prefix; the line
of a prefix is its number of newlines; its column is the number of UTF-16 units after its last newline.
-/
namespace Verif.Positions

/-- The byte offset a request is rounded to: the last character boundary at or before it, inside the text. -/
def IsRounded (t : Text) (offset r : Nat) : Prop :=
  (∃ a b, t = a ++ b ∧ byteLen a = r) ∧ r ≤ offset ∧ ∀ a b, t = a ++ b → byteLen a ≤ offset → byteLen a ≤ r

theorem rounded_exists (t : Text) (offset : Nat) : IsRounded t offset (roundDown t (min offset (byteLen t))) := by
  obtain ⟨h1, h2, h3⟩ := roundDown_spec t (min offset (byteLen t))
  obtain ⟨a, b, hab, hl⟩ := isCharBoundary_iff.mp h2
  refine ⟨⟨a, b, hab, hl⟩, by omega, ?_⟩
  intro a' b' h hle
  apply h3 _ _ (isCharBoundary_iff.mpr ⟨a', b', h, rfl⟩)
  rw [h] at *
  simp at *
  omega

theorem rounded_unique {t : Text} {o r r' : Nat} (h : IsRounded t o r) (h' : IsRounded t o r') : r = r' := by
  obtain ⟨⟨a, b, hab, hl⟩, h1, h2⟩ := h
  obtain ⟨⟨a', b', hab', hl'⟩, h1', h2'⟩ := h'
  have := h2 a' b' hab' (by omega)
  have := h2' a b hab (by omega)
  omega

theorem roundDown_prefix (a b : Text) : roundDown (a ++ b) (min (byteLen a) (byteLen (a ++ b))) = byteLen a := by
  apply rounded_unique (rounded_exists (a ++ b) (byteLen a))
  exact ⟨⟨a, b, rfl, rfl⟩, Nat.le_refl _, fun _ _ _ h => h⟩

/-- UTF-16 code units of a text: two for a scalar value outside the basic multilingual plane, one otherwise. -/
def units : Text → Nat
  | [] => 0
  | c :: t => (if 0xFFFF < c.toNat then 2 else 1) + units t

theorem utf16Sum_eq_units (t : Text) : utf16Sum t = units t := by
  induction t with
  | nil => rfl
  | cons c t ih =>
    rw [utf16Sum_cons, ih, units]
    unfold utf16Len
    split <;> split <;> omega

/-- What the conversion reports at a boundary. -/
theorem offsetTo_at (a0 w b : Text) (h0 : Complete a0) (hw : '\n' ∉ w) :
    offsetToLineCharacter (a0 ++ w ++ b) (byteLen (a0 ++ w)) =
      some (if w ≠ [] ∧ b = [] then (a0.count '\n' + 1, 0) else (a0.count '\n', utf16Sum w)) := by
  obtain ⟨s1, s2, -⟩ := search_spec a0 w b h0 hw
  unfold offsetToLineCharacter
  dsimp only
  rw [roundDown_prefix]
  rw [byteLen_append]
  by_cases hc : w ≠ [] ∧ b = []
  · obtain ⟨h1, h2⟩ := s1 hc
    rw [h1, if_pos hc]
    simp only [Option.bind_some, h2]
    have := slice_append (a0 ++ w) [] b
    simp only [List.append_nil, byteLen_append, byteLen_nil, Nat.add_zero] at this
    rw [this]; rfl
  · obtain ⟨h1, h2⟩ := s2 hc
    rw [if_neg hc]
    rcases h1 with h1 | h1
    · rw [h1]
      simp only [Option.bind_some, h2, slice_append, Option.map_some]
    · rw [h1]
      simp only [Nat.add_sub_cancel, if_neg (Nat.succ_ne_zero _), Option.bind_some, h2, slice_append, Option.map_some]

theorem first_line (t : Text) : ∃ w b, t = w ++ b ∧ '\n' ∉ w ∧ (b = [] ∨ ∃ b', b = '\n' :: b') := by
  induction t with
  | nil => exact ⟨[], [], rfl, by simp, Or.inl rfl⟩
  | cons c t ih =>
    by_cases hc : c = '\n'
    · exact ⟨[], c :: t, rfl, by simp, Or.inr ⟨t, by rw [hc]⟩⟩
    · obtain ⟨w, b, rfl, hw, hb⟩ := ih
      refine ⟨c :: w, b, rfl, ?_, hb⟩
      simp only [List.mem_cons, not_or]
      exact ⟨fun h => hc h.symm, hw⟩

theorem complete_append {a b : Text} (ha : Complete a) (hb : Complete b) : Complete (a ++ b) := by
  rcases hb with rfl | ⟨x, rfl⟩
  · simpa using ha
  · exact Or.inr ⟨a ++ x, by simp⟩

theorem exists_line (l : Nat) (t : Text) (h : l ≤ t.count '\n') :
    ∃ a0 w b, t = a0 ++ w ++ b ∧ Complete a0 ∧ a0.count '\n' = l ∧ '\n' ∉ w ∧ (b = [] ∨ ∃ b', b = '\n' :: b') := by
  induction l generalizing t with
  | zero =>
    obtain ⟨w, b, rfl, hw, hb⟩ := first_line t
    exact ⟨[], w, b, rfl, Or.inl rfl, rfl, hw, hb⟩
  | succ l ih =>
    obtain ⟨w, b, rfl, hw, hb⟩ := first_line t
    have hcw : w.count '\n' = 0 := List.count_eq_zero.mpr hw
    rcases hb with rfl | ⟨b', rfl⟩
    · simp [hcw] at h
    · have hl : l ≤ b'.count '\n' := by
        rw [List.count_append, hcw, List.count_cons] at h
        simp at h; omega
      obtain ⟨a0, v, c, rfl, h0, hl, hv, hc⟩ := ih b' hl
      refine ⟨w ++ ['\n'] ++ a0, v, c, by simp, complete_append (Or.inr ⟨w, rfl⟩) h0, ?_, hv, hc⟩
      simp [List.count_append, hcw, hl]


theorem scan_newline (target u : Nat) (w : Text) : scan target u (w ++ ['\n']) = scan target u w := by
  induction w generalizing u with
  | nil => simp [scan]
  | cons c w ih => simp only [List.cons_append, scan, ih]

theorem scan_spec (target : Nat) (w : Text) (hw : '\n' ∉ w) (u : Nat) (hu : u ≤ target) :
    ∃ w1 w2, w = w1 ++ w2 ∧ scan target u w = byteLen w1 ∧ u + utf16Sum w1 ≤ target ∧
      ∀ c w3, w2 = c :: w3 → target < u + utf16Sum (w1 ++ [c]) := by
  induction w generalizing u with
  | nil => exact ⟨[], [], rfl, rfl, by simpa using hu, by intro c w3 h; simp at h⟩
  | cons c w ih =>
    simp only [List.mem_cons, not_or] at hw
    simp only [scan]
    split
    · rename_i h
      have hgt : u + utf16Len c > target := by
        rcases Bool.or_eq_true_iff.mp h with h | h
        · simpa using h
        · simp only [decide_eq_true_eq] at h
          exact absurd h.symm hw.1
      refine ⟨[], c :: w, rfl, rfl, by simpa using hu, ?_⟩
      intro d w3 h
      simp only [List.cons.injEq] at h
      obtain ⟨rfl, -⟩ := h
      simp; omega
    · rename_i h
      simp only [Bool.or_eq_true, decide_eq_true_eq, not_or] at h
      obtain ⟨w1, w2, rfl, h1, h2, h3⟩ := ih hw.2 (u + utf16Len c) (by omega)
      refine ⟨c :: w1, w2, rfl, ?_, ?_, ?_⟩
      · rw [h1, byteLen_cons]
      · rw [utf16Sum_cons]; omega
      · intro d w3 h
        have := h3 d w3 h
        simp only [List.cons_append, utf16Sum_cons]; omega

theorem lineOffsets_length (t : Text) : (computeLineOffsets t).length ≤ t.count '\n' + 2 := by
  obtain ⟨a0, w, ht, h0, hw⟩ := exists_complete t
  rw [computeLineOffsets_eq t ht h0 hw, ht, List.count_append]
  simp only [List.length_append, List.length_cons, length_lineStarts]
  split
  · simp; omega
  · simp

theorem toOffset_line (a0 w b : Text) (c : Nat) (h0 : Complete a0) (hw : '\n' ∉ w) (hb : b = [] ∨ ∃ b', b = '\n' :: b') :
    lineCharacterToOffset (a0 ++ w ++ b) (a0.count '\n') c = some (byteLen a0 + scan c 0 w) := by
  obtain ⟨s1, -, s3⟩ := search_spec a0 w b h0 hw
  unfold lineCharacterToOffset
  dsimp only
  have hdef : ∀ e v, (computeLineOffsets (a0 ++ w ++ b))[a0.count '\n' + 1]? = some e →
      slice (a0 ++ w ++ b) (byteLen a0) e = some v → scan c 0 v = scan c 0 w →
      (if a0.count '\n' ≥ (computeLineOffsets (a0 ++ w ++ b)).length - 1 then some (byteLen (a0 ++ w ++ b))
        else (computeLineOffsets (a0 ++ w ++ b))[a0.count '\n']?.bind fun lineStart =>
          (computeLineOffsets (a0 ++ w ++ b))[a0.count '\n' + 1]?.bind fun lineEnd =>
            (slice (a0 ++ w ++ b) lineStart lineEnd).map fun chars => lineStart + scan c 0 chars) =
      some (byteLen a0 + scan c 0 w) := by
    intro e v he hv hs
    have hlt := (List.getElem?_eq_some_iff.mp he).1
    rw [if_neg (by omega), s3, he]
    simp only [Option.bind_some, hv, Option.map_some, hs]
  rcases hb with rfl | ⟨b', rfl⟩
  · by_cases hwn : w = []
    · subst hwn
      have hlen : (computeLineOffsets (a0 ++ [] ++ [])).length = a0.count '\n' + 1 := by
        rw [computeLineOffsets_eq _ (a0 := a0) (w := []) (by simp) h0 (by simp)]
        simp [length_lineStarts]
      rw [if_pos (by omega)]
      simp [scan]
    · apply hdef _ w (s1 ⟨hwn, rfl⟩).2 _ rfl
      exact slice_append a0 w []
  · have h1 : Complete (a0 ++ (w ++ ['\n'])) := Or.inr ⟨a0 ++ w, by simp⟩
    have hcw : w.count '\n' = 0 := List.count_eq_zero.mpr hw
    obtain ⟨-, -, s3'⟩ := search_spec (a0 ++ (w ++ ['\n'])) [] b' h1 (by simp)
    have e1 : a0 ++ (w ++ ['\n']) ++ [] ++ b' = a0 ++ w ++ '\n' :: b' := by simp
    have e2 : (a0 ++ (w ++ ['\n'])).count '\n' = a0.count '\n' + 1 := by simp [List.count_append, hcw]
    rw [e1, e2] at s3'
    apply hdef _ (w ++ ['\n']) s3' _ (scan_newline _ _ _)
    have := slice_append a0 (w ++ ['\n']) b'
    rw [← byteLen_append] at this
    rw [← this]; simp

/-- **C29**: an offset converts to a position, and that position converts back to the offset rounded down to a character
boundary of the text. -/
theorem c29_round_trip (t : Text) (offset : Nat) :
    ∃ line col r, offsetToLineCharacter t offset = some (line, col) ∧ lineCharacterToOffset t line col = some r ∧ IsRounded t offset r := by
  have hr := rounded_exists t offset
  obtain ⟨a, b, hab, hl⟩ := hr.1
  obtain ⟨a0, w, rfl, h0, hw⟩ := exists_complete a
  have hsame : offsetToLineCharacter t offset = offsetToLineCharacter t (byteLen (a0 ++ w)) := by
    unfold offsetToLineCharacter
    dsimp only
    have h2 : roundDown t (min (byteLen (a0 ++ w)) (byteLen t)) = byteLen (a0 ++ w) := by rw [hab]; exact roundDown_prefix _ _
    rw [h2, hl]
  rw [← hl] at hr
  have hat := offsetTo_at a0 w b h0 hw
  rw [← hab, ← hsame] at hat
  by_cases hc : w ≠ [] ∧ b = []
  · rw [if_pos hc] at hat
    refine ⟨_, _, byteLen (a0 ++ w), hat, ?_, hr⟩
    unfold lineCharacterToOffset
    dsimp only
    have hcw : w.count '\n' = 0 := List.count_eq_zero.mpr hw
    have := lineOffsets_length t
    have hct : t.count '\n' = a0.count '\n' := by rw [hab, hc.2]; simp [List.count_append, hcw]
    rw [if_pos (by omega), hab, hc.2]; simp
  · rw [if_neg hc] at hat
    refine ⟨_, _, byteLen (a0 ++ w), hat, ?_, hr⟩
    obtain ⟨w2, b', rfl, hw2, hb'⟩ := first_line b
    have := toOffset_line a0 (w ++ w2) b' (utf16Sum w) h0 (by simp [hw, hw2]) hb'
    have e : a0 ++ (w ++ w2) ++ b' = t := by rw [hab]; simp
    rw [e] at this
    rw [this, byteLen_append]
    obtain ⟨w1, w3, he, hs, hle, hmax⟩ := scan_spec (utf16Sum w) (w ++ w2) (by simp [hw, hw2]) 0 (Nat.zero_le _)
    have hw1 : w1 = w := by
      rcases List.append_eq_append_iff.mp he with ⟨x, h1, h2⟩ | ⟨x, h1, h2⟩
      · subst h1
        cases x with
        | nil => simp
        | cons d x => simp at hle; have := utf16Len_pos d; omega
      · cases x with
        | nil => simpa using h1.symm
        | cons d x =>
          have := hmax d _ h2
          subst h1
          simp at this
          omega
    rw [hs, hw1]

/-- **C29**: any position converts to a character boundary inside the text.  On an existing line it is the last boundary of
that line (newline excluded) whose column does not exceed the requested one; beyond the last line it is the end of the text. -/
theorem c29_position_to_offset (t : Text) (line col : Nat) :
    ∃ r, lineCharacterToOffset t line col = some r ∧
      if t.count '\n' < line then r = byteLen t
      else ∃ before w1 w2 after, t = before ++ w1 ++ w2 ++ after ∧ r = byteLen (before ++ w1) ∧
        (before = [] ∨ before.getLast? = some '\n') ∧ before.count '\n' = line ∧
        '\n' ∉ w1 ++ w2 ∧ (after = [] ∨ after.head? = some '\n') ∧
        units w1 ≤ col ∧ ∀ c w3, w2 = c :: w3 → col < units (w1 ++ [c]) := by
  simp only [← utf16Sum_eq_units]
  by_cases h : t.count '\n' < line
  · refine ⟨byteLen t, ?_, by rw [if_pos h]⟩
    unfold lineCharacterToOffset
    dsimp only
    have := lineOffsets_length t
    rw [if_pos (by omega)]
  · obtain ⟨a0, w, b, rfl, h0, hl, hw, hb⟩ := exists_line line t (by omega)
    have hto := toOffset_line a0 w b col h0 hw hb
    obtain ⟨w1, w2, rfl, hs, hle, hmax⟩ := scan_spec col w hw 0 (Nat.zero_le _)
    rw [hl] at hto
    refine ⟨_, hto, ?_⟩
    rw [if_neg h]
    refine ⟨a0, w1, w2, b, by simp, by rw [hs, byteLen_append], ?_, hl, hw, ?_, by omega, ?_⟩
    · rcases h0 with h0 | ⟨x, rfl⟩
      · exact Or.inl h0
      · right; simp
    · rcases hb with hb | ⟨b', rfl⟩
      · exact Or.inl hb
      · right; simp
    · intro c w3 h; have := hmax c w3 h; omega

/-- **C29** for the engine's copy: at a character boundary inside the text it reports the same position, elsewhere none; it
never panics. -/
theorem c29_engine_agrees (t : Text) (offset : Nat) :
    engineOffsetToLineCharacter t offset =
      some (if isCharBoundary t offset then offsetToLineCharacter t offset else none) := by
  unfold engineOffsetToLineCharacter
  rw [engineLineOffsets_eq, utf8_length]
  by_cases hb : isCharBoundary t offset = true
  · obtain ⟨a, b, hab, hl⟩ := isCharBoundary_iff.mp hb
    obtain ⟨a0, w, rfl, h0, hw⟩ := exists_complete a
    rw [if_neg (by rw [hab]; simp only [byteLen_append] at *; omega), if_pos hb]
    subst hab
    subst hl
    rw [offsetTo_at a0 w b h0 hw]
    obtain ⟨s1, s2, -⟩ := search_spec a0 w b h0 hw
    dsimp only at s1 s2 ⊢
    rw [byteLen_append]
    rw [byteLen_append] at hb
    have hascii : ∀ v : Text, v.all (fun c => c.toNat < 128) = true → byteLen v = utf16Sum v := by
      intro v
      induction v with
      | nil => simp
      | cons c v ih =>
        intro h
        simp only [List.all_cons, Bool.and_eq_true, decide_eq_true_eq] at h
        rw [byteLen_cons, utf16Sum_cons, ih h.2]
        have : utf16Len c = 1 := by unfold utf16Len; rw [if_pos (by omega)]
        rw [this]
        have : c.utf8Size = 1 := by
          unfold Char.utf8Size
          rw [if_pos]
          have := h.1
          rw [UInt32.le_iff_toNat_le]
          simp only [Char.toNat] at this
          show _ ≤ 127
          omega
        omega
    by_cases hc : w ≠ [] ∧ b = []
    · obtain ⟨h1, h2⟩ := s1 hc
      rw [h1]
      simp only [h2, if_pos hc]
      split
      · rw [if_pos (Nat.le_refl _)]; simp
      · rw [hb]
        simp only [Bool.not_true, Bool.false_eq_true, if_false]
        have := slice_append (a0 ++ w) [] b
        simp only [List.append_nil, byteLen_append, byteLen_nil, Nat.add_zero] at this
        rw [this]; rfl
    · obtain ⟨h1, h2⟩ := s2 hc
      rw [if_neg hc]
      rcases h1 with h1 | h1 <;> rw [h1] <;> simp only [Nat.add_sub_cancel, h2]
      all_goals
        split
        · rename_i hall
          rw [if_pos (by omega)]
          have : w.all (fun c => c.toNat < 128) = true := by
            simp only [List.all_append, Bool.and_eq_true] at hall
            exact hall.1.2
          rw [← hascii w this]
          simp
        · rw [hb, slice_append]
          simp
  · rw [if_neg hb]
    split
    · rfl
    · rename_i hle
      dsimp only
      split
      · rfl
      · split
        · rename_i hall
          exfalso
          apply hb
          have : ∀ (v : Text) (n : Nat), v.all (fun c => c.toNat < 128) = true → n ≤ byteLen v → isCharBoundary v n = true := by
            intro v
            induction v with
            | nil =>
              intro n _ h
              simp at h
              subst h; rfl
            | cons c v ih =>
              intro n hv hn
              simp only [List.all_cons, Bool.and_eq_true, decide_eq_true_eq] at hv
              have hsz : c.utf8Size = 1 := by
                unfold Char.utf8Size
                rw [if_pos]
                have := hv.1
                rw [UInt32.le_iff_toNat_le]
                simp only [Char.toNat] at this
                show _ ≤ 127
                omega
              cases n with
              | zero => rfl
              | succ n =>
                have := ih n hv.2 (by rw [byteLen_cons] at hn; omega)
                unfold isCharBoundary at this ⊢
                simp only [dropBytes, hsz]
                rw [if_pos (by omega)]
                simpa using this
          exact this t offset hall (by omega)
        · rw [if_pos (by simpa using hb)]

/-- **C30 is false at the end of a text that does not end in a newline**: there the reported line is one past the last line. -/
theorem c30_false_at_unterminated_end (t : Text) (h : t ≠ []) (hn : t.getLast? ≠ some '\n') :
    offsetToLineCharacter t (byteLen t) = some (t.count '\n' + 1, 0) := by
  obtain ⟨a0, w, rfl, h0, hw⟩ := exists_complete t
  have hwn : w ≠ [] := by
    rintro rfl
    rcases h0 with rfl | ⟨x, rfl⟩
    · exact h rfl
    · simp at hn
  have := offsetTo_at a0 w [] h0 hw
  rw [if_pos ⟨hwn, rfl⟩] at this
  simp only [List.append_nil] at this
  rw [this]
  have hcw : w.count '\n' = 0 := List.count_eq_zero.mpr hw
  simp [List.count_append, hcw]

/-- **C30**, the part that holds: everywhere except there, the reported line is the number of newlines before the offset, and
the column is the number of UTF-16 units since the last of them. -/
theorem c30_line_partial (a b : Text) (h : b ≠ [] ∨ a = [] ∨ a.getLast? = some '\n') :
    ∃ col, offsetToLineCharacter (a ++ b) (byteLen a) = some (a.count '\n', col) ∧
      ∀ a0 w, a = a0 ++ w → '\n' ∉ w → (a0 = [] ∨ a0.getLast? = some '\n') → col = units w := by
  simp only [← utf16Sum_eq_units]
  obtain ⟨a0, w, rfl, h0, hw⟩ := exists_complete a
  have hc : ¬(w ≠ [] ∧ b = []) := by
    rintro ⟨hwn, rfl⟩
    rcases h with h | h | h
    · exact h rfl
    · exact hwn (List.append_eq_nil_iff.mp h).2
    · apply hwn
      apply complete_prefix (a0 := a0) _ hw
      right
      obtain ⟨x, hx⟩ := List.getLast?_eq_some_iff.mp h
      exact ⟨x, hx⟩
  have := offsetTo_at a0 w b h0 hw
  rw [if_neg hc] at this
  have hcw : w.count '\n' = 0 := List.count_eq_zero.mpr hw
  refine ⟨utf16Sum w, by rw [this]; simp [List.count_append, hcw], ?_⟩
  intro a1 w1 he hw1 h1
  have hl : ∀ x y u v : Text, x ++ u = y ++ v → '\n' ∉ u → (y = [] ∨ y.getLast? = some '\n') → Complete x → '\n' ∉ v → utf16Sum u = utf16Sum v := by
    intro x y u v he hu hy hx hv
    rcases List.append_eq_append_iff.mp he with ⟨z, h1, h2⟩ | ⟨z, h1, h2⟩
    · have : z = [] := by
        apply complete_prefix (a0 := x)
        · rw [← h1]
          rcases hy with hy | hy
          · exact Or.inl hy
          · exact Or.inr (List.getLast?_eq_some_iff.mp hy)
        · rw [h2] at hu; simp only [List.mem_append, not_or] at hu; exact hu.1
      subst this; rw [h2]; simp
    · have : z = [] := by
        apply complete_prefix (a0 := y)
        · rw [← h1]; exact hx
        · rw [h2] at hv; simp only [List.mem_append, not_or] at hv; exact hv.1
      subst this; rw [h2]; simp
  exact hl a0 a1 w w1 he hw h1 h0 hw1

/-! Concrete cases: `"a😀\nb"` -/
example : offsetToLineCharacter ['a', '😀', '\n', 'b'] 5 = some (0, 3) := by decide
example : offsetToLineCharacter ['a', '😀', '\n', 'b'] 3 = some (0, 1) := by decide
example : lineCharacterToOffset ['a', '😀', '\n', 'b'] 0 2 = some 1 := by decide
example : lineCharacterToOffset ['a', '😀', '\n', 'b'] 0 99 = some 5 := by decide
example : offsetToLineCharacter ['a', 'b', 'c'] 3 = some (1, 0) := by decide
example : engineOffsetToLineCharacter ['a', 'b', 'c'] 3 = some (some (1, 0)) := by decide
example : engineOffsetToLineCharacter ['a', '😀', '\n', 'b'] 3 = some none := by decide

end Verif.Positions
