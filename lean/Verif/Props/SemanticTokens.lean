import Verif.Spec.SemanticTokens
/-!
C51: clients see semantic tokens where they are, exactly if the tokens are reported in the order of the text.
-/
namespace Verif.SemanticTokens
open Verif.Positions

/-! ### positions -/

theorem units_append (a b : Text) : units (a ++ b) = units a + units b := by
  simp only [← utf16Sum_eq_units, utf16Sum_append]

theorem units_pos {a : Text} (h : a ≠ []) : 0 < units a := by
  cases a with
  | nil => exact absurd rfl h
  | cons c t => simp only [units]; split <;> omega

theorem prefix_total {a b a' b' : Text} (h : a ++ b = a' ++ b') (hl : byteLen a ≤ byteLen a') : ∃ m, a' = a ++ m ∧ b = m ++ b' := by
  rcases List.append_eq_append_iff.mp h with ⟨m, h1, h2⟩ | ⟨m, h1, h2⟩
  · exact ⟨m, h1, h2⟩
  · subst h1
    have : byteLen m = 0 := by simp only [byteLen_append] at hl; omega
    rw [byteLen_eq_zero] at this
    subst this
    exact ⟨[], by simp, by simpa using h2.symm⟩

theorem prefix_unique {a b a' b' : Text} (h : a ++ b = a' ++ b') (hl : byteLen a = byteLen a') : a = a' ∧ b = b' := by
  obtain ⟨m, rfl, rfl⟩ := prefix_total h (Nat.le_of_eq hl)
  have : byteLen m = 0 := by simp only [byteLen_append] at hl; omega
  rw [byteLen_eq_zero] at this
  subst this
  simp

theorem column_exists (a : Text) : ∃ c, Column a c := by
  obtain ⟨a0, w, h, h0, hw⟩ := exists_complete a
  refine ⟨_, a0, w, h, ?_, hw, rfl⟩
  rcases h0 with rfl | ⟨x, rfl⟩
  · exact .inl rfl
  · exact .inr (by simp)

theorem column_unique {a : Text} {c c' : Nat} (h : Column a c) (h' : Column a c') : c = c' := by
  obtain ⟨a0, l, e, h0, hn, rfl⟩ := h
  obtain ⟨a0', l', e', h0', hn', rfl⟩ := h'
  rw [e] at e'
  have key : ∀ {a0 l a0' l' : Text}, a0 ++ l = a0' ++ l' → (a0' = [] ∨ a0'.getLast? = some '\n') → '\n' ∉ l → ∀ m, a0' = a0 ++ m → m = [] := by
    intro a0 l a0' l' e h0' hn m hm
    subst hm
    rw [List.append_assoc] at e
    have e' := List.append_cancel_left e
    subst e'
    cases hm : m.getLast? with
    | none => exact List.getLast?_eq_none_iff.mp hm
    | some x =>
      exfalso
      have hx := List.mem_of_getLast? hm
      rcases h0' with h | h
      · rw [List.append_eq_nil_iff] at h
        rw [h.2] at hx
        cases hx
      · rw [List.getLast?_append, hm] at h
        simp only [Option.some_or, Option.some.injEq] at h
        subst h
        exact hn (List.mem_append_left _ hx)
  rcases List.append_eq_append_iff.mp e' with ⟨m, h1, h2⟩ | ⟨m, h1, h2⟩
  · have := key e' h0' hn m h1
    subst this
    simp only [List.nil_append] at h2
    rw [h2]
  · have := key e'.symm h0 hn' m h1
    subst this
    simp only [List.nil_append] at h2
    rw [h2]

theorem column_append {a m : Text} {c : Nat} (h : Column a c) (hm : '\n' ∉ m) : Column (a ++ m) (c + units m) := by
  obtain ⟨a0, l, rfl, h0, hn, rfl⟩ := h
  refine ⟨a0, l ++ m, by simp, h0, ?_, (units_append l m).symm⟩
  intro h
  rcases List.mem_append.mp h with h | h
  · exact hn h
  · exact hm h

/-- The position of a prefix. -/
theorem pos_at {a b : Text} (h : b ≠ [] ∨ a = [] ∨ a.getLast? = some '\n') :
    ∃ c, offsetToLineCharacter (a ++ b) (byteLen a) = some (a.count '\n', c) ∧ Column a c := by
  obtain ⟨col, h1, h2⟩ := c30_line_partial a b h
  obtain ⟨a0, w, e, h0, hw⟩ := exists_complete a
  refine ⟨col, h1, a0, w, e, ?_, hw, h2 a0 w e hw ?_⟩ <;>
  · rcases h0 with rfl | ⟨x, rfl⟩
    · exact .inl rfl
    · exact .inr (by simp)

/-! ### the tables -/

theorem typeIndex_legend (k : Kind) : tokenTypes[typeIndex k]? = some k := by cases k <;> decide

theorem modifierIndex_iff (m : Modifier) (i : Nat) : modifierIndex m = some i ↔ tokenModifiers[i]? = some m := by
  constructor
  · intro h
    cases m <;> (cases (show some _ = some i from h); rfl)
  · intro h
    have hi : i < 10 := by
      have := (List.getElem?_eq_some_iff.mp h).1
      simpa [tokenModifiers] using this
    revert h
    revert m
    match i, hi with
    | 0, _ | 1, _ | 2, _ | 3, _ | 4, _ | 5, _ | 6, _ | 7, _ | 8, _ | 9, _ => intro m; cases m <;> decide

theorem foldl_bits (l : List Nat) : ∀ (b i : Nat), (l.foldl (fun b i => b ||| 2 ^ i) b).testBit i = true ↔ b.testBit i = true ∨ i ∈ l := by
  induction l with
  | nil => simp
  | cons a l ih =>
    intro b i
    rw [List.foldl_cons, ih, Nat.testBit_or, Nat.testBit_two_pow]
    simp only [Bool.or_eq_true, decide_eq_true_eq, List.mem_cons]
    constructor
    · rintro ((h | rfl) | h)
      · exact .inl h
      · exact .inr (.inl rfl)
      · exact .inr (.inr h)
    · rintro (h | rfl | h)
      · exact .inl (.inl h)
      · exact .inl (.inr rfl)
      · exact .inr h

theorem bitset_bit (ms : List Modifier) (i : Nat) : (bitset ms).testBit i = true ↔ ∃ m ∈ ms, tokenModifiers[i]? = some m := by
  unfold bitset
  rw [foldl_bits]
  simp only [Nat.zero_testBit, Bool.false_eq_true, false_or, List.mem_filterMap]
  constructor
  · rintro ⟨m, h1, h2⟩; exact ⟨m, h1, (modifierIndex_iff m i).mp h2⟩
  · rintro ⟨m, h1, h2⟩; exact ⟨m, h1, (modifierIndex_iff m i).mpr h2⟩

/-! ### one token -/

/-- `cur` is the position of the prefix `p`. -/
structure At (content p : Text) (cur : Nat × Nat) : Prop where
  split : ∃ rest, content = p ++ rest
  line : cur.1 = p.count '\n'
  col : Column p cur.2

theorem at_start (content : Text) : At content [] (0, 0) := ⟨⟨content, rfl⟩, rfl, [], [], rfl, .inl rfl, by simp, rfl⟩

theorem sub_le {wrap : Bool} {a b : Nat} (h : b ≤ a) : sub wrap a b = some (a - b) := if_pos h

/-- The length of a token is that of its text. -/
theorem length_ok {wrap : Bool} {a w b : Text} {t : Tok} {s : Nat × Nat} (hs : t.start = byteLen a) (he : t.stop = byteLen (a ++ w))
    (hn : w ++ b ≠ []) (hl : s.1 = a.count '\n') (hc : Column a s.2) :
    ∃ e, offsetToLineCharacter (a ++ w ++ b) t.stop = some e ∧ tokLength wrap (a ++ w ++ b) t s e = some (units w) := by
  have hsl : (slice (a ++ w ++ b) t.start t.stop).map utf16Sum = some (units w) := by
    rw [hs, he, byteLen_append, slice_append, Option.map_some, utf16Sum_eq_units]
  by_cases h : b ≠ [] ∨ a ++ w = [] ∨ (a ++ w).getLast? = some '\n'
  · obtain ⟨c, h1, h2⟩ := pos_at h
    refine ⟨_, by rw [he]; exact h1, ?_⟩
    unfold tokLength
    split
    · rename_i hh
      simp only [hl, List.count_append] at hh
      have hw : '\n' ∉ w := by
        intro hw
        have := List.count_pos_iff.mpr hw
        omega
      have := column_unique h2 (column_append hc hw)
      subst this
      simp only
      rw [sub_le (by omega)]
      congr 1
      omega
    · exact hsl
  · simp only [not_or, ne_eq, Classical.not_not] at h
    obtain ⟨rfl, h1, h2⟩ := h
    have := c30_false_at_unterminated_end (a ++ w) h1 h2
    refine ⟨_, by rw [he, List.append_nil]; exact this, ?_⟩
    unfold tokLength
    rw [if_neg (by simp only [hl, List.count_append]; omega)]
    exact hsl

/-- What is sent for a token. -/
def dataOf (t : Tok) (w : Text) (dl dc : Nat) : Data := ⟨dl, dc, units w, typeIndex t.kind, bitset t.mods⟩

theorem step_eq {wrap : Bool} {a w b : Text} {t : Tok} {cur : Nat × Nat} (hs : t.start = byteLen a)
    (he : t.stop = byteLen (a ++ w)) (hn : w ++ b ≠ []) :
    ∃ s, At (a ++ w ++ b) a s ∧ addToken wrap (a ++ w ++ b) cur t =
      (sub wrap s.1 cur.1).bind fun dl => (deltaColumn wrap dl s.2 cur.2).map fun dc => (dataOf t w dl dc, s) := by
  have hp : offsetToLineCharacter (a ++ w ++ b) (byteLen a) = offsetToLineCharacter (a ++ (w ++ b)) (byteLen a) := by rw [List.append_assoc]
  obtain ⟨c, h1, h2⟩ := pos_at (a := a) (b := w ++ b) (.inl hn)
  refine ⟨(a.count '\n', c), ⟨⟨w ++ b, by simp⟩, rfl, h2⟩, ?_⟩
  obtain ⟨e, h3, h4⟩ := length_ok (wrap := wrap) (s := (a.count '\n', c)) hs he hn rfl h2
  unfold addToken
  rw [hs, hp, h1]
  simp only [Option.bind_some]
  rw [h3]
  simp only [Option.bind_some, h4, Option.map_some]
  congr 1
  funext dl
  cases deltaColumn wrap dl c cur.2 <;> rfl

/-- A token at or after the one before. -/
theorem step_ok {wrap : Bool} {a w b p : Text} {t : Tok} {cur : Nat × Nat} (hp : At (a ++ w ++ b) p cur) (hs : t.start = byteLen a)
    (he : t.stop = byteLen (a ++ w)) (hn : w ++ b ≠ []) (hle : byteLen p ≤ t.start) :
    ∃ dl dc s, addToken wrap (a ++ w ++ b) cur t = some (dataOf t w dl dc, s) ∧ At (a ++ w ++ b) a s ∧ cur.1 + dl = s.1 ∧
      (if dl = 0 then cur.2 + dc else dc) = s.2 := by
  obtain ⟨s, h1, h2⟩ := step_eq (wrap := wrap) (cur := cur) hs he hn
  obtain ⟨rest, hr⟩ := hp.split
  obtain ⟨m, hm, -⟩ := prefix_total (a := p) (b := rest) (a' := a) (b' := w ++ b) (by rw [← hr, List.append_assoc]) (by omega)
  have hl : cur.1 ≤ s.1 := by rw [hp.line, h1.line, hm, List.count_append]; omega
  by_cases hnl : '\n' ∈ m
  · have hlt : cur.1 < s.1 := by
      rw [hp.line, h1.line, hm, List.count_append]
      have := List.count_pos_iff.mpr hnl
      omega
    refine ⟨s.1 - cur.1, s.2, s, ?_, h1, by omega, by rw [if_neg (by omega)]⟩
    rw [h2, sub_le hl, Option.bind_some, deltaColumn, if_neg (by omega), Option.map_some]
  · have hlt : cur.1 = s.1 := by
      rw [hp.line, h1.line, hm, List.count_append, List.count_eq_zero.mpr hnl]
      rfl
    have hc : s.2 = cur.2 + units m := column_unique (by rw [hm] at h1; exact h1.col) (column_append hp.col hnl)
    refine ⟨0, s.2 - cur.2, s, ?_, h1, by omega, by rw [if_pos rfl]; omega⟩
    rw [h2, sub_le hl, Option.bind_some, deltaColumn, if_pos (by omega), sub_le (by omega), Option.map_some]
    have : s.1 - cur.1 = 0 := by omega
    rw [this]

/-- A token before the one before it. -/
theorem step_bad {a w b p : Text} {t : Tok} {cur : Nat × Nat} (hp : At (a ++ w ++ b) p cur) (hs : t.start = byteLen a)
    (he : t.stop = byteLen (a ++ w)) (hn : w ++ b ≠ []) (hlt : t.start < byteLen p) :
    addToken false (a ++ w ++ b) cur t = none ∧
    ∃ dl dc s, addToken true (a ++ w ++ b) cur t = some (dataOf t w dl dc, s) ∧ At (a ++ w ++ b) a s ∧
      ¬ (cur.1 + dl = s.1 ∧ (if dl = 0 then cur.2 + dc else dc) = s.2) := by
  obtain ⟨s, h1, h2⟩ := step_eq (wrap := true) (cur := cur) hs he hn
  obtain ⟨s', h1', h2'⟩ := step_eq (wrap := false) (cur := cur) hs he hn
  have es : s' = s := Prod.ext (by rw [h1.line, h1'.line]) (column_unique h1'.col h1.col)
  subst es
  obtain ⟨rest, hr⟩ := hp.split
  obtain ⟨m, hm, -⟩ := prefix_total (a := a) (b := w ++ b) (a' := p) (b' := rest) (by rw [← hr, List.append_assoc]) (by omega)
  by_cases hnl : '\n' ∈ m
  · have hll : s'.1 < cur.1 := by
      rw [hp.line, h1.line, hm, List.count_append]
      have := List.count_pos_iff.mpr hnl
      omega
    refine ⟨?_, ?_⟩
    · rw [h2', sub, if_neg (by omega)]
      rfl
    · have hsub : sub true s'.1 cur.1 = some (2 ^ 32 + s'.1 - cur.1) := by simp [sub, Nat.not_le.mpr hll]
      cases hd : deltaColumn true (2 ^ 32 + s'.1 - cur.1) s'.2 cur.2 with
      | none =>
        exfalso
        unfold deltaColumn at hd
        split at hd
        · unfold sub at hd
          split at hd <;> simp at hd
        · cases hd
      | some dc =>
        refine ⟨2 ^ 32 + s'.1 - cur.1, dc, s', ?_, h1, ?_⟩
        · rw [h2, hsub, Option.bind_some, hd, Option.map_some]
        · intro h
          have := h.1
          omega
  · have hll : cur.1 = s'.1 := by
      rw [hp.line, h1.line, hm, List.count_append, List.count_eq_zero.mpr hnl]
      rfl
    have hm0 : m ≠ [] := by
      rintro rfl
      rw [hm, List.append_nil] at hlt
      omega
    have hc : cur.2 = s'.2 + units m := column_unique (by rw [hm] at hp; exact hp.col) (column_append h1.col hnl)
    have hpos := units_pos hm0
    have e0 : s'.1 - cur.1 = 0 := by omega
    refine ⟨?_, 0, 2 ^ 32 + s'.2 - cur.2, s', ?_, h1, ?_⟩
    · rw [h2', sub_le (by omega), Option.bind_some, deltaColumn, if_pos e0, sub, if_neg (by omega)]
      rfl
    · rw [h2, sub_le (by omega), Option.bind_some, deltaColumn, if_pos e0, sub, if_neg (by omega), e0]
      rfl
    · intro h
      have := h.2
      rw [if_pos rfl] at this
      omega

/-! ### all tokens -/

theorem shows_of {a w b : Text} {t : Tok} {s : Nat × Nat} {dl dc : Nat} (hs : t.start = byteLen a) (he : t.stop = byteLen (a ++ w))
    (h : At (a ++ w ++ b) a s) : Shows (a ++ w ++ b) t ⟨s.1, s.2, (dataOf t w dl dc).length, (dataOf t w dl dc).kind, (dataOf t w dl dc).mods⟩ :=
  ⟨a, w, b, rfl, hs, he, h.line, h.col, rfl, typeIndex_legend _, bitset_bit _⟩

theorem encodeFrom_ok (wrap : Bool) (content : Text) : ∀ (l : List Tok) (p : Text) (cur : Nat × Nat), At content p cur →
    (∀ t ∈ l, Placed content (t.start, t.stop)) → (∀ t ∈ l, byteLen p ≤ t.start) → Ascending l →
    ∃ ds, encodeFrom wrap content cur l = some ds ∧ ShowsAll content l (decodeFrom cur ds)
  | [], _, _, _, _, _, _ => ⟨[], rfl, .nil⟩
  | t :: l, p, cur, hp, hpl, hle, has => by
    obtain ⟨a, w, b, rfl, hs, he, hn⟩ := hpl t (by simp)
    obtain ⟨dl, dc, s, h1, h2, h3, h4⟩ := step_ok (wrap := wrap) hp hs he hn (hle t (by simp))
    unfold Ascending at has
    rw [List.pairwise_cons] at has
    obtain ⟨ds, h5, h6⟩ := encodeFrom_ok wrap _ l a s h2 (fun x hx => hpl x (by simp [hx]))
      (fun x hx => by have := has.1 x hx; simp only at hs; omega) has.2
    refine ⟨dataOf t w dl dc :: ds, by simp only [encodeFrom, h1, h5, Option.bind_some, Option.map_some], ?_⟩
    obtain ⟨c1, c2⟩ := cur
    simp only [decodeFrom]
    have e3 : c1 + (dataOf t w dl dc).deltaLine = s.1 := h3
    have e4 : (if (dataOf t w dl dc).deltaLine = 0 then c2 + (dataOf t w dl dc).deltaStart else (dataOf t w dl dc).deltaStart) = s.2 := h4
    rw [e3, e4]
    exact .cons (shows_of hs he h2) h6

/-- **C51**: tokens in the order of the text are sent without a panic, and the client sees each of them: its line and column, its length,
its kind and its modifiers. -/
theorem c51_client_sees_tokens (wrap : Bool) {content : Text} {l : List Tok} (hpl : ∀ t ∈ l, Placed content (t.start, t.stop))
    (h : Ascending l) : ∃ ds, encode wrap content l = some ds ∧ ShowsAll content l (decode ds) :=
  encodeFrom_ok wrap content l [] (0, 0) (at_start content) hpl (fun _ _ => Nat.zero_le _) h

theorem encodeFrom_checked (content : Text) : ∀ (l : List Tok) (p : Text) (cur : Nat × Nat), At content p cur →
    (∀ t ∈ l, Placed content (t.start, t.stop)) → ∀ ds, encodeFrom false content cur l = some ds →
    (∀ t ∈ l, byteLen p ≤ t.start) ∧ Ascending l
  | [], _, _, _, _, _, _ => ⟨by simp, List.Pairwise.nil⟩
  | t :: l, p, cur, hp, hpl, ds, hd => by
    obtain ⟨a, w, b, rfl, hs, he, hn⟩ := hpl t (by simp)
    by_cases hle : byteLen p ≤ t.start
    · obtain ⟨dl, dc, s, h1, h2, -, -⟩ := step_ok (wrap := false) hp hs he hn hle
      simp only [encodeFrom, h1, Option.bind_some] at hd
      obtain ⟨ds', h5, -⟩ := Option.map_eq_some_iff.mp hd
      obtain ⟨g1, g2⟩ := encodeFrom_checked _ l a s h2 (fun x hx => hpl x (by simp [hx])) ds' h5
      simp only at hs
      refine ⟨?_, ?_⟩
      · intro x hx
        rcases List.mem_cons.mp hx with rfl | hx
        · exact hle
        · have := g1 x hx; omega
      · unfold Ascending
        rw [List.pairwise_cons]
        exact ⟨fun x hx => by have := g1 x hx; omega, g2⟩
    · have h1 := (step_bad hp hs he hn (by omega)).1
      simp only [encodeFrom, h1, Option.bind_none] at hd
      cases hd

/-- **C51**: in a build with overflow checks the request panics exactly if the tokens are out of order. -/
theorem c51_panics_iff_out_of_order {content : Text} {l : List Tok} (hpl : ∀ t ∈ l, Placed content (t.start, t.stop)) :
    encode false content l = none ↔ ¬ Ascending l := by
  constructor
  · intro h ha
    obtain ⟨ds, h1, -⟩ := c51_client_sees_tokens false hpl ha
    rw [h] at h1
    cases h1
  · intro h
    cases hd : encode false content l with
    | none => rfl
    | some ds => exact absurd (encodeFrom_checked content l [] (0, 0) (at_start content) hpl ds hd).2 h

theorem encodeFrom_wrapped (content : Text) : ∀ (l : List Tok) (p : Text) (cur : Nat × Nat), At content p cur →
    (∀ t ∈ l, Placed content (t.start, t.stop)) →
    ∃ ds, encodeFrom true content cur l = some ds ∧ (ShowsAll content l (decodeFrom cur ds) → (∀ t ∈ l, byteLen p ≤ t.start) ∧ Ascending l)
  | [], _, _, _, _ => ⟨[], rfl, fun _ => ⟨by simp, List.Pairwise.nil⟩⟩
  | t :: l, p, cur, hp, hpl => by
    obtain ⟨a, w, b, rfl, hs, he, hn⟩ := hpl t (by simp)
    obtain ⟨c1, c2⟩ := cur
    by_cases hle : byteLen p ≤ t.start
    · obtain ⟨dl, dc, s, h1, h2, h3, h4⟩ := step_ok (wrap := true) hp hs he hn hle
      obtain ⟨ds, h5, h6⟩ := encodeFrom_wrapped _ l a s h2 (fun x hx => hpl x (by simp [hx]))
      refine ⟨dataOf t w dl dc :: ds, by simp only [encodeFrom, h1, h5, Option.bind_some, Option.map_some], ?_⟩
      intro h
      simp only [decodeFrom] at h
      have e3 : c1 + (dataOf t w dl dc).deltaLine = s.1 := h3
      have e4 : (if (dataOf t w dl dc).deltaLine = 0 then c2 + (dataOf t w dl dc).deltaStart else (dataOf t w dl dc).deltaStart) = s.2 := h4
      rw [e3, e4] at h
      cases h with
      | cons hh ht =>
        obtain ⟨g1, g2⟩ := h6 ht
        simp only at hs
        refine ⟨?_, ?_⟩
        · intro x hx
          rcases List.mem_cons.mp hx with rfl | hx
          · exact hle
          · have := g1 x hx; omega
        · unfold Ascending
          rw [List.pairwise_cons]
          exact ⟨fun x hx => by have := g1 x hx; omega, g2⟩
    · obtain ⟨dl, dc, s, h1, h2, h3⟩ := (step_bad hp hs he hn (by omega)).2
      obtain ⟨ds, h5, -⟩ := encodeFrom_wrapped _ l a s h2 (fun x hx => hpl x (by simp [hx]))
      refine ⟨dataOf t w dl dc :: ds, by simp only [encodeFrom, h1, h5, Option.bind_some, Option.map_some], ?_⟩
      intro h
      simp only [decodeFrom] at h
      cases h with
      | cons hh ht =>
        exfalso
        obtain ⟨a', w', b', e, hs', -, hl', hc', -⟩ := hh
        have := (prefix_unique (a := a) (b := w ++ b) (a' := a') (b' := w' ++ b') (by rw [← List.append_assoc, e, List.append_assoc])
          (by simp only at hs; omega)).1
        subst this
        refine h3 ⟨?_, ?_⟩
        · rw [h2.line]; exact hl'
        · exact column_unique hc' h2.col

/-- **C51**: in a release build there is always an answer, and it shows the tokens exactly if they are in order. -/
theorem c51_release_right_iff_in_order {content : Text} {l : List Tok} (hpl : ∀ t ∈ l, Placed content (t.start, t.stop)) :
    ∃ ds, encode true content l = some ds ∧ (ShowsAll content l (decode ds) ↔ Ascending l) := by
  obtain ⟨ds, h1, h2⟩ := encodeFrom_wrapped content l [] (0, 0) (at_start content) hpl
  refine ⟨ds, h1, fun h => (h2 h).2, ?_⟩
  intro h
  obtain ⟨ds', h3, h4⟩ := c51_client_sees_tokens true hpl h
  have : ds = ds' := by
    have e : encode true content l = some ds := h1
    rw [h3] at e
    exact (Option.some.inj e).symm
  subst this
  exact h4

/-! ### the tree -/

theorem both_some {a b : Option (List Tok)} {x y : List Tok} (ha : a = some x) (hb : b = some y) : both a b = some (x ++ y) := by
  rw [ha, hb]; rfl

theorem both_eq {a b : Option (List Tok)} {l : List Tok} (h : both a b = some l) : ∃ x y, a = some x ∧ b = some y ∧ l = x ++ y := by
  cases a with
  | none => cases h
  | some x =>
    cases b with
    | none => cases h
    | some y => cases h; exact ⟨x, y, rfl, rfl, rfl⟩

/-- Tokens in order between two offsets. -/
structure Between (content : Text) (lo hi : Nat) (l : List Tok) : Prop where
  le : lo ≤ hi
  low : ∀ t ∈ l, lo ≤ t.start
  high : ∀ t ∈ l, t.start ≤ hi
  asc : Ascending l
  placed : ∀ t ∈ l, Placed content (t.start, t.stop)

variable {content : Text} {special : Text → Bool}

theorem between_nil {lo hi : Nat} (h : lo ≤ hi) : Between content lo hi [] := ⟨h, by simp, by simp, List.Pairwise.nil, by simp⟩

theorem between_append {lo mid hi : Nat} {a b : List Tok} (ha : Between content lo mid a) (hb : Between content mid hi b) :
    Between content lo hi (a ++ b) := by
  have h1 := ha.le
  have h2 := hb.le
  refine ⟨by omega, ?_, ?_, ?_, ?_⟩
  · intro t ht
    rcases List.mem_append.mp ht with ht | ht
    · exact ha.low t ht
    · have := hb.low t ht; omega
  · intro t ht
    rcases List.mem_append.mp ht with ht | ht
    · have := ha.high t ht; omega
    · exact hb.high t ht
  · unfold Ascending
    rw [List.pairwise_append]
    exact ⟨ha.asc, hb.asc, fun x hx y hy => Nat.le_trans (ha.high x hx) (hb.low y hy)⟩
  · intro t ht
    rcases List.mem_append.mp ht with ht | ht
    · exact ha.placed t ht
    · exact hb.placed t ht

theorem between_one {lo hi : Nat} {r : Range} {k : Kind} {ms : List Modifier} (h1 : lo ≤ r.1) (h2 : r.1 ≤ r.2) (h3 : r.2 ≤ hi) (hp : Placed content r) :
    Between content lo hi [⟨r.1, r.2, k, ms⟩] := by
  refine ⟨by omega, ?_, ?_, List.pairwise_singleton _ _, ?_⟩
  · intro t ht; rw [List.mem_singleton.mp ht]; exact h1
  · intro t ht; rw [List.mem_singleton.mp ht]; simp only; omega
  · intro t ht; rw [List.mem_singleton.mp ht]; exact hp

theorem slice_placed {r : Range} {a w b : Text} (h : content = a ++ w ++ b) (h1 : r.1 = byteLen a) (h2 : r.2 = byteLen (a ++ w)) :
    slice content r.1 r.2 = some w := by
  rw [h, h1, h2, byteLen_append, slice_append]

theorem message_between {lo hi : Nat} {m : Range} (h1 : lo ≤ m.1) (h2 : m.1 ≤ m.2) (h3 : m.2 ≤ hi) (hp : Placed content m) :
    ∃ l, messageTok special content m = some l ∧ Between content lo hi l := by
  obtain ⟨a, w, b, e, e1, e2, -⟩ := id hp
  unfold messageTok
  rw [slice_placed e e1 e2, Option.map_some]
  split
  · exact ⟨[], rfl, between_nil (by omega)⟩
  · split
    · exact ⟨_, rfl, between_one h1 h2 h3 hp⟩
    · exact ⟨_, rfl, between_one h1 h2 h3 hp⟩

theorem message_brackets {m : Range} (h : Brackets content m) : messageTok special content m = some [] := by
  obtain ⟨a, w, b, e, e1, e2⟩ := h
  unfold messageTok
  rw [slice_placed e e1 e2, Option.map_some, if_pos ⟨by simp, .inl (List.getLast?_eq_some_iff.mpr ⟨'[' :: w, rfl⟩)⟩]

mutual
theorem visit_written : ∀ (n : Node) (lo hi : Nat), Inside content n → Written content lo hi n →
    ∃ l, visit special content n = some l ∧ Between content lo hi l
  | .readVar r, lo, hi, hi', h => by
    cases hi' with
    | readVar hp => cases h with
      | readVar h1 h2 h3 => exact ⟨_, rfl, between_one h1 h2 h3 hp⟩
  | .target r, lo, hi, hi', h => by
    cases hi' with
    | target hp => cases h with
      | target h1 h2 h3 => exact ⟨_, rfl, between_one h1 h2 h3 hp⟩
  | .constRead r, lo, hi, hi', h => by
    cases hi' with
    | constRead hp => cases h with
      | constRead h1 h2 h3 => exact ⟨_, rfl, between_one h1 h2 h3 hp⟩
  | .writeVar r v, lo, hi, hi', h => by
    cases hi' with
    | writeVar hp hv => cases h with
      | writeVar h1 h2 h3 =>
        obtain ⟨l, e, g⟩ := visit_written v _ _ hv h3
        exact ⟨_, both_some rfl e, between_append (between_one h1 h2 (Nat.le_refl _) hp) g⟩
  | .constPath p r, lo, hi, hi', h => by
    cases hi' with
    | constPath hv hp => cases h with
      | constPath h0 h1 h2 h3 =>
        obtain ⟨l, e, g⟩ := visitOpt_written p _ _ hv h0
        exact ⟨_, both_some e rfl, between_append g (between_one h1 h2 h3 hp)⟩
  | .call r m a b, lo, hi, hi', h => by
    cases hi' with
    | call hr hm ha hb => cases h with
      | call h1 h2 h3 =>
        obtain ⟨l1, e1, g1⟩ := visitOpt_written r _ _ hr h1
        obtain ⟨l2, e2, g2⟩ := visitAll_written a _ _ ha h2
        obtain ⟨l3, e3, g3⟩ := visitOpt_written b _ _ hb h3
        exact ⟨_, both_some e1 (both_some e2 e3), between_append g1 (between_append g2 g3)⟩
      | callNamed h1 k1 k2 h2 h3 =>
        obtain ⟨l1, e1, g1⟩ := visitOpt_written r _ _ hr h1
        obtain ⟨l2, e2, g2⟩ := visitAll_written a _ _ ha h2
        obtain ⟨l3, e3, g3⟩ := visitOpt_written b _ _ hb h3
        obtain ⟨l0, e0, g0⟩ := message_between (special := special) k1 k2 (Nat.le_refl _) (hm _ rfl)
        exact ⟨_, both_some e1 (both_some e0 (both_some e2 e3)), between_append g1 (between_append g0 (between_append g2 g3))⟩
      | index hx h1 k1 h2 h3 =>
        obtain ⟨l1, e1, g1⟩ := visitOpt_written r _ _ hr h1
        obtain ⟨l2, e2, g2⟩ := visitAll_written a _ _ ha h2
        obtain ⟨l3, e3, g3⟩ := visitOpt_written b _ _ hb h3
        exact ⟨_, both_some e1 (both_some (message_brackets hx) (both_some e2 e3)),
          between_append g1 (between_append (between_nil k1) (between_append g2 g3))⟩
  | .branch ps ss p s e, lo, hi, hi', h => by
    cases hi' with
    | branch hp hs he => cases h with
      | before h1 h2 h3 k1 k2 =>
        obtain ⟨l1, e1, g1⟩ := visit_written p _ _ hp h1
        obtain ⟨l2, e2, g2⟩ := visitAll_written s _ _ hs h2
        obtain ⟨l3, e3, g3⟩ := visitOpt_written e _ _ he h3
        refine ⟨_, ?_, between_append g1 (between_append g2 g3)⟩
        have : isModifier ps ss = false := by
          cases ss with
          | none => rfl
          | some x => have := k2 x rfl; simp [isModifier]; omega
        simp only [visit, this]
        exact both_some e1 (both_some e2 e3)
      | after h1 h2 h3 k1 k2 =>
        obtain ⟨l1, e1, g1⟩ := visitAll_written s _ _ hs h1
        obtain ⟨l2, e2, g2⟩ := visit_written p _ _ hp h2
        obtain ⟨l3, e3, g3⟩ := visitOpt_written e _ _ he h3
        refine ⟨_, ?_, between_append g1 (between_append g2 g3)⟩
        have : ∀ x, x < ps → isModifier ps (some x) = true := fun x h => by simp [isModifier]; omega
        simp only [visit, this _ (Nat.lt_of_lt_of_le k1 k2)]
        exact both_some e1 (both_some e2 e3)
  | .other l, lo, hi, hi', h => by
    cases hi' with
    | other hl => cases h with
      | other h => exact visitAll_written l _ _ hl h
theorem visitOpt_written : ∀ (n : Option Node) (lo hi : Nat), InsideOpt content n → WrittenOpt content lo hi n →
    ∃ l, visitOpt special content n = some l ∧ Between content lo hi l
  | none, lo, hi, _, h => by
    cases h with
    | none h => exact ⟨[], rfl, between_nil h⟩
  | some n, lo, hi, hi', h => by
    cases hi' with
    | some hn => cases h with
      | some h => exact visit_written n _ _ hn h
theorem visitAll_written : ∀ (l : List Node) (lo hi : Nat), InsideAll content l → WrittenAll content lo hi l →
    ∃ ts, visitAll special content l = some ts ∧ Between content lo hi ts
  | [], lo, hi, _, h => by
    cases h with
    | nil h => exact ⟨[], rfl, between_nil h⟩
  | n :: l, lo, hi, hi', h => by
    cases hi' with
    | cons hn hl => cases h with
      | cons h1 h2 =>
        obtain ⟨l1, e1, g1⟩ := visit_written n _ _ hn h1
        obtain ⟨l2, e2, g2⟩ := visitAll_written l _ _ hl h2
        exact ⟨_, both_some e1 e2, between_append g1 g2⟩
end

theorem index_iff (w : Text) : (w.head? = some '[' ∧ (w.getLast? = some ']' ∨ ['=', ']'] <+: w.reverse)) ↔
    ∃ u, w = '[' :: u ∧ ((∃ u', w = u' ++ [']']) ∨ ∃ u', w = u' ++ [']', '=']) := by
  have h1 : w.head? = some '[' ↔ ∃ u, w = '[' :: u := by
    cases w with
    | nil => simp
    | cons c t => simp
  have h2 : w.getLast? = some ']' ↔ ∃ u', w = u' ++ [']'] := List.getLast?_eq_some_iff
  have h3 : ['=', ']'] <+: w.reverse ↔ ∃ u', w = u' ++ [']', '='] := by
    constructor
    · rintro ⟨x, hx⟩
      refine ⟨x.reverse, ?_⟩
      have := congrArg List.reverse hx
      simpa using this.symm
    · rintro ⟨u, rfl⟩
      exact ⟨u.reverse, by simp⟩
  rw [h1, h2, h3]
  constructor
  · rintro ⟨⟨u, hu⟩, h⟩; exact ⟨u, hu, h⟩
  · rintro ⟨u, hu, h⟩; exact ⟨⟨u, hu⟩, h⟩

theorem slice_some {a b : Nat} {w : Text} (h : slice content a b = some w) :
    ∃ x y, content = x ++ w ++ y ∧ a = byteLen x ∧ b = byteLen (x ++ w) := by
  unfold slice at h
  split at h
  · obtain ⟨d, h1, h2⟩ := Option.bind_eq_some_iff.mp h
    obtain ⟨x, rfl, hx⟩ := dropBytes_eq_some.mp h1
    have key : ∀ (n : Nat) (d w : Text), takeBytes n d = some w → ∃ y, d = w ++ y ∧ byteLen w = n := by
      intro n d
      induction d generalizing n with
      | nil =>
        intro w h
        cases n with
        | zero => cases h; exact ⟨[], rfl, rfl⟩
        | succ n => cases h
      | cons c t ih =>
        intro w h
        cases n with
        | zero => cases h; exact ⟨c :: t, rfl, rfl⟩
        | succ n =>
          simp only [takeBytes] at h
          split at h
          · obtain ⟨w', h3, rfl⟩ := Option.map_eq_some_iff.mp h
            obtain ⟨y, rfl, hy⟩ := ih _ _ h3
            exact ⟨y, rfl, by simp only [byteLen_cons, hy]; omega⟩
          · cases h
    obtain ⟨y, rfl, hy⟩ := key _ _ _ h2
    refine ⟨x, y, by simp, hx.symm, ?_⟩
    simp only [byteLen_append]
    omega
  · cases h

theorem message_due {m : Range} {r : Option Node} {a : List Node} {b : Option Node} {l : List Tok} (h : messageTok special content m = some l)
    (t : Tok) : t ∈ l ↔ Due special content (.call r (some m) a b) t := by
  unfold messageTok at h
  obtain ⟨w, h1, rfl⟩ := Option.map_eq_some_iff.mp h
  obtain ⟨x, y, e, e1, e2⟩ := slice_some h1
  have uniq : ∀ {t}, Due special content (.call r (some m) a b) t →
      ¬ (∃ u, w = '[' :: u ∧ ((∃ u', w = u' ++ [']']) ∨ ∃ u', w = u' ++ [']', '='])) ∧ t = ⟨m.1, m.2, if special w then .macro else .method, []⟩ := by
    intro t h
    cases h with
    | name k k1 k2 k3 =>
      have := slice_placed k k1 k2
      rw [h1] at this
      cases this
      exact ⟨k3, rfl⟩
  split
  · rename_i hc
    rw [index_iff] at hc
    constructor
    · intro ht; cases ht
    · intro ht; exact absurd hc (uniq ht).1
  · rename_i hc
    rw [index_iff] at hc
    constructor
    · intro ht
      have : t = ⟨m.1, m.2, if special w then .macro else .method, []⟩ := by
        revert ht
        split
        · intro ht; simpa using ht
        · intro ht; simpa using ht
      rw [this]
      exact .name e e1 e2 hc
    · intro ht
      rw [(uniq ht).2]
      split <;> simp

mutual
theorem visit_due : ∀ (n : Node) (l : List Tok), visit special content n = some l → ∀ t, t ∈ l ↔ Owed special content n t
  | .readVar r, l, h, t => by
    cases h
    rw [List.mem_singleton]
    constructor
    · rintro rfl; exact ⟨_, .refl, .readVar⟩
    · rintro ⟨m, h1, h2⟩; cases h1; cases h2; rfl
  | .target r, l, h, t => by
    cases h
    rw [List.mem_singleton]
    constructor
    · rintro rfl; exact ⟨_, .refl, .target⟩
    · rintro ⟨m, h1, h2⟩; cases h1; cases h2; rfl
  | .constRead r, l, h, t => by
    cases h
    rw [List.mem_singleton]
    constructor
    · rintro rfl; exact ⟨_, .refl, .constRead⟩
    · rintro ⟨m, h1, h2⟩; cases h1; cases h2; rfl
  | .writeVar r v, l, h, t => by
    obtain ⟨x, y, h1, h2, rfl⟩ := both_eq h
    cases h1
    have ih := visit_due v y h2 t
    rw [List.mem_append, List.mem_singleton, ih]
    constructor
    · rintro (rfl | ⟨m, g1, g2⟩)
      · exact ⟨_, .refl, .writeVar⟩
      · exact ⟨m, .value g1, g2⟩
    · rintro ⟨m, g1, g2⟩
      cases g1 with
      | refl => cases g2; exact .inl rfl
      | value g1 => exact .inr ⟨m, g1, g2⟩
  | .constPath p r, l, h, t => by
    obtain ⟨x, y, h1, h2, rfl⟩ := both_eq h
    cases h2
    have ih := visitOpt_due p x h1 t
    rw [List.mem_append, List.mem_singleton, ih]
    constructor
    · rintro (⟨n, rfl, m, g1, g2⟩ | rfl)
      · exact ⟨m, .parent g1, g2⟩
      · exact ⟨_, .refl, .constPath⟩
    · rintro ⟨m, g1, g2⟩
      cases g1 with
      | refl => cases g2; exact .inr rfl
      | parent g1 => exact .inl ⟨_, rfl, m, g1, g2⟩
  | .call r none a b, l, h, t => by
    obtain ⟨x, y, h1, hp, rfl⟩ := both_eq h
    obtain ⟨y, z, h2, h3, rfl⟩ := both_eq hp
    have i1 := visitOpt_due r x h1 t
    have i2 := visitAll_due a y h2 t
    have i3 := visitOpt_due b z h3 t
    simp only [List.mem_append, i1, i2, i3]
    constructor
    · rintro (⟨n, rfl, m, g1, g2⟩ | ⟨n, hn, m, g1, g2⟩ | ⟨n, rfl, m, g1, g2⟩)
      · exact ⟨m, .recv g1, g2⟩
      · exact ⟨m, .arg hn g1, g2⟩
      · exact ⟨m, .block g1, g2⟩
    · rintro ⟨m, g1, g2⟩
      cases g1 with
      | refl => cases g2
      | recv g1 => exact .inl ⟨_, rfl, m, g1, g2⟩
      | arg hn g1 => exact .inr (.inl ⟨_, hn, m, g1, g2⟩)
      | block g1 => exact .inr (.inr ⟨_, rfl, m, g1, g2⟩)
  | .call r (some k) a b, l, h, t => by
    obtain ⟨x, y, h1, hp, rfl⟩ := both_eq h
    obtain ⟨w, y, h0, hq, rfl⟩ := both_eq hp
    obtain ⟨y, z, h2, h3, rfl⟩ := both_eq hq
    have i1 := visitOpt_due r x h1 t
    have i0 := message_due (r := r) (a := a) (b := b) h0 t
    have i2 := visitAll_due a y h2 t
    have i3 := visitOpt_due b z h3 t
    simp only [List.mem_append, i0, i1, i2, i3]
    constructor
    · rintro (⟨n, rfl, m, g1, g2⟩ | g | ⟨n, hn, m, g1, g2⟩ | ⟨n, rfl, m, g1, g2⟩)
      · exact ⟨m, .recv g1, g2⟩
      · exact ⟨_, .refl, g⟩
      · exact ⟨m, .arg hn g1, g2⟩
      · exact ⟨m, .block g1, g2⟩
    · rintro ⟨m, g1, g2⟩
      cases g1 with
      | refl => exact .inr (.inl g2)
      | recv g1 => exact .inl ⟨_, rfl, m, g1, g2⟩
      | arg hn g1 => exact .inr (.inr (.inl ⟨_, hn, m, g1, g2⟩))
      | block g1 => exact .inr (.inr (.inr ⟨_, rfl, m, g1, g2⟩))
  | .branch ps ss p s e, l, h, t => by
    have key : ∃ x y z, visit special content p = some x ∧ visitAll special content s = some y ∧ visitOpt special content e = some z ∧
        (t ∈ l ↔ t ∈ x ∨ t ∈ y ∨ t ∈ z) := by
      simp only [visit] at h
      split at h
      · obtain ⟨x, y, h1, hp, rfl⟩ := both_eq h
        obtain ⟨y, z, h2, h3, rfl⟩ := both_eq hp
        refine ⟨y, x, z, h2, h1, h3, ?_⟩
        simp only [List.mem_append]
        constructor
        · rintro (h | h | h)
          · exact .inr (.inl h)
          · exact .inl h
          · exact .inr (.inr h)
        · rintro (h | h | h)
          · exact .inr (.inl h)
          · exact .inl h
          · exact .inr (.inr h)
      · obtain ⟨x, y, h1, hp, rfl⟩ := both_eq h
        obtain ⟨y, z, h2, h3, rfl⟩ := both_eq hp
        exact ⟨x, y, z, h1, h2, h3, by simp only [List.mem_append]⟩
    obtain ⟨x, y, z, h1, h2, h3, hl⟩ := key
    have i1 := visit_due p x h1 t
    have i2 := visitAll_due s y h2 t
    have i3 := visitOpt_due e z h3 t
    rw [hl, i1, i2, i3]
    constructor
    · rintro (⟨m, g1, g2⟩ | ⟨n, hn, m, g1, g2⟩ | ⟨n, rfl, m, g1, g2⟩)
      · exact ⟨m, .pred g1, g2⟩
      · exact ⟨m, .stmt hn g1, g2⟩
      · exact ⟨m, .els g1, g2⟩
    · rintro ⟨m, g1, g2⟩
      cases g1 with
      | refl => cases g2
      | pred g1 => exact .inl ⟨m, g1, g2⟩
      | stmt hn g1 => exact .inr (.inl ⟨_, hn, m, g1, g2⟩)
      | els g1 => exact .inr (.inr ⟨_, rfl, m, g1, g2⟩)
  | .other l', l, h, t => by
    have ih := visitAll_due l' l h t
    rw [ih]
    constructor
    · rintro ⟨n, hn, m, g1, g2⟩; exact ⟨m, .child hn g1, g2⟩
    · rintro ⟨m, g1, g2⟩
      cases g1 with
      | refl => cases g2
      | child hn g1 => exact ⟨_, hn, m, g1, g2⟩
theorem visitOpt_due : ∀ (n : Option Node) (l : List Tok), visitOpt special content n = some l →
    ∀ t, t ∈ l ↔ ∃ x, n = some x ∧ Owed special content x t
  | none, l, h, t => by
    cases h
    simp
  | some n, l, h, t => by
    have := visit_due n l h t
    rw [this]
    constructor
    · intro h; exact ⟨n, rfl, h⟩
    · rintro ⟨x, e, h⟩; cases e; exact h
theorem visitAll_due : ∀ (ns : List Node) (l : List Tok), visitAll special content ns = some l →
    ∀ t, t ∈ l ↔ ∃ x ∈ ns, Owed special content x t
  | [], l, h, t => by
    cases h
    simp
  | n :: ns, l, h, t => by
    obtain ⟨x, y, h1, h2, rfl⟩ := both_eq h
    have i1 := visit_due n x h1 t
    have i2 := visitAll_due ns y h2 t
    rw [List.mem_append, i1, i2]
    constructor
    · rintro (g | ⟨m, hm, g⟩)
      · exact ⟨n, by simp, g⟩
      · exact ⟨m, by simp [hm], g⟩
    · rintro ⟨m, hm, g⟩
      rcases List.mem_cons.mp hm with rfl | hm
      · exact .inl g
      · exact .inr ⟨m, hm, g⟩
end

/-- **C51**: for code written in the order in which it is visited there is an answer, and the client sees exactly the tokens of the code. -/
theorem c51_client_sees_written_code (wrap : Bool) {root : Node} {lo hi : Nat} (hi' : Inside content root) (h : Written content lo hi root) :
    ∃ l ds, full wrap special content root = some ds ∧ ShowsAll content l (decode ds) ∧ ∀ t, t ∈ l ↔ Owed special content root t := by
  obtain ⟨l, e, g⟩ := visit_written (special := special) root lo hi hi' h
  obtain ⟨ds, h1, h2⟩ := c51_client_sees_tokens wrap g.placed g.asc
  exact ⟨l, ds, by rw [full, e]; exact h1, h2, visit_due root l e⟩

/-! ### a piece of code, and code that is out of order -/

/-- `public` is highlighted as a macro. -/
def keywords (m : Text) : Bool := m == "public".toList

/-- `public` and, two lines below, `é = A::B.new[é] if é`. -/
def code1 : Text := "public\n\né = A::B.new[é] if é".toList

def tree1 : Node :=
  .other [.call none (some (0, 6)) [] none,
    .branch 29 (some 8) (.readVar (29, 31))
      [.writeVar (8, 10) (.call (some (.call (some (.constPath (some (.constRead (13, 14))) (16, 17))) (some (18, 21)) [] none)) (some (21, 25)) [.readVar (22, 24)] none)]
      none]

example : Inside code1 tree1 := by
  have p1 : Placed code1 (0, 6) := ⟨[], "public".toList, "\n\né = A::B.new[é] if é".toList, by decide, by decide, by decide, by decide⟩
  have p2 : Placed code1 (8, 10) := ⟨"public\n\n".toList, "é".toList, " = A::B.new[é] if é".toList, by decide, by decide, by decide, by decide⟩
  have p3 : Placed code1 (13, 14) := ⟨"public\n\né = ".toList, "A".toList, "::B.new[é] if é".toList, by decide, by decide, by decide, by decide⟩
  have p4 : Placed code1 (16, 17) := ⟨"public\n\né = A::".toList, "B".toList, ".new[é] if é".toList, by decide, by decide, by decide, by decide⟩
  have p5 : Placed code1 (18, 21) := ⟨"public\n\né = A::B.".toList, "new".toList, "[é] if é".toList, by decide, by decide, by decide, by decide⟩
  have p6 : Placed code1 (21, 25) := ⟨"public\n\né = A::B.new".toList, "[é]".toList, " if é".toList, by decide, by decide, by decide, by decide⟩
  have p7 : Placed code1 (22, 24) := ⟨"public\n\né = A::B.new[".toList, "é".toList, "] if é".toList, by decide, by decide, by decide, by decide⟩
  have p8 : Placed code1 (29, 31) := ⟨"public\n\né = A::B.new[é] if ".toList, "é".toList, [], by decide, by decide, by decide, by decide⟩
  exact .other (.cons (.call .none (by rintro _ ⟨⟩; exact p1) .nil .none) (.cons (.branch (.readVar p8) (.cons (.writeVar p2 (.call (.some (.call
    (.some (.constPath (.some (.constRead p3)) p4)) (by rintro _ ⟨⟩; exact p5) .nil .none)) (by rintro _ ⟨⟩; exact p6) (.cons (.readVar p7) .nil) .none)) .nil) .none) .nil))

example : Written code1 0 31 tree1 := by
  have hb : Brackets code1 (21, 25) := ⟨"public\n\né = A::B.new".toList, "é".toList, " if é".toList, by decide, by decide, by decide⟩
  have w1 : Written code1 0 6 (.call none (some (0, 6)) [] none) :=
    .callNamed (m₁ := 0) (m₂ := 6) (.none (by decide)) (by decide) (by decide) (.nil (by decide)) (.none (by decide))
  have w2 : Written code1 10 21 (.call (some (.constPath (some (.constRead (13, 14))) (16, 17))) (some (18, 21)) [] none) :=
    .callNamed (m₁ := 17) (m₂ := 21) (.some (.constPath (mid := 14) (.some (.constRead (by decide) (by decide) (by decide))) (by decide) (by decide) (by decide)))
      (by decide) (by decide) (.nil (by decide)) (.none (by decide))
  have w3 : Written code1 10 25 (.call (some (.call (some (.constPath (some (.constRead (13, 14))) (16, 17))) (some (18, 21)) [] none)) (some (21, 25)) [.readVar (22, 24)] none) :=
    .index (m₁ := 21) (m₂ := 25) hb (.some w2) (by decide) (.cons (mid := 24) (.readVar (by decide) (by decide) (by decide)) (.nil (by decide))) (.none (by decide))
  exact .other (.cons w1 (.cons (mid := 31) (.after (m₁ := 25) (m₂ := 31) (.cons (.writeVar (by decide) (by decide) w3) (.nil (by decide)))
    (.readVar (by decide) (by decide) (by decide)) (.none (by decide)) (by decide) (by decide)) (.nil (by decide))))

/-- What is sent: columns in UTF-16 units, the second and the last token on the third line. -/
example : full false keywords code1 tree1 = some [⟨0, 0, 6, 14, 0⟩, ⟨2, 0, 1, 8, 1⟩, ⟨0, 4, 1, 2, 0⟩, ⟨0, 3, 1, 2, 0⟩, ⟨0, 2, 3, 13, 0⟩, ⟨0, 4, 1, 8, 0⟩, ⟨0, 6, 1, 8, 0⟩] := by
  decide +kernel

/-- The request fails: a build with overflow checks panics, and a release build shows the tokens at wrong places. -/
def Fails (content : Text) (root : Node) : Prop :=
  full false keywords content root = none ∧
  ∃ l ds, visit keywords content root = some l ∧ full true keywords content root = some ds ∧ ¬ ShowsAll content l (decode ds)

theorem out_of_order {content : Text} {root : Node} {l : List Tok} (h : visit keywords content root = some l) (hpl : ∀ t ∈ l, Placed content (t.start, t.stop))
    (ha : ¬ Ascending l) : Fails content root := by
  refine ⟨?_, ?_⟩
  · rw [full, h]; exact (c51_panics_iff_out_of_order hpl).mpr ha
  · obtain ⟨ds, h1, h2⟩ := c51_release_right_iff_in_order hpl
    exact ⟨l, ds, h, by rw [full, h]; exact h1, fun h => ha (h2.mp h)⟩

/-- **C51** fails for operators before their operand: the name of the method `!` stands before the receiver. -/
theorem c51_negation_fails : Fails "x = 1\n!x".toList
    (.other [.writeVar (0, 1) (.other []), .call (some (.readVar (7, 8))) (some (6, 7)) [] none]) := by
  have p1 : Placed ("x = 1\n!x".toList) (0, 1) := ⟨[], "x".toList, " = 1\n!x".toList, by decide, by decide, by decide, by decide⟩
  have p2 : Placed ("x = 1\n!x".toList) (7, 8) := ⟨"x = 1\n!".toList, "x".toList, [], by decide, by decide, by decide, by decide⟩
  have p3 : Placed ("x = 1\n!x".toList) (6, 7) := ⟨"x = 1\n".toList, "!".toList, "x".toList, by decide, by decide, by decide, by decide⟩
  refine out_of_order (l := [⟨0, 1, .variable, [.declaration]⟩, ⟨7, 8, .variable, []⟩, ⟨6, 7, .method, []⟩]) rfl ?_ (by unfold Ascending; decide)
  simp only [List.forall_mem_cons]
  exact ⟨p1, p2, p3, by simp⟩

/-- **C51** fails for `while` after a statement: Prism visits the predicate first. -/
theorem c51_while_modifier_fails : Fails "x = 1\ny = 2\nx += 1 while y".toList
    (.other [.writeVar (0, 1) (.other []), .writeVar (6, 7) (.other []), .other [.readVar (25, 26), .writeVar (12, 13) (.other [])]]) := by
  have p1 : Placed ("x = 1\ny = 2\nx += 1 while y".toList) (0, 1) := ⟨[], "x".toList, " = 1\ny = 2\nx += 1 while y".toList, by decide, by decide, by decide, by decide⟩
  have p2 : Placed ("x = 1\ny = 2\nx += 1 while y".toList) (6, 7) := ⟨"x = 1\n".toList, "y".toList, " = 2\nx += 1 while y".toList, by decide, by decide, by decide, by decide⟩
  have p3 : Placed ("x = 1\ny = 2\nx += 1 while y".toList) (25, 26) := ⟨"x = 1\ny = 2\nx += 1 while ".toList, "y".toList, [], by decide, by decide, by decide, by decide⟩
  have p4 : Placed ("x = 1\ny = 2\nx += 1 while y".toList) (12, 13) := ⟨"x = 1\ny = 2\n".toList, "x".toList, " += 1 while y".toList, by decide, by decide, by decide, by decide⟩
  refine out_of_order (l := [⟨0, 1, .variable, [.declaration]⟩, ⟨6, 7, .variable, [.declaration]⟩, ⟨25, 26, .variable, []⟩, ⟨12, 13, .variable, [.declaration]⟩]) rfl ?_ (by unfold Ascending; decide)
  simp only [List.forall_mem_cons]
  exact ⟨p1, p2, p3, p4, by simp⟩

/-- **C51** fails for named groups of a regular expression: the variables stand in the expression and are visited after the match. -/
theorem c51_named_capture_fails : Fails "s = A\n/(?<y>a)/ =~ s".toList
    (.other [.writeVar (0, 1) (.constRead (4, 5)), .other [.call (some (.other [])) (some (16, 18)) [.readVar (19, 20)] none, .target (10, 11)]]) := by
  have p1 : Placed ("s = A\n/(?<y>a)/ =~ s".toList) (0, 1) := ⟨[], "s".toList, " = A\n/(?<y>a)/ =~ s".toList, by decide, by decide, by decide, by decide⟩
  have p2 : Placed ("s = A\n/(?<y>a)/ =~ s".toList) (4, 5) := ⟨"s = ".toList, "A".toList, "\n/(?<y>a)/ =~ s".toList, by decide, by decide, by decide, by decide⟩
  have p3 : Placed ("s = A\n/(?<y>a)/ =~ s".toList) (16, 18) := ⟨"s = A\n/(?<y>a)/ ".toList, "=~".toList, " s".toList, by decide, by decide, by decide, by decide⟩
  have p4 : Placed ("s = A\n/(?<y>a)/ =~ s".toList) (19, 20) := ⟨"s = A\n/(?<y>a)/ =~ ".toList, "s".toList, [], by decide, by decide, by decide, by decide⟩
  have p5 : Placed ("s = A\n/(?<y>a)/ =~ s".toList) (10, 11) := ⟨"s = A\n/(?<".toList, "y".toList, ">a)/ =~ s".toList, by decide, by decide, by decide, by decide⟩
  refine out_of_order (l := [⟨0, 1, .variable, [.declaration]⟩, ⟨4, 5, .class, []⟩, ⟨16, 18, .method, []⟩, ⟨19, 20, .variable, []⟩, ⟨10, 11, .variable, [.declaration]⟩]) rfl ?_ (by unfold Ascending; decide)
  simp only [List.forall_mem_cons]
  exact ⟨p1, p2, p3, p4, p5, by simp⟩

/-- **C51** fails for a heredoc with code in it that is followed by another argument. -/
theorem c51_heredoc_fails : Fails "x = 1\nputs <<A, x\n#{x}\nA\n".toList
    (.other [.writeVar (0, 1) (.other []), .call none (some (6, 10)) [.other [.readVar (20, 21)], .readVar (16, 17)] none]) := by
  have p1 : Placed ("x = 1\nputs <<A, x\n#{x}\nA\n".toList) (0, 1) := ⟨[], "x".toList, " = 1\nputs <<A, x\n#{x}\nA\n".toList, by decide, by decide, by decide, by decide⟩
  have p2 : Placed ("x = 1\nputs <<A, x\n#{x}\nA\n".toList) (6, 10) := ⟨"x = 1\n".toList, "puts".toList, " <<A, x\n#{x}\nA\n".toList, by decide, by decide, by decide, by decide⟩
  have p3 : Placed ("x = 1\nputs <<A, x\n#{x}\nA\n".toList) (20, 21) := ⟨"x = 1\nputs <<A, x\n#{".toList, "x".toList, "}\nA\n".toList, by decide, by decide, by decide, by decide⟩
  have p4 : Placed ("x = 1\nputs <<A, x\n#{x}\nA\n".toList) (16, 17) := ⟨"x = 1\nputs <<A, ".toList, "x".toList, "\n#{x}\nA\n".toList, by decide, by decide, by decide, by decide⟩
  refine out_of_order (l := [⟨0, 1, .variable, [.declaration]⟩, ⟨6, 10, .method, []⟩, ⟨20, 21, .variable, []⟩, ⟨16, 17, .variable, []⟩]) rfl ?_ (by unfold Ascending; decide)
  simp only [List.forall_mem_cons]
  exact ⟨p1, p2, p3, p4, by simp⟩

end Verif.SemanticTokens
