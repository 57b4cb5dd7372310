import Verif.Lemmas.ArchiveDirectory
import Verif.Lemmas.Arena
import Verif.Lemmas.Sort

/-! Names, lines and releases. -/
namespace Verif.Archive

open ClassFile (Bytes Str Seq)

/-! ### Order of names -/

theorem lexLe_anti : ∀ l m : List Nat, Store.lexLe l m = true → Store.lexLe m l = true → l = m
  | [], [], _, _ => rfl
  | [], _ :: _, _, h => by simp [Store.lexLe] at h
  | _ :: _, [], h, _ => by simp [Store.lexLe] at h
  | a :: l, b :: m, h1, h2 => by
    simp only [Store.lexLe] at h1 h2
    by_cases e : a = b
    · subst e
      simp only [Nat.lt_irrefl, if_false, if_true] at h1 h2
      rw [lexLe_anti l m h1 h2]
    · exfalso
      by_cases h : a < b
      · rw [if_neg (by omega), if_neg (by omega)] at h2
        cases h2
      · rw [if_neg h, if_neg e] at h1
        cases h1

theorem nameLe_total (s t : Str) : nameLe s t = true ∨ nameLe t s = true := Store.lexLe_total _ _

theorem nameLe_trans {s t u : Str} (h1 : nameLe s t = true) (h2 : nameLe t u = true) : nameLe s u = true := Store.lexLe_trans _ _ _ h1 h2

theorem nameLe_refl (s : Str) : nameLe s s = true := Store.lexLe_refl _

theorem char_toNat_inj {c d : Char} (h : c.toNat = d.toNat) : c = d := Char.ext (UInt32.toNat_inj.1 h)

theorem nameLe_anti {s t : Str} (h1 : nameLe s t = true) (h2 : nameLe t s = true) : s = t := by
  have h3 := lexLe_anti _ _ h1 h2
  clear h1 h2
  induction s generalizing t with
  | nil => cases t with
    | nil => rfl
    | cons _ _ => simp at h3
  | cons c s ih => cases t with
    | nil => simp at h3
    | cons d t =>
      simp only [List.map_cons, List.cons.injEq] at h3
      rw [char_toNat_inj h3.1, ih h3.2]

/-! ### Letters -/

theorem char_le_iff (c d : Char) : c ≤ d ↔ c.toNat ≤ d.toNat := by
  rw [Char.le_def, UInt32.le_iff_toNat_le]
  rfl

theorem ofNat_toNat {n : Nat} (h : n < 0xd800) : (Char.ofNat n).toNat = n := by
  unfold Char.ofNat
  rw [dif_pos (Or.inl h)]
  rfl

theorem lower_toNat (c : Char) : (lower c).toNat = if 65 ≤ c.toNat ∧ c.toNat ≤ 90 then c.toNat + 32 else c.toNat := by
  unfold lower
  have h1 : ('A' ≤ c ∧ c ≤ 'Z') ↔ (65 ≤ c.toNat ∧ c.toNat ≤ 90) := by
    rw [char_le_iff, char_le_iff]
    rfl
  by_cases h : 65 ≤ c.toNat ∧ c.toNat ≤ 90
  · rw [if_pos (h1.2 h), if_pos h, ofNat_toNat (by omega)]
  · rw [if_neg (fun x => h (h1.1 x)), if_neg h]

theorem lower_eq_iff (c d : Char) :
    lower c = lower d ↔ c = d ∨ ∃ n < 26, (c.toNat = 65 + n ∧ d.toNat = 97 + n) ∨ (c.toNat = 97 + n ∧ d.toNat = 65 + n) := by
  have key : lower c = lower d ↔ (lower c).toNat = (lower d).toNat := ⟨fun h => by rw [h], char_toNat_inj⟩
  have key2 : c = d ↔ c.toNat = d.toNat := ⟨fun h => by rw [h], char_toNat_inj⟩
  rw [key, key2, lower_toNat, lower_toNat]
  constructor
  · intro h
    by_cases e : c.toNat = d.toNat
    · exact .inl e
    · right
      split at h <;> split at h
      · omega
      · exact ⟨c.toNat - 65, by omega, by omega⟩
      · exact ⟨d.toNat - 65, by omega, by omega⟩
      · omega
  · rintro (h | ⟨n, hn, h⟩)
    · rw [h]
    · rcases h with h | h <;> (split <;> split <;> omega)

theorem sameIgnoringCase_iff (s t : Str) : sameIgnoringCase s t = true ↔ SameButCase s t := by
  unfold sameIgnoringCase SameButCase
  rw [decide_eq_true_eq]
  induction s generalizing t with
  | nil => cases t with
    | nil => exact ⟨fun _ => .nil, fun _ => rfl⟩
    | cons d t =>
      constructor
      · intro h; simp at h
      · intro h; cases h
  | cons c s ih => cases t with
    | nil =>
      constructor
      · intro h; simp at h
      · intro h; cases h
    | cons d t =>
      simp only [List.map_cons, List.cons.injEq, lower_eq_iff, ih t]
      constructor
      · rintro ⟨h1, h2⟩
        exact .cons h1 h2
      · intro h
        cases h with
        | cons h1 h2 => exact ⟨h1, h2⟩

/-! ### Pieces between separators -/

/-- A piece of a text and what comes after it. -/
def Piece (c : Char) (w v s : Str) : Prop :=
  c ∉ w ∧ (v = [] ∨ ∃ v', v = c :: v') ∧ ∃ u, s = u ++ w ++ v ∧ (u = [] ∨ ∃ u', u = u' ++ [c])

theorem first_sep {c : Char} {a b s t : Str} (ha : c ∉ a) (hb : c ∉ b) (h : a ++ c :: s = b ++ c :: t) : a = b ∧ s = t := by
  induction a generalizing b with
  | nil => cases b with
    | nil => simpa using h
    | cons x b =>
      simp only [List.nil_append, List.cons_append, List.cons.injEq] at h
      exact absurd (by simp [h.1]) hb
  | cons x a ih => cases b with
    | nil =>
      simp only [List.nil_append, List.cons_append, List.cons.injEq] at h
      exact absurd (by simp [h.1]) ha
    | cons y b =>
      simp only [List.cons_append, List.cons.injEq] at h
      simp only [List.mem_cons, not_or] at ha hb
      obtain ⟨h1, h2⟩ := ih ha.2 hb.2 h.2
      exact ⟨by rw [h.1, h1], h2⟩

theorem piece_only {c : Char} {w v s : Str} (hs : c ∉ s) : Piece c w v s ↔ w = s ∧ v = [] := by
  constructor
  · rintro ⟨_, hv, u, rfl, hu⟩
    have hu' : u = [] := by
      rcases hu with h | ⟨u', rfl⟩
      · exact h
      · exact absurd (by simp) hs
    have hv' : v = [] := by
      rcases hv with h | ⟨v', rfl⟩
      · exact h
      · exact absurd (by simp) hs
    subst hu' hv'
    simp
  · rintro ⟨rfl, rfl⟩
    exact ⟨hs, .inl rfl, [], by simp, .inl rfl⟩

theorem piece_cons {c : Char} {w v w0 s : Str} (h0 : c ∉ w0) : Piece c w v (w0 ++ c :: s) ↔ (w = w0 ∧ v = c :: s) ∨ Piece c w v s := by
  constructor
  · rintro ⟨hw, hv, u, hs, hu⟩
    rcases hu with rfl | ⟨u', rfl⟩
    · left
      rcases hv with rfl | ⟨v', rfl⟩
      · exfalso
        apply hw
        have : w = w0 ++ c :: s := by simpa using hs.symm
        rw [this]
        simp
      · obtain ⟨h1, h2⟩ := first_sep h0 hw (by simpa using hs)
        exact ⟨h1.symm, by rw [h2]⟩
    · right
      refine ⟨hw, hv, ?_⟩
      have hs' : w0 ++ c :: s = u' ++ c :: (w ++ v) := by rw [hs]; simp
      rcases List.append_eq_append_iff.1 hs' with ⟨x, hx, hc⟩ | ⟨x, hx, hc⟩
      · cases x with
        | nil =>
          simp only [List.nil_append, List.cons.injEq, true_and] at hc
          exact ⟨[], by simpa using hc, .inl rfl⟩
        | cons y x =>
          simp only [List.cons_append, List.cons.injEq] at hc
          exact ⟨x ++ [c], by rw [hc.2]; simp, .inr ⟨x, rfl⟩⟩
      · cases x with
        | nil =>
          simp only [List.nil_append, List.cons.injEq, true_and] at hc
          exact ⟨[], by simpa using hc.symm, .inl rfl⟩
        | cons y x =>
          simp only [List.cons_append, List.cons.injEq] at hc
          exfalso
          apply h0
          rw [hx, hc.1]
          simp
  · rintro (⟨rfl, rfl⟩ | ⟨hw, hv, u, rfl, hu⟩)
    · exact ⟨h0, .inr ⟨s, rfl⟩, [], by simp, .inl rfl⟩
    · refine ⟨hw, hv, w0 ++ c :: u, by simp, .inr ?_⟩
      rcases hu with rfl | ⟨u', rfl⟩
      · exact ⟨w0, rfl⟩
      · exact ⟨w0 ++ c :: u', by simp⟩

theorem splitOn_head (c : Char) (s : Str) :
    (c ∉ s ∧ splitOn c s = [s]) ∨ ∃ w0 s', c ∉ w0 ∧ s = w0 ++ c :: s' ∧ splitOn c s = w0 :: splitOn c s' := by
  induction s with
  | nil => exact .inl ⟨by simp, rfl⟩
  | cons x s ih =>
    by_cases e : x = c
    · subst e
      exact .inr ⟨[], s, by simp, rfl, by simp [splitOn]⟩
    · rcases ih with ⟨h1, h2⟩ | ⟨w0, s', h1, h2, h3⟩
      · left
        exact ⟨by simp [h1, Ne.symm e], by rw [splitOn, if_neg e, h2]⟩
      · right
        exact ⟨x :: w0, s', by simp [h1, Ne.symm e], by rw [h2]; rfl, by rw [splitOn, if_neg e, h3]⟩

theorem mem_splitOn (c : Char) : ∀ (n : Nat) (s w : Str), s.length ≤ n → (w ∈ splitOn c s ↔ ∃ v, Piece c w v s) := by
  intro n
  induction n with
  | zero =>
    intro s w hs
    have : s = [] := List.length_eq_zero_iff.1 (by omega)
    subst this
    simp only [splitOn, List.mem_singleton, piece_only (c := c) (s := []) (by simp)]
    simp
  | succ n ih =>
    intro s w hs
    rcases splitOn_head c s with ⟨h1, h2⟩ | ⟨w0, s', h1, rfl, h3⟩
    · rw [h2, List.mem_singleton]
      simp only [piece_only h1]
      simp
    · rw [h3, List.mem_cons, ih s' w (by simp only [List.length_append, List.length_cons] at hs; omega)]
      simp only [piece_cons h1]
      constructor
      · rintro (rfl | ⟨v, h⟩)
        · exact ⟨_, .inl ⟨rfl, rfl⟩⟩
        · exact ⟨v, .inr h⟩
      · rintro ⟨v, ⟨rfl, _⟩ | h⟩
        · exact .inl rfl
        · exact .inr ⟨v, h⟩

theorem safeName_iff (name : Str) : safeName name = true ↔ Safe name := by
  have hs : (splitOn '/' name).any (fun w => decide (w = ['.', '.'])) = true ↔
      ∃ u v, name = u ++ "..".toList ++ v ∧ (u = [] ∨ ∃ u', u = u' ++ ['/']) ∧ (v = [] ∨ ∃ v', v = '/' :: v') := by
    rw [List.any_eq_true]
    constructor
    · rintro ⟨w, hw, he⟩
      obtain ⟨v, _, hv, u, hu, hu'⟩ := (mem_splitOn '/' _ _ _ (Nat.le_refl _)).1 hw
      have : w = ['.', '.'] := by simpa using he
      subst this
      exact ⟨u, v, hu, hu', hv⟩
    · rintro ⟨u, v, h1, h2, h3⟩
      refine ⟨['.', '.'], (mem_splitOn '/' _ _ _ (Nat.le_refl _)).2 ⟨v, by decide, h3, u, h1, h2⟩, by simp⟩
  unfold safeName Safe
  rw [Bool.not_eq_true', ← Bool.not_eq_true, Bool.or_eq_true, hs]
  simp only [Bool.or_eq_true, List.isEmpty_iff, beq_iff_eq, List.contains_iff_mem, not_or]
  constructor
  · rintro ⟨⟨⟨⟨h1, h2⟩, h3⟩, h4⟩, h5⟩
    refine ⟨h1, h4, ?_, h5⟩
    rintro s rfl
    exact h2 rfl
  · rintro ⟨h1, h4, h2, h5⟩
    refine ⟨⟨⟨⟨h1, ?_⟩, ?_⟩, h4⟩, h5⟩
    · intro h
      cases name with
      | nil => cases h
      | cons c s =>
        simp only [List.head?_cons, Option.some.injEq] at h
        exact h2 s (by rw [h])
    · intro h
      cases name with
      | nil => cases h
      | cons c s =>
        simp only [List.head?_cons, Option.some.injEq] at h
        exact h4 (by rw [h]; simp)

theorem suffix_iff (p s : Str) : p.isSuffixOf s = true ↔ ∃ t, s = t ++ p := by
  rw [List.isSuffixOf_iff_suffix]
  exact ⟨fun ⟨t, h⟩ => ⟨t, h.symm⟩, fun ⟨t, h⟩ => ⟨t, h.symm⟩⟩

theorem prefix_iff (p s : Str) : p.isPrefixOf s = true ↔ ∃ t, s = p ++ t := by
  rw [List.isPrefixOf_iff_prefix]
  exact ⟨fun ⟨t, h⟩ => ⟨t, h.symm⟩, fun ⟨t, h⟩ => ⟨t, h.symm⟩⟩

theorem isMetadata_iff (kind : Kind) (name : Str) : isMetadata name kind = true ↔ Matters kind name := by
  cases kind with
  | jar => simp only [isMetadata, Matters, Bool.or_eq_true, suffix_iff, sameIgnoringCase_iff]; rfl
  | jmod => simp only [isMetadata, Matters, Bool.and_eq_true, prefix_iff, suffix_iff]; rfl

/-! ### Lines -/

theorem lines_only {s : Str} (h : '\n' ∉ s) : linesOf s = if s = [] then [] else [s] := by
  rcases splitOn_head '\n' s with ⟨_, h2⟩ | ⟨w0, s', _, rfl, _⟩
  · unfold linesOf
    rw [h2]
    cases s <;> simp
  · exact absurd (by simp) h

theorem splitOn_ne_nil (c : Char) (s : Str) : splitOn c s ≠ [] := by
  rcases splitOn_head c s with ⟨_, h⟩ | ⟨w0, s', _, _, h⟩ <;> rw [h] <;> simp

theorem lines_cons {w s : Str} (h : '\n' ∉ w) : linesOf (w ++ '\n' :: s) = dropReturn w :: linesOf s := by
  rcases splitOn_head '\n' (w ++ '\n' :: s) with ⟨h1, _⟩ | ⟨w0, s', h1, h2, h3⟩
  · exact absurd (by simp) h1
  · obtain ⟨rfl, rfl⟩ := first_sep h h1 h2
    unfold linesOf
    rw [h3]
    cases hl : splitOn '\n' s with
    | nil => exact absurd hl (splitOn_ne_nil _ _)
    | cons a l => simp

theorem dropReturn_iff (raw line : Str) : dropReturn raw = line ↔ raw = line ++ ['\r'] ∨ (raw = line ∧ ∀ s, raw ≠ s ++ ['\r']) := by
  unfold dropReturn
  rcases List.eq_nil_or_concat raw with rfl | ⟨s, c, rfl⟩
  · simp only [List.getLast?_nil]
    constructor
    · rintro rfl
      exact .inr ⟨rfl, by simp⟩
    · rintro (h | ⟨h, _⟩)
      · simp at h
      · exact h
  · by_cases e : c = '\r'
    · subst e
      simp only [List.concat_eq_append, List.getLast?_append, List.getLast?_singleton, Option.some_or, List.dropLast_concat]
      constructor
      · rintro rfl
        exact .inl rfl
      · rintro (h | ⟨_, h⟩)
        · simpa using h
        · exact absurd rfl (h s)
    · simp only [List.concat_eq_append]
      split
      · next h => simp at h; exact absurd h e
      constructor
      · rintro rfl
        exact .inr ⟨rfl, fun t h => e (by simpa using (List.append_inj' h rfl).2)⟩
      · rintro (h | ⟨h, _⟩)
        · exact absurd (by simpa using (List.append_inj' h rfl).2) e
        · exact h

theorem mem_lines : ∀ (n : Nat) (s line : Str), s.length ≤ n → line ≠ [] →
    (line ∈ linesOf s ↔ ∃ raw v, Piece '\n' raw v s ∧ ((v = [] ∧ line = raw) ∨ (v ≠ [] ∧ dropReturn raw = line))) := by
  intro n
  induction n with
  | zero =>
    intro s line hs hl
    have : s = [] := List.length_eq_zero_iff.1 (by omega)
    subst this
    rw [lines_only (by simp)]
    constructor
    · intro h; simp at h
    · rintro ⟨raw, v, hp, h⟩
      obtain ⟨rfl, rfl⟩ := (piece_only (by simp)).1 hp
      rcases h with ⟨_, h⟩ | ⟨h, _⟩
      · exact absurd h hl
      · exact absurd rfl h
  | succ n ih =>
    intro s line hs hl
    rcases splitOn_head '\n' s with ⟨h1, _⟩ | ⟨w0, s', h1, rfl, _⟩
    · rw [lines_only h1]
      constructor
      · intro h
        split at h
        · simp at h
        · exact ⟨s, [], (piece_only h1).2 ⟨rfl, rfl⟩, .inl ⟨rfl, by simpa using h⟩⟩
      · rintro ⟨raw, v, hp, h⟩
        obtain ⟨rfl, rfl⟩ := (piece_only h1).1 hp
        rcases h with ⟨_, rfl⟩ | ⟨h, _⟩
        · rw [if_neg hl]; simp
        · exact absurd rfl h
    · rw [lines_cons h1, List.mem_cons, ih s' line (by simp only [List.length_append, List.length_cons] at hs; omega) hl]
      simp only [piece_cons h1]
      constructor
      · rintro (rfl | ⟨raw, v, h, h'⟩)
        · exact ⟨_, _, .inl ⟨rfl, rfl⟩, .inr ⟨by simp, rfl⟩⟩
        · exact ⟨raw, v, .inr h, h'⟩
      · rintro ⟨raw, v, ⟨rfl, rfl⟩ | h, h'⟩
        · rcases h' with ⟨h', _⟩ | ⟨_, h'⟩
          · cases h'
          · exact .inl h'.symm
        · exact .inr ⟨raw, v, h, h'⟩

theorem isLine_iff {s line : Str} (hl : line ≠ []) : line ∈ linesOf s ↔ IsLine line s := by
  rw [mem_lines _ s line (Nat.le_refl _) hl]
  constructor
  · rintro ⟨raw, v, ⟨h1, h2, u, h3, h4⟩, h5⟩
    refine ⟨u, raw, v, h3, h1, h4, ?_⟩
    rcases h5 with h5 | ⟨h5, h6⟩
    · exact .inl h5
    · exact .inr ⟨h2.resolve_left h5, (dropReturn_iff _ _).1 h6⟩
  · rintro ⟨u, raw, v, h3, h1, h4, h5⟩
    rcases h5 with ⟨rfl, h5⟩ | ⟨⟨v', rfl⟩, h6⟩
    · exact ⟨raw, [], ⟨h1, .inl rfl, u, h3, h4⟩, .inl ⟨rfl, h5⟩⟩
    · exact ⟨raw, _, ⟨h1, .inr ⟨v', rfl⟩, u, h3, h4⟩, .inr ⟨by simp, (dropReturn_iff _ _).2 h6⟩⟩

/-! ### Parts of lines -/

theorem splitOnce_iff (c : Char) (s a b : Str) : splitOnce c s = some (a, b) ↔ s = a ++ c :: b ∧ c ∉ a := by
  induction s generalizing a with
  | nil => simp [splitOnce]
  | cons x s ih =>
    unfold splitOnce
    by_cases e : x = c
    · subst e
      rw [if_pos rfl]
      constructor
      · intro h; cases h; exact ⟨rfl, by simp⟩
      · rintro ⟨h1, h2⟩
        cases a with
        | nil => simp at h1; rw [h1]
        | cons y a =>
          simp only [List.cons_append, List.cons.injEq] at h1
          exact absurd (by simp [h1.1]) h2
    · rw [if_neg e]
      simp only [Option.map_eq_some_iff]
      constructor
      · rintro ⟨⟨a', b'⟩, h1, h2⟩
        simp only [Prod.mk.injEq] at h2
        obtain ⟨rfl, rfl⟩ := h2
        obtain ⟨h3, h4⟩ := (ih a').1 h1
        exact ⟨by rw [h3]; rfl, by simp [h4, Ne.symm e]⟩
      · rintro ⟨h1, h2⟩
        cases a with
        | nil =>
          simp only [List.nil_append, List.cons.injEq] at h1
          exact absurd h1.1 e
        | cons y a =>
          simp only [List.cons_append, List.cons.injEq] at h1
          obtain ⟨rfl, h1⟩ := h1
          simp only [List.mem_cons, not_or] at h2
          exact ⟨(a, b), (ih a).2 ⟨h1, h2.2⟩, rfl⟩

theorem splitOnce_none (c : Char) (s : Str) : splitOnce c s = none ↔ c ∉ s := by
  constructor
  · intro h hc
    rcases splitOn_head c s with ⟨h1, _⟩ | ⟨w0, s', h1, h2, _⟩
    · exact h1 hc
    · rw [(splitOnce_iff c s w0 s').2 ⟨h2, h1⟩] at h
      cases h
  · intro h
    cases hs : splitOnce c s with
    | none => rfl
    | some p =>
      obtain ⟨a, b⟩ := p
      exact absurd (by rw [((splitOnce_iff c s a b).1 hs).1]; simp) h

theorem dropWhile_all {p : Char → Bool} {a s : Str} (h : ∀ c ∈ a, p c = true) : (a ++ s).dropWhile p = s.dropWhile p := by
  induction a with
  | nil => rfl
  | cons c a ih =>
    rw [List.cons_append, List.dropWhile_cons, if_pos (h c (by simp)), ih (fun c hc => h c (by simp [hc]))]

theorem dropWhile_split (p : Char → Bool) (s : Str) : ∃ a, s = a ++ s.dropWhile p ∧ (∀ c ∈ a, p c = true) ∧ ∀ c t, s.dropWhile p = c :: t → p c = false := by
  induction s with
  | nil => exact ⟨[], rfl, by simp, by simp⟩
  | cons x s ih =>
    rw [List.dropWhile_cons]
    by_cases e : p x = true
    · rw [if_pos e]
      obtain ⟨a, h1, h2, h3⟩ := ih
      refine ⟨x :: a, by rw [List.cons_append, ← h1], ?_, h3⟩
      intro c hc
      rcases List.mem_cons.1 hc with rfl | hc
      · exact e
      · exact h2 c hc
    · rw [if_neg e]
      refine ⟨[], rfl, by simp, ?_⟩
      intro c t h
      simp only [List.cons.injEq] at h
      rw [← h.1]
      simpa using e

theorem trim_iff (space : Char → Bool) (s v : Str) : Owners.trim space s = v ↔ Padded space v s := by
  have fwd : Padded space (Owners.trim space s) s := by
    unfold Owners.trim
    obtain ⟨a, h1, h2, h3⟩ := dropWhile_split space s
    obtain ⟨b, h4, h5, h6⟩ := dropWhile_split space (s.dropWhile space).reverse
    generalize hd : s.dropWhile space = d at *
    generalize hv : d.reverse.dropWhile space = e at *
    have hde : d = e.reverse ++ b.reverse := by
      have := congrArg List.reverse h4
      simpa using this
    refine ⟨a, b.reverse, by rw [h1, hde]; simp, h2, fun c hc => h5 c (by simpa using hc), ?_, ?_⟩
    · intro c t ht
      exact h3 c (t ++ b.reverse) (by rw [hde, ht]; rfl)
    · intro c t ht
      refine h6 c t.reverse ?_
      have := congrArg List.reverse ht
      simpa using this
  constructor
  · rintro rfl
    exact fwd
  · rintro ⟨a, b, rfl, ha, hb, h1, h2⟩
    unfold Owners.trim
    rw [List.append_assoc, dropWhile_all ha]
    cases v with
    | nil =>
      have := dropWhile_all (s := []) hb
      rw [List.append_nil] at this
      simp [this]
    | cons c v =>
      rw [List.cons_append, List.dropWhile_cons, if_neg (by rw [h1 c v rfl]; simp), ← List.cons_append, List.reverse_append,
        dropWhile_all (fun x hx => hb x (by simpa using hx))]
      rcases List.eq_nil_or_concat (c :: v) with h | ⟨t, d, ht⟩
      · cases h
      · rw [List.concat_eq_append] at ht
        rw [ht, List.reverse_append, List.reverse_singleton, List.singleton_append, List.dropWhile_cons, if_neg (by rw [h2 d t ht]; simp)]
        simp

theorem same_mem {s t : Str} {c : Char} (h : SameButCase s t) (hc : c ∈ s) : lower c ∈ t.map lower := by
  have := (sameIgnoringCase_iff s t).2 h
  unfold sameIgnoringCase at this
  rw [decide_eq_true_eq] at this
  rw [← this]
  exact List.mem_map_of_mem hc

theorem manifestMulti_iff {text : Bytes → Option Str} (htext : ∀ b t, text b = some t ↔ b = utf8 t) (space : Char → Bool) (b : Bytes) :
    manifestMulti text space b = true ↔ SaysMulti space b := by
  unfold manifestMulti
  constructor
  · intro h
    split at h
    · cases h
    · next t ht =>
      rw [List.any_eq_true] at h
      obtain ⟨line, hline, h⟩ := h
      split at h
      · next name value hs =>
        rw [Bool.and_eq_true, sameIgnoringCase_iff, sameIgnoringCase_iff] at h
        obtain ⟨h1, h2⟩ := (splitOnce_iff _ _ _ _).1 hs
        exact ⟨t, line, name, value, _, (htext b t).1 ht, (isLine_iff (by rw [h1]; simp)).1 hline, h1, h.1, (trim_iff _ _ _).1 rfl, h.2⟩
      · cases h
  · rintro ⟨t, line, name, value, v, h1, h2, rfl, h4, h5, h6⟩
    rw [(htext b t).2 h1]
    simp only
    rw [List.any_eq_true]
    refine ⟨_, (isLine_iff (by simp)).2 h2, ?_⟩
    have hc : ':' ∉ name := by
      intro hc
      have := same_mem h4 hc
      revert this
      decide
    rw [(splitOnce_iff _ _ _ _).2 ⟨rfl, hc⟩]
    simp only
    rw [(trim_iff _ _ _).2 h5, Bool.and_eq_true, sameIgnoringCase_iff, sameIgnoringCase_iff]
    exact ⟨h4, h6⟩

/-! ### Releases -/

theorem digit_iff (c : Char) (d : Nat) : digit c = some d ↔ d < 10 ∧ c = Char.ofNat (48 + d) := by
  unfold digit
  have h1 : ('0' ≤ c ∧ c ≤ '9') ↔ (48 ≤ c.toNat ∧ c.toNat ≤ 57) := by
    rw [char_le_iff, char_le_iff]
    rfl
  constructor
  · intro h
    split at h
    · next hc =>
      rw [h1] at hc
      cases h
      refine ⟨by omega, char_toNat_inj ?_⟩
      rw [ofNat_toNat (by omega)]
      omega
    · cases h
  · rintro ⟨hd, rfl⟩
    have e := ofNat_toNat (n := 48 + d) (by omega)
    rw [if_pos (h1.2 (by omega)), e]
    simp

theorem fold_ge (ds : List Nat) (n : Nat) : n ≤ ds.foldl (fun n d => 10 * n + d) n := by
  induction ds generalizing n with
  | nil => exact Nat.le_refl _
  | cons d ds ih => exact Nat.le_trans (by omega) (ih (10 * n + d))

theorem decimal_iff {n m : Nat} {s : Str} (hn : n < 65536) :
    decimal n s = some m ↔ m < 65536 ∧ ∃ ds : List Nat, (∀ d ∈ ds, d < 10) ∧ s = ds.map (fun d => Char.ofNat (48 + d)) ∧ m = ds.foldl (fun n d => 10 * n + d) n := by
  induction s generalizing n with
  | nil =>
    unfold decimal
    constructor
    · intro h
      cases h
      exact ⟨hn, [], by simp, rfl, rfl⟩
    · rintro ⟨_, ds, _, h1, rfl⟩
      have : ds = [] := List.map_eq_nil_iff.1 h1.symm
      subst this
      rfl
  | cons c s ih =>
    unfold decimal
    constructor
    · intro h
      split at h
      · cases h
      · next d hd =>
        split at h
        · next hlt =>
          obtain ⟨h1, ds, h2, h3, h4⟩ := (ih hlt).1 h
          obtain ⟨h5, h6⟩ := (digit_iff _ _).1 hd
          refine ⟨h1, d :: ds, ?_, by rw [h6, h3]; rfl, h4⟩
          intro x hx
          rcases List.mem_cons.1 hx with rfl | hx
          · exact h5
          · exact h2 x hx
        · cases h
    · rintro ⟨h1, ds, h2, h3, h4⟩
      cases ds with
      | nil => cases h3
      | cons d ds =>
        simp only [List.map_cons, List.cons.injEq] at h3
        rw [(digit_iff c d).2 ⟨h2 d (by simp), h3.1⟩]
        simp only
        have hlt : 10 * n + d < 65536 := by
          have := fold_ge ds (10 * n + d)
          rw [List.foldl_cons] at h4
          omega
        rw [if_pos hlt, ih hlt]
        exact ⟨h1, ds, fun x hx => h2 x (by simp [hx]), h3.2, h4⟩

theorem plus_no_digit {d : Nat} (hd : d < 10) : '+' ≠ Char.ofNat (48 + d) := by
  intro h
  have h1 := congrArg Char.toNat h
  have h2 := ofNat_toNat (n := 48 + d) (by omega)
  have e : '+'.toNat = 43 := rfl
  omega

theorem parseU16_iff (s : Str) (r : Nat) : parseU16 s = some r ↔ Release s r := by
  have plain : ∀ s : Str, s ≠ [] → (decimal 0 s = some r ↔ r < 65536 ∧ Digits s r) := by
    intro s hs
    rw [decimal_iff (by omega)]
    exact ⟨fun ⟨h1, h2⟩ => ⟨h1, hs, h2⟩, fun ⟨h1, _, h2⟩ => ⟨h1, h2⟩⟩
  have noplus : ∀ t : Str, ¬ Digits ('+' :: t) r := by
    rintro t ⟨_, ds, h1, h2, _⟩
    cases ds with
    | nil => cases h2
    | cons d ds =>
      simp only [List.map_cons, List.cons.injEq] at h2
      exact plus_no_digit (h1 d (by simp)) h2.1
  unfold parseU16 Release
  split
  · simp [Digits]
  · constructor
    · intro h; cases h
    · rintro ⟨_, h | ⟨t, h, h'⟩⟩
      · exact absurd h (noplus _)
      · simp only [List.cons.injEq, true_and] at h
        exact absurd h.symm h'.1
  · next s hs =>
    have hs' : s ≠ [] := fun e => hs (by rw [e])
    rw [plain s hs']
    constructor
    · rintro ⟨h1, h2⟩
      exact ⟨h1, .inr ⟨s, rfl, h2⟩⟩
    · rintro ⟨h1, h | ⟨t, h, h'⟩⟩
      · exact absurd h (noplus _)
      · simp only [List.cons.injEq, true_and] at h
        subst h
        exact ⟨h1, h'⟩
  · next h1 h2 h3 =>
    rw [plain s h1]
    constructor
    · rintro ⟨a, b⟩
      exact ⟨a, .inl b⟩
    · rintro ⟨a, b | ⟨t, rfl, _⟩⟩
      · exact ⟨a, b⟩
      · exact absurd rfl (h3 t)

theorem release_no_slash {s : Str} {r : Nat} (h : Release s r) : '/' ∉ s := by
  have key : ∀ t : Str, Digits t r → '/' ∉ t := by
    rintro t ⟨_, ds, h1, rfl, _⟩ hm
    obtain ⟨d, hd, he⟩ := List.mem_map.1 hm
    have h2 := congrArg Char.toNat he
    have h3 := ofNat_toNat (n := 48 + d) (by have := h1 d hd; omega)
    have e : '/'.toNat = 47 := rfl
    omega
  rcases h.2 with h' | ⟨t, rfl, h'⟩
  · exact key s h'
  · simp only [List.mem_cons, not_or]
    exact ⟨by decide, key t h'⟩

theorem release_unique {s : Str} {r r' : Nat} (h : Release s r) (h' : Release s r') : r = r' := by
  have h1 := (parseU16_iff s r).2 h
  rw [(parseU16_iff s r').2 h'] at h1
  cases h1
  rfl

theorem stripPrefix_iff (p s t : Str) : stripPrefix p s = some t ↔ s = p ++ t := by
  unfold stripPrefix
  constructor
  · intro h
    split at h
    · next hp =>
      obtain ⟨u, rfl⟩ := (prefix_iff p s).1 hp
      simp only [List.drop_left, Option.some.injEq] at h
      rw [h]
    · cases h
  · rintro rfl
    rw [if_pos ((prefix_iff p _).2 ⟨t, rfl⟩)]
    simp

theorem stripPrefix_none (p s : Str) : stripPrefix p s = none ↔ ∀ t, s ≠ p ++ t := by
  constructor
  · intro h t ht
    rw [(stripPrefix_iff p s t).2 ht] at h
    cases h
  · intro h
    cases hs : stripPrefix p s with
    | none => rfl
    | some t => exact absurd ((stripPrefix_iff p s t).1 hs) (h t)

theorem versioned_iff {entry v name : Str} {r : Nat} (he : entry = versionsPrefix ++ v) :
    Versioned entry name r ↔ ∃ s, splitOnce '/' v = some (s, name) ∧ parseU16 s = some r ∧ 9 ≤ r ∧ name ≠ [] := by
  unfold Versioned
  constructor
  · rintro ⟨s, h1, h2, h3, h4⟩
    refine ⟨s, ?_, (parseU16_iff _ _).2 h2, h3, h4⟩
    rw [he, List.append_assoc] at h1
    have := List.append_cancel_left (as := versionsPrefix) h1
    exact (splitOnce_iff _ _ _ _).2 ⟨this, release_no_slash h2⟩
  · rintro ⟨s, h1, h2, h3, h4⟩
    refine ⟨s, ?_, (parseU16_iff _ _).1 h2, h3, h4⟩
    rw [he, ((splitOnce_iff _ _ _ _).1 h1).1, List.append_assoc]
    rfl

theorem candidate_none {kind : Kind} {multi : Bool} {jdk : Nat} {entry : Str} : candidate kind multi jdk entry = none ↔ Malformed kind entry := by
  unfold Malformed
  cases kind with
  | jmod =>
    simp only [candidate, reduceCtorEq, false_and, iff_false]
    split <;> simp
  | jar =>
    simp only [candidate, true_and]
    cases hs : stripPrefix versionsPrefix entry with
    | none =>
      have := (stripPrefix_none _ _).1 hs
      simp only
      constructor
      · intro h; split at h <;> cases h
      · rintro ⟨⟨s, h⟩, _⟩
        exact absurd h (this s)
    | some v =>
      have he := (stripPrefix_iff _ _ _).1 hs
      have ex : ∃ s, entry = "META-INF/versions/".toList ++ s := ⟨v, he⟩
      simp only [ex, true_and, versioned_iff he]
      constructor
      · intro h
        rintro ⟨name, r, s, h1, h2, h3, h4⟩
        rw [h1] at h
        simp only [h2] at h
        rw [if_neg (by rintro (h' | h') <;> first | omega | exact h4 h')] at h
        split at h <;> cases h
      · intro h
        split
        · rfl
        · next s name h1 =>
          split
          · rfl
          · next r h2 =>
            rw [if_pos]
            by_cases h3 : r < 9
            · exact .inl h3
            · right
              by_contra h4
              exact h ⟨name, r, s, h1, h2, by omega, h4⟩

theorem candidate_some {kind : Kind} {multi : Bool} {M : Prop} (hM : multi = true ↔ M) {jdk : Nat} {entry name : Str} {rel : Option Nat} :
    candidate kind multi jdk entry = some (some (name, rel)) ↔ Provides kind M jdk entry name rel := by
  unfold Provides
  cases kind with
  | jmod =>
    simp only [candidate]
    cases hs : stripPrefix jmodPrefix entry with
    | none =>
      have := (stripPrefix_none _ _).1 hs
      constructor
      · intro h; cases h
      · rintro ⟨_, h, _⟩
        exact absurd h (this name)
    | some n =>
      have he := (stripPrefix_iff _ _ _).1 hs
      simp only
      constructor
      · intro h
        split at h
        · next hc =>
          cases h
          exact ⟨(suffix_iff _ _).1 hc, he, rfl⟩
        · cases h
      · rintro ⟨hc, h1, rfl⟩
        have : n = name := by
          rw [he] at h1
          exact List.append_cancel_left (as := jmodPrefix) h1
        subst this
        rw [if_pos ((suffix_iff classSuffix _).2 hc)]
  | jar =>
    simp only [candidate]
    cases hs : stripPrefix versionsPrefix entry with
    | none =>
      have hno := (stripPrefix_none _ _).1 hs
      simp only
      constructor
      · intro h
        split at h
        · cases h
        · next hc =>
          cases h
          simp only [not_or, Bool.not_eq_false] at hc
          refine ⟨(suffix_iff _ _).1 hc.2, .inl ⟨rfl, rfl, ?_⟩⟩
          intro s hs'
          exact hc.1 ((prefix_iff _ _).2 ⟨s, hs'⟩)
      · rintro ⟨hc, ⟨rfl, rfl, h⟩ | ⟨_, r, _, _, s, h, _⟩⟩
        · rw [if_neg]
          simp only [not_or, Bool.not_eq_false]
          refine ⟨?_, (suffix_iff _ _).2 hc⟩
          intro hp
          obtain ⟨t, ht⟩ := (prefix_iff _ _).1 hp
          exact h t ht
        · exact absurd (by rw [h, List.append_assoc]; rfl) (hno (s ++ '/' :: name))
    | some v =>
      have he := (stripPrefix_iff _ _ _).1 hs
      simp only
      have hmeta : ¬ ∀ s, entry ≠ "META-INF/".toList ++ s := by
        intro h
        exact h ("versions/".toList ++ v) (by rw [he]; rfl)
      constructor
      · intro h
        split at h
        · cases h
        · next s n h1 =>
          split at h
          · cases h
          · next r h2 =>
            split at h
            · cases h
            · next h3 =>
              split at h
              · cases h
              · next h4 =>
                cases h
                simp only [not_or, Bool.not_eq_false] at h3 h4
                exact ⟨(suffix_iff _ _).1 h4.2.2, .inr ⟨hM.1 h4.1, r, rfl, by omega, (versioned_iff he).2 ⟨s, h1, h2, by omega, h3.2⟩⟩⟩
      · rintro ⟨hc, ⟨_, _, h⟩ | ⟨hm, r, rfl, hr, hv⟩⟩
        · exact absurd h hmeta
        · obtain ⟨s, h1, h2, h3, h4⟩ := (versioned_iff he).1 hv
          rw [h1]
          simp only [h2]
          rw [if_neg (by rintro (h' | h') <;> first | omega | exact h4 h'), if_neg]
          rintro (h' | h' | h')
          · rw [hM.2 hm] at h'; cases h'
          · omega
          · rw [(suffix_iff classSuffix _).2 hc] at h'; cases h'

end Verif.Archive
