import Verif.Model.Utf8
import Mathlib.Tactic.Common
namespace Verif

theorem ofNat_lt {n m : Nat} (h : n < 256) (hm : m < 256) : UInt8.ofNat n < UInt8.ofNat m ↔ n < m := by
  rw [UInt8.lt_iff_toNat_lt]
  simp [Nat.mod_eq_of_lt h, Nat.mod_eq_of_lt hm]

theorem toNat_ofNat {n : Nat} (h : n < 256) : (UInt8.ofNat n).toNat = n := by simp [Nat.mod_eq_of_lt h]

theorem isCont_iff (b : UInt8) : isCont b = true ↔ 128 ≤ b.toNat ∧ b.toNat < 192 := by
  simp only [isCont, Bool.and_eq_true, decide_eq_true_eq, UInt8.le_iff_toNat_le, UInt8.lt_iff_toNat_lt]
  rfl

/-- Every scalar value is one ASCII byte, or a lead byte ≥ 0xC0 followed by continuation bytes only. -/
theorem encodeChar_cases (c : Char) :
    (c.toNat < 128 ∧ ∃ b : UInt8, String.utf8EncodeChar c = [b] ∧ b.toNat = c.toNat) ∨
    (128 ≤ c.toNat ∧ ∃ b r, String.utf8EncodeChar c = b :: r ∧ 192 ≤ b.toNat ∧ r ≠ [] ∧ ∀ x ∈ r, isCont x = true) := by
  have hv : c.val.toNat = c.toNat := rfl
  unfold String.utf8EncodeChar
  simp only [hv]
  by_cases h1 : c.toNat ≤ 0x7f
  · left
    refine ⟨by omega, UInt8.ofNat c.toNat, by simp [h1], toNat_ofNat (by omega)⟩
  · right
    refine ⟨by omega, ?_⟩
    rw [if_neg h1]
    by_cases h2 : c.toNat ≤ 0x7ff
    · rw [if_pos h2]
      refine ⟨_, _, rfl, ?_, by simp, ?_⟩
      · rw [toNat_ofNat (by omega)]; omega
      · simp only [List.mem_cons, List.not_mem_nil, or_false, forall_eq, isCont_iff]
        rw [toNat_ofNat (by omega)]; omega
    · rw [if_neg h2]
      by_cases h3 : c.toNat ≤ 0xffff
      · rw [if_pos h3]
        refine ⟨_, _, rfl, ?_, by simp, ?_⟩
        · rw [toNat_ofNat (by omega)]; omega
        · simp only [List.mem_cons, List.not_mem_nil, or_false, forall_eq_or_imp, forall_eq, isCont_iff]
          rw [toNat_ofNat (by omega), toNat_ofNat (by omega)]; omega
      · rw [if_neg h3]
        refine ⟨_, _, rfl, ?_, by simp, ?_⟩
        · rw [toNat_ofNat (by omega)]; omega
        · simp only [List.mem_cons, List.not_mem_nil, or_false, forall_eq_or_imp, forall_eq, isCont_iff]
          rw [toNat_ofNat (by omega), toNat_ofNat (by omega), toNat_ofNat (by omega)]; omega

theorem encodeChar_head (c : Char) : ∃ b r, String.utf8EncodeChar c = b :: r ∧ isCont b = false ∧ ∀ x ∈ r, isCont x = true := by
  rcases encodeChar_cases c with ⟨hc, b, hb, hn⟩ | ⟨-, b, r, hb, hn, -, hr⟩
  · refine ⟨b, [], hb, ?_, by simp⟩
    rw [← Bool.not_eq_true, isCont_iff]; omega
  · refine ⟨b, r, hb, ?_, hr⟩
    rw [← Bool.not_eq_true, isCont_iff]; omega

theorem encodeChar_of_ascii {c : Char} {b : UInt8} {r : List UInt8} (h : String.utf8EncodeChar c = b :: r) (hb : b.toNat < 128) :
    r = [] ∧ b.toNat = c.toNat := by
  rcases encodeChar_cases c with ⟨-, b', hb', hn⟩ | ⟨-, b', r', hb', hn, -⟩
  · rw [h] at hb'; cases hb'; exact ⟨rfl, hn⟩
  · rw [h] at hb'; cases hb'; omega

@[simp] theorem utf8_nil : utf8 [] = [] := rfl
@[simp] theorem utf8_cons (c : Char) (t : List Char) : utf8 (c :: t) = String.utf8EncodeChar c ++ utf8 t := rfl
@[simp] theorem utf8_append (s t : List Char) : utf8 (s ++ t) = utf8 s ++ utf8 t := by simp [utf8]

theorem boundaryBefore_utf8 (t : List Char) : boundaryBefore (utf8 t) = true := by
  cases t with
  | nil => rfl
  | cons c t =>
    obtain ⟨b, r, hb, hc, -⟩ := encodeChar_head c
    simp [utf8_cons, hb, boundaryBefore, hc]

/-- Cutting a text's bytes at a char boundary cuts the text. -/
theorem utf8_split {t : List Char} {p q : List UInt8} (h : utf8 t = p ++ q) (hq : boundaryBefore q = true) :
    ∃ t1 t2, t = t1 ++ t2 ∧ utf8 t1 = p ∧ utf8 t2 = q := by
  induction t generalizing p with
  | nil =>
    simp only [utf8_nil] at h
    obtain ⟨rfl, rfl⟩ := List.append_eq_nil_iff.mp h.symm
    exact ⟨[], [], rfl, rfl, rfl⟩
  | cons c t ih =>
    cases p with
    | nil => exact ⟨[], c :: t, rfl, rfl, by simpa using h⟩
    | cons x p =>
      obtain ⟨b, r, hb, hc, hr⟩ := encodeChar_head c
      rw [utf8_cons, hb] at h
      simp only [List.cons_append, List.cons.injEq] at h
      obtain ⟨rfl, h⟩ := h
      rcases List.append_eq_append_iff.mp h with ⟨a', hp, hq'⟩ | ⟨a', hr', hq'⟩
      · -- p = r ++ a'
        obtain ⟨t1, t2, rfl, h1, h2⟩ := ih hq'
        exact ⟨c :: t1, t2, rfl, by rw [utf8_cons, hb, h1, hp]; simp, h2⟩
      · -- r = p ++ a', q = a' ++ utf8 t
        cases a' with
        | nil =>
          refine ⟨[c], t, rfl, ?_, by simpa using hq'.symm⟩
          simp only [List.append_nil] at hr'
          rw [utf8_cons, hb, hr']; simp
        | cons y a' =>
          exfalso
          have := hr y (by rw [hr']; simp)
          rw [hq'] at hq
          simp [boundaryBefore, this] at hq

/-- An ASCII byte of a text's bytes is a whole character of the text. -/
theorem utf8_ascii {t : List Char} {p q : List UInt8} {b : UInt8} (h : utf8 t = p ++ b :: q) (hb : b.toNat < 128) :
    ∃ t1 c t2, t = t1 ++ c :: t2 ∧ utf8 t1 = p ∧ String.utf8EncodeChar c = [b] ∧ c.toNat = b.toNat ∧ utf8 t2 = q := by
  have hbc : isCont b = false := by rw [← Bool.not_eq_true, isCont_iff]; omega
  obtain ⟨t1, t2, rfl, h1, h2⟩ := utf8_split h (by simp [boundaryBefore, hbc])
  cases t2 with
  | nil => simp at h2
  | cons c t2 =>
    obtain ⟨b', r, hb', -, -⟩ := encodeChar_head c
    rw [utf8_cons, hb'] at h2
    simp only [List.cons_append, List.cons.injEq] at h2
    obtain ⟨rfl, h2⟩ := h2
    obtain ⟨rfl, hn⟩ := encodeChar_of_ascii hb' hb
    exact ⟨t1, c, t2, rfl, h1, hb', hn.symm, by simpa using h2⟩

/-- After an ASCII byte comes a char boundary. -/
theorem boundary_after_ascii {p q : List UInt8} {b : UInt8} (h : ValidUtf8 (p ++ b :: q)) (hb : b.toNat < 128) :
    boundaryBefore q = true := by
  obtain ⟨t, ht⟩ := h
  obtain ⟨t1, c, t2, -, -, -, -, h2⟩ := utf8_ascii ht.symm hb
  rw [← h2]; exact boundaryBefore_utf8 t2

theorem boundary_at_ascii {q : List UInt8} {b : UInt8} (hb : b.toNat < 128) : boundaryBefore (b :: q) = true := by
  have hbc : isCont b = false := by rw [← Bool.not_eq_true, isCont_iff]; omega
  simp [boundaryBefore, hbc]

theorem validUtf8_append {p q : List UInt8} (hp : ValidUtf8 p) (hq : ValidUtf8 q) : ValidUtf8 (p ++ q) := by
  obtain ⟨s, rfl⟩ := hp
  obtain ⟨t, rfl⟩ := hq
  exact ⟨s ++ t, by simp⟩

theorem validUtf8_split {p q : List UInt8} (h : ValidUtf8 (p ++ q)) (hq : boundaryBefore q = true) :
    ValidUtf8 p ∧ ValidUtf8 q := by
  obtain ⟨t, ht⟩ := h
  obtain ⟨t1, t2, -, h1, h2⟩ := utf8_split ht.symm hq
  exact ⟨⟨t1, h1.symm⟩, ⟨t2, h2.symm⟩⟩

theorem validUtf8_ascii {l : List UInt8} (h : ∀ b ∈ l, b.toNat < 128) : ValidUtf8 l := by
  induction l with
  | nil => exact ⟨[], rfl⟩
  | cons b l ih =>
    obtain ⟨t, ht⟩ := ih (fun x hx => h x (List.mem_cons_of_mem _ hx))
    have hb := h b (by simp)
    refine ⟨Char.ofNat b.toNat :: t, ?_⟩
    have hc : (Char.ofNat b.toNat).toNat = b.toNat := by
      have hv : b.toNat.isValidChar := Or.inl (by omega)
      unfold Char.ofNat
      rw [dif_pos hv]
      simp [Char.ofNatAux, Char.toNat]
    rw [utf8_cons]
    rcases encodeChar_cases (Char.ofNat b.toNat) with ⟨-, b', hb', hn⟩ | ⟨h', -⟩
    · have : b' = b := UInt8.toNat_inj.mp (by rw [hn, hc])
      rw [hb', this, ht]; rfl
    · omega

end Verif
