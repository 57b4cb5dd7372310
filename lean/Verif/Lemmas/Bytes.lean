import Verif.Model.Bytes
import Mathlib.Tactic.Common
namespace Verif.Bytes

@[simp] theorem toLe_length (k n : Nat) : (toLe k n).length = k := by
  induction k generalizing n with
  | zero => rfl
  | succ k ih => simp [toLe, ih]

theorem fromLe_toLe {k n : Nat} (h : n < 256 ^ k) : fromLe (toLe k n) = n := by
  induction k generalizing n with
  | zero => simp at h; subst h; rfl
  | succ k ih =>
    have : n / 256 < 256 ^ k := by
      rw [Nat.div_lt_iff_lt_mul (by decide)]
      rwa [Nat.pow_succ] at h
    simp only [toLe, fromLe, ih this]
    have : (UInt8.ofNat (n % 256)).toNat = n % 256 := by simp
    omega

theorem fromLe_lt {bs : List UInt8} : fromLe bs < 256 ^ bs.length := by
  induction bs with
  | nil => simp [fromLe]
  | cons b bs ih =>
    have hb := b.toNat_lt
    simp only [fromLe, List.length_cons, Nat.pow_succ]
    omega

theorem toLe_fromLe (bs : List UInt8) : toLe bs.length (fromLe bs) = bs := by
  induction bs with
  | nil => rfl
  | cons b bs ih =>
    have hb := b.toNat_lt
    simp only [List.length_cons, toLe, fromLe]
    have h1 : (b.toNat + 256 * fromLe bs) % 256 = b.toNat := by omega
    have h2 : (b.toNat + 256 * fromLe bs) / 256 = fromLe bs := by omega
    rw [h1, h2, ih]
    simp

theorem toLe_inj {k m n : Nat} (hm : m < 256 ^ k) (hn : n < 256 ^ k) (h : toLe k m = toLe k n) : m = n := by
  rw [← fromLe_toLe hm, ← fromLe_toLe hn, h]

theorem append_inj_of_length {α : Type} {a b c d : List α} (h : a ++ b = c ++ d) (hl : a.length = c.length) : a = c ∧ b = d :=
  List.append_inj h hl

/-- Cutting a list after `n` elements. -/
theorem cut {α : Type} (l : List α) (n : Nat) (h : n ≤ l.length) : ∃ a b, l = a ++ b ∧ a.length = n :=
  ⟨l.take n, l.drop n, (List.take_append_drop n l).symm, by simp [h]⟩

theorem slice_append {a b c : List UInt8} {i j : Nat} (hi : a.length = i) (hj : i + b.length = j) : slice (a ++ (b ++ c)) i j = b := by
  unfold slice
  subst hi
  subst hj
  rw [List.drop_left]
  rw [Nat.add_sub_cancel_left, List.take_left]

theorem hexDigit_inj {m n : Nat} (hm : m < 16) (hn : n < 16) (h : hexDigit m = hexDigit n) : m = n := by
  have key : ∀ m : Fin 16, ∀ n : Fin 16, hexDigit m.1 = hexDigit n.1 → m = n := by decide
  exact congrArg Fin.val (key ⟨m, hm⟩ ⟨n, hn⟩ h)

theorem hexDigit_ok {m : Nat} (hm : m < 16) :
    ('0' ≤ hexDigit m ∧ hexDigit m ≤ '9') ∨ ('a' ≤ hexDigit m ∧ hexDigit m ≤ 'f') := by
  have key : ∀ m : Fin 16, ('0' ≤ hexDigit m.1 ∧ hexDigit m.1 ≤ '9') ∨ ('a' ≤ hexDigit m.1 ∧ hexDigit m.1 ≤ 'f') := by decide
  exact key ⟨m, hm⟩

theorem hex_length (bs : List UInt8) : (hex bs).length = 2 * bs.length := by
  induction bs with
  | nil => rfl
  | cons b bs ih =>
    have : hex (b :: bs) = hexDigit (b.toNat / 16) :: hexDigit (b.toNat % 16) :: hex bs := rfl
    rw [this]; simp only [List.length_cons, ih]; omega

theorem hex_inj {as bs : List UInt8} (h : hex as = hex bs) : as = bs := by
  induction as generalizing bs with
  | nil =>
    cases bs with
    | nil => rfl
    | cons b bs => cases h
  | cons a as ih =>
    cases bs with
    | nil => cases h
    | cons b bs =>
      have h' : hexDigit (a.toNat / 16) :: hexDigit (a.toNat % 16) :: hex as = hexDigit (b.toNat / 16) :: hexDigit (b.toNat % 16) :: hex bs := h
      injection h' with h1 h'
      injection h' with h2 h3
      have ha := a.toNat_lt
      have hb := b.toNat_lt
      have e1 := hexDigit_inj (by omega) (by omega) h1
      have e2 := hexDigit_inj (by omega) (by omega) h2
      have : a = b := UInt8.toNat_inj.mp (by omega)
      rw [this, ih h3]

theorem hex_ok {bs : List UInt8} {c : Char} (h : c ∈ hex bs) : ('0' ≤ c ∧ c ≤ '9') ∨ ('a' ≤ c ∧ c ≤ 'f') := by
  obtain ⟨b, -, hc⟩ := List.mem_flatMap.mp h
  have hb := b.toNat_lt
  simp only [List.mem_cons, List.not_mem_nil, or_false] at hc
  rcases hc with rfl | rfl
  · exact hexDigit_ok (by omega)
  · exact hexDigit_ok (by omega)

end Verif.Bytes
