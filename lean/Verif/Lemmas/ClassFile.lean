import Verif.Spec.ClassFile

/-! Parsers and the relations they decide. -/
namespace Verif.ClassFile

open Jvm

/-- A parser reads exactly the encodings of a relation. -/
def Parses {α : Type} (p : P α) (G : α → Bytes → Prop) : Prop :=
  ∀ b a r, p b = some (a, r) ↔ ∃ w, b = w ++ r ∧ G a w

theorem Parses.congr {α : Type} {p : P α} {G G' : α → Bytes → Prop} (h : Parses p G) (e : ∀ a w, G a w ↔ G' a w) : Parses p G' := by
  intro b a r
  rw [h b a r]
  constructor <;> rintro ⟨w, h1, h2⟩ <;> exact ⟨w, h1, by first | exact (e a w).1 h2 | exact (e a w).2 h2⟩

theorem bind_eq {α β : Type} (p : P α) (f : α → P β) (b : Bytes) :
    (p >>= f) b = match p b with | none => none | some (a, r) => f a r := rfl

theorem pure_eq {α : Type} (a : α) (b : Bytes) : (pure a : P α) b = some (a, b) := rfl

theorem Parses.pure {α : Type} (a : α) : Parses (pure a) (fun x w => x = a ∧ w = []) := by
  intro b x r
  rw [pure_eq]
  constructor
  · intro h
    simp only [Option.some.injEq, Prod.mk.injEq] at h
    exact ⟨[], by simp [h.2], h.1.symm, rfl⟩
  · rintro ⟨w, rfl, rfl, rfl⟩
    rfl

theorem Parses.bind {α β : Type} {p : P α} {f : α → P β} {G : α → Bytes → Prop} {H : α → β → Bytes → Prop} (hp : Parses p G)
    (hf : ∀ a, Parses (f a) (H a)) :
    Parses (p >>= f) (fun c w => ∃ a w1 w2, w = w1 ++ w2 ∧ G a w1 ∧ H a c w2) := by
  intro b c r
  rw [bind_eq]
  constructor
  · intro h
    cases hb : p b with
    | none => rw [hb] at h; cases h
    | some x =>
      obtain ⟨a, r1⟩ := x
      rw [hb] at h
      obtain ⟨w1, h1, h2⟩ := (hp b a r1).1 hb
      obtain ⟨w2, h3, h4⟩ := (hf a r1 c r).1 h
      exact ⟨w1 ++ w2, by rw [h1, h3, List.append_assoc], a, w1, w2, rfl, h2, h4⟩
  · rintro ⟨w, h1, a, w1, w2, rfl, h2, h3⟩
    have e : p b = some (a, w2 ++ r) := (hp b a _).2 ⟨w1, by rw [h1, List.append_assoc], h2⟩
    rw [e]
    exact (hf a _ c r).2 ⟨w2, rfl, h3⟩

/-- A bind where what follows is only understood for values that were read. -/
theorem Parses.bind' {α β : Type} {p : P α} {f : α → P β} {G : α → Bytes → Prop} {H : α → β → Bytes → Prop} (hp : Parses p G)
    (hf : ∀ a w, G a w → Parses (f a) (H a)) :
    Parses (p >>= f) (fun c w => ∃ a w1 w2, w = w1 ++ w2 ∧ G a w1 ∧ H a c w2) := by
  intro b c r
  rw [bind_eq]
  constructor
  · intro h
    cases hb : p b with
    | none => rw [hb] at h; cases h
    | some x =>
      obtain ⟨a, r1⟩ := x
      rw [hb] at h
      obtain ⟨w1, h1, h2⟩ := (hp b a r1).1 hb
      obtain ⟨w2, h3, h4⟩ := (hf a w1 h2 r1 c r).1 h
      exact ⟨w1 ++ w2, by rw [h1, h3, List.append_assoc], a, w1, w2, rfl, h2, h4⟩
  · rintro ⟨w, h1, a, w1, w2, rfl, h2, h3⟩
    have e : p b = some (a, w2 ++ r) := (hp b a _).2 ⟨w1, by rw [h1, List.append_assoc], h2⟩
    rw [e]
    exact (hf a w1 h2 _ c r).2 ⟨w2, rfl, h3⟩

theorem Parses.lift {α : Type} (o : Option α) : Parses (lift o) (fun a w => o = some a ∧ w = []) := by
  intro b a r
  unfold ClassFile.lift
  cases o with
  | none => simp
  | some x =>
    simp only [Option.map_some, Option.some.injEq, Prod.mk.injEq]
    constructor
    · rintro ⟨rfl, rfl⟩
      exact ⟨[], rfl, rfl, rfl⟩
    · rintro ⟨w, rfl, rfl, rfl⟩
      exact ⟨rfl, rfl⟩

theorem Parses.must (c : Prop) [Decidable c] : Parses (must c) (fun _ w => c ∧ w = []) := by
  intro b a r
  unfold ClassFile.must
  by_cases h : c
  · rw [if_pos h]
    constructor
    · intro e
      cases e
      exact ⟨[], rfl, h, rfl⟩
    · rintro ⟨w, rfl, _, rfl⟩
      rfl
  · rw [if_neg h]
    constructor
    · intro e
      cases e
    · rintro ⟨_, _, hc, _⟩
      exact absurd hc h

theorem Parses.fail {α : Type} : Parses (ClassFile.lift (none : Option α)) (fun _ _ => False) := by
  intro b a r
  simp [ClassFile.lift]

theorem Parses.take (n : Nat) : Parses (take n) (fun a w => a = w ∧ Raw n w) := by
  intro b a r
  unfold ClassFile.take Raw
  split
  · rename_i h
    simp only [Option.some.injEq, Prod.mk.injEq]
    constructor
    · rintro ⟨rfl, rfl⟩
      exact ⟨b.take n, (List.take_append_drop n b).symm, rfl, by rw [List.length_take]; omega⟩
    · rintro ⟨w, rfl, rfl, e⟩
      rw [← e, List.take_left, List.drop_left]
      exact ⟨rfl, rfl⟩
  · rename_i h
    constructor
    · intro e
      cases e
    · rintro ⟨w, rfl, _, e⟩
      rw [List.length_append] at h
      omega

theorem ofNat_add (x : UInt8) (k : Nat) : UInt8.ofNat (256 * k + x.toNat) = x := by
  apply UInt8.toNat_inj.1
  have := x.toNat_lt
  simp only [UInt8.toNat_ofNat']
  omega

theorem toNat_ofNat_mod (n : Nat) : (UInt8.ofNat n).toNat = n % 256 := by simp

theorem Parses.u1 : Parses u1 (fun n w => n < 256 ∧ w = be1 n) := by
  refine ((Parses.take 1).bind fun x => Parses.pure _).congr ?_
  intro n w
  constructor
  · rintro ⟨a, w1, w2, rfl, ⟨rfl, h⟩, rfl, rfl⟩
    match a, h with
    | [x], _ =>
      have := x.toNat_lt
      refine ⟨by simpa using this, ?_⟩
      simp only [List.foldl, List.append_nil, be1]
      rw [ofNat_add]
  · rintro ⟨h, rfl⟩
    refine ⟨be1 n, be1 n, [], by simp, ⟨rfl, rfl⟩, ?_, rfl⟩
    simp only [be1, List.foldl, toNat_ofNat_mod]
    omega

theorem Parses.u2 : Parses u2 (fun n w => Num n w) := by
  refine ((Parses.take 2).bind fun x => Parses.pure _).congr ?_
  intro n w
  constructor
  · rintro ⟨a, w1, w2, rfl, ⟨rfl, h⟩, rfl, rfl⟩
    match a, h with
    | [x, y], _ =>
      have h1 := x.toNat_lt
      have h2 := y.toNat_lt
      simp only [Num, List.foldl, List.append_nil, be2]
      refine ⟨by omega, ?_⟩
      rw [ofNat_add, show (256 * (256 * 0 + x.toNat) + y.toNat) / 256 = 256 * 0 + x.toNat by omega, ofNat_add]
  · rintro ⟨h, rfl⟩
    refine ⟨be2 n, be2 n, [], by simp, ⟨rfl, rfl⟩, ?_, rfl⟩
    simp only [be2, List.foldl, toNat_ofNat_mod]
    omega

theorem Parses.u4 : Parses u4 (fun n w => n < 4294967296 ∧ w = be4 n) := by
  refine ((Parses.take 4).bind fun x => Parses.pure _).congr ?_
  intro n w
  constructor
  · rintro ⟨a, w1, w2, rfl, ⟨rfl, h⟩, rfl, rfl⟩
    match a, h with
    | [x, y, z, u], _ =>
      have h1 := x.toNat_lt
      have h2 := y.toNat_lt
      have h3 := z.toNat_lt
      have h4 := u.toNat_lt
      simp only [List.foldl, List.append_nil, be4]
      refine ⟨by omega, ?_⟩
      rw [ofNat_add,
        show (256 * (256 * (256 * (256 * 0 + x.toNat) + y.toNat) + z.toNat) + u.toNat) / 256 = 256 * (256 * (256 * 0 + x.toNat) + y.toNat) + z.toNat by omega, ofNat_add,
        show (256 * (256 * (256 * (256 * 0 + x.toNat) + y.toNat) + z.toNat) + u.toNat) / 65536 = 256 * (256 * 0 + x.toNat) + y.toNat by omega, ofNat_add,
        show (256 * (256 * (256 * (256 * 0 + x.toNat) + y.toNat) + z.toNat) + u.toNat) / 16777216 = 256 * 0 + x.toNat by omega, ofNat_add]
  · rintro ⟨h, rfl⟩
    refine ⟨be4 n, be4 n, [], by simp, ⟨rfl, rfl⟩, ?_, rfl⟩
    simp only [be4, List.foldl, toNat_ofNat_mod]
    omega

theorem Parses.count (maximum : Nat) : Parses (count maximum) (fun n w => n ≤ maximum ∧ Num n w) := by
  refine (Parses.u2.bind fun n => (Parses.must (n ≤ maximum)).bind fun _ => Parses.pure n).congr ?_
  intro n w
  constructor
  · rintro ⟨a, w1, w2, rfl, h, _, w3, w4, rfl, ⟨h1, rfl⟩, rfl, rfl⟩
    exact ⟨h1, by simpa using h⟩
  · rintro ⟨h1, h2⟩
    exact ⟨n, w, [], by simp, h2, (), [], [], rfl, ⟨h1, rfl⟩, rfl, rfl⟩

theorem Parses.times {α : Type} {p : P α} {G : α → Bytes → Prop} (h : Parses p G) (n : Nat) :
    Parses (times n p) (fun l w => l.length = n ∧ Seq G l w) := by
  induction n with
  | zero =>
    refine (Parses.pure []).congr ?_
    intro l w
    constructor
    · rintro ⟨rfl, rfl⟩
      exact ⟨rfl, .nil⟩
    · rintro ⟨h1, h2⟩
      cases h2 with
      | nil => exact ⟨rfl, rfl⟩
      | cons _ _ => simp at h1
  | succ n ih =>
    refine (h.bind fun a => ih.bind fun l => Parses.pure (a :: l)).congr ?_
    intro l w
    constructor
    · rintro ⟨a, w1, w2, rfl, h1, l', w3, w4, rfl, ⟨h2, h3⟩, rfl, rfl⟩
      rw [List.append_nil]
      exact ⟨by simp [h2], .cons h1 h3⟩
    · rintro ⟨h1, h2⟩
      cases h2 with
      | nil => simp at h1
      | @cons a l w w' h3 h4 =>
        exact ⟨a, w, w', rfl, h3, l, w', [], by simp, ⟨by simpa using h1, h4⟩, rfl, rfl⟩

theorem Parses.table {α : Type} {p : P α} {G : α → Bytes → Prop} (h : Parses p G) (maximum : Nat) :
    Parses (ClassFile.count maximum >>= fun n => ClassFile.times n p) (Table maximum G) := by
  refine ((Parses.count maximum).bind fun n => h.times n).congr ?_
  intro l w
  constructor
  · rintro ⟨n, w1, w2, rfl, ⟨h1, h2, rfl⟩, rfl, h4⟩
    exact ⟨h2, h1, w2, rfl, h4⟩
  · rintro ⟨h1, h2, w', rfl, h3⟩
    exact ⟨l.length, _, w', rfl, ⟨h2, h1, rfl⟩, rfl, h3⟩

theorem whole_iff {α : Type} {p : P α} {G : α → Bytes → Prop} (h : Parses p G) (b : Bytes) (a : α) :
    whole p b = some a ↔ G a b := by
  unfold whole
  have h1 := h b
  constructor
  · intro e
    split at e
    · rename_i x hx
      cases e
      obtain ⟨w, h2, h3⟩ := (h1 _ _).1 hx
      rw [List.append_nil] at h2
      exact h2 ▸ h3
    · cases e
  · intro g
    rw [(h1 a []).2 ⟨b, by simp, g⟩]

theorem Seq.congr {α : Type} {G G' : α → Bytes → Prop} {l : List α} {w : Bytes} (h : Seq G l w)
    (e : ∀ a w', a ∈ l → G a w' → G' a w') : Seq G' l w := by
  induction h with
  | nil => exact .nil
  | cons h1 _ ih => exact .cons (e _ _ List.mem_cons_self h1) (ih fun a w' ha => e a w' (List.mem_cons_of_mem _ ha))

theorem Table.congr {α : Type} {G G' : α → Bytes → Prop} {m : Nat} {l : List α} {w : Bytes} (h : Table m G l w)
    (e : ∀ a w', G a w' → G' a w') : Table m G' l w := by
  obtain ⟨h1, h2, w', h3, h4⟩ := h
  exact ⟨h1, h2, w', h3, h4.congr fun a w' _ => e a w'⟩

/-! ### Strings -/

theorem units_flatMap (us : List Nat) (h : ∀ u ∈ us, u < 65536) : units (us.flatMap unitBytes) = some us := by
  induction us with
  | nil => rfl
  | cons u us ih =>
    have hu := h u List.mem_cons_self
    have hr := ih fun x hx => h x (List.mem_cons_of_mem _ hx)
    rw [List.flatMap_cons]
    generalize us.flatMap unitBytes = b at hr
    unfold unitBytes
    split
    · rename_i h1
      simp only [List.cons_append, List.nil_append]
      rw [units.eq_def]
      simp only [toNat_ofNat_mod]
      rw [if_pos (by omega), hr]
      simp only [Option.map_some, Option.some.injEq, List.cons.injEq, and_true]
      omega
    · rename_i h1
      split
      · rename_i h2
        simp only [List.cons_append, List.nil_append]
        rw [units.eq_def]
        simp only [toNat_ofNat_mod]
        rw [if_neg (by omega)]
        by_cases h0 : u = 0
        · rw [if_pos (by omega), if_pos (by omega), hr, h0]
          rfl
        · rw [if_neg (by omega), if_pos (by omega), if_pos (by omega), hr]
          simp only [Option.map_some, Option.some.injEq, List.cons.injEq, and_true]
          omega
      · rename_i h2
        simp only [List.cons_append, List.nil_append]
        rw [units.eq_def]
        simp only [toNat_ofNat_mod]
        rw [if_neg (by omega), if_neg (by omega), if_neg (by omega), if_pos (by omega), if_neg (by omega), hr]
        simp only [Option.map_some, Option.some.injEq, List.cons.injEq, and_true]
        omega

theorem byte_eq {n : Nat} {x : UInt8} (h : n % 256 = x.toNat) : UInt8.ofNat n = x := by
  apply UInt8.toNat_inj.1
  rw [toNat_ofNat_mod, h]

theorem units_sound (n : Nat) : ∀ b : Bytes, b.length ≤ n → ∀ us, units b = some us → (∀ u ∈ us, u < 65536) ∧ b = us.flatMap unitBytes := by
  induction n with
  | zero =>
    intro b hb us h
    match b with
    | [] =>
      cases h
      exact ⟨by simp, rfl⟩
  | succ n ih =>
    intro b hb us h
    match b with
    | [] =>
      cases h
      exact ⟨by simp, rfl⟩
    | x :: b =>
      have hx := x.toNat_lt
      have key : ∀ (u : Nat) (b' : Bytes), b'.length ≤ n → u < 65536 → x :: b = unitBytes u ++ b' → (units b').map (u :: ·) = some us →
          (∀ u ∈ us, u < 65536) ∧ x :: b = us.flatMap unitBytes := by
        intro u b' hl hu e hm
        obtain ⟨l, hl', rfl⟩ := Option.map_eq_some_iff.1 hm
        obtain ⟨h2, h3⟩ := ih b' hl l hl'
        refine ⟨?_, ?_⟩
        · intro v hv
          rcases List.mem_cons.1 hv with rfl | hv
          · exact hu
          · exact h2 v hv
        · rw [e, List.flatMap_cons, ← h3]
      simp only [List.length_cons] at hb
      rw [units.eq_def] at h
      simp only at h
      split at h
      · rename_i h1
        refine key _ b (by omega) (by omega) ?_ h
        rw [unitBytes, if_pos (by omega), byte_eq (x := x) (by omega)]
        rfl
      · rename_i h1
        split at h
        · rename_i h2
          split at h
          · rename_i y b'
            simp only [List.length_cons] at hb
            split at h
            · rename_i h3
              refine key _ b' (by omega) (by omega) ?_ h
              rw [unitBytes, if_neg (by omega), if_pos (by omega), byte_eq (x := x) (by omega), byte_eq (x := y) (by omega)]
              rfl
            · cases h
          · cases h
        · split at h
          · rename_i h2 h3
            split at h
            · rename_i y b'
              have hy := y.toNat_lt
              simp only [List.length_cons] at hb
              split at h
              · rename_i h4
                refine key _ b' (by omega) (by omega) ?_ h
                rw [unitBytes, if_neg (by omega), if_pos (by omega), byte_eq (x := x) (by omega), byte_eq (x := y) (by omega)]
                rfl
              · cases h
            · cases h
          · split at h
            · rename_i h2 h3 h4
              split at h
              · rename_i y z b'
                have hy := y.toNat_lt
                have hz := z.toNat_lt
                simp only [List.length_cons] at hb
                split at h
                · cases h
                · rename_i h5
                  have h6 : y.toNat / 64 = 2 ∧ z.toNat / 64 = 2 ∧ (x.toNat = 0xe0 → 0xa0 ≤ y.toNat) := by omega
                  obtain ⟨h6, h7, h8⟩ := h6
                  refine key _ b' (by omega) (by omega) ?_ h
                  rw [unitBytes, if_neg (by omega), if_neg (by omega), byte_eq (x := x) (by omega), byte_eq (x := y) (by omega),
                    byte_eq (x := z) (by omega)]
                  rfl
              · cases h
            · cases h

/-- The units of bytes are those whose bytes they are. -/
theorem units_iff (b : Bytes) (us : List Nat) : units b = some us ↔ (∀ u ∈ us, u < 65536) ∧ b = us.flatMap unitBytes := by
  constructor
  · exact units_sound b.length b (Nat.le_refl _) us
  · rintro ⟨h, rfl⟩
    exact units_flatMap us h

theorem toNat_ofNat_char {n : Nat} (h : n < 0xd800 ∨ (0xdfff < n ∧ n < 0x110000)) : (Char.ofNat n).toNat = n := by
  have hv : n.isValidChar := h
  unfold Char.ofNat
  rw [dif_pos hv]
  rfl

theorem char_bounds (c : Char) : c.toNat < 0xd800 ∨ (0xdfff < c.toNat ∧ c.toNat < 0x110000) := c.valid

theorem char_ofNat_toNat (c : Char) : Char.ofNat c.toNat = c := by simp

theorem fromUtf16_flatMap (s : Str) : fromUtf16 (s.flatMap utf16) = some s := by
  induction s with
  | nil => rfl
  | cons c s ih =>
    have hc := char_bounds c
    rw [List.flatMap_cons]
    generalize s.flatMap utf16 = l at ih
    unfold utf16
    split
    · simp only [List.cons_append, List.nil_append]
      rw [fromUtf16.eq_def]
      simp only
      rw [if_pos (by omega), ih, char_ofNat_toNat]
      rfl
    · simp only [List.cons_append, List.nil_append]
      rw [fromUtf16.eq_def]
      simp only
      rw [if_neg (by omega), if_pos (by omega), if_pos (by omega), ih,
        show 0x10000 + (0xd800 + (c.toNat - 0x10000) / 1024 - 0xd800) * 1024 + (0xdc00 + (c.toNat - 0x10000) % 1024 - 0xdc00) = c.toNat by omega,
        char_ofNat_toNat]
      rfl

theorem fromUtf16_sound (n : Nat) : ∀ us : List Nat, us.length ≤ n → (∀ u ∈ us, u < 65536) → ∀ s, fromUtf16 us = some s → us = s.flatMap utf16 := by
  induction n with
  | zero =>
    intro us hl hu s h
    match us with
    | [] =>
      cases h
      rfl
  | succ n ih =>
    intro us hl hu s h
    match us with
    | [] =>
      cases h
      rfl
    | u :: l =>
      have h0 := hu u List.mem_cons_self
      have hr : ∀ x ∈ l, x < 65536 := fun x hx => hu x (List.mem_cons_of_mem _ hx)
      simp only [List.length_cons] at hl
      rw [fromUtf16.eq_def] at h
      simp only at h
      split at h
      · rename_i h1
        obtain ⟨t, ht, rfl⟩ := Option.map_eq_some_iff.1 h
        rw [List.flatMap_cons, ← ih l (by omega) hr t ht, utf16, toNat_ofNat_char (by omega), if_pos (by omega)]
        rfl
      · split at h
        · split at h
          · rename_i v l'
            simp only [List.length_cons] at hl
            split at h
            · obtain ⟨t, ht, rfl⟩ := Option.map_eq_some_iff.1 h
              rw [List.flatMap_cons, ← ih l' (by omega) (fun x hx => hr x (List.mem_cons_of_mem _ hx)) t ht, utf16, toNat_ofNat_char (by omega),
                if_neg (by omega)]
              simp only [List.cons_append, List.nil_append, List.cons.injEq, and_true]
              omega
            · cases h
          · cases h
        · cases h

theorem fromUtf16_iff {us : List Nat} (hu : ∀ u ∈ us, u < 65536) (s : Str) : fromUtf16 us = some s ↔ us = s.flatMap utf16 := by
  constructor
  · exact fromUtf16_sound us.length us (Nat.le_refl _) hu s
  · rintro rfl
    exact fromUtf16_flatMap s

theorem decode_iff (b : Bytes) (o : Option Str) : decode b = some o ↔ IsText o b := by
  unfold decode IsText
  rw [Option.map_eq_some_iff]
  constructor
  · rintro ⟨us, h1, rfl⟩
    obtain ⟨h2, h3⟩ := (units_iff b us).1 h1
    exact ⟨us, h2, h3, fun s => fromUtf16_iff h2 s⟩
  · rintro ⟨us, h1, h2, h3⟩
    refine ⟨us, (units_iff b us).2 ⟨h1, h2⟩, ?_⟩
    cases ho : fromUtf16 us with
    | none =>
      cases o with
      | none => rfl
      | some s =>
        rw [(fromUtf16_iff h1 s).2 ((h3 s).1 rfl)] at ho
        cases ho
    | some s => exact ((h3 s).2 ((fromUtf16_iff h1 s).1 ho)).symm

/-! ### The constant pool -/

theorem Parses.ite {α : Type} {c : Prop} [Decidable c] {p q : P α} {G H : α → Bytes → Prop} (hp : c → Parses p G) (hq : ¬ c → Parses q H) :
    Parses (if c then p else q) (fun a w => (c ∧ G a w) ∨ (¬ c ∧ H a w)) := by
  intro b a r
  by_cases h : c
  · rw [if_pos h, hp h b a r]
    simp [h]
  · rw [if_neg h, hq h b a r]
    simp [h]

theorem Parses.skip {α : Type} {n : Nat} (a : α) : Parses (do let _ ← ClassFile.take n; Pure.pure a) (fun x w => x = a ∧ Raw n w) := by
  refine ((Parses.take n).bind fun _ => Parses.pure a).congr ?_
  intro x w
  constructor
  · rintro ⟨b, w1, w2, rfl, ⟨rfl, h⟩, rfl, rfl⟩
    exact ⟨rfl, by simpa using h⟩
  · rintro ⟨rfl, h⟩
    exact ⟨w, w, [], by simp, ⟨rfl, h⟩, rfl, rfl⟩

theorem Parses.mapU2 {α : Type} (f : Nat → α) : Parses (do let i ← ClassFile.u2; Pure.pure (f i)) (fun x w => ∃ i, i < 65536 ∧ w = be2 i ∧ x = f i) := by
  refine (Parses.u2.bind fun i => Parses.pure (f i)).congr ?_
  intro x w
  constructor
  · rintro ⟨i, w1, w2, rfl, ⟨h, rfl⟩, rfl, rfl⟩
    exact ⟨i, h, by simp, rfl⟩
  · rintro ⟨i, h, rfl, rfl⟩
    exact ⟨i, _, [], by simp, ⟨h, rfl⟩, rfl, rfl⟩

theorem Parses.text : Parses (do let n ← ClassFile.u2; let b ← ClassFile.take n; let s ← ClassFile.lift (decode b); Pure.pure (Const.utf8 s, false))
    (fun x w => ∃ o b, x = (.utf8 o, false) ∧ w = be2 b.length ++ b ∧ b.length < 65536 ∧ IsText o b) := by
  refine (Parses.u2.bind fun n => (Parses.take n).bind fun b => (Parses.lift (decode b)).bind fun s => Parses.pure (Const.utf8 s, false)).congr ?_
  intro x w
  constructor
  · rintro ⟨n, w1, w2, rfl, ⟨h, rfl⟩, b, w3, w4, rfl, ⟨rfl, rfl⟩, o, w5, w6, rfl, ⟨h1, rfl⟩, rfl, rfl⟩
    exact ⟨o, b, rfl, by simp, h, (decode_iff b o).1 h1⟩
  · rintro ⟨o, b, rfl, rfl, h1, h2⟩
    exact ⟨b.length, _, b, rfl, ⟨h1, rfl⟩, b, b, [], by simp, ⟨rfl, rfl⟩, o, [], [], rfl, ⟨(decode_iff b o).2 h2, rfl⟩, rfl, rfl⟩

/-- One constant and whether it is wide. -/
def OneConst (x : Const × Bool) (w : Bytes) : Prop :=
  (x.2 = false ∧ IsConst x.1 w) ∨ ∃ tag b, x = (.other, true) ∧ (tag = 5 ∨ tag = 6) ∧ w = be1 tag ++ b ∧ Raw 8 b

theorem Parses.constant : Parses constant OneConst := by
  refine (Parses.u1.bind fun tag =>
    Parses.ite (fun _ => Parses.text) fun _ =>
    Parses.ite (fun _ => Parses.skip _) fun _ =>
    Parses.ite (fun _ => Parses.skip _) fun _ =>
    Parses.ite (fun _ => Parses.mapU2 fun i => (Const.cls i, false)) fun _ =>
    Parses.ite (fun _ => Parses.mapU2 fun i => (Const.module i, false)) fun _ =>
    Parses.ite (fun _ => Parses.skip _) fun _ =>
    Parses.ite (fun _ => Parses.skip _) fun _ =>
    Parses.ite (fun _ => Parses.skip _) fun _ => Parses.fail).congr ?_
  rintro ⟨c, wide⟩ w
  constructor
  · rintro ⟨tag, w1, w2, rfl, ⟨ht, rfl⟩, h⟩
    rcases h with ⟨rfl, o, b, e, rfl, h1, h2⟩ | ⟨_, h⟩
    · cases e
      rw [← List.append_assoc]
      exact .inl ⟨rfl, .text h1 h2⟩
    rcases h with ⟨h1, e, h2⟩ | ⟨_, h⟩
    · cases e
      refine .inl ⟨rfl, .plain (n := 4) ?_ h2⟩
      rcases h1 with rfl | rfl <;> decide
    rcases h with ⟨h1, e, h2⟩ | ⟨_, h⟩
    · cases e
      exact .inr ⟨tag, w2, rfl, h1, rfl, h2⟩
    rcases h with ⟨rfl, i, hi, rfl, e⟩ | ⟨_, h⟩
    · cases e
      exact .inl ⟨rfl, .cls hi⟩
    rcases h with ⟨rfl, i, hi, rfl, e⟩ | ⟨_, h⟩
    · cases e
      exact .inl ⟨rfl, .module hi⟩
    rcases h with ⟨h1, e, h2⟩ | ⟨_, h⟩
    · cases e
      refine .inl ⟨rfl, .plain (n := 2) ?_ h2⟩
      rcases h1 with rfl | rfl | rfl <;> decide
    rcases h with ⟨h1, e, h2⟩ | ⟨_, h⟩
    · cases e
      refine .inl ⟨rfl, .plain (n := 4) ?_ h2⟩
      rcases h1 with rfl | rfl | rfl | rfl | rfl | rfl <;> decide
    rcases h with ⟨rfl, e, h2⟩ | ⟨_, h⟩
    · cases e
      exact .inl ⟨rfl, .plain (n := 3) (by decide) h2⟩
    exact h.elim
  · rintro (⟨e, h⟩ | ⟨tag, b, e, ht, rfl, h⟩)
    · simp only at e
      subst e
      cases h with
      | text h1 h2 =>
        rw [List.append_assoc]
        exact ⟨1, _, _, rfl, ⟨by decide, rfl⟩, .inl ⟨rfl, _, _, rfl, rfl, h1, h2⟩⟩
      | cls hi =>
        refine ⟨7, _, _, rfl, ⟨by decide, rfl⟩, ?_⟩
        simp [hi]
      | module hi =>
        refine ⟨19, _, _, rfl, ⟨by decide, rfl⟩, ?_⟩
        simp [hi]
      | @plain tag n b h1 h2 =>
        refine ⟨tag, _, _, rfl, ⟨?_, rfl⟩, ?_⟩
        · simp only [plainTags, List.mem_cons, Prod.mk.injEq, List.not_mem_nil, or_false] at h1
          omega
        · simp only [plainTags, List.mem_cons, Prod.mk.injEq, List.not_mem_nil, or_false] at h1
          rcases h1 with h1 | h1 | h1 | h1 | h1 | h1 | h1 | h1 | h1 | h1 | h1 | h1 <;> obtain ⟨rfl, rfl⟩ := h1 <;> simp [h2]
    · cases e
      refine ⟨tag, _, _, rfl, ⟨by omega, rfl⟩, ?_⟩
      rcases ht with rfl | rfl <;> simp [h]

theorem Parses.constants (n : Nat) : Parses (constants n) (fun l w => l.length = n ∧ Consts l w) := by
  induction n using Nat.strongRecOn with
  | _ n ih =>
    match n with
    | 0 =>
      refine (Parses.pure []).congr ?_
      intro l w
      constructor
      · rintro ⟨rfl, rfl⟩
        exact ⟨rfl, .nil⟩
      · rintro ⟨h1, h2⟩
        cases h2 with
        | nil => exact ⟨rfl, rfl⟩
        | one _ _ => simp at h1
        | wide _ _ _ => simp at h1
    | 1 =>
      refine (Parses.constant.bind fun c => (Parses.must (c.2 = false)).bind fun _ => Parses.pure [c.1]).congr ?_
      intro l w
      constructor
      · rintro ⟨⟨c, wide⟩, w1, w2, rfl, h, _, w3, w4, rfl, ⟨h1, rfl⟩, rfl, rfl⟩
        simp only at h1
        subst h1
        rcases h with ⟨_, h⟩ | ⟨_, _, h, _⟩
        · exact ⟨rfl, .one h .nil⟩
        · simp at h
      · rintro ⟨h1, h2⟩
        cases h2 with
        | nil => simp at h1
        | @one c l w w' h3 h4 =>
          cases h4 with
          | nil => exact ⟨(c, false), w, [], rfl, .inl ⟨rfl, h3⟩, (), [], [], rfl, ⟨rfl, rfl⟩, rfl, rfl⟩
          | one _ _ => simp at h1
          | wide _ _ _ => simp at h1
        | wide _ _ _ => simp at h1
    | n + 2 =>
      refine (Parses.constant.bind fun c => Parses.ite (fun _ => (ih n (by omega)).bind fun l => Parses.pure (.other :: c.1 :: l))
        (fun _ => (ih (n + 1) (by omega)).bind fun l => Parses.pure (c.1 :: l))).congr ?_
      intro l w
      constructor
      · rintro ⟨⟨c, wide⟩, w1, w2, rfl, h, h' | h'⟩
        · obtain ⟨h1, l', w3, w4, rfl, ⟨h2, h3⟩, rfl, rfl⟩ := h'
          simp only at h1
          subst h1
          rcases h with ⟨h, _⟩ | ⟨tag, b, e, ht, rfl, hb⟩
          · cases h
          · cases e
            rw [List.append_nil]
            exact ⟨by simp [h2], .wide ht hb h3⟩
        · obtain ⟨h1, l', w3, w4, rfl, ⟨h2, h3⟩, rfl, rfl⟩ := h'
          rcases h with ⟨_, h⟩ | ⟨_, _, e, _⟩
          · rw [List.append_nil]
            exact ⟨by simp [h2], .one h h3⟩
          · cases e
            exact absurd rfl h1
      · rintro ⟨h1, h2⟩
        cases h2 with
        | nil => simp at h1
        | @one c l w w' h3 h4 =>
          exact ⟨(c, false), w, w', rfl, .inl ⟨rfl, h3⟩, .inr ⟨by simp, l, w', [], by simp, ⟨by simpa using h1, h4⟩, rfl, rfl⟩⟩
        | @wide tag b w' l h3 h4 h5 =>
          exact ⟨(.other, true), be1 tag ++ b, w', rfl, .inr ⟨tag, b, rfl, h3, rfl, h4⟩,
            .inl ⟨rfl, l, w', [], by simp, ⟨by simpa using h1, h5⟩, rfl, rfl⟩⟩

theorem Parses.constantPool (L : Limits) : Parses (constantPool L) (IsPool L) := by
  refine (Parses.u2.bind fun n => (Parses.must (n ≠ 0)).bind fun _ => (Parses.must (n ≤ L.pool)).bind fun _ =>
    (Parses.constants (n - 1)).bind fun l => Parses.pure (.unusable :: l)).congr ?_
  intro cp w
  constructor
  · rintro ⟨n, w1, w2, rfl, ⟨h, rfl⟩, _, w3, w4, rfl, ⟨h1, rfl⟩, _, w5, w6, rfl, ⟨h2, rfl⟩, l, w7, w8, rfl, ⟨h3, h4⟩, rfl, rfl⟩
    have e : (Const.unusable :: l).length = n := by simp only [List.length_cons]; omega
    refine ⟨by omega, by omega, l, w7, rfl, ?_, h4⟩
    rw [e]
    simp
  · rintro ⟨h1, h2, l, w', rfl, rfl, h3⟩
    exact ⟨_, _, w', rfl, ⟨h1, rfl⟩, (), [], w', rfl, ⟨by simp, rfl⟩, (), [], w', rfl, ⟨h2, rfl⟩, l, w', [], by simp, ⟨by simp, h3⟩, rfl, rfl⟩

theorem entry_iff (cp : Pool) (i : Nat) (c : Const) : cp.entry i = some c ↔ 0 < i ∧ cp[i]? = some c := by
  unfold Pool.entry
  split
  · simp; omega
  · rename_i h
    exact ⟨fun e => ⟨by omega, e⟩, fun e => e.2⟩

theorem utf8_iff (cp : Pool) (i : Nat) (s : Str) : cp.utf8 i = some s ↔ TextAt cp i s := by
  unfold TextAt
  rw [← entry_iff]
  unfold Pool.utf8
  split
  · rename_i t h
    rw [h]
    simp
  · rename_i h
    constructor
    · intro e; cases e
    · intro e; exact absurd e (h s)

theorem className_iff (cp : Pool) (i : Nat) (s : Str) : cp.className i = some s ↔ ClassAt cp i s := by
  have : ClassAt cp i s ↔ ∃ j, cp.entry i = some (.cls j) ∧ TextAt cp j s := by
    unfold ClassAt
    simp only [entry_iff]
    constructor
    · rintro ⟨h, j, h1, h2⟩; exact ⟨j, ⟨h, h1⟩, h2⟩
    · rintro ⟨j, ⟨h, h1⟩, h2⟩; exact ⟨h, j, h1, h2⟩
  rw [this]
  unfold Pool.className
  split
  · rename_i j h
    rw [h, utf8_iff]
    constructor
    · intro e; exact ⟨j, rfl, e⟩
    · rintro ⟨k, hk, e⟩; cases hk; exact e
  · rename_i h
    constructor
    · intro e; cases e
    · rintro ⟨j, e, _⟩; exact absurd e (h j)

theorem moduleName_iff (cp : Pool) (i : Nat) (s : Str) : cp.moduleName i = some s ↔ ModuleAt cp i s := by
  have : ModuleAt cp i s ↔ ∃ j, cp.entry i = some (.module j) ∧ TextAt cp j s := by
    unfold ModuleAt
    simp only [entry_iff]
    constructor
    · rintro ⟨h, j, h1, h2⟩; exact ⟨j, ⟨h, h1⟩, h2⟩
    · rintro ⟨j, ⟨h, h1⟩, h2⟩; exact ⟨h, j, h1, h2⟩
  rw [this]
  unfold Pool.moduleName
  split
  · rename_i j h
    rw [h, utf8_iff]
    constructor
    · intro e; exact ⟨j, rfl, e⟩
    · rintro ⟨k, hk, e⟩; cases hk; exact e
  · rename_i h
    constructor
    · intro e; cases e
    · rintro ⟨j, e, _⟩; exact absurd e (h j)

theorem Parses.ref {α : Type} {f : Nat → Option α} {A : Nat → α → Prop} (h : ∀ i a, f i = some a ↔ A i a) :
    Parses (do let i ← ClassFile.u2; ClassFile.lift (f i)) (Ref A) := by
  refine (Parses.u2.bind fun i => Parses.lift (f i)).congr ?_
  intro a w
  constructor
  · rintro ⟨i, w1, w2, rfl, ⟨h1, rfl⟩, h2, rfl⟩
    exact ⟨i, h1, by simp, (h i a).1 h2⟩
  · rintro ⟨i, h1, rfl, h2⟩
    exact ⟨i, _, [], by simp, ⟨h1, rfl⟩, (h i a).2 h2, rfl⟩

theorem Parses.utf8Ref (cp : Pool) : Parses (utf8Ref cp) (Ref (TextAt cp)) := Parses.ref (utf8_iff cp)
theorem Parses.classRef (cp : Pool) : Parses (classRef cp) (Ref (ClassAt cp)) := Parses.ref (className_iff cp)

theorem Parses.optionalRef {α : Type} {f : Nat → Option α} {A : Nat → α → Prop} (h : ∀ i a, f i = some a ↔ A i a) :
    Parses (optionalRef f) (OptRef A) := by
  refine (Parses.u2.bind fun i => Parses.ite (fun _ => Parses.pure none) (fun _ => (Parses.lift (f i)).bind fun a => Parses.pure (some a))).congr ?_
  intro o w
  constructor
  · rintro ⟨i, w1, w2, rfl, ⟨h1, rfl⟩, ⟨rfl, rfl, rfl⟩ | ⟨h2, a, w3, w4, rfl, ⟨h3, rfl⟩, rfl, rfl⟩⟩
    · exact .inl ⟨rfl, by simp⟩
    · exact .inr ⟨a, i, rfl, by omega, h1, by simp, (h i a).1 h3⟩
  · rintro (⟨rfl, rfl⟩ | ⟨a, i, rfl, h1, h2, rfl, h3⟩)
    · exact ⟨0, _, [], by simp, ⟨by decide, rfl⟩, .inl ⟨rfl, rfl, rfl⟩⟩
    · exact ⟨i, _, [], by simp, ⟨h2, rfl⟩, .inr ⟨by omega, a, [], [], rfl, ⟨(h i a).2 h3, rfl⟩, rfl, rfl⟩⟩

theorem isField_iff (d : Str) : isField d = true ↔ IsFieldDescriptor d := by
  unfold isField IsFieldDescriptor
  constructor
  · intro h
    split at h
    · rename_i t ht
      obtain ⟨h1, h2⟩ := (c37_field (d := utf8 d) ⟨d, rfl⟩ t).1 ht
      exact ⟨t, h1, h2⟩
    · cases h
  · rintro ⟨t, h1, h2⟩
    rw [(c37_field (d := utf8 d) ⟨d, rfl⟩ t).2 ⟨h1, h2⟩]

theorem methodType_iff (d : Str) (m : MethodDescriptor) : methodType d = some m ↔ IsMethodDescriptor d m := by
  unfold methodType IsMethodDescriptor
  rw [← c37_method (d := utf8 d) ⟨d, rfl⟩ m]
  split
  · rename_i x hx
    rw [hx]
    simp
  · rename_i h
    constructor
    · intro e; cases e
    · intro e; exact absurd e (h m)

end Verif.ClassFile
