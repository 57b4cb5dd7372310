import Verif.Spec.Archive
import Verif.Lemmas.ClassFile

/-! The central directory. -/
namespace Verif.Archive

open ClassFile (Bytes Str Seq)

theorem app_split {α : Type} {a b c d : List α} (h : a ++ b = c ++ d) (hl : a.length ≤ c.length) : ∃ x, c = a ++ x ∧ b = x ++ d := by
  rcases List.append_eq_append_iff.1 h with ⟨x, h1, h2⟩ | ⟨x, h1, h2⟩
  · exact ⟨x, h1, h2⟩
  · have : x = [] := by
      rw [h1, List.length_append] at hl
      exact List.length_eq_zero_iff.1 (by omega)
    subst this
    exact ⟨[], by simpa using h1.symm, by simpa using h2.symm⟩

theorem slice_iff {b : Bytes} {o n : Nat} {w : Bytes} : slice b o n = some w ↔ ∃ p s, b = p ++ (w ++ s) ∧ p.length = o ∧ w.length = n := by
  unfold slice
  constructor
  · intro h
    split at h
    · next hl =>
      cases h
      refine ⟨b.take o, (b.drop o).drop n, ?_, ?_, ?_⟩
      · rw [List.take_append_drop, List.take_append_drop]
      · rw [List.length_take]; omega
      · rw [List.length_take, List.length_drop]; omega
    · cases h
  · rintro ⟨p, s, rfl, rfl, rfl⟩
    rw [if_pos (by simp only [List.length_append]; omega)]
    simp

theorem le2_length (n : Nat) : (le2 n).length = 2 := rfl
theorem le4_length (n : Nat) : (le4 n).length = 4 := rfl

theorem ofNat_eq {n : Nat} {x : UInt8} (h : n % 256 = x.toNat) : UInt8.ofNat n = x := by
  apply UInt8.toNat_inj.1
  rw [ClassFile.toNat_ofNat_mod, h]

theorem read2_iff {b : Bytes} {o n : Nat} : read2 b o = some n ↔ n < 65536 ∧ ∃ p s, b = p ++ (le2 n ++ s) ∧ p.length = o := by
  unfold read2 number
  simp only [Option.map_eq_some_iff, slice_iff]
  constructor
  · rintro ⟨w, ⟨p, s, rfl, rfl, hw⟩, rfl⟩
    match w, hw with
    | [x, y], _ =>
      have hx := UInt8.toNat_lt x
      have hy := UInt8.toNat_lt y
      simp only [List.foldr]
      refine ⟨by omega, p, s, ?_, rfl⟩
      rw [le2, ofNat_eq (x := x) (by omega), ofNat_eq (x := y) (by omega)]
  · rintro ⟨hn, p, s, rfl, rfl⟩
    refine ⟨le2 n, ⟨p, s, rfl, rfl, rfl⟩, ?_⟩
    simp only [le2, List.foldr, ClassFile.toNat_ofNat_mod]
    omega

theorem read4_iff {b : Bytes} {o n : Nat} : read4 b o = some n ↔ n < 4294967296 ∧ ∃ p s, b = p ++ (le4 n ++ s) ∧ p.length = o := by
  unfold read4 number
  simp only [Option.map_eq_some_iff, slice_iff]
  constructor
  · rintro ⟨w, ⟨p, s, rfl, rfl, hw⟩, rfl⟩
    match w, hw with
    | [x, y, z, u], _ =>
      have hx := UInt8.toNat_lt x
      have hy := UInt8.toNat_lt y
      have hz := UInt8.toNat_lt z
      have hu := UInt8.toNat_lt u
      simp only [List.foldr]
      refine ⟨by omega, p, s, ?_, rfl⟩
      rw [le4, ofNat_eq (x := x) (by omega), ofNat_eq (x := y) (by omega), ofNat_eq (x := z) (by omega), ofNat_eq (x := u) (by omega)]
  · rintro ⟨hn, p, s, rfl, rfl⟩
    refine ⟨le4 n, ⟨p, s, rfl, rfl, rfl⟩, ?_⟩
    simp only [le4, List.foldr, ClassFile.toNat_ofNat_mod]
    omega

/-- The parts of a record lie one after the other. -/
theorem next {b p s q t w v : Bytes} (h1 : b = p ++ (w ++ s)) (h2 : b = q ++ (v ++ t)) (hl : p.length + w.length ≤ q.length) :
    ∃ x, q = p ++ (w ++ x) ∧ s = x ++ (v ++ t) ∧ x.length = q.length - p.length - w.length := by
  have h3 : (p ++ w) ++ s = q ++ (v ++ t) := by rw [List.append_assoc, ← h1, h2]
  obtain ⟨x, hx, hs⟩ := app_split h3 (by rw [List.length_append]; omega)
  refine ⟨x, by rw [hx, List.append_assoc], hs, ?_⟩
  rw [hx]
  simp only [List.length_append]
  omega

theorem isEnd_iff {b : Bytes} {o : Nat} : isEnd b o = true ↔ ∃ p s, b = p ++ s ∧ p.length = o ∧ LooksLikeEnd s := by
  unfold isEnd
  rw [Bool.and_eq_true, decide_eq_true_eq, slice_iff]
  constructor
  · rintro ⟨⟨p, s, hb, rfl, _⟩, h2⟩
    cases hr : read2 b (p.length + 20) with
    | none => rw [hr] at h2; cases h2
    | some n =>
      rw [hr] at h2
      simp only [decide_eq_true_eq] at h2
      obtain ⟨hn, q, t, hq, hl⟩ := read2_iff.1 hr
      obtain ⟨x, hx, hs, hxl⟩ := next hb hq (by simp only [List.length_cons, List.length_nil]; omega)
      refine ⟨p, _, hb, rfl, x, t, ?_, ?_, ?_⟩
      · rw [hxl, hl]; simp only [List.length_cons, List.length_nil]; omega
      · have := congrArg List.length hq
        simp only [List.length_append, le2_length] at this
        omega
      · have := congrArg List.length hq
        simp only [List.length_append, le2_length] at this
        rw [hs, show t.length = n by omega]
        simp only [List.append_assoc]
  · rintro ⟨p, s, rfl, rfl, x, c, hx, hc, rfl⟩
    refine ⟨⟨p, x ++ le2 c.length ++ c, by simp only [List.append_assoc], rfl, rfl⟩, ?_⟩
    have hr : read2 (p ++ ([0x50, 0x4b, 0x05, 0x06] ++ x ++ le2 c.length ++ c)) (p.length + 20) = some c.length := by
      rw [read2_iff]
      refine ⟨hc, p ++ ([0x50, 0x4b, 0x05, 0x06] ++ x), c, by simp only [List.append_assoc], ?_⟩
      simp only [List.length_append, List.length_cons, List.length_nil]; omega
    rw [hr]
    simp only [decide_eq_true_eq, List.length_append, List.length_cons, List.length_nil, le2_length]
    omega

theorem findRev_iff {p : Nat → Bool} {start n o : Nat} : findRev p start n = some o ↔ start ≤ o ∧ o ≤ n ∧ p o = true ∧ ∀ k, o < k → k ≤ n → p k = false := by
  induction n with
  | zero =>
    unfold findRev
    constructor
    · intro h
      split at h
      · next hs =>
        cases h
        exact ⟨by omega, Nat.le_refl _, hs.2, fun k h1 h2 => absurd h1 (by omega)⟩
      · cases h
    · rintro ⟨h1, h2, h3, _⟩
      have : o = 0 := by omega
      subst this
      rw [if_pos ⟨by omega, h3⟩]
  | succ n ih =>
    unfold findRev
    constructor
    · intro h
      split at h
      · cases h
      · split at h
        · next hp =>
          cases h
          exact ⟨by omega, Nat.le_refl _, hp, fun k h1 h2 => absurd h1 (by omega)⟩
        · next hp =>
          obtain ⟨h1, h2, h3, h4⟩ := ih.1 h
          refine ⟨h1, by omega, h3, ?_⟩
          intro k hk1 hk2
          by_cases e : k = n + 1
          · subst e; simpa using hp
          · exact h4 k hk1 (by omega)
    · rintro ⟨h1, h2, h3, h4⟩
      rw [if_neg (by omega)]
      by_cases e : o = n + 1
      · subst e
        rw [if_pos h3]
      · rw [if_neg (by rw [h4 (n + 1) (by omega) (Nat.le_refl _)]; simp)]
        exact ih.2 ⟨h1, by omega, h3, fun k hk1 hk2 => h4 k hk1 (by omega)⟩

theorem looks_length {w : Bytes} (h : LooksLikeEnd w) : 22 ≤ w.length ∧ w.length < 22 + 65536 := by
  obtain ⟨x, c, hx, hc, rfl⟩ := h
  simp only [List.length_append, List.length_cons, List.length_nil, le2_length]
  omega

/-- The end record that is found is the last one. -/
theorem endRecord_iff {b : Bytes} {o : Nat} :
    endRecord b = some o ↔ ∃ p s, b = p ++ s ∧ p.length = o ∧ LooksLikeEnd s ∧ ∀ u v, s = u ++ v → u ≠ [] → ¬ LooksLikeEnd v := by
  unfold endRecord
  rw [findRev_iff]
  constructor
  · rintro ⟨h1, h2, h3, h4⟩
    obtain ⟨p, s, rfl, rfl, hs⟩ := isEnd_iff.1 h3
    refine ⟨p, s, rfl, rfl, hs, ?_⟩
    rintro u v rfl hu hv
    have hv' := looks_length hv
    have hul := List.length_pos_iff.2 hu
    have := h4 (p.length + u.length) (by omega) (by simp only [List.length_append]; omega)
    rw [Bool.eq_false_iff] at this
    exact this (isEnd_iff.2 ⟨p ++ u, v, by simp, by simp, hv⟩)
  · rintro ⟨p, s, rfl, rfl, hs, hlast⟩
    have hl := looks_length hs
    refine ⟨by simp only [List.length_append]; omega, by simp only [List.length_append]; omega, isEnd_iff.2 ⟨p, s, rfl, rfl, hs⟩, ?_⟩
    intro k hk _
    rw [Bool.eq_false_iff]
    intro he
    obtain ⟨q, t, hq, hql, ht⟩ := isEnd_iff.1 he
    obtain ⟨x, hx, hsx⟩ := app_split hq (by omega)
    refine hlast x t hsx ?_ ht
    rintro rfl
    rw [List.append_nil] at hx
    rw [hx] at hql
    omega

theorem header_length {name w : Bytes} (h : IsHeader name w) : 46 ≤ w.length := by
  obtain ⟨a, c, e, k, ha, hc, _, _, _, rfl⟩ := h
  simp only [List.length_append, List.length_cons, List.length_nil, le2_length]
  omega

/-- A header at an offset. -/
theorem header_iff {b : Bytes} {o nl el cl : Nat} {name : Bytes} (hend : o + 46 + nl + el + cl ≤ b.length) :
    (slice b o 4 = some [0x50, 0x4b, 0x01, 0x02] ∧ read2 b (o + 28) = some nl ∧ read2 b (o + 30) = some el ∧ read2 b (o + 32) = some cl ∧ slice b (o + 46) nl = some name) ↔
    ∃ p w s, b = p ++ (w ++ s) ∧ p.length = o ∧ w.length = 46 + nl + el + cl ∧ name.length = nl ∧ el < 65536 ∧ cl < 65536 ∧
      ∃ before after extra comment : Bytes, before.length = 24 ∧ after.length = 12 ∧ name.length < 65536 ∧ extra.length = el ∧ comment.length = cl ∧
      w = [0x50, 0x4b, 0x01, 0x02] ++ before ++ le2 name.length ++ le2 extra.length ++ le2 comment.length ++ after ++ name ++ extra ++ comment := by
  constructor
  · rintro ⟨h1, h2, h3, h4, h5⟩
    obtain ⟨p, s1, e1, hp, _⟩ := slice_iff.1 h1
    obtain ⟨n2, p2, s2, e2, l2⟩ := read2_iff.1 h2
    obtain ⟨n3, p3, s3, e3, l3⟩ := read2_iff.1 h3
    obtain ⟨n4, p4, s4, e4, l4⟩ := read2_iff.1 h4
    obtain ⟨p5, s5, e5, l5, hname⟩ := slice_iff.1 h5
    obtain ⟨x1, _, hs1, hx1⟩ := next e1 e2 (by simp only [List.length_cons, List.length_nil]; omega)
    obtain ⟨x2, _, hs2, hx2⟩ := next e2 e3 (by simp only [le2_length]; omega)
    obtain ⟨x3, _, hs3, hx3⟩ := next e3 e4 (by simp only [le2_length]; omega)
    obtain ⟨x4, _, hs4, hx4⟩ := next e4 e5 (by simp only [le2_length]; omega)
    simp only [le2_length, List.length_cons, List.length_nil] at hx1 hx2 hx3 hx4
    have x2e : x2 = [] := List.length_eq_zero_iff.1 (by omega)
    have x3e : x3 = [] := List.length_eq_zero_iff.1 (by omega)
    subst x2e x3e
    have hlen := congrArg List.length e5
    simp only [List.length_append] at hlen
    obtain ⟨ex, r1, hr1, hex⟩ : ∃ u v, s5 = u ++ v ∧ u.length = el := ⟨s5.take el, s5.drop el, by simp, by rw [List.length_take]; omega⟩
    have hr1l := congrArg List.length hr1
    simp only [List.length_append] at hr1l
    obtain ⟨co, r2, hr2, hco⟩ : ∃ u v, r1 = u ++ v ∧ u.length = cl := ⟨r1.take cl, r1.drop cl, by simp, by rw [List.length_take]; omega⟩
    refine ⟨p, [0x50, 0x4b, 0x01, 0x02] ++ x1 ++ le2 name.length ++ le2 ex.length ++ le2 co.length ++ x4 ++ name ++ ex ++ co, r2, ?_, hp, ?_, hname, n3, n4, x1, x4, ex, co,
      by omega, by omega, by omega, hex, hco, rfl⟩
    · rw [e1, hs1, hs2, hs3, hs4, hr1, hr2, hname, hex, hco]
      simp only [List.append_assoc, List.nil_append]
    · simp only [List.length_append, List.length_cons, List.length_nil, le2_length]
      omega
  · rintro ⟨p, w, s, rfl, rfl, hw, rfl, hel, hcl, a, f, e, c, ha, hf, hn, rfl, rfl, rfl⟩
    refine ⟨?_, ?_, ?_, ?_, ?_⟩
    · rw [slice_iff]
      exact ⟨p, a ++ le2 name.length ++ le2 e.length ++ le2 c.length ++ f ++ name ++ e ++ c ++ s, by simp only [List.append_assoc], rfl, rfl⟩
    · rw [read2_iff]
      refine ⟨hn, p ++ ([0x50, 0x4b, 0x01, 0x02] ++ a), le2 e.length ++ le2 c.length ++ f ++ name ++ e ++ c ++ s, by simp only [List.append_assoc], ?_⟩
      · simp only [List.length_append, List.length_cons, List.length_nil]; omega
    · rw [read2_iff]
      refine ⟨hel, p ++ ([0x50, 0x4b, 0x01, 0x02] ++ a ++ le2 name.length), le2 c.length ++ f ++ name ++ e ++ c ++ s, by simp only [List.append_assoc], ?_⟩
      · simp only [List.length_append, List.length_cons, List.length_nil, le2_length]; omega
    · rw [read2_iff]
      refine ⟨hcl, p ++ ([0x50, 0x4b, 0x01, 0x02] ++ a ++ le2 name.length ++ le2 e.length), f ++ name ++ e ++ c ++ s, by simp only [List.append_assoc], ?_⟩
      · simp only [List.length_append, List.length_cons, List.length_nil, le2_length]; omega
    · rw [slice_iff]
      refine ⟨p ++ ([0x50, 0x4b, 0x01, 0x02] ++ a ++ le2 name.length ++ le2 e.length ++ le2 c.length ++ f), e ++ c ++ s, by simp only [List.append_assoc], ?_, rfl⟩
      · simp only [List.length_append, List.length_cons, List.length_nil, le2_length]; omega

theorem walk_iff {b : Bytes} {eocd : Nat} (he : eocd ≤ b.length) : ∀ {n o : Nat} {seen : List Bytes},
    walk b eocd n o seen = some eocd ↔ ∃ names : List Bytes, names.length = n ∧ names.Nodup ∧ (∀ x ∈ names, x ∉ seen) ∧
      ∃ p hs s, b = p ++ (hs ++ s) ∧ p.length = o ∧ Seq IsHeader names hs ∧ o + hs.length = eocd := by
  intro n
  induction n with
  | zero =>
    intro o seen
    unfold walk
    constructor
    · intro h
      cases h
      exact ⟨[], rfl, List.nodup_nil, by simp, b.take eocd, [], b.drop eocd, by simp, by rw [List.length_take]; omega, .nil, by simp⟩
    · rintro ⟨names, hn, _, _, p, hs, s, rfl, rfl, hseq, hl⟩
      have : names = [] := List.length_eq_zero_iff.1 hn
      subst this
      cases hseq
      simp only [List.length_nil, Nat.add_zero] at hl
      rw [hl]
  | succ n ih =>
    intro o seen
    rw [walk]
    constructor
    · intro h
      split at h
      · cases h
      · next h1 =>
        simp only [ne_eq, not_not] at h1
        split at h
        · next nl el cl h2 h3 h4 =>
          split at h
          · cases h
          · next name h5 =>
            split at h
            · cases h
            · next hmem =>
              split at h
              · cases h
              · next hle =>
                obtain ⟨names, hn, hnd, hseen, p2, hs2, s2, e2, l2, hseq, hl⟩ := ih.1 h
                obtain ⟨p, w, s, e1, l1, hw, hname, hel, hcl, a, f, ex, c, ha, hf, hnm, rfl, rfl, ew⟩ := (header_iff (by omega)).1 ⟨h1, h2, h3, h4, h5⟩
                refine ⟨name :: names, by simp [hn], ?_, ?_, p, w ++ hs2, s2, ?_, l1, .cons ⟨a, f, ex, c, ha, hf, hnm, hel, hcl, ew⟩ hseq, ?_⟩
                · rw [List.nodup_cons]
                  exact ⟨fun hx => hseen name hx (by simp), hnd⟩
                · intro x hx
                  rcases List.mem_cons.1 hx with rfl | hx
                  · exact hmem
                  · exact fun hx' => hseen x hx (by simp [hx'])
                · obtain ⟨x, hx, hsx, hxl⟩ := next e1 e2 (by omega)
                  have : x = [] := List.length_eq_zero_iff.1 (by omega)
                  subst this
                  rw [e1, hsx]
                  simp only [List.append_assoc, List.nil_append]
                · rw [List.length_append]; omega
        · cases h
    · rintro ⟨names, hn, hnd, hseen, p, hs, s, rfl, rfl, hseq, hl⟩
      cases hseq with
      | nil => simp at hn
      | @cons name names w w' hh hseq =>
        obtain ⟨a, f, ex, c, ha, hf, hnm, hel, hcl, ew⟩ := hh
        have hwl : w.length = 46 + name.length + ex.length + c.length := by
          rw [ew]
          simp only [List.length_append, List.length_cons, List.length_nil, le2_length]
          omega
        simp only [List.length_append] at hl he
        obtain ⟨h1, h2, h3, h4, h5⟩ := (header_iff (b := p ++ (w ++ w' ++ s)) (o := p.length) (nl := name.length) (el := ex.length) (cl := c.length) (name := name)
          (by simp only [List.length_append]; omega)).2 ⟨p, w, w' ++ s, by simp only [List.append_assoc], rfl, hwl, rfl, hel, hcl, a, f, ex, c, ha, hf, hnm, rfl, rfl, ew⟩
        rw [List.nodup_cons] at hnd
        simp only [List.length_cons, Nat.add_right_cancel_iff] at hn
        rw [h1, h2, h3, h4]
        simp only [ne_eq, not_true, if_false, h5]
        rw [if_neg (hseen name (by simp)), if_neg (by omega)]
        apply ih.2
        refine ⟨names, hn, hnd.2, ?_, p ++ w, w', s, by simp only [List.append_assoc], by rw [List.length_append]; omega, hseq, by omega⟩
        intro x hx hx'
        rcases List.mem_cons.1 hx' with rfl | hx'
        · exact hnd.1 hx
        · exact hseen x (by simp [hx]) hx'

theorem directory_iff {b : Bytes} {m n : Nat} : directory b m = some n ↔ n ≤ m ∧ ∃ names, names.length = n ∧ IsZip names b := by
  unfold directory
  constructor
  · intro h
    split at h
    · cases h
    · next eocd he =>
      split at h
      · next d cd od t c h1 h2 h3 h4 h5 =>
        split at h
        · cases h
        · next hd =>
          split at h
          · cases h
          · next ht =>
            split at h
            · cases h
            · next hm =>
              split at h
              · next hw =>
                cases h
                refine ⟨by omega, ?_⟩
                obtain ⟨p, s, rfl, rfl, ⟨x, cm, hx, hcm, hs⟩, hlast⟩ := endRecord_iff.1 he
                obtain ⟨names, hn, hnd, _, p', hs', s', e', l', hseq, hl⟩ := (walk_iff (by simp)).1 hw
                obtain ⟨n1, p1, s1, e1, l1⟩ := read2_iff.1 h1
                obtain ⟨n2, p2, s2, e2, l2⟩ := read2_iff.1 h2
                obtain ⟨n3, p3, s3, e3, l3⟩ := read2_iff.1 h3
                obtain ⟨n4, p4, s4, e4, l4⟩ := read2_iff.1 h4
                obtain ⟨n5, p5, s5, e5, l5⟩ := read4_iff.1 h5
                have e0 : p ++ s = p ++ ([0x50, 0x4b, 0x05, 0x06] ++ (x ++ (le2 cm.length ++ cm))) := by rw [hs]; simp only [List.append_assoc]
                have e6 : p ++ s = (p ++ ([0x50, 0x4b, 0x05, 0x06] ++ x)) ++ (le2 cm.length ++ cm) := by rw [hs]; simp only [List.append_assoc]
                obtain ⟨y1, _, t1, k1⟩ := next e0 e1 (by simp only [List.length_cons, List.length_nil]; omega)
                obtain ⟨y2, _, t2, k2⟩ := next e1 e2 (by simp only [le2_length]; omega)
                obtain ⟨y3, _, t3, k3⟩ := next e2 e3 (by simp only [le2_length]; omega)
                obtain ⟨y4, _, t4, k4⟩ := next e3 e4 (by simp only [le2_length]; omega)
                obtain ⟨y5, _, t5, k5⟩ := next e4 e5 (by simp only [le2_length]; omega)
                obtain ⟨y6, _, t6, k6⟩ := next e5 e6 (by simp only [le4_length, List.length_append, List.length_cons, List.length_nil]; omega)
                simp only [le2_length, le4_length, List.length_append, List.length_cons, List.length_nil] at k1 k2 k3 k4 k5 k6
                have z1 : y1 = [] := List.length_eq_zero_iff.1 (by omega)
                have z2 : y2 = [] := List.length_eq_zero_iff.1 (by omega)
                have z3 : y3 = [] := List.length_eq_zero_iff.1 (by omega)
                have z4 : y4 = [] := List.length_eq_zero_iff.1 (by omega)
                have z6 : y6 = [] := List.length_eq_zero_iff.1 (by omega)
                subst z1 z2 z3 z4 z6
                have d0 : d = 0 := by omega
                have d1 : cd = 0 := by omega
                have d2 : od = n := by omega
                subst d0 d1 d2
                have hps : p = p' ++ hs' ∧ s = s' := by
                  have : p ++ s = (p' ++ hs') ++ s' := by rw [e']; simp only [List.append_assoc]
                  exact List.append_inj this (by rw [List.length_append]; omega)
                refine ⟨names, hn, p', hs', s, by rw [hps.1], hseq, ?_, hnd, by omega, hlast⟩
                refine ⟨y5, cm, by omega, hcm, by omega, by omega, ?_⟩
                have : x ++ (le2 cm.length ++ cm) = s.drop 4 := by rw [hs]; simp
                rw [hs]
                simp only [List.append_assoc] at t1 t2 t3 t4 t5 t6 ⊢
                rw [t1, t2, t3, t4, t5, t6, hn, l']
                simp only [List.append_assoc, List.nil_append]
              · cases h
      · cases h
  · rintro ⟨hm, names, rfl, before, hs, last, rfl, hseq, ⟨size, cm, hsz, hcm, hen, hoff, rfl⟩, hnd, hn, hlast⟩
    have he : endRecord (before ++ hs ++ ([0x50, 0x4b, 0x05, 0x06] ++ le2 0 ++ le2 0 ++ le2 names.length ++ le2 names.length ++ size ++ le4 before.length ++ le2 cm.length ++ cm)) =
        some (before ++ hs).length := by
      rw [endRecord_iff]
      refine ⟨_, _, rfl, rfl, ?_, hlast⟩
      refine ⟨le2 0 ++ le2 0 ++ le2 names.length ++ le2 names.length ++ size ++ le4 before.length, cm, ?_, hcm, by simp only [List.append_assoc]⟩
      simp only [List.length_append, le2_length, le4_length]
      omega
    rw [he]
    simp only
    have r : ∀ (pre : Bytes) (k : Nat) (post : Bytes) (o : Nat), k < 65536 →
        [0x50, 0x4b, 0x05, 0x06] ++ le2 0 ++ le2 0 ++ le2 names.length ++ le2 names.length ++ size ++ le4 before.length ++ le2 cm.length ++ cm = pre ++ (le2 k ++ post) →
        o = pre.length →
        read2 (before ++ hs ++ ([0x50, 0x4b, 0x05, 0x06] ++ le2 0 ++ le2 0 ++ le2 names.length ++ le2 names.length ++ size ++ le4 before.length ++ le2 cm.length ++ cm)) ((before ++ hs).length + o) = some k := by
      intro pre k post o hk e ho
      rw [read2_iff, e]
      exact ⟨hk, before ++ hs ++ pre, post, by simp only [List.append_assoc], by rw [ho]; simp only [List.length_append]⟩
    rw [r [0x50, 0x4b, 0x05, 0x06] 0 _ 4 (by omega) (by simp only [List.append_assoc]; rfl) rfl]
    rw [r ([0x50, 0x4b, 0x05, 0x06] ++ le2 0) 0 _ 6 (by omega) (by simp only [List.append_assoc]; rfl) rfl]
    rw [r ([0x50, 0x4b, 0x05, 0x06] ++ le2 0 ++ le2 0) names.length _ 8 hen (by simp only [List.append_assoc]; rfl) rfl]
    rw [r ([0x50, 0x4b, 0x05, 0x06] ++ le2 0 ++ le2 0 ++ le2 names.length) names.length _ 10 hen (by simp only [List.append_assoc]; rfl) rfl]
    have r4 : read4 (before ++ hs ++ ([0x50, 0x4b, 0x05, 0x06] ++ le2 0 ++ le2 0 ++ le2 names.length ++ le2 names.length ++ size ++ le4 before.length ++ le2 cm.length ++ cm)) ((before ++ hs).length + 16) = some before.length := by
      rw [read4_iff]
      refine ⟨hoff, before ++ hs ++ ([0x50, 0x4b, 0x05, 0x06] ++ le2 0 ++ le2 0 ++ le2 names.length ++ le2 names.length ++ size), le2 cm.length ++ cm, by simp only [List.append_assoc], ?_⟩
      simp only [List.length_append, le2_length, List.length_cons, List.length_nil]
      omega
    rw [r4]
    simp only [ne_eq, not_true, or_self, if_false]
    rw [if_neg (by omega), if_neg (by omega), if_pos]
    rw [walk_iff (by simp)]
    exact ⟨names, rfl, hnd, by simp, before, hs, _, by rw [List.append_assoc], rfl, hseq, by simp⟩

end Verif.Archive
