import Verif.Model.Owners
import Verif.Lemmas.Utf8
import Mathlib.Tactic.Common
/-!
C24: identities of generated owners.
-/
namespace Verif.Owners

/-- The three components of an identity: non-empty and at most 4096 bytes. -/
def Component (s : List Char) : Prop := s ≠ [] ∧ (utf8 s).length ≤ 4096

theorem okComponent_iff {s : List Char} : okComponent s = true ↔ Component s := by
  cases s <;> simp [okComponent, Component, byteLen, maxComponent]

theorem newOwner_iff {a b c k : List Char} :
    newOwner a b c = some k ↔ (Component a ∧ Component b ∧ Component c) ∧ k = ownerPrefix ++ (part a ++ (part b ++ part c)) := by
  unfold newOwner
  split
  · rename_i h
    simp only [List.all_cons, List.all_nil, Bool.and_true, Bool.and_eq_true, okComponent_iff] at h
    simp only [Option.some.injEq, h, and_self, true_and]
    exact eq_comm
  · rename_i h
    simp only [List.all_cons, List.all_nil, Bool.and_true, Bool.and_eq_true, okComponent_iff] at h
    constructor
    · intro h; cases h
    · intro h'; exact absurd h'.1 h

/-! ### decimal numbers -/

theorem digitVal_digitChar {d : Nat} (h : d < 10) : digitVal (digitChar d) = some d := by
  have : d = 0 ∨ d = 1 ∨ d = 2 ∨ d = 3 ∨ d = 4 ∨ d = 5 ∨ d = 6 ∨ d = 7 ∨ d = 8 ∨ d = 9 := by omega
  rcases this with h | h | h | h | h | h | h | h | h | h <;> subst h <;> decide

theorem digits_lt {f n d : Nat} (h : d ∈ digits f n) : d < 10 := by
  induction f generalizing n with
  | zero => simp [digits] at h
  | succ f ih =>
    simp only [digits] at h
    split at h
    · rw [List.mem_singleton] at h; omega
    · rcases List.mem_append.mp h with h | h
      · exact ih h
      · rw [List.mem_singleton] at h; omega

theorem digits_ne_nil {f n : Nat} : digits (f + 1) n ≠ [] := by
  simp only [digits]; split <;> simp

theorem parseDigits_append {acc : Nat} {s t : List Char} : parseDigits acc (s ++ t) = (parseDigits acc s).bind fun a => parseDigits a t := by
  induction s generalizing acc with
  | nil => rfl
  | cons c s ih =>
    simp only [List.cons_append, parseDigits]
    cases digitVal c with
    | none => rfl
    | some d =>
      dsimp only
      split
      · rfl
      · exact ih

theorem parse_digits {f n : Nat} (hf : n < f) (hn : n ≤ usizeMax) : parseDigits 0 ((digits f n).map digitChar) = some n := by
  induction f generalizing n with
  | zero => omega
  | succ f ih =>
    simp only [digits]
    split
    · rename_i h
      simp only [List.map_cons, List.map_nil, parseDigits, digitVal_digitChar h, Nat.zero_mul, Nat.zero_add]
      rw [if_neg (by omega)]
    · rename_i h
      rw [List.map_append, parseDigits_append, ih (by omega) (by omega)]
      simp only [Option.bind_some, List.map_cons, List.map_nil, parseDigits, digitVal_digitChar (Nat.mod_lt n (by decide : 10 > 0))]
      have : n / 10 * 10 + n % 10 = n := by omega
      rw [this, if_neg (by omega)]

theorem digitChar_ne {d : Nat} (h : d < 10) : digitChar d ≠ ':' ∧ digitChar d ≠ '+' := by
  have : d = 0 ∨ d = 1 ∨ d = 2 ∨ d = 3 ∨ d = 4 ∨ d = 5 ∨ d = 6 ∨ d = 7 ∨ d = 8 ∨ d = 9 := by omega
  rcases this with h | h | h | h | h | h | h | h | h | h <;> subst h <;> decide

theorem decimal_no_colon {n : Nat} : ∀ c ∈ decimal n, c ≠ ':' := by
  intro c hc
  obtain ⟨d, hd, rfl⟩ := List.mem_map.mp hc
  exact (digitChar_ne (digits_lt hd)).1

theorem parse_decimal {n : Nat} (hn : n ≤ usizeMax) : parseUsize (decimal n) = some n := by
  have hp := parse_digits (f := n + 1) (n := n) (by omega) hn
  unfold decimal
  match hd : digits (n + 1) n with
  | [] => exact absurd hd digits_ne_nil
  | d :: ds =>
    have hlt : d < 10 := digits_lt (f := n + 1) (n := n) (by rw [hd]; simp)
    have hne := (digitChar_ne hlt).2
    rw [hd] at hp
    simp only [List.map_cons] at hp ⊢
    unfold parseUsize
    split
    · rename_i h; cases h
    · rename_i h; injection h with h1 _; exact absurd h1 hne
    · rename_i h; injection h with h1 _; exact absurd h1 hne
    · exact hp

/-! ### splitting -/

theorem splitColon_append {s t : List Char} (h : ∀ c ∈ s, c ≠ ':') : splitColon (s ++ ':' :: t) = some (s, t) := by
  induction s with
  | nil => simp [splitColon]
  | cons c s ih =>
    rw [List.cons_append, splitColon, if_neg (h c (by simp)), ih (fun c hc => h c (by simp [hc]))]
    rfl

theorem size_eq (c : Char) : (String.utf8EncodeChar c).length = c.utf8Size := String.length_utf8EncodeChar c

theorem size_pos (c : Char) : 0 < c.utf8Size := Char.utf8Size_pos c

theorem splitBytes_append (s t : List Char) : splitBytes (s ++ t) (byteLen s) = some (s, t) := by
  induction s with
  | nil => cases t <;> simp [byteLen, splitBytes]
  | cons c s ih =>
    have hl : byteLen (c :: s) = c.utf8Size + byteLen s := by simp [byteLen, utf8_cons]
    have hp := size_pos c
    rw [List.cons_append, splitBytes, if_neg (by omega), if_pos (by omega),
      show byteLen (c :: s) - c.utf8Size = byteLen s by omega, ih]
    rfl

theorem stripPrefix_append (p s : List Char) : stripPrefix p (p ++ s) = some s := by
  induction p with
  | nil => rfl
  | cons c p ih => rw [List.cons_append, stripPrefix, if_pos rfl, ih]

theorem readPart_part {a : List Char} (h : Component a) (t : List Char) : readPart (part a ++ t) = some (a, t) := by
  unfold readPart part
  rw [List.append_assoc, List.cons_append, splitColon_append decimal_no_colon]
  dsimp only
  have h1 : byteLen a ≠ 0 := by
    intro h0
    obtain ⟨c, s, rfl⟩ := List.exists_cons_of_ne_nil h.1
    have := size_pos c
    simp only [byteLen, utf8_cons, List.length_append, size_eq] at h0
    omega
  have h2 : byteLen a ≤ maxComponent := h.2
  rw [parse_decimal (Nat.le_trans h2 (by decide))]
  dsimp only
  rw [if_neg (by omega), splitBytes_append]

/-- Reading an encoded triple gives it back. -/
theorem read_back {a b c : List Char} (ha : Component a) (hb : Component b) (hc : Component c) :
    (readPart (part a ++ (part b ++ part c))) = some (a, part b ++ part c) ∧
    readPart (part b ++ part c) = some (b, part c) ∧ readPart (part c) = some (c, []) := by
  refine ⟨readPart_part ha _, readPart_part hb _, ?_⟩
  have := readPart_part hc []
  rwa [List.append_nil] at this

/-- C24: an identity is given exactly to triples of components of one to 4096 bytes. -/
theorem c24_valid_components (a b c : List Char) :
    (newOwner a b c).isSome = true ↔
      ∀ s ∈ [a, b, c], s ≠ [] ∧ (utf8 s).length ≤ 4096 := by
  rw [Option.isSome_iff_exists]
  constructor
  · rintro ⟨k, hk⟩
    obtain ⟨⟨ha, hb, hc⟩, -⟩ := newOwner_iff.mp hk
    intro s hs
    simp only [List.mem_cons, List.not_mem_nil, or_false] at hs
    rcases hs with rfl | rfl | rfl
    · exact ha
    · exact hb
    · exact hc
  · intro h
    exact ⟨_, newOwner_iff.mpr ⟨⟨h a (by simp), h b (by simp), h c (by simp)⟩, rfl⟩⟩

/-- C24: equal identities have equal components. -/
theorem c24_unambiguous {a b c a' b' c' k : List Char} (h : newOwner a b c = some k) (h' : newOwner a' b' c' = some k) :
    a = a' ∧ b = b' ∧ c = c' := by
  obtain ⟨⟨ha, hb, hc⟩, e⟩ := newOwner_iff.mp h
  obtain ⟨⟨ha', hb', hc'⟩, e'⟩ := newOwner_iff.mp h'
  have := List.append_cancel_left (e.symm.trans e')
  obtain ⟨r1, r2, r3⟩ := read_back ha hb hc
  obtain ⟨s1, s2, s3⟩ := read_back ha' hb' hc'
  rw [this, s1] at r1
  injection r1 with r1
  injection r1 with e1 e2
  rw [← e2, s2] at r2
  injection r2 with r2
  injection r2 with e3 e4
  rw [← e4, s3] at r3
  injection r3 with r3
  injection r3 with e5 _
  exact ⟨e1.symm, e3.symm, e5.symm⟩

/-- C24: decoding an identity gives the same identity. -/
theorem c24_decode_encode {a b c k : List Char} (h : newOwner a b c = some k) : fromCanonical k = some k := by
  obtain ⟨⟨ha, hb, hc⟩, rfl⟩ := newOwner_iff.mp h
  obtain ⟨r1, r2, r3⟩ := read_back ha hb hc
  unfold fromCanonical
  simp only [stripPrefix_append, r1, r2, r3, h, ne_eq, not_true, if_false]
  rfl

/-- C24: exactly the identities of triples are accepted, and they are returned unchanged. -/
theorem c24_only_canonical (s k : List Char) : fromCanonical s = some k ↔ s = k ∧ ∃ a b c, newOwner a b c = some k := by
  constructor
  · intro h
    unfold fromCanonical at h
    split at h; · cases h
    split at h; · cases h
    split at h; · cases h
    split at h; · cases h
    split at h; · cases h
    split at h; · cases h
    rename_i hk
    split at h; · cases h
    rename_i hne
    cases h
    have := Classical.not_not.mp hne
    subst this
    exact ⟨rfl, _, _, _, hk⟩
  · rintro ⟨rfl, a, b, c, h⟩
    exact c24_decode_encode h

theorem isPrefixOf_append (p s : List Char) : p.isPrefixOf (p ++ s) = true := by
  induction p with
  | nil => simp
  | cons c p ih => simp [ih]

theorem newConstant_some {xs up xc : Char → Bool} {s k : List Char} (h : newConstant xs up xc s = some k) :
    k = s ∧ ∃ c rest, s = c :: rest ∧ xs c = true ∧ up c = true ∧ ∀ x ∈ rest, xc x = true := by
  unfold newConstant at h
  split at h
  · cases h
  · rename_i c rest
    split at h
    · cases h
    · rename_i h1
      split at h
      · cases h
      · rename_i h2
        cases h
        simp only [Bool.or_eq_true, not_or, Bool.not_eq_true', Bool.not_eq_false] at h1
        simp only [Bool.not_eq_true', Bool.not_eq_false, List.all_eq_true] at h2
        exact ⟨rfl, c, rest, rfl, h1.1, h1.2, h2⟩

/-- C24: no identity is a constant of a Ruby program (`NUL` is no upper-case letter), and `generated_owner` never panics on an
identity. -/
theorem c24_no_collision {xs up xc : Char → Bool} (hnul : up '\x00' = false) {a b c k : List Char} (h : newOwner a b c = some k) :
    (∀ s, newConstant xs up xc s ≠ some k) ∧ generatedOwner k = some k ∧ isGenerated k = true ∧
    ∀ s n, newConstant xs up xc s = some n → isGenerated n = false := by
  obtain ⟨-, rfl⟩ := newOwner_iff.mp h
  have key : ∀ s n, newConstant xs up xc s = some n → isGenerated n = false := by
    intro s n hn
    obtain ⟨rfl, c, rest, rfl, -, hu, -⟩ := newConstant_some hn
    have : c ≠ '\x00' := by rintro rfl; rw [hnul] at hu; cases hu
    unfold isGenerated ownerPrefix
    simp only [List.isPrefixOf_cons_cons, Bool.and_eq_false_imp, beq_iff_eq]
    intro h; exact absurd h.symm this
  have hg : isGenerated (ownerPrefix ++ (part a ++ (part b ++ part c))) = true := isPrefixOf_append _ _
  refine ⟨?_, ?_, hg, key⟩
  · intro s hs
    rw [key s _ hs] at hg
    cases hg
  · unfold generatedOwner
    exact if_pos hg

theorem stripPrefix_some {p s r : List Char} (h : stripPrefix p s = some r) : s = p ++ r := by
  induction p generalizing s with
  | nil => cases h; rfl
  | cons c p ih =>
    match s, h with
    | [], h => cases h
    | d :: s, h =>
      rw [stripPrefix] at h
      split at h
      · rename_i hcd; rw [ih h, hcd]; rfl
      · cases h

/-- C24: what is shown for two different constants, generated or written, differs (`#` is no upper-case letter). -/
theorem c24_display_injective {xs up xc : Char → Bool} (hhash : up '#' = false)
    {k k' : List Char} (h : (∃ s, newConstant xs up xc s = some k) ∨ ∃ a b c, newOwner a b c = some k)
    (h' : (∃ s, newConstant xs up xc s = some k') ∨ ∃ a b c, newOwner a b c = some k')
    (e : display k = display k') : k = k' := by
  have start : ∀ k, (∃ s, newConstant xs up xc s = some k) ∨ (∃ a b c, newOwner a b c = some k) →
      (∃ r, k = ownerPrefix ++ r ∧ display k = "#<generated-owner:".toList ++ r ++ ['>']) ∨
      (display k = k ∧ ∀ r, k ≠ '#' :: r) := by
    intro k hk
    cases hs : stripPrefix ownerPrefix k with
    | some r => exact .inl ⟨r, stripPrefix_some hs, by simp only [display, hs]⟩
    | none =>
      refine .inr ⟨by simp only [display, hs], ?_⟩
      rcases hk with ⟨s, hk⟩ | ⟨a, b, c, hk⟩
      · obtain ⟨rfl, c, rest, rfl, -, hu, -⟩ := newConstant_some hk
        intro r hr
        injection hr with h1 _
        rw [h1, hhash] at hu; cases hu
      · obtain ⟨-, rfl⟩ := newOwner_iff.mp hk
        rw [stripPrefix_append] at hs; cases hs
  rcases start k h with ⟨r, h1, h2⟩ | ⟨h1, h2⟩ <;> rcases start k' h' with ⟨r', h1', h2'⟩ | ⟨h1', h2'⟩
  · rw [h2, h2'] at e
    rw [h1, h1', List.append_cancel_left (List.append_cancel_right e)]
  · rw [h2, h1'] at e
    exact absurd e.symm (h2' _)
  · rw [h2', h1] at e
    exact absurd e (h2 _)
  · rw [← h1, ← h1', e]

/-! ### qualified names -/

theorem splitColons_seg {seg cur : List Char} (h : ∀ c ∈ seg, c ≠ ':') : splitColons cur seg = [cur ++ seg] := by
  induction seg generalizing cur with
  | nil => simp [splitColons]
  | cons c seg ih =>
    cases seg with
    | nil => simp [splitColons]
    | cons d seg =>
      rw [splitColons, if_neg (fun e => h c (by simp) e.1), ih (fun x hx => h x (by simp [hx]))]
      simp

theorem splitColons_sep {seg cur s : List Char} (h : ∀ c ∈ seg, c ≠ ':') :
    splitColons cur (seg ++ ':' :: ':' :: s) = (cur ++ seg) :: splitColons [] s := by
  induction seg generalizing cur with
  | nil => simp [splitColons]
  | cons c seg ih =>
    have : seg ++ ':' :: ':' :: s ≠ [] := by simp
    obtain ⟨d, t, hd⟩ := List.exists_cons_of_ne_nil this
    rw [List.cons_append, hd, splitColons, if_neg (fun e => h c (by simp) e.1), ← hd, ih (fun x hx => h x (by simp [hx]))]
    simp

/-- Names joined by `::`. -/
def joinColons : List (List Char) → List Char
  | [] => []
  | [s] => s
  | s :: l => s ++ ':' :: ':' :: joinColons l

theorem splitColons_join : ∀ l : List (List Char), l ≠ [] → (∀ s ∈ l, ∀ c ∈ s, c ≠ ':') → splitColons [] (joinColons l) = l
  | [], h, _ => absurd rfl h
  | [s], _, h => by simpa [joinColons] using splitColons_seg (cur := []) (h s (by simp))
  | s :: t :: l, _, h => by
    rw [joinColons, splitColons_sep (h s (by simp)), splitColons_join (t :: l) (by simp) (fun x hx => h x (by simp [hx]))]
    · simp
    · simp

theorem dropWhile_self {p : Char → Bool} {s : List Char} (h : ∀ c ∈ s, p c = false) : s.dropWhile p = s := by
  cases s with
  | nil => rfl
  | cons c s => rw [List.dropWhile_cons_of_neg (by rw [h c (by simp)]; simp)]

theorem trim_self {sp : Char → Bool} {s : List Char} (h : ∀ c ∈ s, sp c = false) : trim sp s = s := by
  unfold trim
  rw [dropWhile_self h, dropWhile_self (fun c hc => h c (List.mem_reverse.mp hc)), List.reverse_reverse]

theorem mapM_self {f : List Char → Option (List Char)} {l : List (List Char)} (h : ∀ s ∈ l, f s = some s) : l.mapM f = some l := by
  induction l with
  | nil => rfl
  | cons s l ih =>
    rw [List.mapM_cons, h s (by simp), ih (fun s hs => h s (by simp [hs]))]
    rfl

/-- C24: splitting a qualified name inverts joining constants by `::`. -/
theorem c24_qualified_round_trip {sp xs up xc : Char → Bool} (hcolon : xs ':' = false ∧ xc ':' = false)
    (hspace : ∀ c, sp c = true → xs c = false ∧ xc c = false)
    {l : List (List Char)} (hl : l ≠ []) (h : ∀ s ∈ l, newConstant xs up xc s = some s) :
    fromQualified sp xs up xc (joinColons l) = some l := by
  have hch : ∀ s ∈ l, ∀ c ∈ s, xs c = true ∨ xc c = true := by
    intro s hs c hc
    obtain ⟨-, d, rest, rfl, h1, -, h2⟩ := newConstant_some (h s hs)
    rcases List.mem_cons.mp hc with rfl | hc
    · exact .inl h1
    · exact .inr (h2 c hc)
  unfold fromQualified
  rw [splitColons_join l hl]
  · apply mapM_self
    intro s hs
    rw [trim_self]
    · exact h s hs
    · intro c hc
      rw [← Bool.not_eq_true]
      intro hsp
      have h1 := hspace c hsp
      rcases hch s hs c hc with h' | h'
      · rw [h1.1] at h'; cases h'
      · rw [h1.2] at h'; cases h'
  · intro s hs c hc e
    subst e
    rcases hch s hs _ hc with h' | h'
    · rw [hcolon.1] at h'; cases h'
    · rw [hcolon.2] at h'; cases h'

/-- Concrete identities: the same bytes cut differently, a multi-byte component, and encodings that decode but are not canonical. -/
theorem c24_example :
    newOwner "a".toList "bc".toList "d".toList ≠ newOwner "ab".toList "c".toList "d".toList ∧
    newOwner "a".toList "1:b".toList "é".toList = some (ownerPrefix ++ "1:a3:1:b2:é".toList) ∧
    readPart "+1:a1:b".toList = some ("a".toList, "1:b".toList) ∧
    fromCanonical (ownerPrefix ++ "+1:a1:b1:c".toList) = none ∧ fromCanonical (ownerPrefix ++ "01:a1:b1:c".toList) = none ∧
    fromCanonical (ownerPrefix ++ "1:a1:b1:c".toList) = some (ownerPrefix ++ "1:a1:b1:c".toList) ∧
    fromCanonical (ownerPrefix ++ "1:é1:b1:c".toList) = none ∧ newOwner [] ['a'] ['a'] = none := by
  decide

end Verif.Owners
