import Verif.Lemmas.YardDoc
/-!
Lemmas about the type at a position of a YARD comment.
-/
namespace Verif.Yard
open Verif.Positions (byteLen utf16Sum)

/-! ### The parts -/

theorem partsGo_atom {s : Text} (h : Atom s) (d : Int) (pos start : Nat) (r cur : Text) :
    partsGo (s ++ r) pos start d cur = partsGo r (pos + byteLen s) start d (cur ++ s) := by
  induction s generalizing cur pos with
  | nil => simp
  | cons c s ih =>
    obtain ⟨h1, h2, h3, h4, h5, h6⟩ := h c (List.mem_cons_self ..)
    have := ih (fun d hd => h d (List.mem_cons_of_mem _ hd)) (pos + c.utf8Size) (cur ++ [c])
    simp [partsGo, h1, h2, h3, h4, h5, this, Nat.add_assoc]

/-- Passing a text from every depth of at least `m` on: no split, and the depth goes down by `k`. -/
def Goes (m : Int) (k : Nat) (s : Text) : Prop :=
  ∀ (d : Int) (pos start : Nat) (r cur : Text), m ≤ d →
    partsGo (s ++ r) pos start d cur = partsGo r (pos + byteLen s) start (d - k) (cur ++ s)

theorem Goes.append {m n : Int} {k l : Nat} {s t : Text} (hs : Goes m k s) (ht : Goes n l t) (h : n ≤ m - k) : Goes m (k + l) (s ++ t) := by
  intro d pos start r cur hd
  rw [List.append_assoc, hs d _ _ _ _ hd, ht _ _ _ _ _ (by omega), List.append_assoc, Verif.Positions.byteLen_append, Nat.add_assoc]
  congr 1
  omega

theorem Goes.atom {m : Int} {s : Text} (h : Atom s) : Goes m 0 s := fun d pos start r cur _ => by simpa using partsGo_atom h d pos start r cur

theorem Goes.weaken {m n : Int} {k : Nat} {s : Text} (h : Goes m k s) (hn : m ≤ n) : Goes n k s :=
  fun d pos start r cur hd => h d pos start r cur (by omega)

theorem goes_comma : Goes 1 0 [','] := by
  intro d pos start r cur hd
  have : ¬ d = 0 := by omega
  simp [partsGo, this]

theorem size_special : '<'.utf8Size = 1 ∧ '>'.utf8Size = 1 ∧ '{'.utf8Size = 1 ∧ '}'.utf8Size = 1 ∧ ','.utf8Size = 1 ∧ '='.utf8Size = 1 :=
  ⟨rfl, rfl, rfl, rfl, rfl, rfl⟩

theorem Goes.angle {k : Nat} {s p : Text} (hp : Atom p) (hs : Goes 1 k s) : Goes 0 k (p ++ '<' :: (s ++ ['>'])) := by
  intro d pos start r cur hd
  rw [List.append_assoc, partsGo_atom hp]
  simp only [List.cons_append, List.append_assoc]
  rw [partsGo, if_pos (.inl rfl), hs _ _ _ _ _ (by omega)]
  simp only [List.nil_append]
  rw [partsGo, if_neg (by decide), if_pos (.inl rfl), show d + 1 - (k : Int) - 1 = d - k by omega]
  simp [Nat.add_assoc]

theorem goes_arrow {m : Int} : Goes m 1 ['=', '>'] := by
  intro d pos start r cur _
  simp only [List.cons_append, List.nil_append]
  rw [partsGo, if_neg (by decide), if_neg (by decide), if_neg (by simp), partsGo, if_neg (by decide), if_pos (.inl rfl)]
  simp [Nat.add_assoc]

theorem Goes.brace {m : Int} {k : Nat} {s p : Text} (hp : Atom p) (hs : Goes (m + 1) k s) : Goes m k (p ++ '{' :: (s ++ ['}'])) := by
  intro d pos start r cur hd
  rw [List.append_assoc, partsGo_atom hp]
  simp only [List.cons_append, List.append_assoc]
  rw [partsGo, if_pos (.inr rfl), hs _ _ _ _ _ (by omega)]
  simp only [List.nil_append]
  rw [partsGo, if_neg (by decide), if_pos (.inr rfl), show d + 1 - (k : Int) - 1 = d - k by omega]
  simp [Nat.add_assoc]

mutual
theorem Writes.goes {U : Unicode} {t : YT} {s : Text} (h : Writes U t s) (ht : t.noArrow) : Goes 0 0 s := by
  match h with
  | .word w s h => exact .atom (word_atom h)
  | .name path s hne hp hs => subst hs; exact .atom (joinPath_atom U hp)
  | .array ts s h =>
    unfold YT.noArrow at ht
    exact Goes.angle atom_array (WritesList.goes h ht)
  | .hash k v s h =>
    unfold YT.noArrow at ht
    exact Goes.angle atom_hash (WritesList.goes h (by simp only [noArrows]; exact ⟨ht.1, ht.2, trivial⟩))
  | .arrow ks vs r s hr hs => simp [YT.noArrow] at ht
theorem WritesList.goes {U : Unicode} {ts : List YT} {s : Text} (h : WritesList U ts s) (ht : noArrows ts) : Goes 1 0 s := by
  match h with
  | .one t a s b ha h hb =>
    unfold noArrows at ht
    exact ((Goes.atom (m := 0) ha.atom).append (Writes.goes h ht.1) (by omega) |>.append (Goes.atom (m := 0) hb.atom) (by omega)).weaken
      (by omega)
  | .cons t ts a s b r ha h hb hr =>
    unfold noArrows at ht
    have h1 := ((Goes.atom (m := 0) ha.atom).append (Writes.goes h ht.1) (by omega) |>.append (Goes.atom (m := 0) hb.atom)
      (by omega)).weaken (n := 1) (by omega)
    exact h1.append (goes_comma.append (WritesList.goes hr ht.2) (by omega)) (by omega)
end

mutual
theorem Writes.goesL {U : Unicode} {t : YT} {s : Text} (h : Writes U t s) (ht : t.lateArrow) : ∃ k, Goes 0 k s := by
  match h with
  | .word w s h => exact ⟨0, .atom (word_atom h)⟩
  | .name path s hne hp hs => subst hs; exact ⟨0, .atom (joinPath_atom U hp)⟩
  | .array ts s h =>
    unfold YT.lateArrow at ht
    obtain ⟨k, hk⟩ := WritesList.goesL h ht
    exact ⟨k, Goes.angle atom_array hk⟩
  | .hash k v s h =>
    unfold YT.lateArrow at ht
    obtain ⟨k, hk⟩ := WritesList.goesL h (by simp only [lateArrows]; exact ht)
    exact ⟨k, Goes.angle atom_hash hk⟩
  | .arrow ks vs r s hr hs =>
    unfold YT.lateArrow at ht
    obtain ⟨h1, h2, h3⟩ := ht
    have hv : Goes 0 0 s := by
      cases hs with
      | one t a s b ha h hb =>
        unfold noArrows at h2
        exact (Goes.atom (m := 0) ha.atom).append (Writes.goes h h2.1) (by omega) |>.append (Goes.atom (m := 0) hb.atom) (by omega)
      | cons t ts a s b r ha h hb hr => cases hr <;> simp at h3
    have := (WritesList.goes hr h1).append ((goes_arrow (m := 1)).append hv (by omega)) (by omega)
    have := Goes.brace (m := 0) atom_hash this
    exact ⟨_, by simpa using this⟩
theorem WritesList.goesL {U : Unicode} {ts : List YT} {s : Text} (h : WritesList U ts s) (ht : lateArrows ts) : ∃ k, Goes 1 k s := by
  match h with
  | .one t a s b ha h hb =>
    unfold lateArrows at ht
    obtain ⟨k, hk⟩ := Writes.goesL h ht
    refine ⟨k, fun d pos start r cur hd => ?_⟩
    rw [List.append_assoc, List.append_assoc, partsGo_atom ha.atom, hk _ _ _ _ _ (by omega), partsGo_atom hb.atom]
    simp [Nat.add_assoc]
  | .cons t ts a s b r ha h hb hr =>
    have ht := lateArrows_cons hr ht
    obtain ⟨l, hl⟩ := WritesList.goesL hr ht.2
    have h1 := ((Goes.atom (m := 0) ha.atom).append (Writes.goes h ht.1) (by omega) |>.append (Goes.atom (m := 0) hb.atom)
      (by omega)).weaken (n := 1) (by omega)
    exact ⟨_, h1.append (goes_comma.append hl (by omega)) (by omega)⟩
end

/-- The parts of a piece and the comma after it. -/
theorem partsGo_piece {U : Unicode} {t : YT} {a s b : Text} (ha : Blank a) (h : Writes U t s) (hb : Blank b) (ht : t.noArrow) (p : Nat) (r : Text) :
    partsGo (a ++ s ++ b ++ ',' :: r) p p 0 [] =
      (p, p + byteLen (a ++ s ++ b), a ++ s ++ b) :: partsGo r (p + byteLen (a ++ s ++ b) + 1) (p + byteLen (a ++ s ++ b) + 1) 0 [] := by
  have hg := (Goes.atom (m := 0) ha.atom).append (h.goes ht) (by omega) |>.append (Goes.atom (m := 0) hb.atom) (by omega)
  rw [hg 0 p p _ [] (by omega), partsGo, if_neg (by decide), if_neg (by decide), if_pos ⟨rfl, by simp⟩]
  simp

theorem partsGo_before {U : Unicode} {ts : List YT} {u : Text} (h : WritesList U ts u) (ht : noArrows ts) (p : Nat) (r : Text) :
    ∃ ps, partsGo (u ++ ',' :: r) p p 0 [] = ps ++ partsGo r (p + byteLen u + 1) (p + byteLen u + 1) 0 [] ∧
      ∀ q ∈ ps, q.2.1 ≤ p + byteLen u := by
  induction ts generalizing u p with
  | nil => cases h
  | cons t ts ih =>
    cases h with
    | one _ a s b ha hs hb =>
      simp only [noArrows] at ht
      refine ⟨_, by rw [partsGo_piece ha hs hb ht.1]; exact (List.singleton_append).symm, ?_⟩
      intro q hq
      rw [List.mem_singleton] at hq; subst hq
      exact Nat.le_refl _
    | cons _ _ a s b r' ha hs hb hr =>
      simp only [noArrows] at ht
      obtain ⟨ps, h1, h2⟩ := ih hr ht.2 (p + byteLen (a ++ s ++ b) + 1)
      have e : byteLen (a ++ s ++ b ++ ',' :: r') = byteLen (a ++ s ++ b) + 1 + byteLen r' := by
        rw [Verif.Positions.byteLen_append, Verif.Positions.byteLen_cons, size_special.2.2.2.2.1]; omega
      refine ⟨(p, p + byteLen (a ++ s ++ b), a ++ s ++ b) :: ps, ?_, ?_⟩
      · rw [List.append_assoc (a ++ s ++ b), List.cons_append, partsGo_piece ha hs hb ht.1, h1, e]
        simp only [List.cons_append, Nat.add_assoc]
      · intro q hq
        rw [e]
        rcases List.mem_cons.1 hq with rfl | hq
        · simp only; omega
        · have := h2 q hq; omega

theorem partAt_before {types : Text} {ty rel : Nat} {ps l : List (Nat × Nat × Text)} {cur : Nat} (h : ∀ q ∈ ps, q.2.1 ≤ rel) (hl : l ≠ []) :
    partAt types ty rel (ps ++ l) cur = partAt types ty rel l cur := by
  induction ps generalizing cur with
  | nil => rfl
  | cons q ps ih =>
    obtain ⟨a, b, t⟩ := q
    have hb : b ≤ rel := h (a, b, t) (List.mem_cons_self ..)
    rw [List.cons_append, partAt, if_neg (by omega), ih fun q hq => h q (List.mem_cons_of_mem _ hq)]
    cases l with
    | nil => exact absurd rfl hl
    | cons q l => obtain ⟨a, b, t⟩ := q; rfl

/-! ### Names -/

theorem baseType_atom {s : Text} (h : Atom s) (ht : Tight s) : baseType s = s := by
  unfold baseType
  rw [trim_tight ht]
  have : s.any (fun c => c == '<' || c == '{') = false := by
    rw [List.any_eq_false]
    intro c hc
    obtain ⟨h1, _, h3, _⟩ := h c hc
    simp [h1, h3]
  rw [this]; rfl

theorem baseType_open {p q : Text} {c : Char} (hp : Atom p) (hp' : Tight p) (hc : c = '<' ∨ c = '{') (ht : Tight (p ++ c :: q)) :
    baseType (p ++ c :: q) = p := by
  unfold baseType
  rw [trim_tight ht]
  have hany : (p ++ c :: q).any (fun c => c == '<' || c == '{') = true := by
    rw [List.any_eq_true]; exact ⟨c, by simp, by rcases hc with rfl | rfl <;> rfl⟩
  have htake := (span_stop (p := fun c => !(c == '<' || c == '{')) (a := p) (r := c :: q) (fun d hd => by
    obtain ⟨h1, _, h3, _⟩ := hp d hd
    simp [h1, h3]) (Stops.cons (by rcases hc with rfl | rfl <;> rfl))).1
  rw [hany, if_pos rfl, htake, trim_tight hp']

theorem tight_array : Tight tArray := tight_of_ends (by decide) (by decide) (by decide)
theorem tight_hash : Tight tHash := tight_of_ends (by decide) (by decide) (by decide)

theorem Writes.base {U : Unicode} {t : YT} {s : Text} (h : Writes U t s) : baseType s = t.head s := by
  have ht := h.tight
  cases h with
  | word w _ hw => exact baseType_atom (word_atom hw) ht
  | name path _ hne hp hs => subst hs; exact baseType_atom (joinPath_atom U hp) ht
  | array ts s hs => exact baseType_open (p := tArray) (c := '<') atom_array tight_array (.inl rfl) ht
  | hash k v s hs => exact baseType_open (p := tHash) (c := '<') atom_hash tight_hash (.inl rfl) ht
  | arrow ks vs r s hr hs => exact baseType_open (p := tHash) (c := '{') atom_hash tight_hash (.inr rfl) ht

theorem Writes.head_ne {U : Unicode} {t : YT} {s : Text} (h : Writes U t s) : t.head s ≠ [] := by
  have := h.tight.ne
  cases h <;> simp_all [YT.head, tArray, tHash]

/-! ### Brackets -/

theorem brackets_none {c : Char} {s : Text} (h : c ≠ '[') : brackets (c :: s) = none := by
  unfold brackets
  split
  · rename_i e; simp only [List.cons.injEq] at e; exact absurd e.1 h
  · rfl

theorem bracketMatches_first {pre s post : Text} (hp : '[' ∉ pre) (hs : InBrackets s) (n : Nat) (hn : pre.length < n) (pos : Nat) :
    ∃ l, bracketMatches n (pre ++ '[' :: (s ++ ']' :: post)) pos = (pos + byteLen pre, s) :: l := by
  induction pre generalizing n pos with
  | nil =>
    cases n with
    | zero => omega
    | succ n => simp only [List.nil_append, bracketMatches, brackets_eq hs]; exact ⟨_, rfl⟩
  | cons c pre ih =>
    cases n with
    | zero => omega
    | succ n =>
      have hc : c ≠ '[' := fun e => hp (by simp [e])
      obtain ⟨l, hl⟩ := ih (fun e => hp (List.mem_cons_of_mem _ e)) n (by simp at hn; omega) (pos + c.utf8Size)
      refine ⟨l, ?_⟩
      simp only [List.cons_append, bracketMatches, brackets_none hc, hl, Verif.Positions.byteLen_cons, Nat.add_assoc]

/-! ### Other brackets on the line -/

theorem brackets_sound {s t r : Text} (h : brackets s = some (t, r)) : s = '[' :: (t ++ ']' :: r) ∧ InBrackets t := by
  unfold brackets at h
  split at h
  · rename_i s
    split at h
    · cases h
    · rename_i hne
      split at h
      · rename_i c r' hd
        cases h
        have hc : c = ']' := by
          have := List.head?_dropWhile_not (· != ']') s
          rw [hd] at this
          simpa using this
        have e : s = s.takeWhile (· != ']') ++ s.dropWhile (· != ']') := (List.takeWhile_append_dropWhile).symm
        rw [hd, hc] at e
        refine ⟨by rw [← e], hne, fun hm => ?_⟩
        have := mem_takeWhile_p hm
        simp at this
      · cases h
  · cases h

theorem mem_bracketMatches {n : Nat} {s : Text} {pos p : Nat} {t : Text} (h : (p, t) ∈ bracketMatches n s pos) :
    ∃ pre post, s = pre ++ '[' :: (t ++ ']' :: post) ∧ InBrackets t ∧ p = pos + byteLen pre := by
  induction n generalizing s pos with
  | zero => simp [bracketMatches] at h
  | succ n ih =>
    cases s with
    | nil => simp [bracketMatches] at h
    | cons c s =>
      rw [bracketMatches] at h
      split at h
      · rename_i t' r hb
        obtain ⟨e, ht⟩ := brackets_sound hb
        rcases List.mem_cons.1 h with h | h
        · cases h
          exact ⟨[], r, e, ht, rfl⟩
        · obtain ⟨pre, post, rfl, h2, h3⟩ := ih h
          refine ⟨'[' :: (t' ++ ']' :: pre), post, by rw [e]; simp, h2, ?_⟩
          have h1 : '['.utf8Size = 1 := rfl
          have h1' : ']'.utf8Size = 1 := rfl
          simp only [Verif.Positions.byteLen_append, Verif.Positions.byteLen_cons, h1, h1']
          omega
      · obtain ⟨pre, post, rfl, h2, h3⟩ := ih h
        refine ⟨c :: pre, post, rfl, h2, ?_⟩
        simp only [Verif.Positions.byteLen_cons]
        omega

theorem bracketMatches_closed {pre : Text} (h : Closed pre) (x : Text) (n : Nat) (hn : pre.length < n) (pos : Nat) :
    ∃ ps k, bracketMatches n (pre ++ x) pos = ps ++ bracketMatches k x (pos + byteLen pre) ∧ n ≤ k + pre.length ∧
      ∀ p ∈ ps, p.1 + byteLen p.2 + 2 ≤ pos + byteLen pre := by
  induction h generalizing n pos with
  | nil => exact ⟨[], n, by simp, by simp, by simp⟩
  | char c s hc hs ih =>
    cases n with
    | zero => omega
    | succ n =>
      obtain ⟨ps, k, h1, h2, h3⟩ := ih n (by simp at hn; omega) (pos + c.utf8Size)
      refine ⟨ps, k, ?_, by simp; omega, fun p hp => ?_⟩
      · simp only [List.cons_append, bracketMatches, brackets_none hc, h1, Verif.Positions.byteLen_cons, Nat.add_assoc]
      · have := h3 p hp
        simp only [Verif.Positions.byteLen_cons]; omega
  | pair t s ht hs ih =>
    cases n with
    | zero => omega
    | succ n =>
      have b1 : '['.utf8Size = 1 := rfl
      have b2 : ']'.utf8Size = 1 := rfl
      have e : byteLen ('[' :: (t ++ ']' :: s)) = byteLen t + 2 + byteLen s := by
        simp only [Verif.Positions.byteLen_append, Verif.Positions.byteLen_cons, b1, b2]; omega
      obtain ⟨ps, k, h1, h2, h3⟩ := ih n (by simp at hn; omega) (pos + byteLen t + 2)
      refine ⟨(pos, t) :: ps, k, ?_, by simp; omega, fun p hp => ?_⟩
      · have e1 : '[' :: (t ++ ']' :: s) ++ x = '[' :: (t ++ ']' :: (s ++ x)) := by simp
        rw [e1, bracketMatches, brackets_eq ht]
        simp only [h1, e, List.cons_append]
        rw [show pos + (byteLen t + 2 + byteLen s) = pos + byteLen t + 2 + byteLen s by omega]
      · rw [e]
        rcases List.mem_cons.1 hp with rfl | hp
        · simp only; omega
        · have := h3 p hp; omega

theorem bracketAt_skip {col : Nat} {ps l : List (Nat × Text)} (h : ∀ p ∈ ps, p.1 + byteLen p.2 + 2 ≤ col) :
    bracketAt col (ps ++ l) = bracketAt col l := by
  induction ps with
  | nil => rfl
  | cons p ps ih =>
    obtain ⟨p, t⟩ := p
    have := h (p, t) (by simp)
    rw [List.cons_append, bracketAt, if_neg (by simp only at this; omega)]
    exact ih fun q hq => h q (List.mem_cons_of_mem _ hq)

theorem bracketAt_none {col : Nat} {ps : List (Nat × Text)} (h : ∀ p ∈ ps, ¬ (p.1 ≤ col ∧ col < p.1 + byteLen p.2 + 2)) :
    bracketAt col ps = none := by
  induction ps with
  | nil => rfl
  | cons p ps ih =>
    obtain ⟨p, t⟩ := p
    rw [bracketAt, if_neg (h (p, t) (by simp))]
    exact ih fun q hq => h q (List.mem_cons_of_mem _ hq)

theorem joinBlank_eq (l : List Text) : joinBlank l = List.intercalate [' '] l := by
  induction l with
  | nil => rfl
  | cons s l ih =>
    cases l with
    | nil => simp [joinBlank, List.intercalate]
    | cons t l => rw [joinBlank, ih]; simp [List.intercalate]; simp

end Verif.Yard
