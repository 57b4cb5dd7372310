import Mathlib.Data.List.Forall2
import Verif.Lemmas.YardTypes
/-!
Lemmas about the converter of YARD types.
-/
namespace Verif.Yard

/-! ### The loop of `split_hash_types` -/

theorem splitGo_atom {s : Text} (h : Atom s) (d : Int) (r cur : Text) : splitGo (s ++ r) d cur = splitGo r d (cur ++ s) := by
  induction s generalizing cur with
  | nil => simp
  | cons c s ih =>
    obtain ⟨h1, h2, h3, h4, h5, h6⟩ := h c (List.mem_cons_self ..)
    have := ih (fun d hd => h d (List.mem_cons_of_mem _ hd)) (cur ++ [c])
    simp [splitGo, h1, h2, h3, h4, h5, this]

/-- Passing a text from every depth of at least `m` on: no split, and the depth goes down by `k`. -/
def Skips (m : Int) (k : Nat) (s : Text) : Prop :=
  ∀ (d : Int) (r cur : Text), m ≤ d → splitGo (s ++ r) d cur = splitGo r (d - k) (cur ++ s)

theorem Skips.append {m n : Int} {k l : Nat} {s t : Text} (hs : Skips m k s) (ht : Skips n l t) (h : n ≤ m - k) :
    Skips m (k + l) (s ++ t) := by
  intro d r cur hd
  rw [List.append_assoc, hs d _ _ hd, ht _ _ _ (by omega), List.append_assoc]
  congr 1
  omega

theorem Skips.atom {m : Int} {s : Text} (h : Atom s) : Skips m 0 s := fun d r cur _ => by simpa using splitGo_atom h d r cur

theorem Skips.weaken {m n : Int} {k : Nat} {s : Text} (h : Skips m k s) (hn : m ≤ n) : Skips n k s :=
  fun d r cur hd => h d r cur (by omega)

theorem skips_comma : Skips 1 0 [','] := by
  intro d r cur hd
  have : ¬ d = 0 := by omega
  simp [splitGo, this]

theorem Skips.angle {k : Nat} {s p : Text} (hp : Atom p) (hs : Skips 1 k s) : Skips 0 k (p ++ '<' :: (s ++ ['>'])) := by
  intro d r cur hd
  rw [List.append_assoc, splitGo_atom hp]
  simp only [List.cons_append, List.append_assoc]
  rw [splitGo, if_pos (.inl rfl), hs _ _ _ (by omega)]
  simp only [List.nil_append]
  rw [splitGo, if_neg (by decide), if_pos (.inl rfl), show d + 1 - (k : Int) - 1 = d - k by omega]
  simp

theorem skips_arrow {m : Int} : Skips m 1 ['=', '>'] := by
  intro d r cur _
  simp only [List.cons_append, List.nil_append]
  rw [splitGo, if_neg (by decide), if_neg (by decide), if_neg (by simp), splitGo, if_neg (by decide), if_pos (.inl rfl)]
  simp

theorem Skips.brace {m : Int} {k : Nat} {s p : Text} (hp : Atom p) (hs : Skips (m + 1) k s) : Skips m k (p ++ '{' :: (s ++ ['}'])) := by
  intro d r cur hd
  rw [List.append_assoc, splitGo_atom hp]
  simp only [List.cons_append, List.append_assoc]
  rw [splitGo, if_pos (.inr rfl), hs _ _ _ (by omega)]
  simp only [List.nil_append]
  rw [splitGo, if_neg (by decide), if_pos (.inr rfl), show d + 1 - (k : Int) - 1 = d - k by omega]
  simp

mutual
theorem Writes.skips {U : Unicode} {t : YT} {s : Text} (h : Writes U t s) (ht : t.noArrow) : Skips 0 0 s := by
  match h with
  | .word w s h => exact .atom (word_atom h)
  | .name path s hne hp hs => subst hs; exact .atom (joinPath_atom U hp)
  | .array ts s h =>
    unfold YT.noArrow at ht
    exact Skips.angle atom_array (WritesList.skips h ht)
  | .hash k v s h =>
    unfold YT.noArrow at ht
    exact Skips.angle atom_hash (WritesList.skips h (by simp only [noArrows]; exact ⟨ht.1, ht.2, trivial⟩))
  | .arrow ks vs r s hr hs => simp [YT.noArrow] at ht
theorem WritesList.skips {U : Unicode} {ts : List YT} {s : Text} (h : WritesList U ts s) (ht : noArrows ts) : Skips 1 0 s := by
  match h with
  | .one t a s b ha h hb =>
    unfold noArrows at ht
    exact ((Skips.atom (m := 0) ha.atom).append (Writes.skips h ht.1) (by omega) |>.append (Skips.atom (m := 0) hb.atom) (by omega)).weaken
      (by omega)
  | .cons t ts a s b r ha h hb hr =>
    unfold noArrows at ht
    have h1 := ((Skips.atom (m := 0) ha.atom).append (Writes.skips h ht.1) (by omega) |>.append (Skips.atom (m := 0) hb.atom)
      (by omega)).weaken (n := 1) (by omega)
    exact h1.append (skips_comma.append (WritesList.skips hr ht.2) (by omega)) (by omega)
end

mutual
theorem Writes.skipsL {U : Unicode} {t : YT} {s : Text} (h : Writes U t s) (ht : t.lateArrow) : ∃ k, Skips 0 k s := by
  match h with
  | .word w s h => exact ⟨0, .atom (word_atom h)⟩
  | .name path s hne hp hs => subst hs; exact ⟨0, .atom (joinPath_atom U hp)⟩
  | .array ts s h =>
    unfold YT.lateArrow at ht
    obtain ⟨k, hk⟩ := WritesList.skipsL h ht
    exact ⟨k, Skips.angle atom_array hk⟩
  | .hash k v s h =>
    unfold YT.lateArrow at ht
    obtain ⟨k, hk⟩ := WritesList.skipsL h (by simp only [lateArrows]; exact ht)
    exact ⟨k, Skips.angle atom_hash hk⟩
  | .arrow ks vs r s hr hs =>
    unfold YT.lateArrow at ht
    obtain ⟨h1, h2, h3⟩ := ht
    have hv : Skips 0 0 s := by
      cases hs with
      | one t a s b ha h hb =>
        unfold noArrows at h2
        exact (Skips.atom (m := 0) ha.atom).append (Writes.skips h h2.1) (by omega) |>.append (Skips.atom (m := 0) hb.atom) (by omega)
      | cons t ts a s b r ha h hb hr => cases hr <;> simp at h3
    have := (WritesList.skips hr h1).append ((skips_arrow (m := 1)).append hv (by omega)) (by omega)
    have := Skips.brace (m := 0) atom_hash this
    exact ⟨_, by simpa using this⟩
theorem WritesList.skipsL {U : Unicode} {ts : List YT} {s : Text} (h : WritesList U ts s) (ht : lateArrows ts) :
    ∃ k, Skips 1 k s := by
  match h with
  | .one t a s b ha h hb =>
    unfold lateArrows at ht
    obtain ⟨k, hk⟩ := Writes.skipsL h ht
    refine ⟨k, fun d r cur hd => ?_⟩
    rw [List.append_assoc, List.append_assoc, splitGo_atom ha.atom, hk _ _ _ (by omega), splitGo_atom hb.atom]
    simp
  | .cons t ts a s b r ha h hb hr =>
    have ht := lateArrows_cons hr ht
    obtain ⟨l, hl⟩ := WritesList.skipsL hr ht.2
    have h1 := ((Skips.atom (m := 0) ha.atom).append (Writes.skips h ht.1) (by omega) |>.append (Skips.atom (m := 0) hb.atom)
      (by omega)).weaken (n := 1) (by omega)
    exact ⟨_, h1.append (skips_comma.append hl (by omega)) (by omega)⟩
end

/-! ### The pieces of a list -/

/-- The last type of a list, with white space. -/
theorem splitHashTypes_one {U : Unicode} {t : YT} {a s b : Text} (ha : Blank a) (h : Writes U t s) (hb : Blank b) (ht : t.lateArrow) :
    splitHashTypes (a ++ s ++ b) = [s] := by
  obtain ⟨k, hk⟩ := h.skipsL ht
  unfold splitHashTypes
  have e : a ++ s ++ b = a ++ (s ++ (b ++ [])) := by simp
  rw [e, splitGo_atom ha.atom, hk _ _ _ (by omega), splitGo_atom hb.atom, List.nil_append, splitGo, trim_pad ha h.tight hb,
    if_neg h.tight.ne]

theorem splitHashTypes_cons {U : Unicode} {t : YT} {a s b r : Text} (ha : Blank a) (h : Writes U t s) (hb : Blank b) (ht : t.noArrow) :
    splitHashTypes (a ++ s ++ b ++ ',' :: r) = s :: splitHashTypes r := by
  unfold splitHashTypes
  have e : a ++ s ++ b ++ ',' :: r = a ++ (s ++ (b ++ ',' :: r)) := by simp
  have e2 := trim_pad ha h.tight hb
  rw [e, splitGo_atom ha.atom, h.skips ht _ _ _ (by omega), splitGo_atom hb.atom, splitGo, if_neg (by decide), if_neg (by decide),
    if_pos ⟨rfl, by simp⟩, List.nil_append, e2]
  simp

theorem noArrow_late : ∀ t : YT, t.noArrow → t.lateArrow
  | .word _, _ => by unfold YT.lateArrow; trivial
  | .name _, _ => by unfold YT.lateArrow; trivial
  | .array ts, h => by
    unfold YT.noArrow at h; unfold YT.lateArrow
    exact noArrows_late ts h
  | .hash k v, h => by
    unfold YT.noArrow at h; unfold YT.lateArrow
    exact ⟨h.1, noArrow_late v h.2⟩
  | .arrow _ _, h => by simp [YT.noArrow] at h
where
  noArrows_late : ∀ ts : List YT, noArrows ts → lateArrows ts
  | [], _ => by unfold lateArrows; trivial
  | [t], h => by
    unfold noArrows at h; unfold lateArrows
    exact noArrow_late t h.1
  | t :: u :: us, h => by
    unfold noArrows at h; unfold lateArrows
    exact ⟨h.1, noArrows_late (u :: us) h.2⟩

/-- The types that `parse_type_list` finds in a list. -/
def YT.listable : YT → Prop
  | .arrow _ _ => True
  | t => t.lateArrow

theorem Writes.passesT {U : Unicode} {t : YT} {s : Text} (h : Writes U t s) (ht : t.listable) : ∃ k, Passes Anywhere k s := by
  cases t with
  | arrow ks vs => exact arrow_passes h
  | word w => exact h.passesL ht
  | name p => exact h.passesL ht
  | array ts => exact h.passesL ht
  | hash k v => exact h.passesL ht

theorem listGo_list {U : Unicode} {ts : List YT} {s : Text} (h : WritesList U ts s) (ht : ∀ t ∈ ts, t.listable) :
    ∃ ps, List.Forall₂ (Writes U) ts ps ∧ listGo s 0 0 [] = ps := by
  induction ts generalizing s with
  | nil => cases h
  | cons t ts ih =>
    cases h with
    | one t a s b ha h hb =>
      obtain ⟨k, hk⟩ := h.passesT (ht t (List.mem_cons_self ..))
      refine ⟨[s], .cons h .nil, ?_⟩
      have e : a ++ s ++ b = a ++ (s ++ (b ++ [])) := by simp
      rw [e, listGo_atom ha.atom, hk _ _ _ _ trivial, listGo_atom hb.atom, List.nil_append, listGo, trim_pad ha h.tight hb,
        if_neg h.tight.ne]
    | cons t ts a s b r ha h hb hr =>
      obtain ⟨k, hk⟩ := h.passesT (ht t (List.mem_cons_self ..))
      obtain ⟨ps, hps, e'⟩ := ih hr fun u hu => ht u (List.mem_cons_of_mem _ hu)
      refine ⟨s :: ps, .cons h hps, ?_⟩
      have e : a ++ s ++ b ++ ',' :: r = a ++ (s ++ (b ++ ',' :: r)) := by simp
      rw [e, listGo_atom ha.atom, hk _ _ _ _ trivial, listGo_atom hb.atom, List.nil_append, Nat.zero_sub, listGo, if_neg (by decide),
        if_neg (by decide), if_neg (by decide), if_neg (by decide), if_pos ⟨rfl, rfl, rfl⟩, trim_pad ha h.tight hb, if_neg h.tight.ne, e']

theorem WritesList.ne {U : Unicode} {ts : List YT} {s : Text} (h : WritesList U ts s) : s ≠ [] := by
  cases h with
  | one t a s b ha h hb => have := h.tight.ne; simp [this]
  | cons t ts a s b r ha h hb hr => simp

/-! ### Splitting at two characters -/

theorem splitPair_cut {x y : Char} {p : Text} (hp : x ∉ p) (w cur : Text) :
    splitPair x y (p ++ x :: y :: w) cur = (cur ++ p) :: splitPair x y w [] := by
  induction p generalizing cur with
  | nil => simp [splitPair]
  | cons c p ih =>
    have hc : c ≠ x := fun e => hp (e ▸ List.mem_cons_self ..)
    have := ih (fun h => hp (List.mem_cons_of_mem _ h)) (cur ++ [c])
    cases p with
    | nil =>
      simp only [List.nil_append] at this
      simp only [List.cons_append, List.nil_append]
      rw [splitPair, if_neg (fun e => hc e.1), this]; simp
    | cons d p =>
      simp only [List.cons_append] at this ⊢
      rw [splitPair, if_neg (fun e => hc e.1), this]; simp

theorem splitPair_end {x y : Char} {p : Text} (hp : x ∉ p) (cur : Text) : splitPair x y p cur = [cur ++ p] := by
  induction p generalizing cur with
  | nil => simp [splitPair]
  | cons c p ih =>
    have hc : c ≠ x := fun e => hp (e ▸ List.mem_cons_self ..)
    have := ih (fun h => hp (List.mem_cons_of_mem _ h)) (cur ++ [c])
    cases p with
    | nil => simp [splitPair]
    | cons d p => rw [splitPair, if_neg (fun e => hc e.1), this]; simp

theorem splitPair_length {x y : Char} (hxy : x ≠ y) (u w cur : Text) :
    (splitPair x y (u ++ x :: y :: w) cur).length = (splitPair x y u cur).length + (splitPair x y w []).length := by
  fun_induction splitPair x y u cur with
  | case1 cur => simp [splitPair]; omega
  | case2 c cur =>
    have : ¬ (c = x ∧ x = y) := fun e => hxy e.2
    simp [splitPair, this]; omega
  | case3 c d s cur h ih =>
    simp only [List.cons_append]
    rw [splitPair, if_pos h, List.length_cons, List.length_cons, ih]; omega
  | case4 c d s cur h ih => simp only [List.cons_append] at ih ⊢; rw [splitPair, if_neg h, ih]

theorem splitPair_pos (x y : Char) (s cur : Text) : 0 < (splitPair x y s cur).length := by
  fun_induction splitPair x y s cur <;> simp_all

theorem splitPair_path (U : Unicode) {path : List Text} (hne : path ≠ []) (h : ∀ p ∈ path, Constant U p) :
    splitPair ':' ':' (joinPath path) [] = path := by
  induction path with
  | nil => exact absurd rfl hne
  | cons p l ih =>
    have hp : ':' ∉ p := fun hc => (cont_special U (Constant.mem U (h p (by simp)) hc)).2.2.2.2.2.2 rfl
    cases l with
    | nil => simp [joinPath, splitPair_end hp]
    | cons q l =>
      rw [joinPath, splitPair_cut hp, ih (by simp) fun r hr => h r (List.mem_cons_of_mem _ hr)]
      · simp
      · simp

theorem constant_iff (U : Unicode) (s : Text) : isConstant U s = true ↔ Constant U s := by
  cases s with
  | nil => simp [isConstant, Constant]
  | cons c s =>
    simp only [isConstant, Bool.and_eq_true, List.all_eq_true, Constant]
    constructor
    · rintro ⟨h1, h2⟩; exact ⟨c, s, rfl, h1, h2⟩
    · rintro ⟨c', s', e, h1, h2⟩
      cases e; exact ⟨h1, h2⟩

theorem constants_path (U : Unicode) {path : List Text} (h : ∀ p ∈ path, Constant U p) : constants U path = some path := by
  induction path with
  | nil => rfl
  | cons p l ih =>
    have hp := h p (by simp)
    rw [constants, trim_tight (hp.tight U), if_neg (hp.ne U), if_pos ((constant_iff U p).2 hp),
      ih fun q hq => h q (List.mem_cons_of_mem _ hq)]
    rfl

theorem parseName_path (U : Unicode) {path : List Text} (hne : path ≠ []) (h : ∀ p ∈ path, Constant U p) :
    parseName U (joinPath path) = some path := by
  unfold parseName
  rw [splitPair_path U hne h, constants_path U h]
  cases path with
  | nil => exact absurd rfl hne
  | cons p l => rfl

/-! ### Names -/

theorem convertName_path (U : Unicode) {path : List Text} (hne : path ≠ []) (h : ∀ p ∈ path, Constant U p) :
    convertName U (joinPath path) = (pathMeans path, []) := by
  have key : ∀ n : Text, splitPair ':' ':' n [] = [n] → (joinPath path = n ↔ path = [n]) := by
    intro n hn
    constructor
    · intro e; rw [← splitPair_path U hne h, e, hn]
    · rintro rfl; rfl
  unfold convertName
  rw [parseName_path U hne h]
  simp only [key tString (by decide), key tInteger (by decide), key tFixnum (by decide), key tBignum (by decide), key tFloat (by decide),
    key tSymbol (by decide), key tTrueClass (by decide), key tFalseClass (by decide), key tNilClass (by decide), key tObject (by decide),
    key tBasicObject (by decide)]
  unfold pathMeans
  split
  · subst_vars; rfl
  split
  · rename_i h; rcases h with rfl | rfl | rfl <;> rfl
  split
  · subst_vars; rfl
  split
  · subst_vars; rfl
  split
  · subst_vars; rfl
  split
  · subst_vars; rfl
  split
  · subst_vars; rfl
  rename_i h1 h2 h3 h4 h5 h6 h7
  by_cases h8 : path = [tObject] ∨ path = [tBasicObject]
  · rw [if_pos h8, if_pos h8]
  · rw [if_neg h8, if_neg h8, if_neg]
    rintro (e | e)
    · exact h2 (.inr (.inl e))
    · exact h2 (.inr (.inr e))

theorem extractGeneric_none {s n : Text} (h : '>' ∉ s) : extractGeneric s n = none := by
  unfold extractGeneric
  rw [if_neg]
  rintro ⟨_, e⟩
  exact h (List.mem_of_getLast? e)

theorem extractHashBrace_none {s : Text} (h : '}' ∉ s) : extractHashBrace s = none := by
  unfold extractHashBrace
  rw [if_neg]
  rintro ⟨_, e⟩
  exact h (List.mem_of_getLast? e)

end Verif.Yard
