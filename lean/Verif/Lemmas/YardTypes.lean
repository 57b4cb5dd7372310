import Verif.Spec.YardTypes
/-!
Lemmas about the reading of YARD types.
-/
namespace Verif.Yard

/-! ### Trimming -/

theorem dropWhile_blank {a s : Text} (ha : Blank a) : (a ++ s).dropWhile ws = s.dropWhile ws := by
  induction a with
  | nil => rfl
  | cons c a ih =>
    have hc := ha c (List.mem_cons_self ..)
    simp only [List.cons_append, List.dropWhile_cons, hc, if_true]
    exact ih fun d hd => ha d (List.mem_cons_of_mem _ hd)

theorem Blank.reverse {a : Text} (h : Blank a) : Blank a.reverse := fun c hc => h c (List.mem_reverse.1 hc)

/-- A text that begins and ends with something else than white space. -/
def Tight (s : Text) : Prop := ∃ c r, s = c :: r ∧ ws c = false ∧ ∃ d q, s = q ++ [d] ∧ ws d = false

theorem Tight.ne {s : Text} (h : Tight s) : s ≠ [] := by
  obtain ⟨c, r, rfl, _⟩ := h; simp

theorem dropWhile_tight {s r : Text} (h : Tight s) : (s ++ r).dropWhile ws = s ++ r := by
  obtain ⟨c, q, rfl, hc, _⟩ := h
  simp [hc]

theorem Tight.reverse {s : Text} (h : Tight s) : Tight s.reverse := by
  obtain ⟨c, r, hs, hc, d, q, hs', hd⟩ := h
  exact ⟨d, q.reverse, by simp [hs'], hd, c, r.reverse, by simp [hs], hc⟩

theorem trim_blank {a : Text} (h : Blank a) : trim a = [] := by
  have := dropWhile_blank (s := []) h
  unfold trim trimStart trimEnd
  rw [List.append_nil] at this
  rw [this]; rfl

theorem trim_pad {a s b : Text} (ha : Blank a) (hs : Tight s) (hb : Blank b) : trim (a ++ s ++ b) = s := by
  unfold trim trimEnd trimStart
  rw [List.append_assoc, dropWhile_blank ha, dropWhile_tight hs, List.reverse_append, dropWhile_blank hb.reverse]
  have := dropWhile_tight (r := []) hs.reverse
  rw [List.append_nil] at this
  rw [this, List.reverse_reverse]

theorem trim_tight {s : Text} (hs : Tight s) : trim s = s := by
  have := trim_pad (a := []) (b := []) (by intro c h; cases h) hs (by intro c h; cases h)
  simpa using this

/-! ### Characters -/

theorem cont_special (U : Unicode) {c : Char} (h : U.cont c = true) :
    c ≠ '<' ∧ c ≠ '>' ∧ c ≠ '{' ∧ c ≠ '}' ∧ c ≠ ',' ∧ c ≠ '=' ∧ c ≠ ':' := by
  refine ⟨?_, ?_, ?_, ?_, ?_, ?_, ?_⟩ <;> rintro rfl <;> (rw [U.contAscii _ (by decide)] at h; revert h; decide)

theorem ws_special {c : Char} (h : ws c = true) :
    c ≠ '<' ∧ c ≠ '>' ∧ c ≠ '{' ∧ c ≠ '}' ∧ c ≠ ',' ∧ c ≠ '=' ∧ c ≠ ':' := by
  refine ⟨?_, ?_, ?_, ?_, ?_, ?_, ?_⟩ <;> rintro rfl <;> (revert h; decide)

/-- No character that the loops over types look at. -/
def Atom (s : Text) : Prop := ∀ c ∈ s, c ≠ '<' ∧ c ≠ '>' ∧ c ≠ '{' ∧ c ≠ '}' ∧ c ≠ ',' ∧ c ≠ '='

theorem Blank.atom {s : Text} (h : Blank s) : Atom s := fun c hc =>
  let ⟨a, b, d, e, f, g, _⟩ := ws_special (h c hc); ⟨a, b, d, e, f, g⟩

theorem Atom.append {s t : Text} (hs : Atom s) (ht : Atom t) : Atom (s ++ t) := fun c hc => by
  rcases List.mem_append.1 hc with h | h
  · exact hs c h
  · exact ht c h

theorem Constant.mem (U : Unicode) {s : Text} (h : Constant U s) {c : Char} (hc : c ∈ s) : U.cont c = true := by
  obtain ⟨d, r, rfl, hd, hr⟩ := h
  rcases List.mem_cons.1 hc with rfl | hc
  · exact U.contOfFirst _ hd
  · exact hr c hc

theorem Constant.ne (U : Unicode) {s : Text} (h : Constant U s) : s ≠ [] := by
  obtain ⟨d, r, rfl, _⟩ := h; simp

theorem tight_of {s : Text} (hne : s ≠ []) (h : ∀ c ∈ s, ws c = false) : Tight s := by
  cases s with
  | nil => exact absurd rfl hne
  | cons c r =>
    refine ⟨c, r, rfl, h c (List.mem_cons_self ..), (c :: r).getLast hne, (c :: r).dropLast, ?_, h _ (List.getLast_mem hne)⟩
    exact (List.dropLast_concat_getLast hne).symm

theorem Constant.tight (U : Unicode) {s : Text} (h : Constant U s) : Tight s :=
  tight_of (Constant.ne U h) fun c hc => U.contNotWs c (Constant.mem U h hc)

theorem joinPath_mem {path : List Text} {c : Char} (hc : c ∈ joinPath path) : c = ':' ∨ ∃ p ∈ path, c ∈ p := by
  induction path with
  | nil => cases hc
  | cons p l ih =>
    cases l with
    | nil => exact .inr ⟨p, by simp, hc⟩
    | cons q l =>
      simp only [joinPath, List.mem_append, List.mem_cons] at hc
      rcases hc with h | h | h | h
      · exact .inr ⟨p, by simp, h⟩
      · exact .inl h
      · exact .inl h
      · rcases ih h with h | ⟨q', hq, hc⟩
        · exact .inl h
        · exact .inr ⟨q', List.mem_cons_of_mem _ hq, hc⟩

theorem joinPath_ne (U : Unicode) {path : List Text} (hne : path ≠ []) (h : ∀ p ∈ path, Constant U p) : joinPath path ≠ [] := by
  cases path with
  | nil => exact absurd rfl hne
  | cons p l =>
    cases l with
    | nil => exact Constant.ne U (h p (by simp))
    | cons q l => simp [joinPath]

theorem joinPath_tight (U : Unicode) {path : List Text} (hne : path ≠ []) (h : ∀ p ∈ path, Constant U p) : Tight (joinPath path) := by
  apply tight_of (joinPath_ne U hne h)
  intro c hc
  rcases joinPath_mem hc with rfl | ⟨p, hp, hc⟩
  · decide
  · exact U.contNotWs c (Constant.mem U (h p hp) hc)

theorem joinPath_atom (U : Unicode) {path : List Text} (h : ∀ p ∈ path, Constant U p) : Atom (joinPath path) := by
  intro c hc
  rcases joinPath_mem hc with rfl | ⟨p, hp, hc⟩
  · decide
  · have := cont_special U (Constant.mem U (h p hp) hc)
    exact ⟨this.1, this.2.1, this.2.2.1, this.2.2.2.1, this.2.2.2.2.1, this.2.2.2.2.2.1⟩

theorem word_atom {w : Word} {s : Text} (h : s ∈ w.spelled) : Atom s := by
  unfold Atom
  cases w <;> simp only [Word.spelled, List.mem_cons, List.not_mem_nil, or_false] at h
  case boolean => rcases h with rfl | rfl | rfl <;> decide
  all_goals subst h; decide

theorem word_tight {w : Word} {s : Text} (h : s ∈ w.spelled) : Tight s := by
  have key : s ≠ [] ∧ ∀ c ∈ s, ws c = false := by
    cases w <;> simp only [Word.spelled, List.mem_cons, List.not_mem_nil, or_false] at h
    case boolean => rcases h with rfl | rfl | rfl <;> decide
    all_goals subst h; decide
  exact tight_of key.1 key.2

theorem Writes.tight {U : Unicode} {t : YT} {s : Text} (h : Writes U t s) : Tight s := by
  cases h with
  | word w s h => exact word_tight h
  | name path s hne hp hs => subst hs; exact joinPath_tight U hne hp
  | array ts s h => exact ⟨'A', _, rfl, by decide, '>', 'A' :: 'r' :: 'r' :: 'a' :: 'y' :: '<' :: s, by simp, by decide⟩
  | hash k v s h => exact ⟨'H', _, rfl, by decide, '>', 'H' :: 'a' :: 's' :: 'h' :: '<' :: s, by simp, by decide⟩
  | arrow ks vs r s hr hs =>
    exact ⟨'H', _, rfl, by decide, '}', 'H' :: 'a' :: 's' :: 'h' :: '{' :: (r ++ '=' :: '>' :: s), by simp, by decide⟩

/-! ### The loop of `parse_type_list` -/

theorem listGo_atom {s : Text} (h : Atom s) (a b : Nat) (r cur : Text) : listGo (s ++ r) a b cur = listGo r a b (cur ++ s) := by
  induction s generalizing cur with
  | nil => simp
  | cons c s ih =>
    obtain ⟨h1, h2, h3, h4, h5, h6⟩ := h c (List.mem_cons_self ..)
    have := ih (fun d hd => h d (List.mem_cons_of_mem _ hd)) (cur ++ [c])
    simp [listGo, h1, h2, h3, h4, h5, this]

/-- Passing a text in the loop: no split, and the first depth goes down by `k`. -/
def Passes (P : Nat → Nat → Prop) (k : Nat) (s : Text) : Prop :=
  ∀ a b r cur, P a b → listGo (s ++ r) a b cur = listGo r (a - k) b (cur ++ s)

theorem Passes.append {P : Nat → Nat → Prop} {k l : Nat} {s t : Text} (hs : Passes P k s) (ht : Passes P l t)
    (hP : ∀ a b, P a b → P (a - k) b) : Passes P (k + l) (s ++ t) := by
  intro a b r cur h
  rw [List.append_assoc, hs a b _ _ h, ht _ _ _ _ (hP a b h), Nat.sub_sub, List.append_assoc]

theorem Passes.atom {P : Nat → Nat → Prop} {s : Text} (h : Atom s) : Passes P 0 s := fun a b r cur _ => listGo_atom h a b r cur

theorem Passes.weaken {P Q : Nat → Nat → Prop} {k : Nat} {s : Text} (h : Passes P k s) (hQ : ∀ a b, Q a b → P a b) : Passes Q k s :=
  fun a b r cur hq => h a b r cur (hQ a b hq)

theorem passes_comma {P : Nat → Nat → Prop} (hP : ∀ a b, P a b → a > 0 ∨ b > 0) : Passes P 0 [','] := by
  intro a b r cur h
  have := hP a b h
  have : ¬ (a = 0 ∧ b = 0) := by omega
  simp [listGo, this]

/-- `Array<` and so on: the text inside is passed with a depth more. -/
theorem Passes.angle {P Q : Nat → Nat → Prop} {k : Nat} {s p : Text} (hp : Atom p) (hs : Passes Q k s)
    (hQ : ∀ a b, P a b → Q (a + 1) b) : Passes P k (p ++ '<' :: (s ++ ['>'])) := by
  intro a b r cur h
  rw [List.append_assoc, listGo_atom hp]
  simp only [List.cons_append, List.append_assoc]
  rw [listGo, if_pos rfl, hs _ _ _ _ (hQ a b h)]
  by_cases hk : a + 1 - k > 0
  · rw [listGo, if_neg (by decide), if_pos ⟨rfl, hk⟩, show a + 1 - k - 1 = a - k by omega]; simp
  · rw [listGo, if_neg (by decide), if_neg (fun e => hk e.2), if_neg (by decide), if_neg (by simp), if_neg (by simp),
      show a + 1 - k = a - k by omega]
    simp

/-- `=>` -/
theorem passes_arrow {P : Nat → Nat → Prop} : Passes P 1 ['=', '>'] := by
  intro a b r cur _
  simp only [List.cons_append, List.nil_append]
  rw [listGo, if_neg (by decide), if_neg (by simp), if_neg (by decide), if_neg (by simp), if_neg (by simp)]
  by_cases ha : a > 0
  · rw [listGo, if_neg (by decide), if_pos ⟨rfl, ha⟩]; simp
  · rw [listGo, if_neg (by decide), if_neg (fun e => ha e.2), if_neg (by decide), if_neg (by simp), if_neg (by simp),
      show a - 1 = a by omega]
    simp

/-- `{` … `}` -/
theorem Passes.brace {P Q : Nat → Nat → Prop} {k : Nat} {s p : Text} (hp : Atom p) (hs : Passes Q k s)
    (hQ : ∀ a b, P a b → Q a (b + 1)) : Passes P k (p ++ '{' :: (s ++ ['}'])) := by
  intro a b r cur h
  rw [List.append_assoc, listGo_atom hp]
  simp only [List.cons_append, List.append_assoc]
  rw [listGo, if_neg (by decide), if_neg (by simp), if_pos rfl, hs _ _ _ _ (hQ a b h), listGo, if_neg (by decide), if_neg (by simp),
    if_neg (by decide), if_pos ⟨rfl, by omega⟩]
  simp

theorem atom_array : Atom ['A', 'r', 'r', 'a', 'y'] := by unfold Atom; decide
theorem atom_hash : Atom ['H', 'a', 's', 'h'] := by unfold Atom; decide

abbrev Anywhere : Nat → Nat → Prop := fun _ _ => True
abbrev Inside : Nat → Nat → Prop := fun a b => a > 0 ∨ b > 0
abbrev InBraces : Nat → Nat → Prop := fun _ b => b > 0

mutual
theorem Writes.passes {U : Unicode} {t : YT} {s : Text} (h : Writes U t s) (ht : t.noArrow) : Passes Anywhere 0 s := by
  match h with
  | .word w s h => exact .atom (word_atom h)
  | .name path s hne hp hs => subst hs; exact .atom (joinPath_atom U hp)
  | .array ts s h =>
    unfold YT.noArrow at ht
    exact Passes.angle (Q := Inside) atom_array (WritesList.passes h ht) fun a b _ => .inl (Nat.succ_pos a)
  | .hash k v s h =>
    unfold YT.noArrow at ht
    exact Passes.angle (Q := Inside) atom_hash (WritesList.passes h (by simp only [noArrows]; exact ⟨ht.1, ht.2, trivial⟩))
      fun a b _ => .inl (Nat.succ_pos a)
  | .arrow ks vs r s hr hs => simp [YT.noArrow] at ht
theorem WritesList.passes {U : Unicode} {ts : List YT} {s : Text} (h : WritesList U ts s) (ht : noArrows ts) : Passes Inside 0 s := by
  match h with
  | .one t a s b ha h hb =>
    unfold noArrows at ht
    exact (Passes.append (Passes.append (Passes.atom ha.atom) ((Writes.passes h ht.1).weaken fun _ _ _ => trivial) fun _ _ h => h)
      (Passes.atom hb.atom) fun _ _ h => h)
  | .cons t ts a s b r ha h hb hr =>
    unfold noArrows at ht
    have h1 := (Passes.append (Passes.append (Passes.atom ha.atom) ((Writes.passes h ht.1).weaken (Q := Inside) fun _ _ _ => trivial)
      fun _ _ h => h) (Passes.atom hb.atom) fun _ _ h => h)
    have h2 := Passes.append (passes_comma (P := Inside) fun _ _ h => h) (WritesList.passes hr ht.2) fun _ _ h => h
    exact Passes.append h1 h2 fun _ _ h => h
end

mutual
/-- Inside of braces nothing is split. -/
theorem Writes.passesB {U : Unicode} {t : YT} {s : Text} (h : Writes U t s) : ∃ k, Passes InBraces k s := by
  match h with
  | .word w s h => exact ⟨0, .atom (word_atom h)⟩
  | .name path s hne hp hs => subst hs; exact ⟨0, .atom (joinPath_atom U hp)⟩
  | .array ts s h =>
    obtain ⟨k, hk⟩ := WritesList.passesB h
    exact ⟨k, Passes.angle (Q := InBraces) atom_array hk fun _ _ h => h⟩
  | .hash k v s h =>
    obtain ⟨k, hk⟩ := WritesList.passesB h
    exact ⟨k, Passes.angle (Q := InBraces) atom_hash hk fun _ _ h => h⟩
  | .arrow ks vs r s hr hs =>
    obtain ⟨k, hk⟩ := WritesList.passesB hr
    obtain ⟨l, hl⟩ := WritesList.passesB hs
    have := Passes.append hk (Passes.append (passes_arrow (P := InBraces)) hl fun _ _ h => h) fun _ _ h => h
    have := Passes.brace (P := InBraces) (Q := InBraces) atom_hash this fun _ _ _ => Nat.succ_pos _
    exact ⟨_, by simpa using this⟩
theorem WritesList.passesB {U : Unicode} {ts : List YT} {s : Text} (h : WritesList U ts s) : ∃ k, Passes InBraces k s := by
  match h with
  | .one t a s b ha h hb =>
    obtain ⟨k, hk⟩ := Writes.passesB h
    exact ⟨_, (Passes.append (Passes.append (Passes.atom ha.atom) hk fun _ _ h => h) (Passes.atom hb.atom) fun _ _ h => h)⟩
  | .cons t ts a s b r ha h hb hr =>
    obtain ⟨k, hk⟩ := Writes.passesB h
    obtain ⟨l, hl⟩ := WritesList.passesB hr
    have h1 := (Passes.append (Passes.append (Passes.atom ha.atom) hk fun _ _ h => h) (Passes.atom hb.atom) fun _ _ h => h)
    have h2 := Passes.append (passes_comma (P := InBraces) fun _ _ h => .inr h) hl fun _ _ h => h
    exact ⟨_, Passes.append h1 h2 fun _ _ h => h⟩
end

theorem arrow_passes {U : Unicode} {ks vs : List YT} {s : Text} (h : Writes U (.arrow ks vs) s) : ∃ k, Passes Anywhere k s := by
  cases h with
  | arrow ks vs r s hr hs =>
    obtain ⟨k, hk⟩ := WritesList.passesB hr
    obtain ⟨l, hl⟩ := WritesList.passesB hs
    have := Passes.append hk (Passes.append (passes_arrow (P := InBraces)) hl fun _ _ h => h) fun _ _ h => h
    have := Passes.brace (P := Anywhere) (Q := InBraces) atom_hash this fun _ _ _ => Nat.succ_pos _
    exact ⟨_, by simpa using this⟩

theorem lateArrows_cons {U : Unicode} {t : YT} {ts : List YT} {r : Text} (hr : WritesList U ts r) (h : lateArrows (t :: ts)) :
    t.noArrow ∧ lateArrows ts := by
  cases ts with
  | nil => cases hr
  | cons u us => unfold lateArrows at h; exact h

mutual
theorem Writes.passesL {U : Unicode} {t : YT} {s : Text} (h : Writes U t s) (ht : t.lateArrow) : ∃ k, Passes Anywhere k s := by
  match h with
  | .word w s h => exact ⟨0, .atom (word_atom h)⟩
  | .name path s hne hp hs => subst hs; exact ⟨0, .atom (joinPath_atom U hp)⟩
  | .array ts s h =>
    unfold YT.lateArrow at ht
    obtain ⟨k, hk⟩ := WritesList.passesL h ht
    exact ⟨k, Passes.angle (Q := Inside) atom_array hk fun a b _ => .inl (Nat.succ_pos a)⟩
  | .hash k v s h =>
    unfold YT.lateArrow at ht
    obtain ⟨k, hk⟩ := WritesList.passesL h (by simp only [lateArrows]; exact ht)
    exact ⟨k, Passes.angle (Q := Inside) atom_hash hk fun a b _ => .inl (Nat.succ_pos a)⟩
  | .arrow ks vs r s hr hs => exact arrow_passes (.arrow ks vs r s hr hs)
theorem WritesList.passesL {U : Unicode} {ts : List YT} {s : Text} (h : WritesList U ts s) (ht : lateArrows ts) :
    ∃ k, Passes Inside k s := by
  match h with
  | .one t a s b ha h hb =>
    unfold lateArrows at ht
    obtain ⟨k, hk⟩ := Writes.passesL h ht
    have h1 := Passes.append (Passes.atom (P := Anywhere) ha.atom) hk fun _ _ h => h
    exact ⟨_, (Passes.append h1 (Passes.atom hb.atom) fun _ _ h => h).weaken fun _ _ _ => trivial⟩
  | .cons t ts a s b r ha h hb hr =>
    have ht := lateArrows_cons hr ht
    obtain ⟨l, hl⟩ := WritesList.passesL hr ht.2
    have h1 := (Passes.append (Passes.append (Passes.atom ha.atom) ((Writes.passes h ht.1).weaken (Q := Inside) fun _ _ _ => trivial)
      fun _ _ h => h) (Passes.atom hb.atom) fun _ _ h => h)
    have h2 := Passes.append (passes_comma (P := Inside) fun _ _ h => h) hl fun _ _ h => h
    exact ⟨_, Passes.append h1 h2 fun _ _ h => h⟩
end

end Verif.Yard
