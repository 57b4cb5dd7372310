import Verif.Lemmas.YardConvert
/-!
The converter on types as YARD writes them; the fuel is enough.
-/
namespace Verif.Yard

theorem blank_nil : Blank [] := by intro c h; cases h

theorem WritesList.trimEnd {U : Unicode} {ts : List YT} {r : Text} (h : WritesList U ts r) :
    ∃ r0 b, Blank b ∧ r = r0 ++ b ∧ (∃ q d, r0 = q ++ [d] ∧ ws d = false) ∧ WritesList U ts r0 ∧
      (lateArrows ts → splitHashTypes r0 = splitHashTypes r) := by
  induction ts generalizing r with
  | nil => cases h
  | cons t ts ih =>
    cases h with
    | one t a s b ha h hb =>
      obtain ⟨_, _, _, _, d, q, hs, hd⟩ := h.tight
      refine ⟨a ++ s, b, hb, rfl, ⟨a ++ q, d, by rw [hs]; simp, hd⟩, by simpa using WritesList.one t a s [] ha h blank_nil, fun hl => ?_⟩
      unfold lateArrows at hl
      rw [splitHashTypes_one ha h hb hl]
      simpa using splitHashTypes_one ha h blank_nil hl
    | cons t ts a s b r ha h hb hr =>
      obtain ⟨r0, b', hb', rfl, ⟨q, d, hq, hd⟩, hw, hl⟩ := ih hr
      refine ⟨a ++ s ++ b ++ ',' :: r0, b', hb', by simp, ⟨a ++ s ++ b ++ ',' :: q, d, by rw [hq]; simp, hd⟩, .cons t ts a s b r0 ha h hb hw,
        fun h' => ?_⟩
      have h' := lateArrows_cons hr h'
      rw [splitHashTypes_cons ha h hb h'.1, splitHashTypes_cons ha h hb h'.1, hl h'.2]

theorem WritesList.trim_split {U : Unicode} {ts : List YT} {r : Text} (h : WritesList U ts r) (hl : lateArrows ts) :
    splitHashTypes (trim r) = splitHashTypes r := by
  obtain ⟨r0, b, hb, rfl, ⟨q, d, hq, hd⟩, hw, hs⟩ := h.trimEnd
  rw [← hs hl]
  have : ∃ a r1, Blank a ∧ r0 = a ++ r1 ∧ (∃ c p, r1 = c :: p ∧ ws c = false) ∧ splitHashTypes r1 = splitHashTypes r0 := by
    cases hw with
    | one t a s b ha hx hb =>
      obtain ⟨c, p, hs, hc, _⟩ := hx.tight
      unfold lateArrows at hl
      refine ⟨a, s ++ b, ha, by simp, ⟨c, p ++ b, by rw [hs]; rfl, hc⟩, ?_⟩
      rw [splitHashTypes_one ha hx hb hl]
      simpa using splitHashTypes_one blank_nil hx hb hl
    | cons t ts a s b r ha hx hb hr =>
      obtain ⟨c, p, hs, hc, _⟩ := hx.tight
      have hl := lateArrows_cons hr hl
      refine ⟨a, s ++ b ++ ',' :: r, ha, by simp, ⟨c, p ++ b ++ ',' :: r, by rw [hs]; simp, hc⟩, ?_⟩
      rw [splitHashTypes_cons ha hx hb hl.1]
      simpa using splitHashTypes_cons (r := r) blank_nil hx hb hl.1
  obtain ⟨a, r1, ha, rfl, ⟨c, p, hr1, hc⟩, hw1⟩ := this
  have ht : Tight r1 := by
    refine ⟨c, p, hr1, hc, d, r1.dropLast, ?_, hd⟩
    have hne : r1 ≠ [] := by rw [hr1]; simp
    have hl : r1.getLast hne = d := by
      have h1 : (a ++ r1).getLast? = some d := by rw [hq]; simp
      rw [List.getLast?_append_of_ne_nil _ hne, List.getLast?_eq_some_getLast hne] at h1
      exact Option.some.inj h1
    rw [← hl]; exact (List.dropLast_concat_getLast hne).symm
  rw [trim_pad ha ht hb, hw1]

theorem eqNoCase_cons {c d : Char} {s k : Text} (h : lower c ≠ lower d) : eqNoCase (c :: s) (d :: k) = false := by
  unfold eqNoCase
  simp [h]

theorem eqNoCase_false {s k : Text} (hk : k.map lower = k) (h : s.map lower ≠ k) : eqNoCase s k = false := by
  unfold eqNoCase
  rw [hk]
  simpa using h

/-- The words are no case of a text that begins with `A` or `H`. -/
theorem noWord {c : Char} {s : Text} (hc : c = 'A' ∨ c = 'H') :
    eqNoCase (c :: s) tNil = false ∧ eqNoCase (c :: s) tVoid = false ∧ eqNoCase (c :: s) tTrue = false ∧
      eqNoCase (c :: s) tFalse = false ∧ eqNoCase (c :: s) tBoolean = false ∧ eqNoCase (c :: s) tBool = false := by
  rcases hc with rfl | rfl <;>
    exact ⟨eqNoCase_cons (by decide), eqNoCase_cons (by decide), eqNoCase_cons (by decide), eqNoCase_cons (by decide),
      eqNoCase_cons (by decide), eqNoCase_cons (by decide)⟩

theorem extractGeneric_array (s : Text) :
    extractGeneric ('A' :: 'r' :: 'r' :: 'a' :: 'y' :: '<' :: (s ++ ['>'])) tArray = some s := by
  unfold extractGeneric
  rw [if_pos]
  · simp [tArray]
  · constructor
    · simp [tArray, List.isPrefixOf]
    · rw [show 'A' :: 'r' :: 'r' :: 'a' :: 'y' :: '<' :: (s ++ ['>']) = ('A' :: 'r' :: 'r' :: 'a' :: 'y' :: '<' :: s) ++ ['>'] from rfl,
        List.getLast?_concat]

theorem extractGeneric_hash (s : Text) : extractGeneric ('H' :: 'a' :: 's' :: 'h' :: '<' :: (s ++ ['>'])) tHash = some s := by
  unfold extractGeneric
  rw [if_pos]
  · simp [tHash]
  · constructor
    · simp [tHash, List.isPrefixOf]
    · rw [show 'H' :: 'a' :: 's' :: 'h' :: '<' :: (s ++ ['>']) = ('H' :: 'a' :: 's' :: 'h' :: '<' :: s) ++ ['>'] from rfl,
        List.getLast?_concat]

theorem extractGeneric_head {c : Char} {s : Text} (h : c ≠ 'A') : extractGeneric (c :: s) tArray = none := by
  unfold extractGeneric
  rw [if_neg]
  simp [tArray, List.isPrefixOf, Ne.symm h]

theorem extractGeneric_brace (s : Text) : extractGeneric ('H' :: 'a' :: 's' :: 'h' :: '{' :: s) tHash = none := by
  unfold extractGeneric
  rw [if_neg]
  simp [tHash, List.isPrefixOf]

theorem extractHashBrace_brace (s : Text) : extractHashBrace ('H' :: 'a' :: 's' :: 'h' :: '{' :: (s ++ ['}'])) = some s := by
  unfold extractHashBrace
  rw [if_pos]
  · simp
  · constructor
    · simp [tHash, List.isPrefixOf]
    · rw [show 'H' :: 'a' :: 's' :: 'h' :: '{' :: (s ++ ['}']) = ('H' :: 'a' :: 's' :: 'h' :: '{' :: s) ++ ['}'] from rfl,
        List.getLast?_concat]

theorem convertN_array (U : Unicode) (n : Nat) (s : Text) :
    convertN U (n + 1) ('A' :: 'r' :: 'r' :: 'a' :: 'y' :: '<' :: (s ++ ['>'])) =
      (.array (if (convertParts (convertN U n) s).1 = [] then [.unknown] else (convertParts (convertN U n) s).1),
        (convertParts (convertN U n) s).2) := by
  have ht : Tight ('A' :: 'r' :: 'r' :: 'a' :: 'y' :: '<' :: (s ++ ['>'])) :=
    ⟨'A', _, rfl, by decide, '>', 'A' :: 'r' :: 'r' :: 'a' :: 'y' :: '<' :: s, by simp, by decide⟩
  obtain ⟨h1, h2, h3, h4, h5, h6⟩ := noWord (c := 'A') (s := 'r' :: 'r' :: 'a' :: 'y' :: '<' :: (s ++ ['>'])) (.inl rfl)
  unfold convertN
  simp only [trim_tight ht, h1, h2, h3, h4, h5, h6, Bool.or_self, Bool.false_eq_true, if_false, extractGeneric_array]

theorem convertN_hash (U : Unicode) (n : Nat) {s k v : Text} {l : List Text} (h : splitHashTypes s = k :: v :: l) :
    convertN U (n + 1) ('H' :: 'a' :: 's' :: 'h' :: '<' :: (s ++ ['>'])) =
      (.hash (convertParts (convertN U n) k).1 (convertParts (convertN U n) v).1,
        (convertParts (convertN U n) k).2 ++ (convertParts (convertN U n) v).2) := by
  have ht : Tight ('H' :: 'a' :: 's' :: 'h' :: '<' :: (s ++ ['>'])) :=
    ⟨'H', _, rfl, by decide, '>', 'H' :: 'a' :: 's' :: 'h' :: '<' :: s, by simp, by decide⟩
  obtain ⟨h1, h2, h3, h4, h5, h6⟩ := noWord (c := 'H') (s := 'a' :: 's' :: 'h' :: '<' :: (s ++ ['>'])) (.inr rfl)
  unfold convertN
  simp only [trim_tight ht, h1, h2, h3, h4, h5, h6, Bool.or_self, Bool.false_eq_true, if_false, extractGeneric_hash,
    extractGeneric_head (show 'H' ≠ 'A' by decide), h]

theorem convertN_brace (U : Unicode) (n : Nat) (s : Text) :
    convertN U (n + 1) ('H' :: 'a' :: 's' :: 'h' :: '{' :: (s ++ ['}'])) =
      match splitPair '=' '>' s [] with
      | [k, v] =>
        (.hash (convertParts (convertN U n) (trim k)).1 (convertParts (convertN U n) (trim v)).1,
          (convertParts (convertN U n) (trim k)).2 ++ (convertParts (convertN U n) (trim v)).2)
      | _ => (.hash [.unknown] [.unknown], []) := by
  have ht : Tight ('H' :: 'a' :: 's' :: 'h' :: '{' :: (s ++ ['}'])) :=
    ⟨'H', _, rfl, by decide, '}', 'H' :: 'a' :: 's' :: 'h' :: '{' :: s, by simp, by decide⟩
  obtain ⟨h1, h2, h3, h4, h5, h6⟩ := noWord (c := 'H') (s := 'a' :: 's' :: 'h' :: '{' :: (s ++ ['}'])) (.inr rfl)
  rw [convertN]
  simp only [trim_tight ht, h1, h2, h3, h4, h5, h6, Bool.or_self, Bool.false_eq_true, if_false, extractGeneric_brace,
    extractGeneric_head (show 'H' ≠ 'A' by decide), extractHashBrace_brace]
  rcases splitPair '=' '>' s [] with _ | ⟨k, _ | ⟨v, _ | ⟨w, l⟩⟩⟩ <;> rfl

theorem convertN_word (U : Unicode) (n : Nat) {w : Word} {s : Text} (h : s ∈ w.spelled) (hw : w ≠ .void) :
    convertN U (n + 1) s = (w.means, []) := by
  unfold convertN
  simp only [trim_tight (word_tight h)]
  cases w <;> simp only [Word.spelled, List.mem_cons, List.not_mem_nil, or_false] at h
  case void => exact absurd rfl hw
  case boolean => rcases h with rfl | rfl | rfl <;> rfl
  all_goals subst h; rfl

theorem convertN_path (U : Unicode) (n : Nat) {path : List Text} (hne : path ≠ []) (h : ∀ p ∈ path, Constant U p)
    (hk : ∀ k ∈ [tNil, tVoid, tTrue, tFalse, tBoolean, tBool], (joinPath path).map lower ≠ k) :
    convertN U (n + 1) (joinPath path) = (pathMeans path, []) := by
  have ha := joinPath_atom U h
  unfold convertN
  simp only [trim_tight (joinPath_tight U hne h), eqNoCase_false (k := tNil) (by decide) (hk _ (by simp)),
    eqNoCase_false (k := tVoid) (by decide) (hk _ (by simp)), eqNoCase_false (k := tTrue) (by decide) (hk _ (by simp)),
    eqNoCase_false (k := tFalse) (by decide) (hk _ (by simp)), eqNoCase_false (k := tBoolean) (by decide) (hk _ (by simp)),
    eqNoCase_false (k := tBool) (by decide) (hk _ (by simp)), Bool.or_self, Bool.false_eq_true, if_false,
    extractGeneric_none (fun hc => (ha _ hc).2.1 rfl), extractHashBrace_none (fun hc => (ha _ hc).2.2.2.1 rfl), convertName_path U hne h]

theorem Writes.noEq {U : Unicode} {t : YT} {s : Text} (h : Writes U t s) (ht : t.noArrow) : '=' ∉ s := by
  match h with
  | .word w s h => exact fun hc => (word_atom h _ hc).2.2.2.2.2 rfl
  | .name path s hne hp hs => subst hs; exact fun hc => (joinPath_atom U hp _ hc).2.2.2.2.2 rfl
  | .array ts s h =>
    unfold YT.noArrow at ht
    have := list h ht
    simp [this]
  | .hash k v s h =>
    unfold YT.noArrow at ht
    have := list h (by simp only [noArrows]; exact ⟨ht.1, ht.2, trivial⟩)
    simp [this]
  | .arrow ks vs r s hr hs => simp [YT.noArrow] at ht
where
  list {ts : List YT} {s : Text} (h : WritesList U ts s) (ht : noArrows ts) : '=' ∉ s := by
    match h with
    | .one t a s b ha h hb =>
      unfold noArrows at ht
      have h1 := Writes.noEq h ht.1
      have h2 : '=' ∉ a := fun hc => (ha.atom _ hc).2.2.2.2.2 rfl
      have h3 : '=' ∉ b := fun hc => (hb.atom _ hc).2.2.2.2.2 rfl
      simp [h1, h2, h3]
    | .cons t ts a s b r ha h hb hr =>
      unfold noArrows at ht
      have h1 := Writes.noEq h ht.1
      have h2 : '=' ∉ a := fun hc => (ha.atom _ hc).2.2.2.2.2 rfl
      have h3 : '=' ∉ b := fun hc => (hb.atom _ hc).2.2.2.2.2 rfl
      have h4 := list hr ht.2
      simp [h1, h2, h3, h4]

theorem listMeans_eq (ts : List YT) : listMeans ts = ts.map YT.means := by
  induction ts with
  | nil => rfl
  | cons t ts ih => simp [listMeans, ih]

theorem convertParts_eq {conv : Text → RTy × List Text} {s : Text} {ts : List RTy}
    (h : (splitHashTypes s).map conv = ts.map (fun t => (t, []))) : convertParts conv s = (ts, []) := by
  unfold convertParts
  have h1 : (splitHashTypes s).map (fun p => (conv p).1) = ts := by
    have := congrArg (List.map Prod.fst) h
    simpa [List.map_map, Function.comp_def] using this
  have h2 : (splitHashTypes s).flatMap (fun p => (conv p).2) = [] := by
    rw [List.flatMap_eq_nil_iff]
    intro p hp
    have : conv p ∈ (splitHashTypes s).map conv := List.mem_map_of_mem hp
    rw [h] at this
    obtain ⟨t, _, e⟩ := List.mem_map.1 this
    rw [← e]
  rw [h1, h2]

theorem convertN_arrow {U : Unicode} {n : Nat} {ks vs : List YT} {r s : Text} (hr : WritesList U ks r) (hs : WritesList U vs s)
    (hk : noArrows ks) (hv : noArrows vs) (i1 : (splitHashTypes r).map (convertN U n) = (listMeans ks).map (fun t => (t, [])))
    (i2 : (splitHashTypes s).map (convertN U n) = (listMeans vs).map (fun t => (t, []))) :
    convertN U (n + 1) ('H' :: 'a' :: 's' :: 'h' :: '{' :: (r ++ '=' :: '>' :: (s ++ ['}']))) = (.hash (listMeans ks) (listMeans vs), []) := by
  have e1 : splitPair '=' '>' (r ++ '=' :: '>' :: s) [] = [r, s] := by
    rw [splitPair_cut (Writes.noEq.list hr hk), splitPair_end (Writes.noEq.list hs hv)]; simp
  have e2 : r ++ '=' :: '>' :: (s ++ ['}']) = (r ++ '=' :: '>' :: s) ++ ['}'] := by simp
  rw [e2, convertN_brace, e1]
  simp only
  rw [convertParts_eq (ts := listMeans ks) (by rw [hr.trim_split (noArrow_late.noArrows_late ks hk), i1]),
    convertParts_eq (ts := listMeans vs) (by rw [hs.trim_split (noArrow_late.noArrows_late vs hv), i2])]
  rfl

mutual
theorem Writes.exact {U : Unicode} {t : YT} {s : Text} (h : Writes U t s) (ht : t.lateArrow) (hp : t.plain) (n : Nat)
    (hn : s.length < n) : convertN U n s = (t.means, []) := by
  obtain ⟨n, rfl⟩ : ∃ m, n = m + 1 := ⟨n - 1, by omega⟩
  match h with
  | .word w s h =>
    unfold YT.plain at hp; unfold YT.means
    exact convertN_word U n h hp
  | .name path s hne hc hs =>
    subst hs
    unfold YT.plain at hp; unfold YT.means
    exact convertN_path U n hne hc hp
  | .array ts s h =>
    unfold YT.lateArrow at ht; unfold YT.plain at hp; unfold YT.means
    have := convertParts_eq (WritesList.exact h ht hp n (by simp at hn; omega))
    rw [convertN_array, this, if_neg]
    have : ts ≠ [] := by rintro rfl; cases h
    rw [listMeans_eq]; simpa using this
  | .hash k v s h =>
    unfold YT.lateArrow at ht; unfold YT.plain at hp; unfold YT.means
    match h with
    | .cons _ _ a s1 b r ha h1 hb hr =>
      match hr with
      | .one _ a' s2 b' ha' h2 hb' =>
        have e1 : splitHashTypes (a ++ s1 ++ b ++ ',' :: (a' ++ s2 ++ b')) = [s1, s2] := by
          rw [splitHashTypes_cons ha h1 hb ht.1, splitHashTypes_one ha' h2 hb' ht.2]
        have e2 : splitHashTypes s1 = [s1] := by
          simpa using splitHashTypes_one blank_nil h1 blank_nil (noArrow_late k ht.1)
        have e3 : splitHashTypes s2 = [s2] := by simpa using splitHashTypes_one blank_nil h2 blank_nil ht.2
        have i1 := Writes.exact h1 (noArrow_late k ht.1) hp.1 n (by simp at hn; omega)
        have i2 := Writes.exact h2 ht.2 hp.2 n (by simp at hn; omega)
        rw [convertN_hash U n e1, convertParts_eq (ts := [k.means]) (by simp [e2, i1]),
          convertParts_eq (ts := [v.means]) (by simp [e3, i2])]
        rfl
      | .cons _ _ a' s2 b' r' ha' h2 hb' hr' => nomatch hr'
  | .arrow ks vs r s hr hs =>
    unfold YT.lateArrow at ht; unfold YT.plain at hp; unfold YT.means
    have l1 := noArrow_late.noArrows_late ks ht.1
    have l2 := noArrow_late.noArrows_late vs ht.2.1
    have i1 := WritesList.exact hr l1 hp.1 n (by simp at hn; omega)
    have i2 := WritesList.exact hs l2 hp.2 n (by simp at hn; omega)
    exact convertN_arrow hr hs ht.1 ht.2.1 i1 i2
theorem WritesList.exact {U : Unicode} {ts : List YT} {s : Text} (h : WritesList U ts s) (ht : lateArrows ts) (hp : plains ts) (n : Nat)
    (hn : s.length < n) : (splitHashTypes s).map (convertN U n) = (listMeans ts).map (fun t => (t, [])) := by
  match h with
  | .one t a s b ha h hb =>
    unfold lateArrows at ht; unfold plains at hp
    have := Writes.exact h ht hp.1 n (by simp at hn; omega)
    rw [splitHashTypes_one ha h hb ht]
    simp [listMeans, this]
  | .cons t ts a s b r ha h hb hr =>
    have ht := lateArrows_cons hr ht
    unfold plains at hp
    have i1 := Writes.exact h (noArrow_late t ht.1) hp.1 n (by simp at hn; omega)
    have i2 := WritesList.exact hr ht.2 hp.2 n (by simp at hn; omega)
    rw [splitHashTypes_cons ha h hb ht.1]
    simp [listMeans, i1, i2]
end

/-! ### Enough fuel -/

theorem trim_length (s : Text) : (trim s).length ≤ s.length := by
  unfold trim trimEnd trimStart
  rw [List.length_reverse]
  have h1 := (List.dropWhile_sublist (p := ws) (l := (s.dropWhile ws).reverse)).length_le
  have h2 := (List.dropWhile_sublist (p := ws) (l := s)).length_le
  rw [List.length_reverse] at h1
  omega

theorem splitGo_length {s : Text} {d : Int} {cur p : Text} (h : p ∈ splitGo s d cur) : p.length ≤ cur.length + s.length := by
  induction s generalizing d cur with
  | nil =>
    unfold splitGo at h
    split at h
    · cases h
    · rw [List.mem_singleton.1 h]
      have := trim_length cur
      simpa using this
  | cons c s ih =>
    unfold splitGo at h
    split at h
    · have := ih h; simp at this ⊢; omega
    split at h
    · have := ih h; simp at this ⊢; omega
    split at h
    · rcases List.mem_cons.1 h with rfl | h
      · have := trim_length cur; simp; omega
      · have := ih h; simp at this ⊢; omega
    · have := ih h; simp at this ⊢; omega

theorem splitHashTypes_length {s p : Text} (h : p ∈ splitHashTypes s) : p.length ≤ s.length := by
  simpa using splitGo_length h

theorem splitPair_mem_length {x y : Char} {s cur p : Text} (h : p ∈ splitPair x y s cur) : p.length ≤ cur.length + s.length := by
  fun_induction splitPair x y s cur with
  | case1 cur => simp at h; subst h; simp
  | case2 c cur => simp at h; subst h; simp
  | case3 c d s cur hc ih =>
    rcases List.mem_cons.1 h with rfl | h
    · simp
    · have := ih h; simp at this ⊢; omega
  | case4 c d s cur hc ih => have := ih h; simp at this ⊢; omega

theorem extractGeneric_length {s n r : Text} (h : extractGeneric s n = some r) : r.length + 2 ≤ s.length := by
  unfold extractGeneric at h
  split at h
  · rename_i hc
    obtain ⟨h1, h2⟩ := hc
    cases h
    have h3 := (List.isPrefixOf_iff_prefix.1 h1)
    obtain ⟨q, rfl⟩ := h3
    have : q ≠ [] := by
      rintro rfl
      simp at h2
    have : 0 < q.length := List.length_pos_iff.2 this
    simp; omega
  · cases h

theorem extractHashBrace_length {s r : Text} (h : extractHashBrace s = some r) : r.length + 2 ≤ s.length := by
  unfold extractHashBrace at h
  split at h
  · rename_i hc
    obtain ⟨h1, h2⟩ := hc
    cases h
    have h3 := (List.isPrefixOf_iff_prefix.1 h1)
    obtain ⟨q, rfl⟩ := h3
    have : q ≠ [] := by
      rintro rfl
      simp [tHash] at h2
    have : 0 < q.length := List.length_pos_iff.2 this
    simp [tHash]; omega
  · cases h

theorem convertParts_congr {f g : Text → RTy × List Text} {s : Text} (h : ∀ p : Text, p.length ≤ s.length → f p = g p) :
    convertParts f s = convertParts g s := by
  unfold convertParts
  have h' : ∀ p ∈ splitHashTypes s, f p = g p := fun p hp => h p (splitHashTypes_length hp)
  congr 1
  · exact List.map_congr_left fun p hp => by rw [h' p hp]
  · rw [List.flatMap_def, List.flatMap_def]
    congr 1
    exact List.map_congr_left fun p hp => by rw [h' p hp]

theorem convertN_fuel (U : Unicode) (n m : Nat) (s : Text) (hn : s.length < n) (hm : s.length < m) : convertN U n s = convertN U m s := by
  induction n generalizing m s with
  | zero => omega
  | succ n ih =>
    obtain ⟨m, rfl⟩ : ∃ k, m = k + 1 := ⟨m - 1, by omega⟩
    have key : ∀ q : Text, q.length + 2 ≤ (trim s).length → convertParts (convertN U n) q = convertParts (convertN U m) q := by
      intro q hq
      have := trim_length s
      exact convertParts_congr fun p hp => ih m p (by omega) (by omega)
    unfold convertN
    simp only
    split
    · rfl
    split
    · rfl
    split
    · rfl
    split
    · rfl
    split
    · rfl
    split
    · rename_i inner h
      rw [key inner (extractGeneric_length h)]
    · split
      · rename_i inner h
        have hl := extractGeneric_length h
        rcases hs : splitHashTypes inner with _ | ⟨k, _ | ⟨v, l⟩⟩
        · rfl
        · rfl
        · have h1 := splitHashTypes_length (s := inner) (p := k) (by rw [hs]; simp)
          have h2 := splitHashTypes_length (s := inner) (p := v) (by rw [hs]; simp)
          simp only
          rw [key k (by omega), key v (by omega)]
      · split
        · rename_i inner h
          have hl := extractHashBrace_length h
          rcases hs : splitPair '=' '>' inner [] with _ | ⟨k, _ | ⟨v, _ | ⟨w, l⟩⟩⟩
          · rfl
          · rfl
          · have h1 := splitPair_mem_length (x := '=') (y := '>') (s := inner) (cur := []) (p := k) (by rw [hs]; simp)
            have h2 := splitPair_mem_length (x := '=') (y := '>') (s := inner) (cur := []) (p := v) (by rw [hs]; simp)
            have h3 := trim_length k
            have h4 := trim_length v
            simp at h1 h2
            simp only
            rw [key (trim k) (by omega), key (trim v) (by omega)]
          · rfl
        · rfl

/-! ### Hashes with braces inside of hashes with braces -/

theorem Writes.hasArrow {U : Unicode} {t : YT} {s : Text} (h : Writes U t s) (ht : ¬ t.noArrow) : ∃ u w, s = u ++ '=' :: '>' :: w := by
  match h with
  | .word w s h => exact absurd (by unfold YT.noArrow; trivial) ht
  | .name path s hne hp hs => exact absurd (by unfold YT.noArrow; trivial) ht
  | .array ts s h =>
    unfold YT.noArrow at ht
    obtain ⟨u, w, rfl⟩ := list h ht
    exact ⟨'A' :: 'r' :: 'r' :: 'a' :: 'y' :: '<' :: u, w ++ ['>'], by simp⟩
  | .hash k v s h =>
    unfold YT.noArrow at ht
    obtain ⟨u, w, rfl⟩ := list h (by simp only [noArrows]; simpa using ht)
    exact ⟨'H' :: 'a' :: 's' :: 'h' :: '<' :: u, w ++ ['>'], by simp⟩
  | .arrow ks vs r s hr hs => exact ⟨'H' :: 'a' :: 's' :: 'h' :: '{' :: r, s ++ ['}'], by simp⟩
where
  list {ts : List YT} {s : Text} (h : WritesList U ts s) (ht : ¬ noArrows ts) : ∃ u w, s = u ++ '=' :: '>' :: w := by
    match h with
    | .one t a s b ha h hb =>
      simp only [noArrows, and_true] at ht
      obtain ⟨u, w, rfl⟩ := Writes.hasArrow h ht
      exact ⟨a ++ u, w ++ b, by simp⟩
    | .cons t ts a s b r ha h hb hr =>
      unfold noArrows at ht
      by_cases h1 : t.noArrow
      · obtain ⟨u, w, rfl⟩ := list hr (fun h2 => ht ⟨h1, h2⟩)
        exact ⟨a ++ s ++ b ++ ',' :: u, w, by simp⟩
      · obtain ⟨u, w, rfl⟩ := Writes.hasArrow h h1
        exact ⟨a ++ u, w ++ b ++ ',' :: r, by simp⟩

theorem convertN_nested {U : Unicode} {ks vs : List YT} {s : Text} (h : Writes U (.arrow ks vs) s) (hn : ¬ (noArrows ks ∧ noArrows vs))
    (n : Nat) : convertN U (n + 1) s = (.hash [.unknown] [.unknown], []) := by
  cases h with
  | arrow ks vs r s hr hs =>
    have e2 : r ++ '=' :: '>' :: (s ++ ['}']) = (r ++ '=' :: '>' :: s) ++ ['}'] := by simp
    rw [e2, convertN_brace]
    have hl : 3 ≤ (splitPair '=' '>' (r ++ '=' :: '>' :: s) []).length := by
      rw [splitPair_length (by decide)]
      have p1 := splitPair_pos '=' '>' r []
      have p2 := splitPair_pos '=' '>' s []
      by_cases hk : noArrows ks
      · obtain ⟨u, w, rfl⟩ := Writes.hasArrow.list hs fun h => hn ⟨hk, h⟩
        rw [splitPair_length (by decide)] at p2 ⊢
        have := splitPair_pos '=' '>' u []
        have := splitPair_pos '=' '>' w []
        omega
      · obtain ⟨u, w, rfl⟩ := Writes.hasArrow.list hr hk
        rw [splitPair_length (by decide)] at p1 ⊢
        have := splitPair_pos '=' '>' u []
        have := splitPair_pos '=' '>' w []
        omega
    rcases hs : splitPair '=' '>' (r ++ '=' :: '>' :: s) [] with _ | ⟨k, _ | ⟨v, _ | ⟨w, l⟩⟩⟩
    · rfl
    · rfl
    · rw [hs] at hl; simp at hl
    · rfl

/-! ### Unions -/

theorem HasAny_iff (ts : List RTy) (v : Val) : HasAny ts v ↔ ∃ t ∈ ts, Has t v := by
  induction ts with
  | nil => simp [HasAny]
  | cons t ts ih => simp [HasAny, ih]

theorem mem_dedup {ts : List RTy} {t : RTy} : t ∈ dedup ts ↔ t ∈ ts := by
  unfold dedup
  suffices ∀ acc : List RTy, t ∈ ts.foldl (fun seen t => if t ∈ seen then seen else seen ++ [t]) acc ↔ t ∈ acc ∨ t ∈ ts by
    simpa using this []
  induction ts with
  | nil => simp
  | cons u ts ih =>
    intro acc
    rw [List.foldl_cons, ih]
    split
    · rename_i hu
      constructor
      · rintro (h | h)
        · exact .inl h
        · exact .inr (List.mem_cons_of_mem _ h)
      · rintro (h | h)
        · exact .inl h
        · rcases List.mem_cons.1 h with rfl | h
          · exact .inl hu
          · exact .inr h
    · simp [or_assoc]

theorem nodup_dedup (ts : List RTy) : (dedup ts).Nodup := by
  unfold dedup
  suffices ∀ acc : List RTy, acc.Nodup → (ts.foldl (fun seen t => if t ∈ seen then seen else seen ++ [t]) acc).Nodup from this [] List.nodup_nil
  induction ts with
  | nil => intro acc h; exact h
  | cons u ts ih =>
    intro acc h
    rw [List.foldl_cons]
    apply ih
    split
    · exact h
    · rename_i hu
      rw [List.nodup_append]
      refine ⟨h, by simp, ?_⟩
      rintro a ha b hb rfl
      exact hu (List.mem_singleton.1 hb ▸ ha)

theorem has_flatten (ts : List RTy) (v : Val) : HasAny (flatten ts) v ↔ HasAny ts v := by
  rw [HasAny_iff, HasAny_iff]
  unfold flatten
  constructor
  · rintro ⟨t, ht, hv⟩
    obtain ⟨u, hu, ht⟩ := List.mem_flatMap.1 ht
    refine ⟨u, hu, ?_⟩
    cases u with
    | union l => simp only [Has, HasAny_iff]; exact ⟨t, ht, hv⟩
    | _ => simp only [List.mem_singleton] at ht; exact ht ▸ hv
  · rintro ⟨u, hu, hv⟩
    cases u with
    | union l =>
      simp only [Has, HasAny_iff] at hv
      obtain ⟨t, ht, hv⟩ := hv
      exact ⟨t, List.mem_flatMap.2 ⟨_, hu, ht⟩, hv⟩
    | cls p => exact ⟨.cls p, List.mem_flatMap.2 ⟨_, hu, by simp⟩, hv⟩
    | array p => exact ⟨.array p, List.mem_flatMap.2 ⟨_, hu, by simp⟩, hv⟩
    | hash p q => exact ⟨.hash p q, List.mem_flatMap.2 ⟨_, hu, by simp⟩, hv⟩
    | unknown => exact ⟨.unknown, List.mem_flatMap.2 ⟨_, hu, by simp⟩, hv⟩

/-- A union describes the values that one of its members describes. -/
theorem has_convertMultiple (U : Unicode) {ps : List Text} (hne : ps ≠ []) (v : Val) :
    Has (convertMultiple U ps) v ↔ ∃ p ∈ ps, Has (convert U p) v := by
  match ps with
  | [] => exact absurd rfl hne
  | [p] => simp [convertMultiple]
  | p :: q :: l =>
    have key : HasAny (dedup (flatten ((p :: q :: l).map (convert U)))) v ↔ ∃ x ∈ p :: q :: l, Has (convert U x) v := by
      rw [HasAny_iff]
      simp only [mem_dedup]
      rw [← HasAny_iff, has_flatten, HasAny_iff]
      simp
    unfold convertMultiple
    simp only
    split
    · rename_i h
      rw [← key, HasAny_iff]
      exact ⟨fun _ => ⟨_, h, trivial⟩, fun _ => trivial⟩
    · rename_i h
      rw [← key]
      split
      · rename_i t e
        rw [e]; simp [HasAny]
      · simp [Has]

end Verif.Yard
