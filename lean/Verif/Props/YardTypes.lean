import Verif.Lemmas.YardExact
/-!
C60: the types of YARD comments are read as YARD's documentation says.
-/
namespace Verif.Yard

theorem readable_listable {t : YT} (h : t.readable) : t.listable := by
  cases t <;> first | exact trivial | exact h

/-- The fuel of the recursion is enough for every text. -/
theorem c60_fuel (U : Unicode) (n : Nat) (s : Text) (h : s.length < n) : convertN U n s = convertV U s :=
  convertN_fuel U n (s.length + 1) s h (by omega)

/-- A type that is written as YARD says is read as what it means, whatever the white space in it, and nothing in it is reported. -/
theorem c60_exact (U : Unicode) (t : YT) (s : Text) (h : Writes U t s) (hr : t.readable) (hp : t.plain) :
    convertV U s = (t.means, []) := by
  unfold convertV
  cases h with
  | arrow ks vs r s hr' hs =>
    unfold YT.plain at hp
    unfold YT.means
    unfold YT.readable at hr
    simp only at hr
    have l1 := noArrow_late.noArrows_late ks hr.1
    have l2 := noArrow_late.noArrows_late vs hr.2
    exact convertN_arrow hr' hs hr.1 hr.2 (WritesList.exact hr' l1 hp.1 _ (by simp; omega)) (WritesList.exact hs l2 hp.2 _ (by simp; omega))
  | word w s h => exact Writes.exact (.word w s h) hr hp _ (Nat.lt_succ_self _)
  | name path s h1 h2 h3 => exact Writes.exact (.name path s h1 h2 h3) hr hp _ (Nat.lt_succ_self _)
  | array ts s h => exact Writes.exact (.array ts s h) hr hp _ (Nat.lt_succ_self _)
  | hash k v s h => exact Writes.exact (.hash k v s h) hr hp _ (Nat.lt_succ_self _)

/-- The list of types of a tag is split at the commas between the types and at no other. -/
theorem c60_split (U : Unicode) (ts : List YT) (s : Text) (h : WritesList U ts s) (hr : ∀ t ∈ ts, t.listable) :
    ∃ ps, List.Forall₂ (Writes U) ts ps ∧ parseTypeList s = ps := by
  unfold parseTypeList
  rw [if_neg h.ne]
  exact listGo_list h hr

/-- The type that is stored for a tag describes exactly the values that one of its types describes. -/
theorem c60_tag (U : Unicode) (ts : List YT) (s : Text) (h : WritesList U ts s) (hr : ∀ t ∈ ts, t.readable ∧ t.plain) (v : Val) :
    Has (typeOfTag U s) v ↔ ∃ t ∈ ts, Has t.means v := by
  obtain ⟨ps, hps, e⟩ := c60_split U ts s h fun t ht => readable_listable (hr t ht).1
  have hne : ps ≠ [] := by rintro rfl; cases hps; cases h
  unfold typeOfTag
  rw [e, has_convertMultiple U hne]
  clear e hne h
  induction hps with
  | nil => simp
  | cons hw hps ih =>
    rename_i t p ts ps
    have e := c60_exact U t p hw (hr t (by simp)).1 (hr t (by simp)).2
    have ih := ih fun u hu => hr u (List.mem_cons_of_mem _ hu)
    simp only [List.mem_cons, exists_eq_or_imp]
    exact or_congr (by rw [show convert U p = t.means by unfold convert; rw [e]]) ih

/-- The type of a tag with one type is that type; that of a tag with more is unknown if one of them is, and else a union without
repetitions of their members, or the type that they all are. -/
theorem c60_union (U : Unicode) (ts : List YT) (s : Text) (h : WritesList U ts s) (hr : ∀ t ∈ ts, t.readable ∧ t.plain) :
    (∀ t, ts = [t] → typeOfTag U s = t.means) ∧
    (2 ≤ ts.length → ∀ ms : List RTy, (∀ m, m ∈ ms ↔ ∃ t ∈ ts, (∃ l, t.means = .union l ∧ m ∈ l) ∨ ((∀ l, t.means ≠ .union l) ∧ m = t.means)) →
      (RTy.unknown ∈ ms → typeOfTag U s = .unknown) ∧
      (RTy.unknown ∉ ms → ∃ us : List RTy, us.Nodup ∧ (∀ m, m ∈ us ↔ m ∈ ms) ∧ (us = [typeOfTag U s] ∨ typeOfTag U s = .union us))) := by
  obtain ⟨ps, hps, e⟩ := c60_split U ts s h fun t ht => readable_listable (hr t ht).1
  have hm : ps.map (convert U) = ts.map YT.means := by
    clear e h
    induction hps with
    | nil => rfl
    | cons hw hps ih =>
      rename_i t p ts ps
      have e := c60_exact U t p hw (hr t (by simp)).1 (hr t (by simp)).2
      rw [List.map_cons, List.map_cons, ih fun u hu => hr u (List.mem_cons_of_mem _ hu), show convert U p = t.means by unfold convert; rw [e]]
  have hlen : ps.length = ts.length := by simpa using congrArg List.length hm
  constructor
  · rintro t rfl
    unfold typeOfTag
    rw [e]
    match ps, hm with
    | [p], hm => simpa [convertMultiple] using hm
  · intro h2 ms hms
    have hflat : ∀ m, m ∈ dedup (flatten (ps.map (convert U))) ↔ m ∈ ms := by
      intro m
      rw [mem_dedup, hm, hms]
      unfold flatten
      simp only [List.mem_flatMap, List.mem_map]
      constructor
      · rintro ⟨_, ⟨t, ht, rfl⟩, hmt⟩
        refine ⟨t, ht, ?_⟩
        cases hu : t.means with
        | union l => rw [hu] at hmt; exact .inl ⟨l, rfl, hmt⟩
        | _ => rw [hu] at hmt; exact .inr ⟨fun l hl => (by cases hl), List.mem_singleton.1 hmt⟩
      · rintro ⟨t, ht, h⟩
        refine ⟨_, ⟨t, ht, rfl⟩, ?_⟩
        rcases h with ⟨l, hl, hm⟩ | ⟨hl, hm⟩
        · rw [hl]; exact hm
        · cases hu : t.means with
          | union l => exact absurd hu (hl l)
          | _ => rw [hm, hu]; simp
    have hc : typeOfTag U s = (if RTy.unknown ∈ dedup (flatten (ps.map (convert U))) then .unknown else
        match dedup (flatten (ps.map (convert U))) with | [t] => t | seen => .union seen) := by
      unfold typeOfTag
      rw [e]
      match ps, hlen with
      | [], hl => simp at hl; omega
      | [p], hl => simp at hl; omega
      | p :: q :: l, _ => rfl
    constructor
    · intro hu
      rw [hc, if_pos ((hflat _).2 hu)]
    · intro hu
      refine ⟨_, nodup_dedup (flatten (ps.map (convert U))), hflat, ?_⟩
      rw [hc, if_neg (fun h => hu ((hflat _).1 h))]
      generalize dedup (flatten (ps.map (convert U))) = us
      match us with
      | [] => exact .inr rfl
      | [t] => exact .inl rfl
      | t :: u :: l => exact .inr rfl

/-- A hash with braces that has another inside becomes a hash of anything. -/
theorem c60_nested (U : Unicode) (ks vs : List YT) (s : Text) (h : Writes U (.arrow ks vs) s) (hn : ¬ (noArrows ks ∧ noArrows vs)) :
    convertV U s = (.hash [.unknown] [.unknown], []) := convertN_nested h hn _

/-- So what is stored never says too much: it describes all values that the types of the tag describe, for hashes with braces at the
outside with anything in them, and for types as in `c60_exact`. -/
theorem c60_covers (U : Unicode) (ts : List YT) (s : Text) (h : WritesList U ts s) (hr : ∀ t ∈ ts, t.listable ∧ t.plain) (v : Val)
    (t : YT) (ht : t ∈ ts) (hv : Has t.means v) : Has (typeOfTag U s) v := by
  obtain ⟨ps, hps, e⟩ := c60_split U ts s h fun t ht => (hr t ht).1
  have hne : ps ≠ [] := by rintro rfl; cases hps; cases h
  unfold typeOfTag
  rw [e, has_convertMultiple U hne]
  clear e hne h
  induction hps with
  | nil => cases ht
  | cons hw hps ih =>
    rename_i u p ts ps
    rcases List.mem_cons.1 ht with rfl | ht
    · refine ⟨p, by simp, ?_⟩
      obtain ⟨h1, h2⟩ := hr t (by simp)
      by_cases hx : t.readable
      · unfold convert; rw [c60_exact U t p hw hx h2]; exact hv
      · cases t with
        | arrow ks vs =>
          unfold convert
          rw [c60_nested U ks vs p hw hx]
          unfold YT.means at hv
          simp only [Has] at hv ⊢
          obtain ⟨es, rfl, _⟩ := hv
          exact ⟨es, rfl, fun _ _ => by simp [HasAny, Has]⟩
        | word w => exact absurd h1 hx
        | name p => exact absurd h1 hx
        | array ts => exact absurd h1 hx
        | hash k v => exact absurd h1 hx
    · obtain ⟨q, hq, hc⟩ := ih (fun u hu => hr u (List.mem_cons_of_mem _ hu)) ht
      exact ⟨q, List.mem_cons_of_mem _ hq, hc⟩

/-- A path with `::` before it is that path. -/
theorem c60_root (U : Unicode) (path : List Text) (hne : path ≠ []) (h : ∀ p ∈ path, Constant U p) :
    convertV U (':' :: ':' :: joinPath path) = (.cls path, []) := by
  have hs : Tight (':' :: ':' :: joinPath path) := by
    apply tight_of (by simp)
    intro c hc
    simp only [List.mem_cons] at hc
    rcases hc with rfl | rfl | hc
    · decide
    · decide
    · rcases joinPath_mem hc with rfl | ⟨p, hp, hc⟩
      · decide
      · exact U.contNotWs c (Constant.mem U (h p hp) hc)
  have ha : Atom (':' :: ':' :: joinPath path) := Atom.append (s := [':', ':']) (by unfold Atom; decide) (joinPath_atom U h)
  have hn : parseName U (':' :: ':' :: joinPath path) = some path := by
    unfold parseName
    rw [splitPair, if_pos ⟨rfl, rfl⟩, splitPair_path U hne h, constants, if_pos (by decide), constants_path U h]
    cases path with
    | nil => exact absurd rfl hne
    | cons p l => rfl
  unfold convertV convertN
  simp only [trim_tight hs, eqNoCase_cons (show lower ':' ≠ lower 'n' by decide), eqNoCase_cons (show lower ':' ≠ lower 'v' by decide),
    eqNoCase_cons (show lower ':' ≠ lower 't' by decide), eqNoCase_cons (show lower ':' ≠ lower 'f' by decide),
    eqNoCase_cons (show lower ':' ≠ lower 'b' by decide), tNil, tVoid, tTrue, tFalse, tBoolean, tBool, Bool.or_self, Bool.false_eq_true, if_false,
    extractGeneric_none (fun hc => (ha _ hc).2.1 rfl), extractHashBrace_none (fun hc => (ha _ hc).2.2.2.1 rfl)]
  unfold convertName
  simp [tString, tInteger, tFixnum, tBignum, tFloat, tSymbol, tTrueClass, tFalseClass, tNilClass, tObject, tBasicObject, hn]

/-- A name in ASCII that begins with a capital letter is a constant. -/
theorem constant_ascii (U : Unicode) {c : Char} {s : Text} (hc : c.toNat < 128 ∧ asciiUpper c = true)
    (hs : ∀ d ∈ s, d.toNat < 128 ∧ asciiWord d = true) : Constant U (c :: s) :=
  ⟨c, s, rfl, by rw [U.firstAscii c hc.1]; exact hc.2, fun d hd => by rw [U.contAscii d (hs d hd).1]; exact (hs d hd).2⟩

/-- A name that is no constant and none of YARD's words, in whatever case, is reported, and its type is unknown. -/
theorem c60_reported (U : Unicode) (a s b : Text) (ha : Blank a) (hs : Tight s) (hb : Blank b) (hn : ¬ Constant U s)
    (hc : ∀ c ∈ s, c ≠ ':' ∧ c ≠ '>' ∧ c ≠ '}') (hw : ∀ w : Word, ∀ k ∈ w.spelled, s.map lower ≠ k.map lower) :
    convertV U (a ++ s ++ b) = (.unknown, [s]) := by
  have k1 : ∀ k : Text, k.map lower = k → (∃ w : Word, k ∈ w.spelled) → eqNoCase s k = false := by
    rintro k hk ⟨w, hkw⟩
    exact eqNoCase_false hk fun e => hw w k hkw (by rw [e, hk])
  have k2 : ∀ n : Text, Constant U n → s ≠ n := fun n h e => hn (e ▸ h)
  have hp : parseName U s = none := by
    unfold parseName
    rw [splitPair_end (fun h => (hc _ h).1 rfl), List.nil_append, constants, trim_tight hs, if_neg hs.ne,
      if_neg fun h => hn ((constant_iff U s).1 h)]
  unfold convertV convertN
  simp only [trim_pad ha hs hb, k1 tNil (by decide) ⟨.nil, by decide⟩, k1 tVoid (by decide) ⟨.void, by decide⟩,
    k1 tTrue (by decide) ⟨.true, by decide⟩, k1 tFalse (by decide) ⟨.false, by decide⟩, k1 tBoolean (by decide) ⟨.boolean, by decide⟩,
    k1 tBool (by decide) ⟨.boolean, by decide⟩, Bool.or_self, Bool.false_eq_true, if_false,
    extractGeneric_none (fun h => (hc _ h).2.1 rfl), extractHashBrace_none (fun h => (hc _ h).2.2 rfl)]
  unfold convertName
  have c : ∀ (c : Char) (r : Text), (c.toNat < 128 ∧ asciiUpper c = true) → (∀ d ∈ r, d.toNat < 128 ∧ asciiWord d = true) → s ≠ c :: r :=
    fun c r h1 h2 => k2 _ (constant_ascii U h1 h2)
  have htString : s ≠ tString := c _ _ (by decide) (by decide)
  have htInteger : s ≠ tInteger := c _ _ (by decide) (by decide)
  have htFixnum : s ≠ tFixnum := c _ _ (by decide) (by decide)
  have htBignum : s ≠ tBignum := c _ _ (by decide) (by decide)
  have htFloat : s ≠ tFloat := c _ _ (by decide) (by decide)
  have htSymbol : s ≠ tSymbol := c _ _ (by decide) (by decide)
  have htTrueClass : s ≠ tTrueClass := c _ _ (by decide) (by decide)
  have htFalseClass : s ≠ tFalseClass := c _ _ (by decide) (by decide)
  have htNilClass : s ≠ tNilClass := c _ _ (by decide) (by decide)
  have htObject : s ≠ tObject := c _ _ (by decide) (by decide)
  have htBasicObject : s ≠ tBasicObject := c _ _ (by decide) (by decide)
  simp only [htString, htInteger, htFixnum, htBignum, htFloat, htSymbol, htTrueClass, htFalseClass, htNilClass, htObject, htBasicObject, hp, or_self, if_false]

/-- Brackets without a type say nothing. -/
theorem c60_none (U : Unicode) (s : Text) (h : ∀ c ∈ s, ws c = true ∨ c = ',') : typeOfTag U s = .unknown := by
  have key : ∀ s cur : Text, (∀ c ∈ s, ws c = true ∨ c = ',') → Blank cur → listGo s 0 0 cur = [] := by
    intro s
    induction s with
    | nil =>
      intro cur _ hcur
      rw [listGo, if_pos (trim_blank hcur)]
    | cons c s ih =>
      intro cur hs hcur
      have hsc := hs c (by simp)
      have hs' : ∀ d ∈ s, ws d = true ∨ d = ',' := fun d hd => hs d (List.mem_cons_of_mem _ hd)
      have hne : c ≠ '<' ∧ c ≠ '>' ∧ c ≠ '{' ∧ c ≠ '}' := by
        refine ⟨?_, ?_, ?_, ?_⟩ <;> (rintro rfl; revert hsc; decide)
      rw [listGo, if_neg hne.1, if_neg fun e => hne.2.1 e.1, if_neg hne.2.2.1, if_neg fun e => hne.2.2.2 e.1]
      split
      · rw [if_pos (trim_blank hcur)]
        exact ih [] hs' (by simp [Blank])
      · rename_i hcm
        have hcw : ws c = true := hsc.resolve_right fun e => hcm ⟨e, rfl, rfl⟩
        exact ih _ hs' (by intro d hd; rcases List.mem_append.1 hd with hd | hd
                           · exact hcur d hd
                           · rw [List.mem_singleton] at hd; subst hd; exact hcw)
  unfold typeOfTag parseTypeList
  split
  · rfl
  · rw [key s [] h (by simp [Blank])]; rfl

mutual
/-- Every class in a type has a name that is a path of constants. -/
def Named (U : Unicode) : RTy → Prop
  | .cls path => path ≠ [] ∧ ∀ p ∈ path, Constant U p
  | .array ts => NamedAll U ts
  | .hash ks vs => NamedAll U ks ∧ NamedAll U vs
  | .union ts => NamedAll U ts
  | .unknown => True
def NamedAll (U : Unicode) : List RTy → Prop
  | [] => True
  | t :: ts => Named U t ∧ NamedAll U ts
end

theorem NamedAll_iff (U : Unicode) (ts : List RTy) : NamedAll U ts ↔ ∀ t ∈ ts, Named U t := by
  induction ts with
  | nil => simp [NamedAll]
  | cons t ts ih => simp [NamedAll, ih]

theorem named_builtin (U : Unicode) {n : Text} (h : ∃ c r, n = c :: r ∧ (c.toNat < 128 ∧ asciiUpper c = true) ∧ ∀ d ∈ r, d.toNat < 128 ∧ asciiWord d = true) :
    Named U (.named n) := by
  obtain ⟨c, r, rfl, ⟨h1, h2⟩, h3⟩ := h
  unfold RTy.named Named
  refine ⟨by simp, ?_⟩
  intro p hp
  rw [List.mem_singleton.1 hp]
  exact ⟨c, r, rfl, by rw [U.firstAscii c h1, h2], fun d hd => by rw [U.contAscii d (h3 d hd).1, (h3 d hd).2]⟩

theorem constants_valid (U : Unicode) {l path : List Text} (h : constants U l = some path) : ∀ p ∈ path, Constant U p := by
  induction l generalizing path with
  | nil => cases h; simp
  | cons q l ih =>
    unfold constants at h
    split at h
    · exact ih h
    split at h
    · rename_i hc
      cases hl : constants U l with
      | none => rw [hl] at h; cases h
      | some m =>
        rw [hl] at h
        cases h
        intro p hp
        rcases List.mem_cons.1 hp with rfl | hp
        · exact (constant_iff U _).1 hc
        · exact ih hl p hp
    · cases h

theorem convertName_valid (U : Unicode) (s : Text) : Named U (convertName U s).1 := by
  unfold convertName
  split
  · exact named_builtin U ⟨_, _, rfl, by decide, by decide⟩
  split
  · exact named_builtin U ⟨_, _, rfl, by decide, by decide⟩
  split
  · exact named_builtin U ⟨_, _, rfl, by decide, by decide⟩
  split
  · exact named_builtin U ⟨_, _, rfl, by decide, by decide⟩
  split
  · exact named_builtin U ⟨_, _, rfl, by decide, by decide⟩
  split
  · exact named_builtin U ⟨_, _, rfl, by decide, by decide⟩
  split
  · exact named_builtin U ⟨_, _, rfl, by decide, by decide⟩
  split
  · simp [Named]
  split
  · rename_i path h
    unfold parseName at h
    split at h
    · rename_i c l hc
      cases h
      unfold Named
      exact ⟨by simp, constants_valid U hc⟩
    · cases h
  · simp [Named]

/-- Whatever the text: every class in the type has a name that is a path of constants. -/
theorem c60_names (U : Unicode) (s : Text) : Named U (convert U s) := by
  unfold convert convertV
  generalize s.length + 1 = n
  induction n generalizing s with
  | zero => simp [convertN, Named]
  | succ n ih =>
    have hparts : ∀ q, NamedAll U (convertParts (convertN U n) q).1 := by
      intro q
      rw [NamedAll_iff]
      unfold convertParts
      intro t ht
      obtain ⟨p, _, rfl⟩ := List.mem_map.1 ht
      exact ih p
    have hunk : Named U (.hash [.unknown] [.unknown]) := by simp [Named, NamedAll]
    unfold convertN
    simp only
    split
    · exact named_builtin U ⟨_, _, rfl, by decide, by decide⟩
    split
    · exact named_builtin U ⟨_, _, rfl, by decide, by decide⟩
    split
    · exact named_builtin U ⟨_, _, rfl, by decide, by decide⟩
    split
    · exact named_builtin U ⟨_, _, rfl, by decide, by decide⟩
    split
    · simp only [RTy.boolean, Named, NamedAll]
      exact ⟨named_builtin U ⟨_, _, rfl, by decide, by decide⟩, named_builtin U ⟨_, _, rfl, by decide, by decide⟩, trivial⟩
    split
    · rename_i inner h
      simp only [Named]
      split
      · simp [NamedAll, Named]
      · exact hparts inner
    · split
      · split
        · simp only [Named]; exact ⟨hparts _, hparts _⟩
        · exact hunk
      · split
        · split
          · simp only [Named]; exact ⟨hparts _, hparts _⟩
          · exact hunk
        · exact convertName_valid U _

/-! ### What does not hold -/

/-- The ASCII part of Unicode. -/
def asciiU : Unicode where
  first := asciiUpper
  cont := asciiWord
  firstAscii _ _ := rfl
  contAscii _ _ := rfl
  contOfFirst c h := by simp [asciiWord, h]
  contNotWs c h := by
    simp only [asciiWord, asciiUpper, Bool.or_eq_true, Bool.and_eq_true, decide_eq_true_eq, beq_iff_eq] at h
    simp only [ws, Bool.or_eq_false_iff, Bool.and_eq_false_iff, decide_eq_false_iff_not, beq_eq_false_iff_ne]
    omega

example : convertV asciiU " my_type ".toList = (.unknown, ["my_type".toList]) ∧ typeOfTag asciiU " , ".toList = .unknown := by decide +kernel

theorem writes_name {n : Text} (h : isConstant asciiU n = true) : Writes asciiU (.name [n]) n :=
  .name [n] n (by simp) (by intro p hp; rw [List.mem_singleton.1 hp]; exact (constant_iff _ _).1 h) rfl

/-- `Hash{Symbol => String}` -/
def symbolHash : YT := .arrow [.name [tSymbol]] [.name [tString]]

/-- `Hash{Symbol=>String}` -/
def symbolHashText : Text := tHash ++ '{' :: (tSymbol ++ '=' :: '>' :: (tString ++ ['}']))

theorem writes_symbolHash : Writes asciiU symbolHash symbolHashText :=
  .arrow _ _ tSymbol tString (.one _ [] tSymbol [] blank_nil (writes_name (by decide)) blank_nil)
    (.one _ [] tString [] blank_nil (writes_name (by decide)) blank_nil)

/-- `Array<Hash{Symbol=>String}>, nil` is read as it should be: the case that `c60_tag` has beyond flat types. -/
example : typeOfTag asciiU (tArray ++ '<' :: symbolHashText ++ ['>', ',', ' ', 'n', 'i', 'l']) =
    .union [.array [.hash [.cls [tSymbol]] [.cls [tString]]], .cls [tNilClass]] := by decide +kernel

/-- `Array<Hash{Symbol=>String},Integer>`: the `>` of `=>` is taken for a closing bracket, so the comma in the brackets splits the tag, and
nothing is known of the type. -/
theorem c60_comma_fails : ∃ (t : YT) (s : Text), Writes asciiU t s ∧ t.plain ∧ t.means ≠ .unknown ∧
    (parseTypeList s).length = 2 ∧ typeOfTag asciiU s = .unknown := by
  refine ⟨.array [symbolHash, .name [tInteger]], tArray ++ '<' :: (([] ++ symbolHashText ++ [] ++ ',' :: ([] ++ tInteger ++ [])) ++ ['>']),
    .array _ _ (.cons _ _ [] _ [] _ blank_nil writes_symbolHash blank_nil (.one _ [] _ [] blank_nil (writes_name (by decide)) blank_nil)), ?_, ?_, ?_, ?_⟩
  · simp only [YT.plain, plains, symbolHash]; decide
  · simp [YT.means]
  · decide +kernel
  · decide +kernel

/-- `Hash<Array<Hash{Symbol=>String},Integer,Float>,Array<Integer>>` becomes `Hash<unknown, Integer>` or `Array<unknown>`: a hash of an array to an
array is documented, but excluded by what is stored. -/
theorem c60_wrong_fails : ∃ (t : YT) (s : Text) (v : Val), Writes asciiU t s ∧ t.plain ∧ Has t.means v ∧ ¬ Has (typeOfTag asciiU s) v := by
  refine ⟨.hash (.array [symbolHash, .name [tInteger], .name [tFloat]]) (.array [.name [tInteger]]),
    tHash ++ '<' :: (([] ++ (tArray ++ '<' :: (([] ++ symbolHashText ++ [] ++ ',' :: ([] ++ tInteger ++ [] ++ ',' :: ([] ++ tFloat ++ []))) ++ ['>'])) ++ [] ++
      ',' :: ([] ++ (tArray ++ '<' :: (([] ++ tInteger ++ []) ++ ['>'])) ++ [])) ++ ['>']),
    .hsh [(.arr [], .arr [.obj [tInteger]])], ?_, ?_, ?_, ?_⟩
  · exact .hash _ _ _ (.cons _ _ [] _ [] _ blank_nil
      (.array _ _ (.cons _ _ [] _ [] _ blank_nil writes_symbolHash blank_nil (.cons _ _ [] _ [] _ blank_nil (writes_name (by decide)) blank_nil
        (.one _ [] _ [] blank_nil (writes_name (by decide)) blank_nil)))) blank_nil
      (.one _ [] _ [] blank_nil (.array _ _ (.one _ [] _ [] blank_nil (writes_name (by decide)) blank_nil)) blank_nil))
  · simp only [YT.plain, plains, symbolHash]; decide
  · simp [YT.means, listMeans, Has, HasAny, pathMeans, tObject, tBasicObject, tInteger, tFixnum, tBignum]
  · rw [show typeOfTag asciiU _ = .union [.hash [.unknown] [.cls [tInteger]], .array [.unknown]] by decide +kernel]
    simp [Has, HasAny]

/-- `Array<Hash{Symbol=>String,Integer}>`: the comma between the types of the values splits the types of the elements, which are then not known. -/
theorem c60_values_fails : ∃ (t : YT) (s : Text), Writes asciiU t s ∧ t.plain ∧
    t.means = .array [.hash [.cls [tSymbol]] [.cls [tString], .cls [tInteger]]] ∧
    typeOfTag asciiU s = .array [.unknown, .unknown] := by
  refine ⟨.array [.arrow [.name [tSymbol]] [.name [tString], .name [tInteger]]],
    tArray ++ '<' :: (([] ++ (tHash ++ '{' :: (([] ++ tSymbol ++ []) ++ '=' :: '>' :: (([] ++ tString ++ [] ++ ',' :: ([] ++ tInteger ++ [])) ++ ['}']))) ++ []) ++ ['>']),
    ?_, ?_, ?_, ?_⟩
  · exact .array _ _ (.one _ [] _ [] blank_nil (.arrow _ _ _ _ (.one _ [] _ [] blank_nil (writes_name (by decide)) blank_nil)
      (.cons _ _ [] _ [] _ blank_nil (writes_name (by decide)) blank_nil (.one _ [] _ [] blank_nil (writes_name (by decide)) blank_nil))) blank_nil)
  · simp only [YT.plain, plains]; decide
  · decide
  · decide +kernel

/-- `Hash{Symbol=>Hash{Symbol=>String}}`: nothing is known of keys and values. -/
theorem c60_nested_fails : ∃ (t : YT) (s : Text), Writes asciiU t s ∧ t.plain ∧
    t.means = .hash [.cls [tSymbol]] [.hash [.cls [tSymbol]] [.cls [tString]]] ∧ typeOfTag asciiU s = .hash [.unknown] [.unknown] := by
  refine ⟨.arrow [.name [tSymbol]] [symbolHash], tHash ++ '{' :: (([] ++ tSymbol ++ []) ++ '=' :: '>' :: (([] ++ symbolHashText ++ []) ++ ['}'])), ?_, ?_, ?_, ?_⟩
  · exact .arrow _ _ _ _ (.one _ [] _ [] blank_nil (writes_name (by decide)) blank_nil) (.one _ [] _ [] blank_nil writes_symbolHash blank_nil)
  · simp only [YT.plain, plains, symbolHash]; decide
  · decide
  · decide +kernel

/-- `void`: a method whose value is not to be used may return anything, but what is stored is that it returns `nil`. -/
theorem c60_void_fails : ∃ (t : YT) (s : Text) (v : Val), Writes asciiU t s ∧ Has t.means v ∧ ¬ Has (typeOfTag asciiU s) v := by
  refine ⟨.word .void, tVoid, .obj [tString], .word _ _ (by decide), by simp [YT.means, Word.means, Has], ?_⟩
  rw [show typeOfTag asciiU _ = .cls [tNilClass] by decide +kernel]
  simp [Has, tString, tNilClass]

/-- The words are recognised in any case, so a class with such a name is not: `Void`. -/
theorem c60_case_fails : ∃ (t : YT) (s : Text) (v : Val), Writes asciiU t s ∧ t.readable ∧ Has t.means v ∧ ¬ Has (typeOfTag asciiU s) v := by
  refine ⟨.name [['V', 'o', 'i', 'd']], ['V', 'o', 'i', 'd'], .obj [['V', 'o', 'i', 'd']], writes_name (by decide), by simp [YT.readable, YT.lateArrow], ?_, ?_⟩
  · simp [YT.means, pathMeans, tObject, tBasicObject, tFixnum, tBignum, Has]
  · rw [show typeOfTag asciiU _ = .cls [tNilClass] by decide +kernel]
    simp [Has, tNilClass]

end Verif.Yard
