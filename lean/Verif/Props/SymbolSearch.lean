import Verif.Model.SymbolSearch
import Verif.Lemmas.Sort

/-!
C77: which symbols of a workspace a query finds, in which order and how many.
-/
namespace Verif.SymbolSearch

/-! ## Matching -/

theorem scan_rest : ∀ (pattern symbol : Text) (i : Nat), (scan pattern symbol i).2 = [] ↔ pattern.Sublist symbol
  | [], symbol, i => by simp [scan]
  | p :: pattern, [], i => by simp [scan]
  | p :: pattern, s :: symbol, i => by
    simp only [scan]
    split
    · next h =>
      subst h
      simp only [List.cons_sublist_cons]
      exact scan_rest pattern symbol (i + 1)
    · next h =>
      rw [scan_rest (p :: pattern) symbol (i + 1)]
      constructor
      · exact fun h' => h'.cons s
      · intro h'
        cases h' with
        | cons _ h' => exact h'
        | cons_cons _ _ => exact absurd rfl h

theorem scan_found : ∀ (pattern symbol : Text) (i : Nat), pattern ≠ [] → (scan pattern symbol i).2 = [] →
    (scan pattern symbol i).1 ≠ []
  | [], _, _, h, _ => absurd rfl h
  | p :: pattern, [], i, _, h => by simp [scan] at h
  | p :: pattern, s :: symbol, i, _, h => by
    simp only [scan] at h ⊢
    split
    · simp
    · next hne =>
      rw [if_neg hne] at h
      exact scan_found (p :: pattern) symbol (i + 1) (by simp) h

theorem fuzzy_iff (T : Tables) (symbol pattern : Text) : (fuzzy T symbol pattern).isSome ↔ pattern.Sublist symbol := by
  unfold fuzzy
  split
  · next h =>
    have : pattern = [] := by simpa using h
    simp [this]
  · next h =>
    have hp : pattern ≠ [] := by simpa using h
    split
    · next hl =>
      constructor
      · intro h'; cases h'
      · intro h'
        have := h'.length_le
        omega
    · dsimp only
      split
      · next hr =>
        constructor
        · intro h'; cases h'
        · intro h'
          rw [(scan_rest pattern symbol 0).mpr h'] at hr
          simp at hr
      · next hr =>
        have hr : (scan pattern symbol 0).2 = [] := by simpa using hr
        have hf := scan_found pattern symbol 0 hp hr
        have hs : fuzzyScore T (scan pattern symbol 0).1 symbol.length pattern.length > 200000 := by
          unfold fuzzyScore
          rw [if_neg (by simpa using hf)]
          omega
        rw [if_pos hs]
        simp [(scan_rest pattern symbol 0).mp hr]

theorem fuzzy_bounds (T : Tables) {symbol pattern : Text} (hp : pattern ≠ []) {r : Nat} (h : fuzzy T symbol pattern = some r) :
    300000 ≤ r ∧ r ≤ 750000 := by
  have hsub : pattern.Sublist symbol := (fuzzy_iff T symbol pattern).mp (by simp [h])
  unfold fuzzy at h
  rw [if_neg (by simpa using hp)] at h
  split at h
  · cases h
  · dsimp only at h
    split at h
    · cases h
    · next hr =>
      split at h
      · simp only [Option.some.injEq] at h
        have hf := scan_found pattern symbol 0 hp ((scan_rest pattern symbol 0).mpr hsub)
        unfold fuzzyScore at h
        rw [if_neg (by simpa using hf)] at h
        omega
      · cases h

theorem contains_sublist (pattern : Text) : ∀ symbol : Text, contains pattern symbol = true → pattern.Sublist symbol
  | [], h => by
    have : pattern = [] := by simpa [contains] using h
    simp [this]
  | c :: cs, h => by
    simp only [contains, Bool.or_eq_true, List.isPrefixOf_iff_prefix] at h
    cases h with
    | inl h => exact h.sublist
    | inr h => exact (contains_sublist pattern cs h).cons c

theorem words_sublist : ∀ (symbol : Text) (w : Text), w ∈ words symbol → w.Sublist symbol
  | [], w, h => by
    have : w = [] := by simpa [words] using h
    simp [this]
  | c :: cs, w, h => by
    simp only [words] at h
    cases hw : words cs with
    | nil =>
      rw [hw] at h
      have : w = [c] := by simpa using h
      subst this
      exact List.cons_sublist_cons.mpr (List.nil_sublist _)
    | cons v vs =>
      rw [hw] at h
      simp only at h
      split at h
      · cases List.mem_cons.mp h with
        | inl h => subst h; exact List.nil_sublist _
        | inr h => exact (words_sublist cs w (by rw [hw]; exact h)).cons c
      · cases List.mem_cons.mp h with
        | inl h =>
          subst h
          exact List.cons_sublist_cons.mpr (words_sublist cs v (by rw [hw]; exact List.mem_cons_self))
        | inr h => exact (words_sublist cs w (by rw [hw]; exact List.mem_cons_of_mem _ h)).cons c

/-- A name matches exactly if the query is empty, or the letters of the query without regard to case are letters of the
name in the same order, or the capitals of the query are the first capitals of the name. -/
theorem c77_matches (T : Tables) (name pattern : Text) : (relevance T name pattern).isSome ↔
    pattern = [] ∨ (T.lower pattern).Sublist (T.lower name) ∨
      (pattern.filter T.upper ≠ [] ∧ pattern.filter T.upper <+: name.filter T.upper) := by
  unfold relevance
  split
  · next h => simp [List.isEmpty_iff.mp h]
  · next h =>
    have hp : pattern ≠ [] := by simpa using h
    split
    · next h => subst h; simp
    · split
      · next h => simp [h]
      · split
        · next h => simp [(List.isPrefixOf_iff_prefix.mp h).sublist]
        · cases hc : camelCase T name pattern with
          | some r =>
            simp only [camelCase] at hc
            split at hc
            · next h =>
              simp only [Bool.and_eq_true, Bool.not_eq_true', List.isEmpty_eq_false_iff, List.isPrefixOf_iff_prefix] at h
              simp [h.1, h.2]
            · cases hc
          | none =>
            have hcaps : ¬ (pattern.filter T.upper ≠ [] ∧ pattern.filter T.upper <+: name.filter T.upper) := by
              intro h
              simp only [camelCase] at hc
              rw [if_pos (by simp only [Bool.and_eq_true, Bool.not_eq_true', List.isEmpty_eq_false_iff, List.isPrefixOf_iff_prefix]; exact h)] at hc
              cases hc
            have hf := fuzzy_iff T (T.lower name) (T.lower pattern)
            cases hz : fuzzy T (T.lower name) (T.lower pattern) with
            | some r =>
              rw [hz] at hf
              have := hf.mp rfl
              simp [this]
            | none =>
              rw [hz] at hf
              have hns : ¬ (T.lower pattern).Sublist (T.lower name) := fun h' => by
                have := hf.mpr h'
                cases this
              have hw : wordBoundary (T.lower name) (T.lower pattern) = false := by
                cases hw : wordBoundary (T.lower name) (T.lower pattern) with
                | false => rfl
                | true =>
                  simp only [wordBoundary, List.any_eq_true, List.isPrefixOf_iff_prefix] at hw
                  obtain ⟨w, hw1, hw2⟩ := hw
                  exact absurd (hw2.sublist.trans (words_sublist _ _ hw1)) hns
              have hk : contains (T.lower pattern) (T.lower name) = false := by
                cases hk : contains (T.lower pattern) (T.lower name) with
                | false => rfl
                | true => exact absurd (contains_sublist _ _ hk) hns
              simp only [hw, hk]
              constructor
              · intro h'; cases h'
              · rintro (h' | h' | h')
                · exact absurd h' hp
                · exact absurd h' hns
                · exact absurd h' hcaps

/-- The search for the beginning of words and for substrings, which come last, never decide: what they find has been
found by the fuzzy match. -/
theorem c77_dead (T : Tables) (name pattern : Text)
    (h : wordBoundary (T.lower name) (T.lower pattern) = true ∨ contains (T.lower pattern) (T.lower name) = true) :
    (fuzzy T (T.lower name) (T.lower pattern)).isSome := by
  rw [fuzzy_iff]
  cases h with
  | inl h =>
    simp only [wordBoundary, List.any_eq_true, List.isPrefixOf_iff_prefix] at h
    obtain ⟨w, hw1, hw2⟩ := h
    exact hw2.sublist.trans (words_sublist _ _ hw1)
  | inr h => exact contains_sublist _ _ h

/-- The exact name is more relevant than one that differs in case only, this more than a beginning of a name, and this
more than all other matches. -/
theorem c77_rank (T : Tables) (name pattern : Text) (hp : pattern ≠ []) :
    (name = pattern → relevance T name pattern = some 1000000) ∧
    (name ≠ pattern → T.lower name = T.lower pattern → relevance T name pattern = some 900000) ∧
    (T.lower name ≠ T.lower pattern → T.lower pattern <+: T.lower name → relevance T name pattern = some 800000) ∧
    (T.lower name ≠ T.lower pattern → ¬ T.lower pattern <+: T.lower name →
      ∀ r, relevance T name pattern = some r → 300000 ≤ r ∧ r ≤ 750000) := by
  have hp' : pattern.isEmpty = false := by simpa using hp
  refine ⟨fun h => ?_, fun h1 h2 => ?_, fun h1 h2 => ?_, fun h1 h2 r hr => ?_⟩
  · simp [relevance, hp', h]
  · simp [relevance, hp', h1, h2]
  · have hn : name ≠ pattern := fun h => h1 (by rw [h])
    simp only [relevance, hp', hn, h1, if_false, Bool.false_eq_true]
    rw [if_pos (List.isPrefixOf_iff_prefix.mpr h2)]
  · have hn : name ≠ pattern := fun h => h1 (by rw [h])
    have hx : ¬ (T.lower pattern).isPrefixOf (T.lower name) = true := fun h => h2 (List.isPrefixOf_iff_prefix.mp h)
    have hlp : T.lower pattern ≠ [] := fun h => h2 (by rw [h]; exact List.nil_prefix)
    simp only [relevance, hp', hn, h1, if_false, Bool.false_eq_true, hx] at hr
    cases hc : camelCase T name pattern with
    | some c =>
      rw [hc] at hr
      simp only [camelCase] at hc
      split at hc
      · simp only [Option.some.injEq] at hc hr
        omega
      · cases hc
    | none =>
      rw [hc] at hr
      cases hz : fuzzy T (T.lower name) (T.lower pattern) with
      | some z =>
        rw [hz] at hr
        simp only [Option.some.injEq] at hr
        subst hr
        exact fuzzy_bounds T hlp hz
      | none =>
        rw [hz] at hr
        simp only at hr
        split at hr
        · simp only [Option.some.injEq] at hr; omega
        · split at hr
          · simp only [Option.some.injEq] at hr; omega
          · cases hr

/-! ## The matches of an engine -/

/-- A fact that a query should find: it is of a file of the workspace, not generated, no local variable, and its name
matches. -/
def Finds (T : Tables) (e : Engine) (query : Text) (f : Fact) (r : Nat) : Prop :=
  f ∈ e.facts ∧ f.generated = false ∧ e.owned f.range.file = true ∧ f.kind ≠ .localVariable ∧
    relevance T (displayName f.fqn) query = some r

theorem mem_found (T : Tables) (e : Engine) (query : Text) (m : Match) : m ∈ found T e query ↔
    ∃ f r, Finds T e query f r ∧ m = ⟨displayName f.fqn, f.kind, f.range, containerName f.fqn, r⟩ := by
  simp only [found, List.mem_filterMap]
  constructor
  · rintro ⟨f, hf, h⟩
    split at h
    · cases h
    · next hp =>
      have hp : isProject e f = true := by simpa using hp
      simp only [isProject, Bool.and_eq_true, Bool.not_eq_true'] at hp
      split at h
      · next r hr =>
        simp only [symbolMatch] at h
        split at h
        · cases h
        · next hk =>
          simp only [Option.some.injEq] at h
          exact ⟨f, r, ⟨hf, hp.1, hp.2, hk, hr⟩, h.symm⟩
      · cases h
  · rintro ⟨f, r, ⟨hf, hg, ho, hk, hr⟩, rfl⟩
    refine ⟨f, hf, ?_⟩
    simp [isProject, hg, ho, hr, symbolMatch, hk]

theorem relevant_order : IsOrder moreRelevant where
  total a b := by simp only [moreRelevant, decide_eq_true_eq]; omega
  trans a b c h1 h2 := by simp only [moreRelevant, decide_eq_true_eq] at *; omega

/-- What a search returns: matches of the engine, all of them or as many as the limit allows, the more relevant first and
equally relevant ones in the order of the facts; one that is left out is not more relevant than any that is returned. -/
theorem c77_search (T : Tables) (e : Engine) (query : Text) (limit : Nat) :
    (∀ m ∈ search T e query limit, ∃ f r, Finds T e query f r ∧ m = ⟨displayName f.fqn, f.kind, f.range, containerName f.fqn, r⟩) ∧
    (search T e query limit).length = min limit (found T e query).length ∧
    (search T e query limit).Pairwise (fun a b => b.relevance ≤ a.relevance) ∧
    (∀ r, (search T e query limit).filter (fun m => m.relevance = r) <+: (found T e query).filter (fun m => m.relevance = r)) ∧
    (∀ a ∈ search T e query limit, ∀ b ∈ found T e query, a.relevance < b.relevance → b ∈ search T e query limit) := by
  have hs : ((stableSort moreRelevant (found T e query))).Pairwise (fun a b => b.relevance ≤ a.relevance) := by
    have := stableSort_sorted relevant_order (found T e query)
    exact this.imp (fun h => by simpa [moreRelevant] using h)
  refine ⟨fun m hm => ?_, ?_, ?_, fun r => ?_, fun a ha b hb hab => ?_⟩
  · exact (mem_found T e query m).mp (mem_stableSort.mp (List.mem_of_mem_take hm))
  · simp [search, (stableSort_perm (le := moreRelevant) (found T e query)).length_eq]
  · exact hs.sublist (List.take_sublist _ _)
  · have hf : (stableSort moreRelevant (found T e query)).filter (fun m => m.relevance = r) =
        (found T e query).filter (fun m => m.relevance = r) := by
      apply filter_stableSort
      intro a b ha hb
      simp only [decide_eq_true_eq] at ha hb
      simp [moreRelevant, ha, hb]
    rw [← hf]
    exact (List.take_prefix _ _).filter _
  · have hb' : b ∈ stableSort moreRelevant (found T e query) := mem_stableSort.mpr hb
    simp only [search] at ha ⊢
    rw [← List.take_append_drop limit (stableSort moreRelevant (found T e query))] at hb' hs
    cases List.mem_append.mp hb' with
    | inl h => exact h
    | inr h =>
      have := (List.pairwise_append.mp hs).2.2 a ha b h
      omega

theorem topLoop_eq (e : Engine) (limit : Nat) : ∀ (fs : List Fact) (acc : List Match), acc.length ≤ limit →
    topLoop e limit fs acc = acc ++ ((fs.filter (fun f => isProject e f)).filterMap (fun f =>
      match f.fqn with
      | .namespace parts | .constant parts => if parts.length = 1 then symbolMatch f 100000 else none
      | .method _ _ | .variable _ => none)).take (limit - acc.length)
  | [], acc, _ => by simp [topLoop]
  | f :: fs, acc, hl => by
    simp only [topLoop]
    cases hp : isProject e f with
    | false =>
      simp only [Bool.not_false, if_true, List.filter_cons, hp]
      exact topLoop_eq e limit fs acc hl
    | true =>
      simp only [Bool.not_true, Bool.false_eq_true, if_false, List.filter_cons, hp, if_true]
      split
      · next h =>
        have : limit - acc.length = 0 := by omega
        simp [this]
      · next h =>
        have ih := topLoop_eq e limit fs acc hl
        have step : ∀ m, topLoop e limit fs (acc ++ [m]) = acc ++ (m :: ((fs.filter (fun f => isProject e f)).filterMap (fun f =>
            match f.fqn with
            | .namespace parts | .constant parts => if parts.length = 1 then symbolMatch f 100000 else none
            | .method _ _ | .variable _ => none))).take (limit - acc.length) := by
          intro m
          rw [topLoop_eq e limit fs (acc ++ [m]) (by simp; omega)]
          have : limit - acc.length = (limit - (acc ++ [m]).length) + 1 := by simp; omega
          rw [this, List.take_succ_cons]
          simp
        rw [List.filterMap_cons]
        cases hq : f.fqn with
        | «namespace» parts =>
          dsimp only
          split
          · cases hm : symbolMatch f 100000 with
            | none => exact ih
            | some m => exact step m
          · exact ih
        | constant parts =>
          dsimp only
          split
          · cases hm : symbolMatch f 100000 with
            | none => exact ih
            | some m => exact step m
          · exact ih
        | method o n => exact ih
        | «variable» n => exact ih

/-- The list for an empty query: the first facts of the workspace that are classes, modules or constants of the top
level, up to the limit. -/
theorem c77_top (e : Engine) (limit : Nat) :
    (topLevel e limit).length ≤ limit ∧
    (∀ m ∈ topLevel e limit, ∃ f ∈ e.facts, f.generated = false ∧ e.owned f.range.file = true ∧
      (∃ n, f.fqn = .namespace [n] ∨ f.fqn = .constant [n]) ∧ m = ⟨displayName f.fqn, f.kind, f.range, none, 100000⟩) ∧
    ((topLevel e limit).length < limit → ∀ f ∈ e.facts, f.generated = false → e.owned f.range.file = true →
      f.kind ≠ .localVariable → (∃ n, f.fqn = .namespace [n] ∨ f.fqn = .constant [n]) →
      (⟨displayName f.fqn, f.kind, f.range, none, 100000⟩ : Match) ∈ topLevel e limit) := by
  have h := topLoop_eq e limit e.facts [] (by simp)
  simp only [List.nil_append, List.length_nil, Nat.sub_zero] at h
  unfold topLevel
  rw [h]
  refine ⟨by simp; omega, fun m hm => ?_, fun hl f hf hg ho hk ⟨n, hn⟩ => ?_⟩
  · have hm := List.mem_of_mem_take hm
    simp only [List.mem_filterMap, List.mem_filter] at hm
    obtain ⟨f, ⟨hf, hp⟩, hm⟩ := hm
    simp only [isProject, Bool.and_eq_true, Bool.not_eq_true'] at hp
    refine ⟨f, hf, hp.1, hp.2, ?_⟩
    have one : ∀ parts : List Text, parts.length = 1 → ∃ n, parts = [n] := fun parts hl => List.length_eq_one_iff.mp hl
    cases hq : f.fqn with
    | «namespace» parts =>
      rw [hq] at hm
      dsimp only at hm
      split at hm
      · next hl =>
        obtain ⟨n, rfl⟩ := one parts hl
        refine ⟨⟨n, .inl rfl⟩, ?_⟩
        simp only [symbolMatch] at hm
        split at hm
        · cases hm
        · simp [hq, containerName] at hm
          exact hm.symm
      · cases hm
    | constant parts =>
      rw [hq] at hm
      dsimp only at hm
      split at hm
      · next hl =>
        obtain ⟨n, rfl⟩ := one parts hl
        refine ⟨⟨n, .inr rfl⟩, ?_⟩
        simp only [symbolMatch] at hm
        split at hm
        · cases hm
        · simp [hq, containerName] at hm
          exact hm.symm
      · cases hm
    | method o n => rw [hq] at hm; cases hm
    | «variable» n => rw [hq] at hm; cases hm
  · rw [List.length_take] at hl
    rw [List.take_of_length_le (by omega)]
    simp only [List.mem_filterMap, List.mem_filter]
    refine ⟨f, ⟨hf, by simp [isProject, hg, ho]⟩, ?_⟩
    cases hn with
    | inl hn => simp [hn, symbolMatch, hk, containerName]
    | inr hn => simp [hn, symbolMatch, hk, containerName]

/-! ## Names and order -/

theorem joined_eq : ∀ parts : List Text, joined parts = [':', ':'].intercalate parts
  | [] => by simp [joined]
  | [p] => by simp [joined]
  | p :: q :: ps => by
    have ih := joined_eq (q :: ps)
    simp only [joined]
    rw [ih]
    simp [List.intercalate, List.intersperse]

/-- The name of a class or constant is the last part of its path and its container the rest, joined by `::`; the
container of a method is its owner; at the top level there is none. -/
theorem c77_names (path : List Text) (n : Text) :
    displayName (.namespace (path ++ [n])) = n ∧ displayName (.constant (path ++ [n])) = n ∧
    displayName (.method path n) = n ∧ displayName (.variable n) = n ∧ containerName (.variable n) = none ∧
    (path = [] → containerName (.namespace (path ++ [n])) = none ∧ containerName (.constant (path ++ [n])) = none ∧
      containerName (.method path n) = none) ∧
    (path ≠ [] → containerName (.namespace (path ++ [n])) = some ([':', ':'].intercalate path) ∧
      containerName (.constant (path ++ [n])) = some ([':', ':'].intercalate path) ∧
      containerName (.method path n) = some ([':', ':'].intercalate path)) := by
  refine ⟨by simp [displayName], by simp [displayName], rfl, rfl, rfl, fun h => ?_, fun h => ?_⟩
  · subst h
    simp [containerName]
  · have hl : ¬ (path ++ [n]).length ≤ 1 := by
      cases path with
      | nil => exact absurd rfl h
      | cons a l => simp
    have he : path.isEmpty = false := by simpa using h
    simp only [containerName, if_neg hl, he, List.dropLast_concat, joined_eq]
    simp

theorem encode_le : ∀ (s t : Text) (x y : List Nat), encode s ++ x ≤ encode t ++ y ↔
    s.map Char.toNat < t.map Char.toNat ∨ (s = t ∧ x ≤ y)
  | [], [], x, y => by simp [encode, List.cons_le_cons_iff]
  | [], c :: t, x, y => by simp [encode, List.cons_le_cons_iff]
  | c :: s, [], x, y => by simp [encode, List.cons_le_cons_iff]
  | c :: s, d :: t, x, y => by
    have ih := encode_le s t x y
    simp only [encode] at ih
    simp only [encode, List.map_cons, List.cons_append, List.cons_le_cons_iff, List.cons_lt_cons_iff, ih, List.cons.injEq]
    have hcd : c.toNat = d.toNat ↔ c = d := by
      constructor
      · intro h
        exact Char.toNat_inj.mp h
      · intro h; rw [h]
    constructor
    · rintro (h | ⟨h, h' | h'⟩)
      · exact .inl (.inl (by omega))
      · exact .inl (.inr ⟨by omega, h'⟩)
      · exact .inr ⟨⟨hcd.mp (by omega), h'.1⟩, h'.2⟩
    · rintro ((h | ⟨h, h'⟩) | ⟨⟨h, h'⟩, h''⟩)
      · exact .inl (by omega)
      · exact .inr ⟨by omega, .inl h'⟩
      · exact .inr ⟨by rw [h], .inr ⟨h', h''⟩⟩

/-- The order of the answer: by name, then by file, then by the place of the start and then of the end. -/
theorem c77_key (a b : Info) : key a ≤ key b ↔
    a.name.map Char.toNat < b.name.map Char.toNat ∨ (a.name = b.name ∧
    (a.loc.uri.map Char.toNat < b.loc.uri.map Char.toNat ∨ (a.loc.uri = b.loc.uri ∧
    (a.loc.startLine < b.loc.startLine ∨ (a.loc.startLine = b.loc.startLine ∧
    (a.loc.startChar < b.loc.startChar ∨ (a.loc.startChar = b.loc.startChar ∧
    (a.loc.endLine < b.loc.endLine ∨ (a.loc.endLine = b.loc.endLine ∧ a.loc.endChar ≤ b.loc.endChar))))))))) := by
  simp only [key, List.append_assoc, encode_le, List.cons_le_cons_iff]
  have : ∀ x y : Nat, (x < y ∨ x = y ∧ ([] : List Nat) ≤ []) ↔ x ≤ y := by
    intro x y
    have h : ([] : List Nat) ≤ [] := List.le_refl _
    constructor
    · rintro (h | h)
      · omega
      · omega
    · intro h'
      by_cases hxy : x < y
      · exact .inl hxy
      · exact .inr ⟨by omega, h⟩
  rw [this]

/-! ## The answer -/

theorem before_order : IsOrder before where
  total a b := by
    simp only [before, decide_eq_true_eq]
    exact List.le_total _ _
  trans a b c h1 h2 := by
    simp only [before, decide_eq_true_eq] at *
    exact List.le_trans h1 h2

/-- The answer is sorted by name and place, and it consists of what the engines return. -/
theorem c77_answer (T : Tables) (engines : List Engine) (query : Text) :
    (answer T engines query).Pairwise (fun a b => key a ≤ key b) ∧
    ∀ i, i ∈ answer T engines query ↔ ∃ e ∈ engines, i ∈ ofEngine T query e := by
  refine ⟨?_, fun i => ?_⟩
  · have := stableSort_sorted before_order (engines.flatMap (ofEngine T query))
    exact (this.imp (fun h => by simpa [before] using h)).sublist (dedupAdj_sublist _)
  · simp [answer, mem_dedupAdj, mem_stableSort, List.mem_flatMap]

/-- If a query finds no more than 100 facts in any engine, every fact it finds is in the answer. -/
theorem c77_all (T : Tables) (engines : List Engine) (query : Text) (hq : query ≠ []) (e : Engine) (he : e ∈ engines)
    (hl : (found T e query).length ≤ 100) (f : Fact) (r : Nat) (hf : Finds T e query f r) (loc : Loc)
    (hloc : e.locate f.range = some loc) :
    (⟨displayName f.fqn, f.kind, loc, containerName f.fqn⟩ : Info) ∈ answer T engines query := by
  rw [(c77_answer T engines query).2]
  refine ⟨e, he, ?_⟩
  unfold ofEngine
  rw [if_neg (by simpa using hq), List.mem_filterMap]
  refine ⟨⟨displayName f.fqn, f.kind, f.range, containerName f.fqn, r⟩, ?_, by simp [information, hloc]⟩
  unfold search
  rw [List.take_of_length_le (by rw [(stableSort_perm (le := moreRelevant) (found T e query)).length_eq]; exact hl)]
  exact mem_stableSort.mpr ((mem_found T e query _).mpr ⟨f, r, hf, rfl⟩)

/-- An exact name is found whatever else matches, unless more than 100 facts have this name. -/
theorem c77_exact (T : Tables) (engines : List Engine) (e : Engine) (he : e ∈ engines) (f : Fact) (hf : f ∈ e.facts)
    (hg : f.generated = false) (ho : e.owned f.range.file = true) (hk : f.kind ≠ .localVariable)
    (hn : displayName f.fqn ≠ [])
    (hl : ((found T e (displayName f.fqn)).filter (fun m => decide (1000000 ≤ m.relevance))).length ≤ 100) (loc : Loc)
    (hloc : e.locate f.range = some loc) :
    (⟨displayName f.fqn, f.kind, loc, containerName f.fqn⟩ : Info) ∈ answer T engines (displayName f.fqn) := by
  have hr := (c77_rank T (displayName f.fqn) (displayName f.fqn) hn).1 rfl
  rw [(c77_answer T engines _).2]
  refine ⟨e, he, ?_⟩
  unfold ofEngine
  rw [if_neg (by simpa using hn), List.mem_filterMap]
  refine ⟨⟨displayName f.fqn, f.kind, f.range, containerName f.fqn, 1000000⟩, ?_, by simp [information, hloc]⟩
  have hm : (⟨displayName f.fqn, f.kind, f.range, containerName f.fqn, 1000000⟩ : Match) ∈ found T e (displayName f.fqn) :=
    (mem_found T e _ _).mpr ⟨f, 1000000, ⟨hf, hg, ho, hk, hr⟩, rfl⟩
  have hs := stableSort_sorted relevant_order (found T e (displayName f.fqn))
  have hperm := stableSort_perm (le := moreRelevant) (found T e (displayName f.fqn))
  have hm' := mem_stableSort (le := moreRelevant).mpr hm
  have hlen : ((stableSort moreRelevant (found T e (displayName f.fqn))).filter (fun m => decide (1000000 ≤ m.relevance))).length ≤ 100 := by
    rw [(hperm.filter _).length_eq]; exact hl
  unfold search
  generalize stableSort moreRelevant (found T e (displayName f.fqn)) = l at hs hm' hlen
  rw [← List.take_append_drop 100 l] at hm' hs
  cases List.mem_append.mp hm' with
  | inl h => exact h
  | inr h =>
    exfalso
    have hall : ∀ a ∈ l.take 100, 1000000 ≤ a.relevance := by
      intro a ha
      have := (List.pairwise_append.mp hs).2.2 a ha _ h
      simpa [moreRelevant] using this
    have h1 : (l.take 100).filter (fun m => decide (1000000 ≤ m.relevance)) = l.take 100 :=
      List.filter_eq_self.mpr (fun a ha => by simpa using hall a ha)
    have h2 : 0 < ((l.drop 100).filter (fun m => decide (1000000 ≤ m.relevance))).length :=
      List.length_pos_of_mem (List.mem_filter.mpr ⟨h, by simp⟩)
    have h3 : (l.filter (fun m => decide (1000000 ≤ m.relevance))).length =
        (l.take 100).length + ((l.drop 100).filter (fun m => decide (1000000 ≤ m.relevance))).length := by
      conv => lhs; rw [← List.take_append_drop 100 l, List.filter_append, h1, List.length_append]
    have h4 : 0 < (l.drop 100).length := List.length_pos_of_mem h
    rw [List.length_drop] at h4
    rw [List.length_take] at h3
    omega

/-- If a name and a place determine the kind and the container, no symbol is twice in the answer, even if several engines
have the same file. -/
theorem c77_once (T : Tables) (engines : List Engine) (query : Text)
    (h : ∀ e ∈ engines, ∀ i ∈ ofEngine T query e, ∀ e' ∈ engines, ∀ i' ∈ ofEngine T query e', key i = key i' → i = i') :
    (answer T engines query).Nodup := by
  let l := engines.flatMap (ofEngine T query)
  have hl : ∀ i ∈ l, ∀ i' ∈ l, key i = key i' → i = i' := by
    intro i hi i' hi'
    obtain ⟨e, he, hi⟩ := List.mem_flatMap.mp hi
    obtain ⟨e', he', hi'⟩ := List.mem_flatMap.mp hi'
    exact h e he i hi e' he' i' hi'
  have hs : Sorted before (stableSort before l) := stableSort_sorted before_order l
  have hmem : ∀ i ∈ stableSort before l, i ∈ l := fun i hi => mem_stableSort.mp hi
  show (dedupAdj (stableSort before l)).Nodup
  generalize stableSort before l = k at hs hmem
  induction k with
  | nil => exact List.nodup_nil
  | cons a k ih =>
    have hb := List.pairwise_cons.mp hs
    have ih := ih hb.2 (fun i hi => hmem i (List.mem_cons_of_mem _ hi))
    simp only [dedupAdj]
    split
    · simp
    · next b k' hk =>
      split
      · rw [← hk]; exact ih
      · next hab =>
        rw [hk] at ih
        rw [List.nodup_cons]
        refine ⟨fun ha => ?_, ih⟩
        have hsub : (b :: k').Sublist k := by rw [← hk]; exact dedupAdj_sublist k
        have hbk : b ∈ k := hsub.subset List.mem_cons_self
        have ha' : a ∈ k' := by
          cases List.mem_cons.mp ha with
          | inl h => exact absurd h hab
          | inr h => exact h
        have hsb := hb.2.sublist hsub
        have h1 : key a ≤ key b := by simpa [before] using hb.1 b hbk
        have h2 : key b ≤ key a := by simpa [before] using (List.pairwise_cons.mp hsb).1 a ha'
        exact hab (hl a (hmem a List.mem_cons_self) b (hmem b (List.mem_cons_of_mem _ hbk)) (List.le_antisymm h1 h2))

/-! ## Cases -/

/-- Lower case and capitals of ASCII, and some score. -/
def ascii : Tables := ⟨fun t => t.map Char.toLower, Char.isUpper, fun _ s p => p * 1000000 / s⟩

def at0 (i : Nat) : Loc := ⟨"file:///a.rb".toList, i, 0, i, 5⟩

/-- `class User; def name; end; end` and `class Role; end`. -/
def sample : Engine :=
  ⟨[⟨.namespace ["User".toList], .cls, ⟨0, 6, 10⟩, false⟩, ⟨.method ["User".toList] "name".toList, .method, ⟨0, 17, 21⟩, false⟩,
    ⟨.namespace ["Role".toList], .cls, ⟨0, 36, 40⟩, false⟩], fun _ => true, fun r => some (at0 r.start)⟩

theorem c77_example :
    answer ascii [sample] "ue".toList = [⟨"User".toList, .cls, at0 6, none⟩] ∧
    answer ascii [sample] "name".toList = [⟨"name".toList, .method, at0 17, some "User".toList⟩] ∧
    answer ascii [sample] [] = [⟨"Role".toList, .cls, at0 36, none⟩, ⟨"User".toList, .cls, at0 6, none⟩] := by
  refine ⟨by decide +kernel, by decide +kernel, by decide +kernel⟩

/-- The rest of a query with a capital is not looked at: `Uxyz` finds `User`. -/
theorem c77_camel_fails : relevance ascii "User".toList "Uxyz".toList = some 700000 := by decide +kernel

/-- The answer is not in the order of relevance: the exact name `b` comes after `a_b`. -/
theorem c77_order_fails : ∃ e : Engine,
    (search ascii e "b".toList 100).map Match.name = ["b".toList, "a_b".toList] ∧
    (answer ascii [e] "b".toList).map Info.name = ["a_b".toList, "b".toList] :=
  ⟨⟨[⟨.method [] "b".toList, .method, ⟨0, 0, 1⟩, false⟩, ⟨.method [] "a_b".toList, .method, ⟨0, 2, 3⟩, false⟩],
    fun _ => true, fun r => some (at0 r.start)⟩, by decide +kernel, by decide +kernel⟩

/-- A qualified name finds nothing, as only the last part of names is compared. -/
theorem c77_qualified_fails : ∃ e : Engine,
    e.facts = [⟨.namespace ["A".toList, "B".toList], .cls, ⟨0, 0, 1⟩, false⟩] ∧ answer ascii [e] "a::b".toList = [] ∧
    (answer ascii [e] "b".toList).map (fun i => (i.name, i.container)) = [("B".toList, some "A".toList)] :=
  ⟨⟨[⟨.namespace ["A".toList, "B".toList], .cls, ⟨0, 0, 1⟩, false⟩], fun _ => true, fun r => some (at0 r.start)⟩, rfl,
    by decide +kernel, by decide +kernel⟩

/-- A symbol may be in the answer twice: two engines with the same file, in which one place has a class and a constant
of one name, return them in turn, and only neighbours are compared. -/
theorem c77_once_fails : ∃ e : Engine, e.facts.Nodup ∧
    (answer ascii [e, e] "a".toList).map Info.kind = [.cls, .constant, .cls, .constant] ∧
    ¬ (answer ascii [e, e] "a".toList).Nodup :=
  ⟨⟨[⟨.namespace ["A".toList], .cls, ⟨0, 0, 1⟩, false⟩, ⟨.constant ["A".toList], .constant, ⟨0, 0, 1⟩, false⟩],
    fun _ => true, fun r => some (at0 r.start)⟩, by decide +kernel, by decide +kernel, by decide +kernel⟩

end Verif.SymbolSearch
