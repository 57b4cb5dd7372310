import Verif.Lemmas.Arity

/-!
C49: what is reported about the arguments of a call is an error in Ruby.
-/
namespace Verif.Arity

theorem diagnostics_some {a : MethodArity} {s : Sig} {ds : List Diag} (h : diagnostics a s = some ds) :
    ∃ m, mismatch a s = some m ∧ ds = arityDiags m ++ unknownDiags a s ++ missingDiags a s := by
  unfold diagnostics at h
  cases hm : mismatch a s with
  | none => simp [hm] at h
  | some m => exact ⟨m, rfl, by simpa [hm] using h.symm⟩

/-- The assertion never fails. -/
theorem c49_no_panic (fs : List Formal) (args : List Arg) (skip : Nat) : (check fs args skip).isSome = true := by
  obtain ⟨vs, ks, hv⟩ := callVals_exists (args.drop skip)
  have S := signature_ok (lit := False) hv (fun h => h.elim)
  unfold check diagnostics mismatch
  simp only [Option.isSome_map]
  split
  · rename_i h
    simp only [Bool.and_eq_true] at h
    have h1 : (signature args skip).trailingHash = true := by
      have := h.2
      unfold effective at this
      simpa [h.1] using this
    have h2 : (effective (.fromParams (paramFacts fs)) (signature args skip)).positional = (signature args skip).positional := by
      simp [effective, h.1]
    have := S.trail0 h1
    rw [if_neg (by omega)]
    split <;> rfl
  · rfl

theorem arityDiags_mem {m : Option (Nat × Option Nat × Nat)} {x y z} (h : Diag.wrongArity x y z ∈ arityDiags m) :
    m = some (x, y, z) := by
  unfold arityDiags at h
  split at h
  · simp only [List.mem_singleton, Diag.wrongArity.injEq] at h
    obtain ⟨rfl, rfl, rfl⟩ := h
    rfl
  · simp at h

theorem wrongArity_found {a : MethodArity} {s : Sig} {ds : List Diag} (h : diagnostics a s = some ds) {x y z}
    (hd : Diag.wrongArity x y z ∈ ds) : mismatch a s = some (some (x, y, z)) := by
  obtain ⟨m, hm, rfl⟩ := diagnostics_some h
  simp only [List.mem_append] at hd
  rcases hd with (hd | hd) | hd
  · rw [hm, arityDiags_mem hd]
  · unfold unknownDiags at hd
    split at hd <;> simp at hd
  · unfold missingDiags at hd
    split at hd
    · simp only at hd
      split at hd <;> simp at hd
    · simp at hd

/-- A reported number of arguments is an error in Ruby 3, whatever values the arguments have.  Missing: definitions with a
destructuring parameter (`c49_destructuring`). -/
theorem c49_wrong_arity_partial {fs : List Formal} (hp : .pattern ∉ fs) {args : List Arg} {skip : Nat} {ds : List Diag}
    (h : check fs args skip = some ds) {x y z} (hd : Diag.wrongArity x y z ∈ ds) {vs : List Val} {ks : List Key}
    (hv : CallVals (args.drop skip) vs ks) : ¬ Binds fs vs ks := by
  have A := arity_ok fs
  have S := signature_ok (lit := False) hv (fun h => h.elim)
  have hm := wrongArity_found h hd
  generalize MethodArity.fromParams (paramFacts fs) = a at *
  generalize signature args skip = s at *
  have hdir : ∃ d, arityMismatch (effective a s) a = some d := by
    unfold mismatch at hm
    simp only at hm
    split at hm
    · split at hm
      · cases hm
      · split at hm
        · rename_i h1 _; exact ⟨_, h1⟩
        · cases hm
    · exact ⟨_, by simpa using hm⟩
  rw [mismatch_iff A hp] at hdir
  by_cases hk : TakesKw fs
  · have hdk := A.declares.2 hk
    have he : effective a s = s := by simp [effective, hdk]
    rw [he] at hdir
    rintro (⟨_, ⟨h1, h2⟩, _⟩ | ⟨h1, _⟩)
    · have := S.pos
      rcases hdir with ⟨h3, h4⟩ | ⟨h3, h4⟩
      · rcases h2 with h2 | h2
        · exact h3 h2
        · omega
      · have := S.posEq h3
        omega
    · exact h1 hk
  · have hdk : a.declaresKeywords = false := by
      cases hc : a.declaresKeywords with
      | false => rfl
      | true => exact absurd (A.declares.1 hc) hk
    have hpos : (effective a s).positional = s.positional + if s.nonemptyKeywords then 1 else 0 := by
      cases h1 : s.nonemptyKeywords <;> cases h2 : s.keywordSplat <;> simp [effective, hdk, h1, h2]
    have hspl : (effective a s).positionalSplat = (s.positionalSplat || s.keywordSplat) := by
      cases h1 : s.nonemptyKeywords <;> cases h2 : s.keywordSplat <;> simp [effective, hdk, h1, h2]
    rw [hpos, hspl] at hdir
    have hle := S.pos
    rintro (⟨h1, _⟩ | ⟨_, ⟨hks, h1, h2⟩ | ⟨hks, _, h1, h2⟩⟩)
    · exact hk h1
    · have hne : s.nonemptyKeywords = false := by
        cases hc : s.nonemptyKeywords with
        | false => rfl
        | true => exact absurd hks (S.nonempty hc)
      simp only [hne] at hdir
      rcases hdir with ⟨h3, h4⟩ | ⟨h3, h4⟩
      · rcases h2 with h2 | h2
        · exact h3 h2
        · simp at h4; omega
      · simp only [Bool.or_eq_false_iff] at h3
        have := S.posEq h3.1
        simp at h4
        omega
    · rcases hdir with ⟨h3, h4⟩ | ⟨h3, h4⟩
      · rcases h2 with h2 | h2
        · exact h3 h2
        · split at h4 <;> omega
      · simp only [Bool.or_eq_false_iff] at h3
        have := S.posEq h3.1
        have hne : s.nonemptyKeywords = true := by
          cases hc : s.nonemptyKeywords with
          | true => rfl
          | false => exact absurd (S.empty hc h3.2 h3.1) hks
        simp [hne] at h4
        omega

/-- In Ruby 2, where a hash in the last place may be taken as keywords, it is an error as well for calls without keywords.
Missing: calls with keywords (`c49_ruby2_keywords`). -/
theorem c49_wrong_arity_ruby2_partial {fs : List Formal} (hp : .pattern ∉ fs) {args : List Arg} {skip : Nat} {ds : List Diag}
    (h : check fs args skip = some ds) {x y z} (hd : Diag.wrongArity x y z ∈ ds) {vs : List Val}
    (hv : CallVals (args.drop skip) vs []) : ¬ Binds2 fs vs := by
  rintro (hb | ⟨init, keys, rfl, hk, hb⟩)
  · exact c49_wrong_arity_partial hp h hd hv hb
  · have hfull : ∀ part, Fits fs (init ++ [Val.hash keys]).length → KwFit fs part → False := by
      intro part hf _
      have A := arity_ok fs
      have S := signature_ok (lit := False) hv (fun h => h.elim)
      have hm := wrongArity_found h hd
      generalize MethodArity.fromParams (paramFacts fs) = a at *
      generalize signature args skip = s at *
      have hdk := A.declares.2 hk
      have he : effective a s = s := by simp [effective, hdk]
      have hdir : ∃ d, arityMismatch s a = some d := by
        unfold mismatch at hm
        simp only [he] at hm
        split at hm
        · split at hm
          · cases hm
          · split at hm
            · rename_i h1 _; exact ⟨_, h1⟩
            · cases hm
        · exact ⟨_, by simpa using hm⟩
      rw [mismatch_iff A hp] at hdir
      have := S.pos
      rcases hdir with ⟨h3, h4⟩ | ⟨h3, h4⟩
      · rcases hf.2 with h2 | h2
        · exact h3 h2
        · omega
      · have := S.posEq h3
        have := hf.1
        omega
    rcases hb with ⟨hf, hkf⟩ | ⟨part, _, hf, hkf⟩
    · have A := arity_ok fs
      have S := signature_ok (lit := False) hv (fun h => h.elim)
      have hm := wrongArity_found h hd
      generalize MethodArity.fromParams (paramFacts fs) = a at *
      generalize signature args skip = s at *
      have hdk := A.declares.2 hk
      have he : effective a s = s := by simp [effective, hdk]
      have hlen : (init ++ [Val.hash keys]).length = init.length + 1 := by simp
      have hpos := S.pos
      rw [hlen] at hpos
      have htr := S.trailing
      unfold mismatch at hm
      simp only [he, hdk, Bool.true_and] at hm
      cases ht : s.trailingHash with
      | true =>
        simp only [ht, if_true] at hm
        split at hm
        · cases hm
        · split at hm
          · rename_i d c h1 h2
            have h2' : ∃ d, arityMismatch { s with positional := s.positional - 1 } a = some d := ⟨_, h2⟩
            rw [mismatch_iff A hp] at h2'
            rcases h2' with ⟨h3, h4⟩ | ⟨h3, h4⟩
            · rcases hf.2 with h5 | h5
              · exact h3 h5
              · simp only at h4; omega
            · have := S.posEq h3
              simp only at h4
              have := hf.1
              omega
          · cases hm
      | false =>
        have hne : init.length + 1 ≠ s.positional := by
          intro e
          exact htr ht (by rw [hlen, e]) init keys rfl
        simp only [ht] at hm
        have hdir : ∃ d, arityMismatch s a = some d := ⟨_, by simpa using hm⟩
        rw [mismatch_iff A hp] at hdir
        rcases hdir with ⟨h3, h4⟩ | ⟨h3, h4⟩
        · rcases hf.2 with h5 | h5
          · exact h3 h5
          · omega
        · have := S.posEq h3
          omega
    · exact hfull part hf hkf

/-- A keyword reported as unknown is an error. -/
theorem c49_unknown_keyword {fs : List Formal} {args : List Arg} {skip : Nat} {ds : List Diag}
    (h : check fs args skip = some ds) {n : Nat} (hd : Diag.unknownKwarg n ∈ ds) {vs : List Val} {ks : List Key}
    (hv : CallVals (args.drop skip) vs ks) : ¬ Binds fs vs ks := by
  have A := arity_ok fs
  have S := signature_ok (lit := False) hv (fun h => h.elim)
  obtain ⟨m, hm, rfl⟩ := diagnostics_some h
  generalize MethodArity.fromParams (paramFacts fs) = a at *
  generalize signature args skip = s at *
  simp only [List.mem_append] at hd
  have hd' : Diag.unknownKwarg n ∈ unknownDiags a s := by
    rcases hd with (hd | hd) | hd
    · unfold arityDiags at hd
      split at hd <;> simp at hd
    · exact hd
    · unfold missingDiags at hd
      split at hd
      · simp only at hd
        split at hd <;> simp at hd
      · simp at hd
  unfold unknownDiags at hd'
  split at hd'
  · rename_i hc
    simp only [Bool.and_eq_true, Bool.not_eq_true'] at hc
    simp only [List.mem_map, List.mem_filter, Diag.unknownKwarg.injEq] at hd'
    obtain ⟨n', ⟨hn, hnd⟩, rfl⟩ := hd'
    have hk := A.declares.1 hc.1.1
    rintro (⟨_, _, _, h1 | h1⟩ | ⟨h1, _⟩)
    · have := A.kwRest.2 h1
      simp [hc.1.2] at this
    · obtain ⟨n2, e, h2⟩ := h1 _ (S.kw n' hn)
      cases e
      simp only [List.contains_eq_mem, Bool.not_eq_true', decide_eq_false_iff_not, List.mem_append] at hnd
      rcases h2 with h2 | h2
      · exact hnd (.inl ((A.kwReq _).2 h2))
      · exact hnd (.inr ((A.kwOpt _).2 h2))
    · exact h1 hk
  · simp at hd'

/-- Keywords reported as missing: the call is an error.  Missing: calls whose keywords have computed keys (`c49_computed_key`). -/
theorem c49_missing_keyword_partial {fs : List Formal} {args : List Arg} (hl : ∀ a ∈ args, Literal a) {skip : Nat}
    {ds : List Diag} (h : check fs args skip = some ds) {l : List Nat} (hd : Diag.missingKwarg l ∈ ds) {vs : List Val}
    {ks : List Key} (hv : CallVals (args.drop skip) vs ks) : ¬ Binds fs vs ks ∧ (ks = [] → ¬ Binds2 fs vs) := by
  have A := arity_ok fs
  have S := signature_ok (lit := True) hv (fun _ => hl)
  obtain ⟨m, hm, rfl⟩ := diagnostics_some h
  generalize MethodArity.fromParams (paramFacts fs) = a at *
  generalize signature args skip = s at *
  simp only [List.mem_append] at hd
  have hd' : Diag.missingKwarg l ∈ missingDiags a s := by
    rcases hd with (hd | hd) | hd
    · unfold arityDiags at hd
      split at hd <;> simp at hd
    · unfold unknownDiags at hd
      split at hd <;> simp at hd
    · exact hd
  unfold missingDiags at hd'
  split at hd'
  · rename_i hc
    simp only [Bool.and_eq_true, Bool.not_eq_true'] at hc
    simp only at hd'
    split at hd'
    · simp at hd'
    · rename_i hne
      obtain ⟨n, hn⟩ : ∃ n, n ∈ a.requiredKeywords.filter (fun n => !s.keywordArgs.contains n) := by
        cases hf : a.requiredKeywords.filter (fun n => !s.keywordArgs.contains n) with
        | nil => rw [hf] at hne; exact absurd rfl hne
        | cons n r => exact ⟨n, by simp⟩
      simp only [List.mem_filter, List.contains_eq_mem, Bool.not_eq_true', decide_eq_false_iff_not] at hn
      have hreq := (A.kwReq n).1 hn.1
      have hk : TakesKw fs := .inr ⟨n, .inl hreq⟩
      have hno : Key.sym n ∉ ks := by
        intro hmem
        obtain ⟨n', h1, e⟩ := S.lits trivial hc.1.1.2 hc.1.2 _ hmem
        cases e
        exact hn.2 h1
      have h3 : ∀ ks', Key.sym n ∉ ks' → ¬ KwFit fs ks' := fun ks' h hf => h (hf.1 n hreq)
      refine ⟨?_, ?_⟩
      · rintro (⟨_, _, hf⟩ | ⟨h1, _⟩)
        · exact h3 _ hno hf
        · exact h1 hk
      · rintro rfl
        rintro ((⟨_, _, hf⟩ | ⟨h1, _⟩) | ⟨init, keys, e, _⟩)
        · exact h3 _ (by simp) hf
        · exact h1 hk
        · exact S.trailing hc.2 (S.posEq hc.1.2).symm init keys e
  · simp at hd'

/-- And for calls whose arguments are written out, nothing reported means no error, provided that no value that might be a hash is
passed to a method with keywords. -/
theorem c49_complete {fs : List Formal} (hp : .pattern ∉ fs) (hn : .noKw ∉ fs) {args : List Arg} (hw : ∀ a ∈ args, Written a)
    (hh : TakesKw fs → ∀ h, Arg.plain h ∈ args → h = false) {skip : Nat} (h : check fs args skip = some []) {vs : List Val}
    {ks : List Key} (hv : CallVals (args.drop skip) vs ks) : Binds fs vs ks := by
  obtain ⟨hks, hs, ht⟩ := written_args (args.drop skip) {} (fun a ha => hw a (List.mem_of_mem_drop ha))
  have ht' : TakesKw fs → (signature args skip).trailingHash = false :=
    fun hk => ht rfl (fun x hx => hh hk x (List.mem_of_mem_drop hx))
  have hl : ∀ a ∈ args, Literal a := by
    intro a ha es e x hx hd
    obtain ⟨n, hn⟩ := (hw a ha).2.2 es e x hx
    rw [hn] at hd
    cases hd
  change (signature args skip).keywordSplat = false at hks
  change (signature args skip).positionalSplat = false at hs
  clear ht
  have A := arity_ok fs
  have S := signature_ok (lit := True) hv (fun _ => hl)
  obtain ⟨m, hm, hds⟩ := diagnostics_some h
  generalize MethodArity.fromParams (paramFacts fs) = a at *
  generalize signature args skip = s at *
  have hds' := hds.symm
  rw [List.append_eq_nil_iff, List.append_eq_nil_iff] at hds'
  obtain ⟨⟨hd1, hd2⟩, hd3⟩ := hds'
  have hm0 : m = none := by
    cases m with
    | none => rfl
    | some d => simp [arityDiags] at hd1
  subst hm0
  have hmis : arityMismatch (effective a s) a = none := by
    unfold mismatch at hm
    have : (effective a s).trailingHash = s.trailingHash := by
      unfold effective; simp only; split <;> split <;> rfl
    have hc : (a.declaresKeywords && (effective a s).trailingHash) = false := by
      rw [this]
      cases hd : a.declaresKeywords with
      | false => rfl
      | true => exact ht' (A.declares.1 hd)
    simp only [hc, Bool.false_eq_true, if_false] at hm
    simpa using hm
  have hfit : ¬ ((¬ Open fs ∧ needed fs + spare fs < (effective a s).positional) ∨
      ((effective a s).positionalSplat = false ∧ (effective a s).positional < needed fs)) := by
    rw [← mismatch_iff A hp, hmis]
    simp
  have hpos := S.posEq hs
  have hfits : ∀ k, (effective a s).positional = k → (effective a s).positionalSplat = false → Fits fs k := by
    intro k hk hsp
    subst hk
    refine ⟨?_, ?_⟩
    · apply Nat.le_of_not_lt
      intro hlt
      exact hfit (.inr ⟨hsp, hlt⟩)
    · by_cases ho : Open fs
      · exact .inl ho
      · right
        apply Nat.le_of_not_lt
        intro hlt
        exact hfit (.inl ⟨ho, hlt⟩)
  by_cases hk : TakesKw fs
  · have hdk := A.declares.2 hk
    have he : effective a s = s := by simp [effective, hdk]
    refine .inl ⟨hk, hfits _ (by rw [he, hpos]) (by rw [he, hs]), ?_, ?_⟩
    · intro n hreq
      have hn' := (A.kwReq n).2 hreq
      have hne : a.requiredKeywords.isEmpty = false := by
        cases hr : a.requiredKeywords with
        | nil => rw [hr] at hn'; cases hn'
        | cons _ _ => rfl
      unfold missingDiags at hd3
      simp only [hne, hks, hs, ht' hk, Bool.not_false, Bool.and_true, if_true] at hd3
      apply S.kw
      by_cases hmem : n ∈ s.keywordArgs
      · exact hmem
      · have : n ∈ a.requiredKeywords.filter (fun n => !s.keywordArgs.contains n) := by simp [hn', hmem]
        cases hf : a.requiredKeywords.filter (fun n => !s.keywordArgs.contains n) with
        | nil => rw [hf] at this; cases this
        | cons x r => rw [hf] at hd3; simp at hd3
    · by_cases ho : KwOpen fs
      · exact .inl ho
      · right
        intro k hkk
        obtain ⟨n, hn', rfl⟩ := S.lits trivial hks hs k hkk
        refine ⟨n, rfl, ?_⟩
        have hkr : a.hasKwrest = false := by
          cases hc : a.hasKwrest with
          | false => rfl
          | true => exact absurd (A.kwRest.1 hc) ho
        unfold unknownDiags at hd2
        simp only [hdk, hkr, hks, Bool.not_false, Bool.and_true, if_true, List.map_eq_nil_iff, List.filter_eq_nil_iff] at hd2
        have := hd2 n hn'
        simp only [List.contains_eq_mem, Bool.not_eq_true', decide_eq_false_iff_not, List.mem_append, Decidable.not_not] at this
        rcases this with h1 | h1
        · exact .inl ((A.kwReq n).1 h1)
        · exact .inr ((A.kwOpt n).1 h1)
  · have hdk : a.declaresKeywords = false := by
      cases hc : a.declaresKeywords with
      | false => rfl
      | true => exact absurd (A.declares.1 hc) hk
    have hspl : (effective a s).positionalSplat = false := by
      cases h1 : s.nonemptyKeywords <;> simp [effective, hdk, h1, hks, hs]
    cases hc : s.nonemptyKeywords with
    | false =>
      have := S.empty hc hks hs
      exact .inr ⟨hk, .inl ⟨this, hfits _ (by simp [effective, hc, hks, hpos]) hspl⟩⟩
    | true => exact .inr ⟨hk, .inr ⟨S.nonempty hc, hn, hfits _ (by simp [effective, hdk, hc, hks, hpos]) hspl⟩⟩

/-- `def f(a, b = 1, k:, l: 2)`: three calls, the first one fine. -/
theorem c49_example :
    let fs : List Formal := [.req 1, .opt 2, .kwReq 3, .kwOpt 4]
    check fs [.plain false, .keywords [.sym 3]] 0 = some [] ∧
    check fs [.plain false, .plain false, .plain false, .keywords [.sym 5]] 0 =
      some [.wrongArity 1 (some 2) 3, .unknownKwarg 5, .missingKwarg [3]] ∧
    check fs [.plain true, .plain true, .plain true] 0 = some [] := by decide

/-- `def f((a, b), c)` called as `f([1, 2], 3)` is reported, although it is right. -/
theorem c49_destructuring :
    let fs : List Formal := [.pattern, .req 1]
    check fs [.plain false, .plain false] 0 = some [.wrongArity 1 (some 1) 2] ∧
    CallVals [.plain false, .plain false] [.other, .other] [] ∧ Binds fs [.other, .other] [] := by
  refine ⟨by decide, .cons (.plain (by simp)) (.cons (.plain (by simp)) .nil), ?_⟩
  refine .inr ⟨?_, .inl ⟨rfl, ?_⟩⟩
  · rintro (h | ⟨n, h⟩)
    · revert h; simp [KwOpen]
    · simp at h
  · constructor
    · decide
    · exact .inr (by decide)

/-- `def f(k:)` called as `f(key => 1)` with `key = :k` is reported, although it is right. -/
theorem c49_computed_key :
    let fs : List Formal := [.kwReq 1]
    check fs [.keywords [.dynamic]] 0 = some [.missingKwarg [1]] ∧ CallVals [.keywords [.dynamic]] [] [.sym 1] ∧
    Binds fs [] [.sym 1] := by
  refine ⟨by decide, ?_, ?_⟩
  · exact .cons (vs' := []) (ks' := []) (.keywords (.cons (b := []) (.dynamic (k := .sym 1)) .nil)) .nil
  · refine .inl ⟨.inr ⟨1, .inl (by simp)⟩, ⟨by decide, .inr (by decide)⟩, ?_, .inr ?_⟩
    · intro n h
      simp only [List.mem_singleton, Formal.kwReq.injEq] at h
      simp [h]
    · intro k h
      exact ⟨1, by simpa using h, .inl (by simp)⟩

/-- `def f(a, k: 1)` called as `f(k: 2)` is reported; Ruby 2 accepts it and passes a hash. -/
theorem c49_ruby2_keywords :
    let fs : List Formal := [.req 1, .kwOpt 2]
    check fs [.keywords [.sym 2]] 0 = some [.wrongArity 1 (some 1) 0] ∧ Binds2Kw fs [] [.sym 2] ∧ ¬ Binds fs [] [.sym 2] := by
  refine ⟨by decide, .inr ⟨by decide, by simp, .inl ⟨.inr ⟨2, .inr (by simp)⟩, ⟨by decide, .inr (by decide)⟩, ?_, .inr (by simp)⟩⟩, ?_⟩
  · intro n h
    simp at h
  · rintro (⟨_, ⟨h, _⟩, _⟩ | ⟨h, _⟩)
    · revert h; decide
    · exact h (.inr ⟨2, .inr (by simp)⟩)

end Verif.Arity
