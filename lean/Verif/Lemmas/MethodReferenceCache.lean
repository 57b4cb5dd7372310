import Verif.Lemmas.MethodReference

/-! The lookup with a cache that only has right entries is the lookup without one, which answers as specified. -/
namespace Verif.MethodReference

open Verif.Visibility Verif.MethodLookup

/-- A receiver with a metaclass is in its own chain. -/
def SelfInChain (E : Engine) : Prop := ∀ n k, E.metaclass n = some k → n ∈ refChain E n

theorem right_empty (E : Engine) : Right E .empty :=
  ⟨fun _ _ h => (by cases h), fun _ _ h => (by cases h), fun _ _ h => (by cases h), fun _ _ _ h => (by cases h)⟩

theorem brokenCached_spec {E : Engine} {c : Cache} (h : Right E c) (o : Owner) : (brokenCached E c o).1 = E.broken o ∧ Right E (brokenCached E c o).2 := by
  unfold brokenCached
  cases hb : c.broken o with
  | some b => exact ⟨h.broken o b hb, h⟩
  | none =>
    refine ⟨rfl, h.chains, ?_, h.unproven, h.metas⟩
    intro x b hx
    simp only at hx
    split at hx
    · rename_i he; cases hx; rw [he]
    · exact h.broken x b hx

theorem chainCached_spec {E : Engine} {c : Cache} (h : Right E c) (o : Owner) : (chainCached E c o).1 = refChain E o ∧ Right E (chainCached E c o).2 := by
  unfold chainCached
  cases hb : c.chains o with
  | some l => exact ⟨h.chains o l hb, h⟩
  | none =>
    obtain ⟨h1, h2⟩ := brokenCached_spec h o
    simp only [h1]
    refine ⟨rfl, ?_, h2.broken, h2.unproven, h2.metas⟩
    intro x l hx
    simp only at hx
    split at hx
    · rename_i he; cases hx; rw [he]; rfl
    · exact h2.chains x l hx

/-- The metaclass without a cache. -/
def plainMeta (E : Engine) (n : Owner) (m : Nat) : Res :=
  match E.metaclass n with
  | none => .missing
  | some k => walkMeta E n k m (refChain E k)

theorem plainMeta_spec {E : Engine} (hs : SelfInChain E) {n : Owner} {m : Nat} (hn : NoOwn E n m) :
    (plainMeta E n m = .missing ∧ NoMeta E n m) ∨ (plainMeta E n m ≠ .missing ∧ Meta E n m (plainMeta E n m)) := by
  unfold plainMeta
  cases hk : E.metaclass n with
  | none =>
    left
    refine ⟨rfl, ?_⟩
    intro k h
    rw [hk] at h
    cases h
  | some k => exact walkMeta_spec E n k m hk (hn n (hs n k hk))

theorem metaStage_spec {E : Engine} (hs : SelfInChain E) {c : Cache} (h : Right E c) {n : Owner} {m : Nat} (hn : NoOwn E n m) :
    (metaStage E c n m).1 = plainMeta E n m ∧ Right E (metaStage E c n m).2 := by
  have hp := plainMeta_spec hs hn
  unfold metaStage
  cases hk : E.metaclass n with
  | none =>
    refine ⟨?_, h⟩
    unfold plainMeta
    rw [hk]
  | some k =>
    simp only
    cases hm : c.metaMethods k m with
    | some r =>
      refine ⟨?_, h⟩
      simp only
      obtain ⟨n', hk', _, h2⟩ := h.metas k m r hm
      rcases hp with ⟨p1, p2⟩ | ⟨p1, p2⟩
      · rw [p1]
        rcases h2 with h2 | ⟨_, h2⟩
        · exact absurd p2 (h2.not_none hk' hk)
        · exact h2
      · rcases h2 with h2 | ⟨h2, _⟩
        · exact h2.same hk' hk p2
        · exact absurd h2 (p2.not_none hk hk')
    | none =>
      obtain ⟨h1, h2⟩ := chainCached_spec h k
      have he : walkMeta E n k m (chainCached E c k).1 = plainMeta E n m := by
        rw [h1]; unfold plainMeta; rw [hk]
      simp only [he]
      refine ⟨trivial, h2.chains, h2.broken, h2.unproven, ?_⟩
      intro x y r hx
      simp only at hx
      split at hx
      · rename_i hxy
        cases hx
        rw [hxy.1, hxy.2]
        refine ⟨n, hk, hn, ?_⟩
        rcases hp with ⟨p1, p2⟩ | ⟨p1, p2⟩
        · exact Or.inr ⟨p2, p1⟩
        · exact Or.inl p2
      · exact h2.metas x y r hx

theorem mem_unprovenNames (E : Engine) (root : Owner) (m : Nat) :
    m ∈ unprovenNames E root ↔ ∃ x ∈ E.broad root, x ∉ E.proven root ∧ ∃ f ∈ E.base.facts, f.owner = x ∧ f.name = m := by
  unfold unprovenNames
  rw [List.mem_flatMap]
  constructor
  · rintro ⟨x, hx, hm⟩
    rw [List.mem_filter] at hx
    obtain ⟨f, hf, hfm⟩ := List.mem_map.mp hm
    rw [List.mem_filter] at hf
    refine ⟨x, hx.1, ?_, f, hf.1, of_decide_eq_true hf.2, hfm⟩
    intro h
    have := hx.2
    simp [h] at this
  · rintro ⟨x, hx, hp, f, hf, hfo, hfm⟩
    refine ⟨x, List.mem_filter.mpr ⟨hx, by simp [hp]⟩, List.mem_map.mpr ⟨f, List.mem_filter.mpr ⟨hf, decide_eq_true hfo⟩, hfm⟩⟩

/-- Names that are not proven, without a cache. -/
def plainOpen (E : Engine) (m : Nat) (roots : List Owner) : Bool := roots.any (fun r => decide (m ∈ unprovenNames E r))

theorem unprovenCached_spec {E : Engine} (m : Nat) : ∀ (roots : List Owner) {c : Cache}, Right E c →
    (unprovenCached E m c roots).1 = plainOpen E m roots ∧ Right E (unprovenCached E m c roots).2
  | [], _, h => ⟨rfl, h⟩
  | r :: rest, c, h => by
    rw [unprovenCached]
    cases hu : c.unproven r with
    | some l =>
      have hl : (decide (m ∈ l)) = decide (m ∈ unprovenNames E r) := by
        rw [decide_eq_decide, mem_unprovenNames]
        exact h.unproven r l hu m
      simp only [hl]
      by_cases hm : m ∈ unprovenNames E r
      · rw [decide_eq_true hm, if_pos rfl]
        refine ⟨?_, h⟩
        unfold plainOpen
        rw [List.any_cons, decide_eq_true hm, Bool.true_or]
      · rw [decide_eq_false hm]
        simp only [Bool.false_eq_true, if_false]
        have := unprovenCached_spec (E := E) m rest h
        unfold plainOpen at this ⊢
        rw [List.any_cons, decide_eq_false hm, Bool.false_or]
        exact this
    | none =>
      simp only
      have h' : Right E { c with unproven := fun x => if x = r then some (unprovenNames E r) else c.unproven x } := by
        refine ⟨h.chains, h.broken, ?_, h.metas⟩
        intro x l hx m'
        simp only at hx
        split at hx
        · rename_i he; cases hx; rw [he]; exact mem_unprovenNames E r m'
        · exact h.unproven x l hx m'
      by_cases hm : m ∈ unprovenNames E r
      · rw [decide_eq_true hm, if_pos rfl]
        refine ⟨?_, h'⟩
        unfold plainOpen
        rw [List.any_cons, decide_eq_true hm, Bool.true_or]
      · rw [decide_eq_false hm]
        simp only [Bool.false_eq_true, if_false]
        have := unprovenCached_spec (E := E) m rest h'
        unfold plainOpen at this ⊢
        rw [List.any_cons, decide_eq_false hm, Bool.false_or]
        exact this

/-- The search through the targets without a cache. -/
def appPlain (ans : Owner → Except Err Res) : List Owner → List Fact → Bool → Except Err (List Fact × Bool)
  | [], fs, amb => .ok (fs, amb)
  | a :: rest, fs, amb =>
    match ans a with
    | .error e => .error e
    | .ok (.unique f) => appPlain ans rest (fs ++ [f]) amb
    | .ok (.ambiguous _ _) => appPlain ans rest fs true
    | .ok .missing => appPlain ans rest fs amb

/-- The lookup without a cache. -/
def plain (E : Engine) : Nat → Owner → Nat → Except Err Res
  | 0, _, _ => .error .fuel
  | fuel + 1, n, m =>
    if !E.base.known n then .ok .missing
    else
      match walkOwn E n m false (refChain E n) with
      | .unique f => .ok (.unique f)
      | .ambiguous o x => .ok (.ambiguous o x)
      | .missing =>
        match includerStage E.base n m with
        | .panic => .error .panic
        | .found r => .ok r
        | .pass =>
          if E.broken n then .ok .missing
          else
            match plainMeta E n m with
            | .unique f => .ok (.unique f)
            | .ambiguous o x => .ok (.ambiguous o x)
            | .missing =>
              match appPlain (fun a => plain E fuel a m) (E.base.applications n) [] false with
              | .error e => .error e
              | .ok (fs, amb) =>
                let facts := dedupAdj (stableSort (factLe E.base) fs)
                if amb || decide (facts.length > 1) then .ok (.ambiguous n m)
                else
                  match facts.getLast? with
                  | some f => .ok (.unique f)
                  | none =>
                    if plainOpen E m ((refChain E n).filter universal) then .ok (.ambiguous n m)
                    else if m ≠ methodMissingName then
                      match plain E fuel n methodMissingName with
                      | .error e => .error e
                      | .ok r => .ok (unlessDefault r)
                    else .ok .missing

/-- Two ends of a lookup that agree, with a right cache afterwards. -/
inductive Agree (E : Engine) : Except Err (Res × Cache) → Except Err Res → Prop where
  | error (e : Err) : Agree E (.error e) (.error e)
  | ok (r : Res) (c : Cache) : Right E c → Agree E (.ok (r, c)) (.ok r)

theorem appStage_agree {E : Engine} {look : Cache → Owner → Except Err (Res × Cache)} {ans : Owner → Except Err Res} (h : ∀ c a, Right E c → Agree E (look c a) (ans a)) :
    ∀ (l : List Owner) (c : Cache) (fs : List Fact) (amb : Bool), Right E c →
      (∃ e, appStage look c l fs amb = .error e ∧ appPlain ans l fs amb = .error e) ∨
      ∃ fs' amb' c', appStage look c l fs amb = .ok (fs', amb', c') ∧ appPlain ans l fs amb = .ok (fs', amb') ∧ Right E c'
  | [], c, fs, amb, hc => Or.inr ⟨fs, amb, c, rfl, rfl, hc⟩
  | a :: rest, c, fs, amb, hc => by
    have h1 := h c a hc
    rw [appStage, appPlain]
    generalize look c a = x at h1
    generalize ans a = y at h1
    cases h1 with
    | error e => exact Or.inl ⟨e, rfl, rfl⟩
    | ok r c' hc' =>
      cases r with
      | missing => exact appStage_agree h rest c' fs amb hc'
      | unique f => exact appStage_agree h rest c' (fs ++ [f]) amb hc'
      | ambiguous o x => exact appStage_agree h rest c' fs true hc'

/-- The cache does not change the answer. -/
theorem lookup_agree {E : Engine} (hs : SelfInChain E) : ∀ (fuel : Nat) (c : Cache) (n : Owner) (m : Nat), Right E c → Agree E (lookup E fuel c n m) (plain E fuel n m)
  | 0, _, _, _, _ => .error .fuel
  | fuel + 1, c, n, m, hc => by
    rw [lookup, plain]
    by_cases hk : (!E.base.known n) = true
    · rw [if_pos hk, if_pos hk]
      exact .ok _ _ hc
    · rw [if_neg hk, if_neg hk]
      obtain ⟨h1, hc1⟩ := chainCached_spec hc n
      simp only [h1]
      rcases walkOwn_spec E n m with ⟨hw, hno⟩ | ⟨hw, _⟩
      · rw [hw]
        simp only
        cases includerStage E.base n m with
        | panic => exact .error _
        | found r => exact .ok _ _ hc1
        | pass =>
          obtain ⟨h2, hc2⟩ := brokenCached_spec hc1 n
          simp only [h2]
          by_cases hb : E.broken n = true
          · rw [if_pos hb, if_pos hb]
            exact .ok _ _ hc2
          · rw [if_neg hb, if_neg hb]
            obtain ⟨h3, hc3⟩ := metaStage_spec hs hc2 hno
            rw [← h3]
            generalize metaStage E (brokenCached E (chainCached E c n).2 n).2 n m = ms at hc3
            obtain ⟨r, c3⟩ := ms
            cases r with
            | unique f => exact .ok _ _ hc3
            | ambiguous o x => exact .ok _ _ hc3
            | missing =>
              simp only
              rcases appStage_agree (look := fun c a => lookup E fuel c a m) (ans := fun a => plain E fuel a m) (fun c a hc => lookup_agree hs fuel c a m hc)
                (E.base.applications n) c3 [] false hc3 with ⟨e, h4, h5⟩ | ⟨fs, amb, c4, h4, h5, hc4⟩
              · rw [h4, h5]
                exact .error e
              · rw [h4, h5]
                simp only
                by_cases hx : (amb || decide ((dedupAdj (stableSort (factLe E.base) fs)).length > 1)) = true
                · rw [if_pos hx, if_pos hx]
                  exact .ok _ _ hc4
                · rw [if_neg hx, if_neg hx]
                  cases (dedupAdj (stableSort (factLe E.base) fs)).getLast? with
                  | some f => exact .ok _ _ hc4
                  | none =>
                    simp only
                    obtain ⟨h6, hc5⟩ := unprovenCached_spec (E := E) m ((refChain E n).filter universal) hc4
                    rw [← h6]
                    generalize unprovenCached E m c4 ((refChain E n).filter universal) = us at hc5
                    obtain ⟨u, c5⟩ := us
                    cases u with
                    | true => exact .ok _ _ hc5
                    | false =>
                      simp only [Bool.false_eq_true, if_false]
                      by_cases hm : m ≠ methodMissingName
                      · rw [if_pos hm, if_pos hm]
                        have h7 := lookup_agree hs fuel c5 n methodMissingName hc5
                        generalize lookup E fuel c5 n methodMissingName = x at h7
                        generalize plain E fuel n methodMissingName = y at h7
                        cases h7 with
                        | error e => exact .error e
                        | ok r c6 hc6 => exact .ok _ _ hc6
                      · rw [if_neg hm, if_neg hm]
                        exact .ok _ _ hc5
      · generalize walkOwn E n m false (refChain E n) = r at hw
        cases r with
        | missing => exact absurd rfl hw
        | unique f => exact .ok _ _ hc1
        | ambiguous o x => exact .ok _ _ hc1

/-! ## The lookup without a cache answers as specified -/

theorem appPlain_ok {ans : Owner → Except Err Res} : ∀ (l : List Owner) (fs fs' : List Fact) (amb amb' : Bool), appPlain ans l fs amb = .ok (fs', amb') →
    (∀ a ∈ l, ∃ r, ans a = .ok r) ∧ (∀ f, f ∈ fs' ↔ f ∈ fs ∨ ∃ a ∈ l, ans a = .ok (.unique f)) ∧
    (amb' = true ↔ amb = true ∨ ∃ a ∈ l, ∃ o x, ans a = .ok (.ambiguous o x))
  | [], fs, fs', amb, amb', h => by
    cases h
    simp
  | a :: rest, fs, fs', amb, amb', h => by
    rw [appPlain] at h
    cases ha : ans a with
    | error e => rw [ha] at h; cases h
    | ok r =>
      rw [ha] at h
      have hall : (∀ b ∈ rest, ∃ r, ans b = .ok r) → ∀ b ∈ a :: rest, ∃ r, ans b = .ok r := by
        intro h1 b hb
        rcases List.mem_cons.mp hb with hb | hb
        · rw [hb]; exact ⟨r, ha⟩
        · exact h1 b hb
      cases r with
      | missing =>
        obtain ⟨h1, h2, h3⟩ := appPlain_ok rest fs fs' amb amb' h
        refine ⟨hall h1, ?_, ?_⟩
        · intro f; rw [h2 f]; simp [ha]
        · rw [h3]; simp [ha]
      | unique g =>
        obtain ⟨h1, h2, h3⟩ := appPlain_ok rest (fs ++ [g]) fs' amb amb' h
        refine ⟨hall h1, ?_, ?_⟩
        · intro f
          rw [h2 f]
          rw [List.mem_append, List.mem_singleton]
          simp only [List.mem_cons, exists_eq_or_imp, ha, Except.ok.injEq, Res.unique.injEq]
          constructor
          · rintro ((h | h) | h)
            · exact Or.inl h
            · exact Or.inr (Or.inl h.symm)
            · exact Or.inr (Or.inr h)
          · rintro (h | h | h)
            · exact Or.inl (Or.inl h)
            · exact Or.inl (Or.inr h.symm)
            · exact Or.inr h
        · rw [h3]; simp [ha]
      | ambiguous o x =>
        obtain ⟨h1, h2, h3⟩ := appPlain_ok rest fs fs' true amb' h
        refine ⟨hall h1, ?_, ?_⟩
        · intro f; rw [h2 f]; simp [ha]
        · rw [h3]; simp [ha]

theorem appPlain_error {ans : Owner → Except Err Res} {e : Err} : ∀ (l : List Owner) (fs : List Fact) (amb : Bool), appPlain ans l fs amb = .error e → ∃ a ∈ l, ans a = .error e
  | [], fs, amb, h => by cases h
  | a :: rest, fs, amb, h => by
    rw [appPlain] at h
    cases ha : ans a with
    | error e' =>
      rw [ha] at h
      cases h
      exact ⟨a, List.mem_cons_self, ha⟩
    | ok r =>
      rw [ha] at h
      have : ∃ fs amb, appPlain ans rest fs amb = .error e := by
        cases r with
        | missing => exact ⟨_, _, h⟩
        | unique g => exact ⟨_, _, h⟩
        | ambiguous o x => exact ⟨_, _, h⟩
      obtain ⟨fs', amb', h'⟩ := this
      obtain ⟨b, hb, hb'⟩ := appPlain_error rest fs' amb' h'
      exact ⟨b, List.mem_cons_of_mem _ hb, hb'⟩

theorem plainOpen_iff (E : Engine) (n : Owner) (m : Nat) : plainOpen E m ((refChain E n).filter universal) = true ↔ Open E n m := by
  unfold plainOpen Open
  rw [List.any_eq_true]
  constructor
  · rintro ⟨r, hr, hm⟩
    rw [List.mem_filter, universal_iff] at hr
    obtain ⟨x, h1, h2, h3⟩ := (mem_unprovenNames E r m).mp (of_decide_eq_true hm)
    exact ⟨r, hr.1, hr.2, x, h1, h2, h3⟩
  · rintro ⟨r, hr, hu, x, h1, h2, h3⟩
    exact ⟨r, List.mem_filter.mpr ⟨hr, (universal_iff r).mpr hu⟩, decide_eq_true ((mem_unprovenNames E r m).mpr ⟨x, h1, h2, h3⟩)⟩

theorem unlessDefault_spec (r : Res) : (Default r ∧ unlessDefault r = .missing) ∨ (¬ Default r ∧ unlessDefault r = r) := by
  cases r with
  | missing => exact Or.inr ⟨(by rintro ⟨f, h, _⟩; cases h), rfl⟩
  | ambiguous o x => exact Or.inr ⟨(by rintro ⟨f, h, _⟩; cases h), rfl⟩
  | unique f =>
    by_cases hd : defaultFact f = true
    · left
      refine ⟨?_, by rw [unlessDefault, if_pos hd]⟩
      unfold defaultFact at hd
      rw [Bool.and_eq_true, coreFact_iff] at hd
      have h1 := of_decide_eq_true hd.1
      exact ⟨f, rfl, h1.1, h1.2, hd.2⟩
    · right
      refine ⟨?_, by rw [unlessDefault, if_neg hd]⟩
      rintro ⟨g, hg, h1, h2, h3⟩
      cases hg
      apply hd
      unfold defaultFact
      rw [Bool.and_eq_true, coreFact_iff]
      exact ⟨decide_eq_true ⟨h1, h2⟩, h3⟩

/-- What the lookup without a cache does after the chain, the includers and the metaclass. -/
theorem plain_step {E : Engine} (hs : SelfInChain E) (fuel : Nat) (n : Owner) (m : Nat) :
    (plain E (fuel + 1) n m = .error .fuel ∧ Silent E n m) ∨ (plain E (fuel + 1) n m = .error .panic ∧ Silent E n m) ∨
      ∃ r, plain E (fuel + 1) n m = .ok r ∧ (Refers E n m r ∨ Silent E n m) := by
  cases h : plain E (fuel + 1) n m with
  | ok r =>
    right; right
    refine ⟨r, rfl, ?_⟩
    rw [plain] at h
    by_cases hk : (!E.base.known n) = true
    · rw [if_pos hk] at h
      cases h
      left
      exact .unknown n m (by simpa using hk)
    · rw [if_neg hk] at h
      have hk' : E.base.known n = true := by simpa using hk
      rcases walkOwn_spec E n m with ⟨hw, hno⟩ | ⟨hw, how⟩
      · rw [hw] at h
        simp only at h
        rcases includer_spec E.base n m hk' with ⟨hi, hv⟩ | ⟨r', hi, _, hm, hv⟩
        · rw [hi] at h
          simp only at h
          by_cases hb : E.broken n = true
          · rw [if_pos hb] at h
            cases h
            exact Or.inl (.barrier n m hk' hno hv hb)
          · rw [if_neg hb] at h
            have hb' : E.broken n = false := by simpa using hb
            rcases plainMeta_spec hs hno with ⟨hp, hnm⟩ | ⟨hp, hme⟩
            · exact Or.inr ⟨hk', hno, hv, hb', hnm⟩
            · left
              generalize plainMeta E n m = pm at h hp hme
              cases pm with
              | missing => exact absurd rfl hp
              | unique f => cases h; exact .object n m _ hk' hno hv hb' hme
              | ambiguous o x => cases h; exact .object n m _ hk' hno hv hb' hme
        · rw [hi] at h
          cases h
          exact Or.inl (.via n m _ hk' hno hm hv)
      · left
        generalize walkOwn E n m false (refChain E n) = pm at h hw how
        cases pm with
        | missing => exact absurd rfl hw
        | unique f => cases h; exact .own n m _ hk' how
        | ambiguous o x => cases h; exact .own n m _ hk' how
  | error e =>
    have hsil : Silent E n m := by
      rw [plain] at h
      by_cases hk : (!E.base.known n) = true
      · rw [if_pos hk] at h; cases h
      · rw [if_neg hk] at h
        have hk' : E.base.known n = true := by simpa using hk
        rcases walkOwn_spec E n m with ⟨hw, hno⟩ | ⟨hw, how⟩
        · rw [hw] at h
          simp only at h
          rcases includer_spec E.base n m hk' with ⟨hi, hv⟩ | ⟨r', hi, _, hm, hv⟩
          · rw [hi] at h
            simp only at h
            by_cases hb : E.broken n = true
            · rw [if_pos hb] at h; cases h
            · rw [if_neg hb] at h
              have hb' : E.broken n = false := by simpa using hb
              rcases plainMeta_spec hs hno with ⟨hp, hnm⟩ | ⟨hp, hme⟩
              · exact ⟨hk', hno, hv, hb', hnm⟩
              · generalize plainMeta E n m = pm at h hp hme
                cases pm with
                | missing => exact absurd rfl hp
                | unique f => cases h
                | ambiguous o x => cases h
          · rw [hi] at h; cases h
        · generalize walkOwn E n m false (refChain E n) = pm at h hw how
          cases pm with
          | missing => exact absurd rfl hw
          | unique f => cases h
          | ambiguous o x => cases h
    cases e with
    | fuel => exact Or.inl ⟨rfl, hsil⟩
    | panic => exact Or.inr (Or.inl ⟨rfl, hsil⟩)

/-- The lookup of a silent receiver. -/
theorem plain_silent {E : Engine} (hs : SelfInChain E) (fuel : Nat) {n : Owner} {m : Nat} (h : Silent E n m) :
    plain E (fuel + 1) n m =
      match appPlain (fun a => plain E fuel a m) (E.base.applications n) [] false with
      | .error e => .error e
      | .ok (fs, amb) =>
        let facts := dedupAdj (stableSort (factLe E.base) fs)
        if amb || decide (facts.length > 1) then .ok (.ambiguous n m)
        else
          match facts.getLast? with
          | some f => .ok (.unique f)
          | none =>
            if plainOpen E m ((refChain E n).filter universal) then .ok (.ambiguous n m)
            else if m ≠ methodMissingName then
              match plain E fuel n methodMissingName with
              | .error e => .error e
              | .ok r => .ok (unlessDefault r)
            else .ok .missing := by
  obtain ⟨hk, hno, hv, hb, hnm⟩ := h
  rw [plain]
  simp only [hk, Bool.not_true, Bool.false_eq_true, if_false]
  have hw : walkOwn E n m false (refChain E n) = .missing := by
    rcases walkOwn_spec E n m with ⟨hw, _⟩ | ⟨_, how⟩
    · exact hw
    · exfalso
      generalize walkOwn E n m false (refChain E n) = r at how
      cases how with
      | sure be o f h1 h2 _ => exact h2.not_nothing (hno o h1.mem)
      | unsure be o f h1 h2 _ => exact h2.not_nothing (hno o h1.mem)
      | several be o h1 h2 => exact h2.not_nothing (hno o h1.mem)
  have hi : includerStage E.base n m = .pass := by
    rcases includer_spec E.base n m hk with ⟨hi, _⟩ | ⟨r', _, _, hm, hv'⟩
    · exact hi
    · exfalso
      rcases hv with hv | hv
      · rw [hm] at hv; cases hv
      · cases hv' with
        | unique o f g h1 => exact hv o h1
        | several o o' h1 => exact hv o h1
  have hp : plainMeta E n m = .missing := by
    rcases plainMeta_spec hs hno with ⟨hp, _⟩ | ⟨hp, hme⟩
    · exact hp
    · exfalso
      cases hk' : E.metaclass n with
      | none => unfold plainMeta at hp; rw [hk'] at hp; exact hp rfl
      | some k => exact hme.not_none hk' hk' hnm
  rw [hw]
  simp only
  rw [hi]
  simp only [hb, Bool.false_eq_true, if_false]
  rw [hp]

theorem plain_no_panic {E : Engine} (hs : SelfInChain E) : ∀ (fuel : Nat) (n : Owner) (m : Nat), plain E fuel n m ≠ .error .panic
  | 0, _, _ => by rw [plain]; simp
  | fuel + 1, n, m => by
    intro h
    have hsil : Silent E n m := by
      rcases plain_step hs fuel n m with ⟨h1, _⟩ | ⟨_, h1⟩ | ⟨r, h1, _⟩
      · rw [h] at h1; cases h1
      · exact h1
      · rw [h] at h1; cases h1
    rw [plain_silent hs fuel hsil] at h
    cases ha : appPlain (fun a => plain E fuel a m) (E.base.applications n) [] false with
    | error e =>
      rw [ha] at h
      cases h
      obtain ⟨a, _, h2⟩ := appPlain_error _ _ _ ha
      exact plain_no_panic hs fuel a m h2
    | ok x =>
      obtain ⟨fs, amb⟩ := x
      rw [ha] at h
      simp only at h
      split at h
      · cases h
      · split at h
        · cases h
        · split at h
          · cases h
          · split at h
            · split at h
              · rename_i e he
                cases h
                exact plain_no_panic hs fuel n _ he
              · cases h
            · cases h

theorem plain_refers {E : Engine} (hs : SelfInChain E) : ∀ (fuel : Nat) (n : Owner) (m : Nat) (r : Res), plain E fuel n m = .ok r → Refers E n m r
  | 0, _, _, _, h => by rw [plain] at h; cases h
  | fuel + 1, n, m, r, h => by
    have hsil : Refers E n m r ∨ Silent E n m := by
      rcases plain_step hs fuel n m with ⟨h1, _⟩ | ⟨h1, _⟩ | ⟨r', h1, h2⟩
      · rw [h] at h1; cases h1
      · rw [h] at h1; cases h1
      · rw [h] at h1; cases h1; exact h2
    rcases hsil with hsil | hsil
    · exact hsil
    · rw [plain_silent hs fuel hsil] at h
      cases ha : appPlain (fun a => plain E fuel a m) (E.base.applications n) [] false with
      | error e => rw [ha] at h; cases h
      | ok x =>
        obtain ⟨fs, amb⟩ := x
        rw [ha] at h
        simp only at h
        obtain ⟨h1, h2, h3⟩ := appPlain_ok _ _ _ _ _ ha
        let g : Owner → Res := fun a => match plain E fuel a m with | .ok r => r | .error _ => .missing
        have hg : ∀ b ∈ E.base.applications n, plain E fuel b m = .ok (g b) := by
          intro b hb
          obtain ⟨r', hr'⟩ := h1 b hb
          show plain E fuel b m = .ok (match plain E fuel b m with | .ok r => r | .error _ => .missing)
          rw [hr']
        have hr : ∀ b ∈ E.base.applications n, Refers E b m (g b) := fun b hb => plain_refers hs fuel b m _ (hg b hb)
        have h2' : ∀ f, f ∈ fs ↔ ∃ a ∈ E.base.applications n, g a = .unique f := by
          intro f
          rw [h2 f]
          constructor
          · rintro (h | ⟨a, ha1, ha2⟩)
            · cases h
            · rw [hg a ha1] at ha2
              exact ⟨a, ha1, by injection ha2⟩
          · rintro ⟨a, ha1, ha2⟩
            exact Or.inr ⟨a, ha1, by rw [hg a ha1, ha2]⟩
        have h3' : amb = true ↔ ∃ a ∈ E.base.applications n, ∃ o x, g a = .ambiguous o x := by
          rw [h3]
          constructor
          · rintro (h | ⟨a, ha1, o, x, ha2⟩)
            · cases h
            · rw [hg a ha1] at ha2
              exact ⟨a, ha1, o, x, by injection ha2⟩
          · rintro ⟨a, ha1, o, x, ha2⟩
            exact Or.inr ⟨a, ha1, o, x, by rw [hg a ha1, ha2]⟩
        by_cases hx : (amb || decide ((dedupAdj (stableSort (factLe E.base) fs)).length > 1)) = true
        · rw [if_pos hx] at h
          cases h
          refine .targets n m g hsil hr ?_
          rw [Bool.or_eq_true] at hx
          rcases hx with hx | hx
          · exact Or.inl (h3'.mp hx)
          · obtain ⟨f, hf, f', hf', hne⟩ := dedup_long _ _ (of_decide_eq_true hx)
            obtain ⟨a, ha1, ha2⟩ := (h2' f).mp hf
            obtain ⟨b, hb1, hb2⟩ := (h2' f').mp hf'
            exact Or.inr ⟨a, ha1, b, hb1, f, f', ha2, hb2, hne⟩
        · rw [if_neg hx] at h
          have hx' : amb = false ∧ ¬ (dedupAdj (stableSort (factLe E.base) fs)).length > 1 := by
            constructor
            · cases hamb : amb with
              | false => rfl
              | true => rw [hamb] at hx; exact absurd rfl hx
            · intro hl
              apply hx
              rw [decide_eq_true hl, Bool.or_true]
          have hna : ∀ b ∈ E.base.applications n, ∀ o x, g b ≠ .ambiguous o x := by
            intro b hb o x hgb
            have := h3'.mpr ⟨b, hb, o, x, hgb⟩
            rw [hx'.1] at this
            cases this
          rcases dedup_short _ _ hx'.2 with ⟨h4, h5⟩ | ⟨f, h4, h5, h6⟩
          · rw [h5] at h
            simp only at h
            have hmiss : ∀ b ∈ E.base.applications n, Refers E b m .missing := by
              intro b hb
              have h7 := hr b hb
              cases hgb : g b with
              | missing => rw [hgb] at h7; exact h7
              | unique f =>
                have := (h2' f).mpr ⟨b, hb, hgb⟩
                rw [h4] at this
                cases this
              | ambiguous o x => exact absurd hgb (hna b hb o x)
            by_cases hop : plainOpen E m ((refChain E n).filter universal) = true
            · rw [if_pos hop] at h
              cases h
              exact .unproven n m hsil hmiss ((plainOpen_iff E n m).mp hop)
            · rw [if_neg hop] at h
              rw [plainOpen_iff] at hop
              by_cases hm : m ≠ methodMissingName
              · rw [if_pos hm] at h
                cases hf : plain E fuel n methodMissingName with
                | error e => rw [hf] at h; cases h
                | ok r' =>
                  rw [hf] at h
                  cases h
                  have h8 := plain_refers hs fuel n methodMissingName r' hf
                  rcases unlessDefault_spec r' with ⟨h9, h10⟩ | ⟨h9, h10⟩
                  · rw [h10]
                    exact .default n m r' hsil hmiss hop hm h8 h9
                  · rw [h10]
                    exact .handler n m r' hsil hmiss hop hm h8 h9
              · rw [if_neg hm] at h
                cases h
                have hm' : m = methodMissingName := by
                  by_cases he : m = methodMissingName
                  · exact he
                  · exact absurd he hm
                subst hm'
                exact .nothing n hsil hmiss hop
          · rw [h4] at h
            cases h
            obtain ⟨a, ha1, ha2⟩ := (h2' f).mp h5
            refine .target n m g a f hsil hr ha1 ha2 ?_
            intro b hb
            cases hgb : g b with
            | missing => exact Or.inr rfl
            | unique f' => exact Or.inl (by rw [h6 f' ((h2' f').mpr ⟨b, hb, hgb⟩)])
            | ambiguous o x => exact absurd hgb (hna b hb o x)

/-- With a measure that falls from a context to its targets, the lookup ends. -/
theorem plain_ends {E : Engine} (hs : SelfInChain E) (rank : Owner → Nat) (hr : ∀ n, ∀ a ∈ E.base.applications n, rank a < rank n) :
    ∀ (k fuel : Nat) (n : Owner) (m : Nat), rank n < k → 2 * k ≤ fuel + (if m = methodMissingName then 1 else 0) → ∃ r, plain E fuel n m = .ok r
  | 0, _, _, _, h, _ => by omega
  | k + 1, 0, _, _, _, h => by split at h <;> omega
  | k + 1, fuel + 1, n, m, hk, h => by
    rcases plain_step hs fuel n m with ⟨_, hsil⟩ | ⟨h1, _⟩ | ⟨r, h1, _⟩
    · rw [plain_silent hs fuel hsil]
      cases ha : appPlain (fun a => plain E fuel a m) (E.base.applications n) [] false with
      | error e =>
        exfalso
        obtain ⟨a, ha1, ha2⟩ := appPlain_error _ _ _ ha
        have := hr n a ha1
        obtain ⟨r, h3⟩ := plain_ends hs rank hr k fuel a m (by omega) (by split at h <;> simp_all <;> omega)
        rw [h3] at ha2
        cases ha2
      | ok x =>
        obtain ⟨fs, amb⟩ := x
        simp only
        split
        · exact ⟨_, rfl⟩
        · split
          · exact ⟨_, rfl⟩
          · split
            · exact ⟨_, rfl⟩
            · split
              · rename_i hm
                have hm' : ¬ m = methodMissingName := hm
                rw [if_neg hm'] at h
                obtain ⟨r, h3⟩ := plain_ends hs rank hr (k + 1) fuel n methodMissingName hk (by rw [if_pos rfl]; omega)
                rw [h3]
                exact ⟨_, rfl⟩
              · exact ⟨_, rfl⟩
    · exact absurd h1 (plain_no_panic hs _ _ _)
    · exact ⟨r, h1⟩
  termination_by k fuel => (fuel, k)

end Verif.MethodReference
