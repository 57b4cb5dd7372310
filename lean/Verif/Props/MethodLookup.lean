import Verif.Props.Visibility

/-!
C57: the callee found for a call is the method that Ruby runs, over the facts that indexing a program leaves, with
counterexamples.
-/
namespace Verif.MethodLookup

open Visibility Ruby

/-- The ancestors of `self` at the call. -/
def callerChain (B : Base) (caller : Option Owner) : List Owner :=
  match caller with
  | some c => B.chain c
  | none => []

/-- If the entry that a call finds may not be called, no other entry of the ancestors may be. -/
def Unhidden (T : Tables) (L : List Owner) (m : Nat) (may : Owner → Vis → Bool) : Prop :=
  ∀ o v, first T L m = some (o, v) → may o v = false → ∀ a ∈ L, ∀ e, T a m = some e → may a e.vis = false

/-! ### Lemmas -/

theorem allowed_self (B : Base) (v : Vis) (o : Owner) (caller : Option Owner) : allowed B v o true caller = true := by
  cases v <;> rfl

theorem allowed_other (B : Base) (v : Vis) (o : Owner) (caller : Option Owner) : allowed B v o false caller = onOther (callerChain B caller) o v := by
  cases v with
  | pub => rfl
  | priv => rfl
  | prot =>
    cases caller with
    | none => simp [allowed, onOther, callerChain]
    | some c =>
      show (false || (B.chain c).any (fun a => decide (a = o))) = decide (o ∈ B.chain c)
      rw [Bool.false_or, Bool.eq_iff_iff, List.any_eq_true, decide_eq_true_eq]
      constructor
      · rintro ⟨x, hx, hxo⟩
        rw [← of_decide_eq_true hxo]
        exact hx
      · exact fun h => ⟨o, h, decide_eq_true rfl⟩

theorem plain_shows {E : List Nat → Bool} {B : Base} {files : List Code} {above : Owner → List Owner} {T : Tables} (hp : ∀ c ∈ files, Plain .top c = true)
    (hi : indexFiles E files = some (B.facts, B.overrides)) (hr : run above noTables (program files) = some T) :
    B.facts.map key = (program files).filterMap defKey ∧ Defs (program files) T ∧ Shows B T := by
  obtain ⟨F, V, h1, h2⟩ := index_plain (E := E) hp
  rw [hi] at h1
  cases h1
  have hd : Defs (program files) T := by simpa using Defs.run _ [] _ _ Defs.start hr
  exact ⟨h2, hd, shows_of_index h2 hd⟩

theorem tame_shows {E : List Nat → Bool} {B : Base} {files : List Code} {above : Owner → List Owner} {T : Tables} (hp : ∀ c ∈ files, Plain .top c = true ∧ Tame .top c = true)
    (hi : indexFiles E files = some (B.facts, B.overrides)) (hr : run above noTables (program files) = some T) (ho : Orderly (program files))
    (he : Effective above (program files)) (hin : InOrder (program files)) : ShowsVis B T := by
  obtain ⟨hk, hd, _⟩ := plain_shows (fun c hc => (hp c hc).1) hi hr
  obtain ⟨h1, h2⟩ := index_tame hp hi
  exact showsVis_of_index hk h1 h2 hin ho hd (Viss.run (program files) [] _ _ Viss.start rfl ho he hr)

theorem callee_found {B : Base} {T : Tables} (hd : Shows B T) {L : List Owner} {m : Nat} {how : How} {ap : Bool} {caller : Option Owner} {d : Owner} {p : Nat}
    (hall : ∀ f ∈ factsAt B d m, allowed B (effective B L f m).1 (effective B L f m).2 ap caller = true) (hf : found T L m = some (d, p)) :
    ∃ c, calleeInChain B L m how ap caller = some c ∧ c.owner = d ∧ c.name = m ∧ c.how = how ∧ p ∈ c.ranges ∧ ∀ q ∈ c.ranges, ∃ f ∈ factsAt B d m, f.pos = q := by
  obtain ⟨fs, h1, ⟨f, hf1, hf2⟩, h2⟩ := factsInChain_found hd hall (found_mem hf).1 L hf
  refine ⟨{ owner := d, name := m, how := how, ranges := fs.map (·.pos) }, ?_, rfl, rfl, rfl, ?_, ?_⟩
  · unfold calleeInChain
    rw [h1]
  · exact List.mem_map.mpr ⟨f, hf1, hf2⟩
  · intro q hq
    obtain ⟨g, hg, hgq⟩ := List.mem_map.mp hq
    exact ⟨g, h2 g hg, hgq⟩

theorem fact_defined {B : Base} {evs : List Ev} (hk : B.facts.map key = evs.filterMap defKey) {d : Owner} {m : Nat} {f : Fact} (hf : f ∈ factsAt B d m) :
    ∃ v, .define d m f.pos v ∈ evs := by
  have h1 := mem_retainAvailable hf
  obtain ⟨_, _, v, hv⟩ := defs_mem hk (List.mem_filter.mp h1).1
  obtain ⟨h2, h3⟩ := factsAt_owner hf
  rw [h2, h3] at hv
  exact ⟨v, hv⟩

theorem resolve_of_callee {B : Base} {n : Owner} {m : Nat} {ap : Bool} {caller : Option Owner} {c : Callee} (hn : B.known n = true)
    (h : calleeInChain B (B.chain n) m .exact ap caller = some c) : resolve B n m ap caller = some [c] := by
  unfold resolve
  rw [hn, h]
  simp [searchAll, search, h]

/-- The callees that `search` adds. -/
theorem search_mem {B : Base} {m : Nat} {ap : Bool} {caller : Option Owner} {o : Owner} {acc : List Callee × List Callee} {c : Callee} (hc : c.how = .exact)
    (h : c ∈ (search B m ap caller o acc).1) : c ∈ acc.1 ∨ calleeInChain B (B.chain o) m .exact ap caller = some c := by
  unfold search at h
  split at h
  · rename_i c' h1
    rcases List.mem_append.mp h with h2 | h2
    · exact Or.inl h2
    · right
      rw [List.mem_singleton.mp h2]
      exact h1
  · split at h
    · rcases List.mem_append.mp h with h2 | h2
      · exact Or.inl h2
      · rw [List.mem_singleton.mp h2] at hc
        cases hc
    · split at h
      · exact Or.inl h
      · exact Or.inl h

theorem missingCallee_how {B : Base} {L : List Owner} {c : Callee} (h : missingCallee B L = some c) : c.how = .methodMissing := by
  unfold missingCallee calleeInChain at h
  split at h
  · cases h
  · rename_i c' h1
    split at h1
    · cases h1
    · cases h1
      split at h
      · cases h
      · cases h; rfl

theorem search_fallback {B : Base} {m : Nat} {ap : Bool} {caller : Option Owner} {o : Owner} {acc : List Callee × List Callee} {c : Callee}
    (h : c ∈ (search B m ap caller o acc).2) : c ∈ acc.2 ∨ c.how = .methodMissing := by
  unfold search at h
  split at h
  · exact Or.inl h
  · split at h
    · exact Or.inl h
    · split at h
      · rename_i c' h1
        rcases List.mem_append.mp h with h2 | h2
        · exact Or.inl h2
        · right
          rw [List.mem_singleton.mp h2]
          exact missingCallee_how h1
      · exact Or.inl h

theorem fold_mem {B : Base} {m : Nat} {ap : Bool} {caller : Option Owner} {c : Callee} (hc : c.how = .exact) : ∀ (l : List Owner) (acc : List Callee × List Callee),
    c ∈ (l.foldl (fun a o => search B m ap caller o a) acc).1 → c ∈ acc.1 ∨ ∃ r ∈ l, calleeInChain B (B.chain r) m .exact ap caller = some c
  | [], _, h => Or.inl h
  | o :: l, acc, h => by
    rw [List.foldl_cons] at h
    rcases fold_mem hc l _ h with h1 | ⟨r, hr, h1⟩
    · rcases search_mem hc h1 with h2 | h2
      · exact Or.inl h2
      · exact Or.inr ⟨o, List.mem_cons_self, h2⟩
    · exact Or.inr ⟨r, List.mem_cons_of_mem _ hr, h1⟩

theorem fold_fallback {B : Base} {m : Nat} {ap : Bool} {caller : Option Owner} {c : Callee} : ∀ (l : List Owner) (acc : List Callee × List Callee),
    c ∈ (l.foldl (fun a o => search B m ap caller o a) acc).2 → c ∈ acc.2 ∨ c.how = .methodMissing
  | [], _, h => Or.inl h
  | o :: l, acc, h => by
    rw [List.foldl_cons] at h
    rcases fold_fallback l _ h with h1 | h1
    · exact search_fallback h1
    · exact Or.inr h1

theorem searchAll_mem {B : Base} {n : Owner} {m : Nat} {ap : Bool} {caller : Option Owner} {rs : List Owner} {c : Callee} (hc : c.how = .exact)
    (h : c ∈ searchAll B n m ap caller rs) : ∃ r ∈ rs ++ B.applications n, calleeInChain B (B.chain r) m .exact ap caller = some c := by
  unfold searchAll at h
  simp only at h
  generalize hA : rs.foldl (fun a o => search B m ap caller o a) ([], []) = A at h
  generalize hC : (B.applications n).foldl (fun a o => search B m ap caller o a) A = C at h
  have hA1 : ∀ c', c'.how = .exact → c' ∈ A.1 → ∃ r ∈ rs ++ B.applications n, calleeInChain B (B.chain r) m .exact ap caller = some c' := by
    intro c' hc' hm
    rw [← hA] at hm
    rcases fold_mem hc' rs _ hm with h1 | ⟨r, hr, h1⟩
    · cases h1
    · exact ⟨r, List.mem_append_left _ hr, h1⟩
  have hA2 : ∀ c' ∈ A.2, c'.how = .methodMissing := by
    intro c' hm
    rw [← hA] at hm
    rcases fold_fallback rs _ hm with h1 | h1
    · cases h1
    · exact h1
  have hC1 : c ∈ C.1 → ∃ r ∈ rs ++ B.applications n, calleeInChain B (B.chain r) m .exact ap caller = some c := by
    intro hm
    rw [← hC] at hm
    rcases fold_mem hc _ _ hm with h1 | ⟨r, hr, h1⟩
    · exact hA1 c hc h1
    · exact ⟨r, List.mem_append_right _ hr, h1⟩
  have hC2 : c ∉ C.2 := by
    intro hm
    rw [← hC] at hm
    rcases fold_fallback _ _ hm with h1 | h1
    · have := hA2 c h1
      rw [hc] at this
      cases this
    · rw [hc] at h1
      cases h1
  have hro : c ∉ rs.map (fun o => receiverOnly o m) := by
    intro hm
    obtain ⟨o, _, ho⟩ := List.mem_map.mp hm
    rw [← ho] at hc
    cases hc
  by_cases hAe : A.1.isEmpty = true
  · simp only [hAe, if_true] at h
    split at h
    · split at h
      · exact absurd h hro
      · exact absurd h hC2
    · exact hC1 (mem_stableSort.mp (mem_dedupAdj.mp h))
  · simp only [hAe, if_false, Bool.false_eq_true] at h
    exact hA1 c hc h

/-- Every exact callee is found along the ancestors of a receiver. -/
theorem resolve_mem {B : Base} {n : Owner} {m : Nat} {ap : Bool} {caller : Option Owner} {cs : List Callee} {c : Callee} (h : resolve B n m ap caller = some cs) (hm : c ∈ cs)
    (hc : c.how = .exact) : ∃ r ∈ n :: (B.includers n ++ B.applications n), calleeInChain B (B.chain r) m .exact ap caller = some c := by
  unfold resolve at h
  split at h
  · cases h
  · split at h
    · split at h
      · rename_i c' h1
        cases h
        rw [List.mem_singleton.mp hm]
        exact ⟨n, List.mem_cons_self, h1⟩
      · split at h
        · cases h
          rw [List.mem_singleton.mp hm] at hc
          cases hc
        · cases h
          obtain ⟨r, hr, h1⟩ := searchAll_mem hc hm
          refine ⟨r, ?_, h1⟩
          rcases List.mem_append.mp hr with hr | hr
          · split at hr
            · rw [List.mem_singleton.mp hr]; exact List.mem_cons_self
            · exact List.mem_cons_of_mem _ (List.mem_append_left _ hr)
          · exact List.mem_cons_of_mem _ (List.mem_append_right _ hr)
    · cases h
      obtain ⟨r, hr, h1⟩ := searchAll_mem hc hm
      refine ⟨r, ?_, h1⟩
      rcases List.mem_append.mp hr with hr | hr
      · rw [List.mem_singleton.mp hr]; exact List.mem_cons_self
      · exact List.mem_cons_of_mem _ (List.mem_append_right _ hr)

theorem search_keeps {B : Base} {m : Nat} {ap : Bool} {caller : Option Owner} {o : Owner} {acc : List Callee × List Callee} {c : Callee} (h : c ∈ acc.1) :
    c ∈ (search B m ap caller o acc).1 := by
  unfold search
  split
  · exact List.mem_append_left _ h
  · split
    · exact List.mem_append_left _ h
    · split <;> exact h

theorem fold_keeps {B : Base} {m : Nat} {ap : Bool} {caller : Option Owner} {c : Callee} : ∀ (l : List Owner) (acc : List Callee × List Callee), c ∈ acc.1 →
    c ∈ (l.foldl (fun a o => search B m ap caller o a) acc).1
  | [], _, h => h
  | o :: l, acc, h => by
    rw [List.foldl_cons]
    exact fold_keeps l _ (search_keeps h)

theorem fold_adds {B : Base} {m : Nat} {ap : Bool} {caller : Option Owner} {c : Callee} {r : Owner} (hc : calleeInChain B (B.chain r) m .exact ap caller = some c) :
    ∀ (l : List Owner) (acc : List Callee × List Callee), r ∈ l → c ∈ (l.foldl (fun a o => search B m ap caller o a) acc).1
  | [], _, h => by cases h
  | o :: l, acc, h => by
    rw [List.foldl_cons]
    rcases List.mem_cons.mp h with h1 | h1
    · subst h1
      apply fold_keeps
      unfold search
      rw [hc]
      exact List.mem_append_right _ List.mem_cons_self
    · exact fold_adds hc l _ h1

theorem searchAll_adds {B : Base} {n : Owner} {m : Nat} {ap : Bool} {caller : Option Owner} {rs : List Owner} {c : Callee} {r : Owner} (hr : r ∈ rs)
    (hc : calleeInChain B (B.chain r) m .exact ap caller = some c) : c ∈ searchAll B n m ap caller rs := by
  have h1 := fold_adds hc rs ([], []) hr
  unfold searchAll
  simp only
  generalize rs.foldl (fun a o => search B m ap caller o a) ([], []) = A at h1 ⊢
  have h2 : A.1.isEmpty = false := by
    cases hA : A.1 with
    | nil => rw [hA] at h1; cases h1
    | cons _ _ => rfl
  simp only [h2, Bool.false_eq_true, if_false]
  exact h1

theorem searchAll_adds_application {B : Base} {n : Owner} {m : Nat} {caller : Option Owner} {rs : List Owner} {c : Callee} {r : Owner} (hr : r ∈ B.applications n)
    (hno : ∀ o ∈ rs, calleeInChain B (B.chain o) m .exact true caller = none)
    (hc : calleeInChain B (B.chain r) m .exact true caller = some c) : c ∈ searchAll B n m true caller rs := by
  have h0 : ∀ (l : List Owner) (acc : List Callee × List Callee), (∀ o ∈ l, calleeInChain B (B.chain o) m .exact true caller = none) →
      (l.foldl (fun a o => search B m true caller o a) acc).1 = acc.1 := by
    intro l
    induction l with
    | nil => intro acc _; rfl
    | cons o l ih =>
      intro acc h
      rw [List.foldl_cons, ih _ (fun x hx => h x (List.mem_cons_of_mem _ hx))]
      unfold search
      rw [h o List.mem_cons_self]
      simp only [Bool.not_true, Bool.false_and, Bool.false_eq_true, if_false]
      split <;> rfl
  have h1 := h0 rs ([], []) hno
  unfold searchAll
  simp only
  generalize rs.foldl (fun a o => search B m true caller o a) ([], []) = A at h1 ⊢
  have h2 := fold_adds hc (B.applications n) A hr
  generalize (B.applications n).foldl (fun a o => search B m true caller o a) A = C at h2 ⊢
  have h3 : c ∈ dedupAdj (stableSort (calleeLe B) C.1) := mem_dedupAdj.mpr (mem_stableSort.mpr h2)
  rw [h1]
  simp only [List.isEmpty_nil, if_true]
  have h4 : (dedupAdj (stableSort (calleeLe B) C.1)).isEmpty = false := by
    cases hx : dedupAdj (stableSort (calleeLe B) C.1) with
    | nil => rw [hx] at h3; cases h3
    | cons _ _ => rfl
  simp only [h4, Bool.false_eq_true, if_false]
  exact h3

/-- A callee comes from facts of its owner. -/
theorem callee_facts {B : Base} {L : List Owner} {m : Nat} {how : How} {ap : Bool} {caller : Option Owner} {c : Callee} (h : calleeInChain B L m how ap caller = some c) :
    c.owner ∈ L ∧ c.name = m ∧ ∃ f ∈ factsAt B c.owner m, allowed B (effective B L f m).1 (effective B L f m).2 ap caller = true := by
  unfold calleeInChain at h
  split at h
  · cases h
  · rename_i o l h1
    cases h
    obtain ⟨h2, h3, h4⟩ := factsInChain_mem L h1
    obtain ⟨f, hf⟩ := List.exists_mem_of_ne_nil _ h3
    exact ⟨h2, rfl, f, h4 f hf⟩

theorem callee_none {B : Base} {T : Tables} (hd : Shows B T) {L : List Owner} {m : Nat} {how : How} {ap : Bool} {caller : Option Owner} (hf : found T L m = none) :
    calleeInChain B L m how ap caller = none := by
  cases h : calleeInChain B L m how ap caller with
  | none => rfl
  | some c =>
    obtain ⟨h1, _, f, h2, _⟩ := callee_facts h
    obtain ⟨p, v, h3⟩ := hd.fact _ _ (List.ne_nil_of_mem h2)
    exact absurd h3 (found_none hf _ h1 p v)

theorem call_missing {T : Tables} {L : List Owner} {m : Nat} {may : Owner → Vis → Bool} (h : call T L m may = .missing) : found T L m = none := by
  unfold call at h
  split at h
  · rename_i h1
    cases hf : found T L m with
    | none => rfl
    | some x =>
      obtain ⟨d, p⟩ := x
      obtain ⟨h2, v, h3⟩ := found_mem hf
      rw [first_none h1 d h2] at h3
      cases h3
  · split at h
    · split at h
      · cases h
      · rename_i hf; exact hf
    · cases h

theorem call_runs {T : Tables} {L : List Owner} {m : Nat} {may : Owner → Vis → Bool} {d : Owner} {p : Nat} (h : call T L m may = .runs d p) :
    found T L m = some (d, p) ∧ ∃ o v, first T L m = some (o, v) ∧ may o v = true := by
  unfold call at h
  split at h
  · cases h
  · rename_i o v h1
    split at h
    · rename_i hm
      split at h
      · rename_i d' p' hf
        cases h
        exact ⟨hf, o, v, h1, hm⟩
      · cases h
    · cases h

theorem runs_call {T : Tables} {L : List Owner} {m : Nat} {may : Owner → Vis → Bool} {d o : Owner} {p : Nat} {v : Vis} (hf : found T L m = some (d, p))
    (h1 : first T L m = some (o, v)) (hm : may o v = true) : call T L m may = .runs d p := by
  unfold call
  rw [h1]
  simp only [hm, if_true, hf]

theorem first_of_found {T : Tables} {L : List Owner} {m : Nat} {x : Owner × Nat} (hf : found T L m = some x) : ∃ o v, first T L m = some (o, v) := by
  cases h : first T L m with
  | some y => exact ⟨y.1, y.2, rfl⟩
  | none =>
    obtain ⟨d, p⟩ := x
    obtain ⟨h2, v, h3⟩ := found_mem hf
    rw [first_none h d h2] at h3
    cases h3

theorem found_of_mem {T : Tables} {m : Nat} {d : Owner} {p : Nat} {v : Vis} : ∀ {L : List Owner}, d ∈ L → T d m = some (.meth p v) → ∃ x, found T L m = some x
  | [], h, _ => by cases h
  | a :: rest, h, ht => by
    simp only [found]
    split
    · exact ⟨_, rfl⟩
    · rename_i hn
      rcases List.mem_cons.mp h with h1 | h1
      · subst h1
        exact absurd ht (hn p v)
      · exact found_of_mem h1 ht

/-- The visibility that lookup computes for the facts of the definition is that of the first entry. -/
theorem effective_found {B : Base} {T : Tables} (hd : Shows B T) (hv : ShowsVis B T) {L : List Owner} {m : Nat} {d o : Owner} {p : Nat} {v : Vis} (hf : found T L m = some (d, p))
    (h1 : first T L m = some (o, v)) {f : Fact} (hfa : f ∈ factsAt B d m) : effective B L f m = (v, o) := by
  have hfo := (factsAt_owner hfa).1
  subst hfo
  apply effective_first hd hv (found_mem hf).1 hfa h1
  rcases first_found h1 hf with h2 | h2
  · exact Or.inl h2
  · exact Or.inr (hv.zsuper _ _ _ h2)

/-! ### The properties -/

/-- A call without receiver or on `self`: the callee is the method that Ruby runs, whatever the visibilities. -/
theorem c57_self_call_runs (E : List Nat → Bool) (B : Base) (files : List Code) (above : Owner → List Owner) (T : Tables) (hp : ∀ c ∈ files, Plain .top c = true)
    (hi : indexFiles E files = some (B.facts, B.overrides)) (hr : run above noTables (program files) = some T) (n : Owner) (m : Nat) (caller : Option Owner) (hn : B.known n = true)
    (d : Owner) (p : Nat) (h : call T (B.chain n) m onSelf = .runs d p) :
    ∃ c, resolve B n m true caller = some [c] ∧ c.owner = d ∧ c.name = m ∧ c.how = .exact ∧ p ∈ c.ranges ∧ ∀ q ∈ c.ranges, ∃ v, .define d m q v ∈ program files := by
  obtain ⟨hk, _, hs⟩ := plain_shows hp hi hr
  obtain ⟨c, h1, h2, h3, h4, h5, h6⟩ := callee_found (how := .exact) (ap := true) (caller := caller) hs (fun f _ => allowed_self _ _ _ _) (call_runs h).1
  refine ⟨c, resolve_of_callee hn h1, h2, h3, h4, h5, ?_⟩
  intro q hq
  obtain ⟨f, hf, rfl⟩ := h6 q hq
  exact fact_defined hk hf

/-- A call on another object: the callee is the method that Ruby runs. -/
theorem c57_call_runs (E : List Nat → Bool) (B : Base) (files : List Code) (above : Owner → List Owner) (T : Tables) (hp : ∀ c ∈ files, Plain .top c = true ∧ Tame .top c = true)
    (hi : indexFiles E files = some (B.facts, B.overrides)) (hr : run above noTables (program files) = some T) (ho : Orderly (program files)) (he : Effective above (program files))
    (hin : InOrder (program files)) (n : Owner) (m : Nat) (caller : Option Owner) (hn : B.known n = true) (d : Owner) (p : Nat)
    (h : call T (B.chain n) m (onOther (callerChain B caller)) = .runs d p) :
    ∃ c, resolve B n m false caller = some [c] ∧ c.owner = d ∧ c.name = m ∧ c.how = .exact ∧ p ∈ c.ranges ∧ ∀ q ∈ c.ranges, ∃ v, .define d m q v ∈ program files := by
  obtain ⟨hk, _, hs⟩ := plain_shows (fun c hc => (hp c hc).1) hi hr
  have hv := tame_shows hp hi hr ho he hin
  obtain ⟨hf, o, v, h1, hm⟩ := call_runs h
  obtain ⟨c, h1, h2, h3, h4, h5, h6⟩ := callee_found (how := .exact) (ap := false) (caller := caller) hs
    (fun f hfa => by rw [effective_found hs hv hf h1 hfa, allowed_other]; exact hm) hf
  refine ⟨c, resolve_of_callee hn h1, h2, h3, h4, h5, ?_⟩
  intro q hq
  obtain ⟨f, hfa, rfl⟩ := h6 q hq
  exact fact_defined hk hfa

/-- An exact callee of a call on `self` is a method that Ruby runs for `n`, for a class that includes `n`, or for a class
that evaluates the code. -/
theorem c57_self_callee_is_run (E : List Nat → Bool) (B : Base) (files : List Code) (above : Owner → List Owner) (T : Tables) (hp : ∀ c ∈ files, Plain .top c = true)
    (hi : indexFiles E files = some (B.facts, B.overrides)) (hr : run above noTables (program files) = some T) (n : Owner) (m : Nat) (caller : Option Owner) (cs : List Callee)
    (h : resolve B n m true caller = some cs) (c : Callee) (hc : c ∈ cs) (hx : c.how = .exact) :
    ∃ r ∈ n :: (B.includers n ++ B.applications n), ∃ p ∈ c.ranges, call T (B.chain r) m onSelf = .runs c.owner p := by
  obtain ⟨_, _, hs⟩ := plain_shows hp hi hr
  obtain ⟨r, hr1, hr2⟩ := resolve_mem h hc hx
  refine ⟨r, hr1, ?_⟩
  obtain ⟨h1, _, f, h2, _⟩ := callee_facts hr2
  obtain ⟨q, w, h3⟩ := hs.fact _ _ (List.ne_nil_of_mem h2)
  obtain ⟨⟨d, p⟩, h4⟩ := found_of_mem h1 h3
  obtain ⟨c', h5, h6, _, _, h7, _⟩ := callee_found (how := .exact) (ap := true) (caller := caller) hs (fun f _ => allowed_self _ _ _ _) h4
  rw [hr2] at h5
  cases h5
  obtain ⟨o, v, h8⟩ := first_of_found h4
  refine ⟨p, h7, ?_⟩
  rw [h6]
  exact runs_call h4 h8 rfl

/-- An exact callee of a call on another object is a method that Ruby runs for such a receiver, unless a method that may
not be called hides one that may. -/
theorem c57_callee_is_run (E : List Nat → Bool) (B : Base) (files : List Code) (above : Owner → List Owner) (T : Tables) (hp : ∀ c ∈ files, Plain .top c = true ∧ Tame .top c = true)
    (hi : indexFiles E files = some (B.facts, B.overrides)) (hr : run above noTables (program files) = some T) (ho : Orderly (program files)) (he : Effective above (program files))
    (hin : InOrder (program files)) (n : Owner) (m : Nat) (caller : Option Owner)
    (hu : ∀ r ∈ n :: (B.includers n ++ B.applications n), Unhidden T (B.chain r) m (onOther (callerChain B caller))) (cs : List Callee)
    (h : resolve B n m false caller = some cs) (c : Callee) (hc : c ∈ cs) (hx : c.how = .exact) :
    ∃ r ∈ n :: (B.includers n ++ B.applications n), ∃ p ∈ c.ranges, call T (B.chain r) m (onOther (callerChain B caller)) = .runs c.owner p := by
  obtain ⟨_, _, hs⟩ := plain_shows (fun c hc => (hp c hc).1) hi hr
  have hv := tame_shows hp hi hr ho he hin
  obtain ⟨r, hr1, hr2⟩ := resolve_mem h hc hx
  refine ⟨r, hr1, ?_⟩
  obtain ⟨h1, _, f, h2, hal⟩ := callee_facts hr2
  obtain ⟨q, w, h3⟩ := hs.fact _ _ (List.ne_nil_of_mem h2)
  obtain ⟨⟨d, p⟩, h4⟩ := found_of_mem h1 h3
  obtain ⟨o, v, h8⟩ := first_of_found h4
  have hmay : onOther (callerChain B caller) o v = true := by
    cases hb : onOther (callerChain B caller) o v with
    | true => rfl
    | false =>
      have hfo := (factsAt_owner h2).1
      rw [← hfo] at h1 h2
      obtain ⟨b, hbL, e, hbe, heff⟩ := effective_entry hv h1 h2
      rw [heff, allowed_other] at hal
      have := hu r hr1 o v h8 hb b hbL e hbe
      rw [this] at hal
      cases hal
  obtain ⟨c', h5, h6, _, _, h7, _⟩ := callee_found (how := .exact) (ap := false) (caller := caller) hs
    (fun f hfa => by rw [effective_found hs hv h4 h8 hfa, allowed_other]; exact hmay) h4
  rw [hr2] at h5
  cases h5
  refine ⟨p, h7, ?_⟩
  rw [h6]
  exact runs_call h4 h8 hmay

/-- A call that Ruby rejects has no callee but its receiver, with the same exception. -/
theorem c57_rejected_call (E : List Nat → Bool) (B : Base) (files : List Code) (above : Owner → List Owner) (T : Tables) (hp : ∀ c ∈ files, Plain .top c = true ∧ Tame .top c = true)
    (hi : indexFiles E files = some (B.facts, B.overrides)) (hr : run above noTables (program files) = some T) (ho : Orderly (program files)) (he : Effective above (program files))
    (hin : InOrder (program files)) (n : Owner) (m : Nat) (caller : Option Owner) (hn : B.known n = true) (hu : Unhidden T (B.chain n) m (onOther (callerChain B caller)))
    (hf : found T (B.chain n) m ≠ none) (h : call T (B.chain n) m (onOther (callerChain B caller)) = .rejected) :
    resolve B n m false caller = some [receiverOnly n m] := by
  obtain ⟨_, _, hs⟩ := plain_shows (fun c hc => (hp c hc).1) hi hr
  have hv := tame_shows hp hi hr ho he hin
  obtain ⟨⟨d, p⟩, h4⟩ := Option.ne_none_iff_exists'.mp hf
  obtain ⟨o, v, h8⟩ := first_of_found h4
  have hmay : onOther (callerChain B caller) o v = false := by
    cases hb : onOther (callerChain B caller) o v with
    | false => rfl
    | true => rw [runs_call h4 h8 hb] at h; cases h
  have hpub : v ≠ .pub := by
    intro hp
    subst hp
    cases hmay
  have hnone : calleeInChain B (B.chain n) m .exact false caller = none := by
    cases hc : calleeInChain B (B.chain n) m .exact false caller with
    | none => rfl
    | some c =>
      obtain ⟨h1, _, f, h2, hal⟩ := callee_facts hc
      have hfo := (factsAt_owner h2).1
      rw [← hfo] at h1 h2
      obtain ⟨b, hbL, e, hbe, heff⟩ := effective_entry hv h1 h2
      rw [heff, allowed_other, hu o v h8 hmay b hbL e hbe] at hal
      cases hal
  obtain ⟨hdL, w, hdT⟩ := found_mem h4
  obtain ⟨f, hfm, _⟩ := hs.there _ _ _ _ hdT
  have hfa := mem_preferSource hfm
  have hpriv : privateInChain B (B.chain n) m = true := by
    unfold privateInChain
    rw [List.any_eq_true]
    refine ⟨d, hdL, ?_⟩
    rw [List.any_eq_true]
    refine ⟨f, hfa, ?_⟩
    rw [Bool.and_eq_true]
    refine ⟨?_, ?_⟩
    · rw [List.any_eq_true]
      exact ⟨d, hdL, by simp [(factsAt_owner hfa).1]⟩
    · rw [effective_found hs hv h4 h8 hfa]
      exact decide_eq_true hpub
  unfold resolve
  simp only [hn, Bool.not_true, Bool.false_eq_true, if_false, hnone, hpriv, Bool.not_false, Bool.and_self, if_true]
  split
  · rfl
  · simp only [searchAll, search, List.foldl_cons, List.foldl_nil, hnone, hpriv, Bool.not_false, Bool.and_self, if_true, List.nil_append, List.isEmpty_cons, Bool.false_eq_true, if_false]

/-- A call of a method that does not exist goes to the program's `method_missing`, or has no callee but its receiver. -/
theorem c57_missing_call (E : List Nat → Bool) (B : Base) (files : List Code) (above : Owner → List Owner) (T : Tables) (hp : ∀ c ∈ files, Plain .top c = true)
    (hi : indexFiles E files = some (B.facts, B.overrides)) (hr : run above noTables (program files) = some T) (n : Owner) (m : Nat) (ap : Bool) (caller : Option Owner)
    (hn : B.known n = true) (hmod : B.isModule n = false) (happ : B.applications n = []) (h : call T (B.chain n) m onSelf = .missing) :
    (call T (B.chain n) methodMissingName onSelf = .missing → resolve B n m ap caller = some [receiverOnly n m]) ∧
    (∀ d p, call T (B.chain n) methodMissingName onSelf = .runs d p → ∃ c, resolve B n m ap caller = some [c] ∧ c.owner = d ∧ c.name = methodMissingName ∧ c.how = .methodMissing ∧ p ∈ c.ranges) := by
  obtain ⟨hk, _, hs⟩ := plain_shows hp hi hr
  have hnone : calleeInChain B (B.chain n) m .exact ap caller = none := callee_none hs (call_missing h)
  have hpriv : privateInChain B (B.chain n) m = false := by
    unfold privateInChain
    rw [List.any_eq_false]
    intro a ha
    rw [Bool.not_eq_true, List.any_eq_false]
    intro f hf
    obtain ⟨q, w, h3⟩ := hs.fact _ _ (List.ne_nil_of_mem hf)
    exact absurd h3 (found_none (call_missing h) a ha q w)
  refine ⟨?_, ?_⟩
  · intro hmm
    have hmc : missingCallee B (B.chain n) = none := by
      unfold missingCallee
      rw [callee_none hs (call_missing hmm)]
    unfold resolve
    simp [hn, hmod, searchAll, search, hnone, hpriv, hmc, happ, dedupAdj, stableSort]
  · intro d p hmm
    obtain ⟨c, h1, h2, h3, h4, h5, h6⟩ := callee_found (how := .methodMissing) (ap := true) (caller := none) hs (fun f _ => allowed_self _ _ _ _) (call_runs hmm).1
    have hdef : defaultMissing B c = false := by
      unfold defaultMissing
      rw [Bool.and_eq_false_iff]
      right
      rw [List.all_eq_false]
      refine ⟨p, h5, ?_⟩
      unfold kindAt
      cases hq : B.facts.find? (fun f => decide (f.pos = p)) with
      | none => simp
      | some f =>
        simp only [Option.map_some]
        rw [(defs_mem hk (List.mem_of_find?_eq_some hq)).1]
        simp
    have hmc : missingCallee B (B.chain n) = some c := by
      unfold missingCallee
      rw [h1]
      simp only [hdef, Bool.false_eq_true, if_false]
    refine ⟨c, ?_, h2, h3, h4, h5⟩
    unfold resolve
    simp [hn, hmod, searchAll, search, hnone, hpriv, hmc, happ, dedupAdj, stableSort]

/-- Only the `method_missing` of `BasicObject` that ships with Ruby does not count: one of another class is called, in whatever file it is written. -/
theorem c57_method_missing_of_other_classes (B : Base) (n : Owner) (m : Nat) (caller : Option Owner) (c : Callee) (hn : B.known n = true) (hmod : B.isModule n = false)
    (happ : B.applications n = []) (hnone : calleeInChain B (B.chain n) m .exact true caller = none)
    (hc : calleeInChain B (B.chain n) methodMissingName .methodMissing true none = some c) (ho : c.owner ≠ basicObject) : resolve B n m true caller = some [c] := by
  have hmc : missingCallee B (B.chain n) = some c := by
    unfold missingCallee
    rw [hc]
    simp [defaultMissing, ho]
  unfold resolve
  simp [hn, hmod, searchAll, search, hnone, hmc, happ, dedupAdj, stableSort]

/-- Code of a module: if the module itself has no such method, the methods that Ruby runs for the classes that include it
are all callees. -/
theorem c57_includers_are_searched (E : List Nat → Bool) (B : Base) (files : List Code) (above : Owner → List Owner) (T : Tables) (hp : ∀ c ∈ files, Plain .top c = true)
    (hi : indexFiles E files = some (B.facts, B.overrides)) (hr : run above noTables (program files) = some T) (n : Owner) (m : Nat) (caller : Option Owner)
    (hn : B.known n = true) (hmod : B.isModule n = true) (h : call T (B.chain n) m onSelf = .missing) (r : Owner) (hinc : r ∈ B.includers n) (d : Owner) (p : Nat)
    (hrun : call T (B.chain r) m onSelf = .runs d p) :
    ∃ cs, resolve B n m true caller = some cs ∧ ∃ c ∈ cs, c.owner = d ∧ c.name = m ∧ c.how = .exact ∧ p ∈ c.ranges := by
  obtain ⟨_, _, hs⟩ := plain_shows hp hi hr
  obtain ⟨c, h1, h2, h3, h4, h5, _⟩ := callee_found (how := .exact) (ap := true) (caller := caller) hs (fun f _ => allowed_self _ _ _ _) (call_runs hrun).1
  have hnone : calleeInChain B (B.chain n) m .exact true caller = none := callee_none hs (call_missing h)
  refine ⟨searchAll B n m true caller (if (B.includers n).isEmpty then [n] else B.includers n), ?_, c, ?_, h2, h3, h4, h5⟩
  · unfold resolve
    simp only [hn, Bool.not_true, Bool.false_eq_true, if_false, hmod, if_true, hnone, Bool.false_and]
  · apply searchAll_adds (r := r) _ h1
    cases hB : B.includers n with
    | nil => rw [hB] at hinc; cases hinc
    | cons x l => rw [hB] at hinc; exact hinc

/-- Code that other classes evaluate: if its own class has no such method, the methods that Ruby runs for those classes are
all callees. -/
theorem c57_applications_are_searched (E : List Nat → Bool) (B : Base) (files : List Code) (above : Owner → List Owner) (T : Tables) (hp : ∀ c ∈ files, Plain .top c = true)
    (hi : indexFiles E files = some (B.facts, B.overrides)) (hr : run above noTables (program files) = some T) (n : Owner) (m : Nat) (caller : Option Owner)
    (hn : B.known n = true) (hmod : B.isModule n = false) (h : call T (B.chain n) m onSelf = .missing) (r : Owner) (happ : r ∈ B.applications n) (d : Owner) (p : Nat)
    (hrun : call T (B.chain r) m onSelf = .runs d p) :
    ∃ cs, resolve B n m true caller = some cs ∧ ∃ c ∈ cs, c.owner = d ∧ c.name = m ∧ c.how = .exact ∧ p ∈ c.ranges := by
  obtain ⟨_, _, hs⟩ := plain_shows hp hi hr
  obtain ⟨c, h1, h2, h3, h4, h5, _⟩ := callee_found (how := .exact) (ap := true) (caller := caller) hs (fun f _ => allowed_self _ _ _ _) (call_runs hrun).1
  refine ⟨searchAll B n m true caller [n], ?_, c, ?_, h2, h3, h4, h5⟩
  · unfold resolve
    simp only [hn, Bool.not_true, Bool.false_eq_true, if_false, hmod]
  · apply searchAll_adds_application happ _ h1
    intro o ho
    rw [List.mem_singleton.mp ho]
    exact callee_none hs (call_missing h)

/-- `super` in a method of `n` reaches the first definition after `n` along the ancestors, and nothing if there is none. -/
theorem c57_super (E : List Nat → Bool) (B : Base) (files : List Code) (above : Owner → List Owner) (T : Tables) (hp : ∀ c ∈ files, Plain .top c = true)
    (hi : indexFiles E files = some (B.facts, B.overrides)) (hr : run above noTables (program files) = some T) (n : Owner) (m : Nat) (hn : B.known n = true) (pre post : List Owner)
    (hch : B.chain n = pre ++ n :: post) (hpre : n ∉ pre) :
    (found T post m = none → resolveSuper B n m = none) ∧
    (∀ d p, found T post m = some (d, p) → ∃ c, resolveSuper B n m = some c ∧ c.owner = d ∧ c.name = m ∧ c.how = .exact ∧ p ∈ c.ranges ∧ ∀ q ∈ c.ranges, ∃ v, .define d m q v ∈ program files) := by
  obtain ⟨hk, _, hs⟩ := plain_shows hp hi hr
  have h1 : ∀ pre, n ∉ pre → afterOwner B n m (pre ++ n :: post) false = afterOwner B n m post true := by
    intro pre hpre
    induction pre with
    | nil => simp [afterOwner]
    | cons a l ih =>
      rw [List.cons_append, afterOwner]
      have ha : a ≠ n := fun h => hpre (h ▸ List.mem_cons_self)
      rw [decide_eq_false ha]
      exact ih (fun h => hpre (List.mem_cons_of_mem _ h))
  have h2 : resolveSuper B n m = afterOwner B n m post true := by
    unfold resolveSuper
    rw [hn, hch]
    exact h1 pre hpre
  rw [h2]
  clear h1 h2 hch
  induction post with
  | nil => exact ⟨fun _ => rfl, fun d p h => by cases h⟩
  | cons a rest ih =>
    have hone : ∀ q w, T a m = some (.meth q w) → found T [a] m = some (a, q) := by
      intro q w h
      simp only [found, h]
    have hno : (∀ q w, T a m ≠ some (.meth q w)) → found T [a] m = none := by
      intro h
      cases ht : T a m with
      | none => simp only [found, ht]
      | some e =>
        cases e with
        | meth q w => exact absurd ht (h q w)
        | zsuper w => simp only [found, ht]
    by_cases hex : ∃ q w, T a m = some (.meth q w)
    · obtain ⟨q, w, ht⟩ := hex
      obtain ⟨c, c1, c2, c3, c4, c5, c6⟩ := callee_found (how := .exact) (ap := true) (caller := none) hs (fun f _ => allowed_self _ _ _ _) (hone q w ht)
      have hf : found T (a :: rest) m = some (a, q) := by simp only [found, ht]
      rw [hf]
      refine ⟨fun h => (by cases h), ?_⟩
      intro d p h
      cases h
      refine ⟨c, ?_, c2, c3, c4, c5, ?_⟩
      · simp only [afterOwner, c1]
      · intro q' hq'
        obtain ⟨f, hf, rfl⟩ := c6 q' hq'
        exact fact_defined hk hf
    · have hn' : ∀ q w, T a m ≠ some (.meth q w) := fun q w h => hex ⟨q, w, h⟩
      have hf : found T (a :: rest) m = found T rest m := by
        cases ht : T a m with
        | none => simp only [found, ht]
        | some e =>
          cases e with
          | meth q w => exact absurd ht (hn' q w)
          | zsuper w => simp only [found, ht]
      have ha : afterOwner B n m (a :: rest) true = afterOwner B n m rest true := by
        simp only [afterOwner, callee_none hs (hno hn')]
      rw [hf, ha]
      exact ih

/-! ### The hypotheses hold for a program -/

/-- The engine over indexed files, with given ancestors. -/
def baseOf (files : List Code) (chain : Owner → List Owner) : Base :=
  let x := (indexFiles (fun _ => true) files).getD ([], [])
  { facts := x.1, overrides := x.2, chain := chain, known := fun _ => true, isModule := fun _ => false, includers := fun _ => [], applications := fun _ => [], ownerLe := fun _ _ => true }

/-- Instances of `M::B` (`[2, 3]`) are also instances of `A` (`[1]`). -/
def sampleChain : Owner → List Owner := fun o => if o = ⟨[2, 3], false⟩ then [⟨[2, 3], false⟩, ⟨[1], false⟩] else [o]

def sampleBase : Base := baseOf [sample] sampleChain

theorem sample_indexed : indexFiles (fun _ => true) [sample] = some (sampleBase.facts, sampleBase.overrides) := by decide

example : (run sampleAbove noTables (program [sample])).map (fun T =>
    (call T (sampleChain ⟨[2, 3], false⟩) 11 onSelf, call T (sampleChain ⟨[2, 3], false⟩) 11 (onOther []), call T (sampleChain ⟨[2, 3], false⟩) 10 (onOther [⟨[2, 3], false⟩]),
      call T (sampleChain ⟨[1], true⟩) 12 (onOther []))) = some (.runs ⟨[1], false⟩ 110, .rejected, .runs ⟨[2, 3], false⟩ 200, .runs ⟨[1], true⟩ 120) := by decide

example : resolve sampleBase ⟨[2, 3], false⟩ 11 true none = some [{ owner := ⟨[1], false⟩, name := 11, how := .exact, ranges := [110] }] ∧
    resolve sampleBase ⟨[2, 3], false⟩ 11 false none = some [receiverOnly ⟨[2, 3], false⟩ 11] ∧
    resolve sampleBase ⟨[2, 3], false⟩ 10 false (some ⟨[2, 3], false⟩) = some [{ owner := ⟨[2, 3], false⟩, name := 10, how := .exact, ranges := [200] }] ∧
    resolveSuper sampleBase ⟨[2, 3], false⟩ 10 = some { owner := ⟨[1], false⟩, name := 10, how := .exact, ranges := [100] } := by decide

/-- The theorems apply to it. -/
example : ∃ c, resolve sampleBase ⟨[1], true⟩ 12 false none = some [c] ∧ c.owner = ⟨[1], true⟩ ∧ 120 ∈ c.ranges := by
  cases hr : run sampleAbove noTables (program [sample]) with
  | none => exact absurd (congrArg Option.isSome hr) (by decide)
  | some T =>
    have hev : program [sample] = events .top sample := by simp [program]
    have h1 : call T (sampleBase.chain ⟨[1], true⟩) 12 (onOther (callerChain sampleBase none)) = .runs ⟨[1], true⟩ 120 := by
      have h2 : (run sampleAbove noTables (program [sample])).map (fun T => call T (sampleBase.chain ⟨[1], true⟩) 12 (onOther (callerChain sampleBase none))) = some (.runs ⟨[1], true⟩ 120) := by decide
      rw [hr] at h2
      exact Option.some.inj h2
    obtain ⟨c, hc, ho, _, _, hp, _⟩ := c57_call_runs _ sampleBase [sample] sampleAbove T (by intro c hc; rw [List.mem_singleton.mp hc]; exact sample_plain) sample_indexed hr
      (hev ▸ sample_orderly) (hev ▸ sample_effective) (hev ▸ sample_inOrder) ⟨[1], true⟩ 12 none rfl _ _ h1
    exact ⟨c, hc, ho, hp⟩

/-- A module `[2]` whose code calls a method of the class `[1]` that includes it, and a class with `method_missing`. -/
example : let B := { baseOf [sample] sampleChain with isModule := fun o => decide (o = ⟨[2], false⟩), includers := fun _ => [⟨[1], false⟩] }
    resolve B ⟨[2], false⟩ 11 true none = some [{ owner := ⟨[1], false⟩, name := 11, how := .exact, ranges := [110] }] := by decide

example : let B := baseOf [.ns true [1] false (.keyword .priv (.defn .none methodMissingName 100 .nil .nil)) .nil] (fun o => [o])
    resolve B ⟨[1], false⟩ 11 false none = some [{ owner := ⟨[1], false⟩, name := methodMissingName, how := .methodMissing, ranges := [100] }] := by decide

/-! ### Counterexamples -/

/-- Without `Unhidden`: the private method of the class that hides a public one is skipped, the call resolves to the hidden
method. -/
theorem c57_hidden_private_fails : ∃ (files : List Code) (chain : Owner → List Owner) (n : Owner) (m : Nat), (∀ c ∈ files, Plain .top c = true ∧ Tame .top c = true) ∧
    (run (fun o => (chain o).tail) noTables (program files)).map (fun T => call T (chain n) m (onOther [])) = some .rejected ∧
    resolve (baseOf files chain) n m false none = some [{ owner := ⟨[1], false⟩, name := m, how := .exact, ranges := [100] }] :=
  ⟨[.ns true [1] false (.defn .none 10 100 .nil .nil) (.ns true [2] false (.keyword .priv (.defn .none 10 200 .nil .nil)) .nil)],
    fun o => if o = ⟨[2], false⟩ then [⟨[2], false⟩, ⟨[1], false⟩] else [o], ⟨[2], false⟩, 10, by decide, by decide, by decide⟩

/-- Without `Orderly`: a method that is defined again after `private :m` is public, the call finds no method. -/
theorem c57_redefinition_fails : ∃ (files : List Code) (chain : Owner → List Owner) (n : Owner) (m : Nat), (∀ c ∈ files, Plain .top c = true ∧ Tame .top c = true) ∧
    (run (fun o => (chain o).tail) noTables (program files)).map (fun T => call T (chain n) m (onOther [])) = some (.runs ⟨[1], false⟩ 120) ∧
    resolve (baseOf files chain) n m false none = some [receiverOnly n m] :=
  ⟨[.ns true [1] false (.defn .none 10 100 .nil (.change .priv [(10, 110)] (.defn .none 10 120 .nil .nil))) .nil], fun o => [o], ⟨[1], false⟩, 10, by decide, by decide, by decide⟩

/-- Without `Effective`: `public :m` for an inherited public method does nothing in Ruby, so that a later `private :m` in
the superclass applies; the call still resolves. -/
theorem c57_idle_change_fails : ∃ (files : List Code) (chain : Owner → List Owner) (n : Owner) (m : Nat), (∀ c ∈ files, Plain .top c = true ∧ Tame .top c = true) ∧
    (run (fun o => (chain o).tail) noTables (program files)).map (fun T => call T (chain n) m (onOther [])) = some .rejected ∧
    resolve (baseOf files chain) n m false none = some [{ owner := ⟨[1], false⟩, name := m, how := .exact, ranges := [100] }] :=
  ⟨[.ns true [1] false (.defn .none 10 100 .nil .nil) (.ns true [2] false (.change .pub [(10, 110)] .nil) (.ns true [1] false (.change .priv [(10, 120)] .nil) .nil))],
    fun o => if o = ⟨[2], false⟩ then [⟨[2], false⟩, ⟨[1], false⟩] else [o], ⟨[2], false⟩, 10, by decide, by decide, by decide⟩

/-- Ruby also sends a rejected call to `method_missing`; the code leaves it at the receiver. -/
theorem c57_rejected_call_with_method_missing_fails : ∃ (files : List Code) (n : Owner) (m : Nat), (∀ c ∈ files, Plain .top c = true ∧ Tame .top c = true) ∧
    (run (fun _ => []) noTables (program files)).map (fun T => (call T [n] m (onOther []), call T [n] methodMissingName onSelf)) = some (.rejected, .runs n 100) ∧
    resolve (baseOf files (fun o => [o])) n m false none = some [receiverOnly n m] :=
  ⟨[.ns true [1] false (.defn .none methodMissingName 100 .nil (.keyword .priv (.defn .none 10 110 .nil .nil))) .nil], ⟨[1], false⟩, 10, by decide, by decide, by decide⟩

end Verif.MethodLookup
