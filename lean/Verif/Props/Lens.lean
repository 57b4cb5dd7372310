import Verif.Lemmas.Lens
/-!
C79: the lenses above modules count what the facts say, and folding ranges are those of the document.
-/
namespace Verif.Lens

/-! ## The modules of a document -/

theorem computeFqn_some {valid : Name → Bool} {st nm : List Name} {f : Path} :
    computeFqn valid st nm = some f ↔ f = st ++ nm ∧ ∀ n ∈ f, valid n = true := by
  simp only [computeFqn]
  constructor
  · intro h
    split at h
    · rename_i a
      split at h
      · rename_i b
        cases h
        refine ⟨rfl, ?_⟩
        intro n hn
        rw [List.all_eq_true] at a b
        rcases List.mem_append.mp hn with k | k
        · exact a n k
        · exact b n k
      · cases h
    · cases h
  · rintro ⟨rfl, h⟩
    rw [if_pos (List.all_eq_true.mpr (fun n hn => h n (List.mem_append_left _ hn))),
      if_pos (List.all_eq_true.mpr (fun n hn => h n (List.mem_append_right _ hn)))]

theorem modules_eq (valid : Name → Bool) (t : Syn) : modules valid t = (decls [] t).filterMap (record valid) := by
  have := visit_eq valid t [] []
  simp only [modules]
  have h : (⟨[], lastNames []⟩ : Collector) = {} := rfl
  rw [h] at this
  rw [this]
  simp

theorem record_some {valid : Name → Bool} {d : List Cst × Cst × Nat × Nat} {m : Mod} :
    record valid d = some m ↔ constantName d.2.1 ≠ [] ∧ m.fqn = lastNames d.1 ++ constantName d.2.1 ∧
      (∀ n ∈ m.fqn, valid n = true) ∧ m.start = d.2.2.1 ∧ m.stop = d.2.2.2 := by
  simp only [record]
  by_cases h : constantName d.2.1 = []
  · simp [h]
  · rw [if_neg h, Option.map_eq_some_iff]
    constructor
    · rintro ⟨f, hf, rfl⟩
      obtain ⟨a, b⟩ := computeFqn_some.mp hf
      exact ⟨h, a, b, rfl, rfl⟩
    · rintro ⟨_, a, b, c, e⟩
      refine ⟨m.fqn, computeFqn_some.mpr ⟨a, b⟩, ?_⟩
      cases m
      simp only at c e
      rw [c, e]

/-- The modules with a lens are the declarations of modules whose names are names, in the order of the text; the name is put
together from the last names of the declarations around it and the whole name of the declaration.  For every document. -/
theorem c79_modules (valid : Name → Bool) (t : Syn) :
    (∀ m, m ∈ modules valid t ↔ ∃ around c, (around, c, m.start, m.stop) ∈ decls [] t ∧ constantName c ≠ [] ∧
      m.fqn = around.flatMap (fun c => (constantName c).getLast?.toList) ++ constantName c ∧ ∀ n ∈ m.fqn, valid n = true) ∧
    ((modules valid t).map (fun m => (m.start, m.stop))).Sublist ((decls [] t).map (fun d => d.2.2)) := by
  have last : ∀ around, lastNames around = around.flatMap (fun c => (constantName c).getLast?.toList) := by
    intro around
    simp only [lastNames]
    congr 1
    funext c
    cases h : constantName c with
    | nil => rfl
    | cons a l => simp [List.getLast?_cons, List.getLastD_cons]
  constructor
  · intro m
    rw [modules_eq, List.mem_filterMap]
    constructor
    · rintro ⟨⟨around, c, a, b⟩, hd, h⟩
      obtain ⟨h1, h2, h3, h4, h5⟩ := record_some.mp h
      dsimp only at h1 h2 h4 h5
      exact ⟨around, c, by rw [h4, h5]; exact hd, h1, by rw [h2, last], h3⟩
    · rintro ⟨around, c, hd, h1, h2, h3⟩
      exact ⟨_, hd, record_some.mpr ⟨h1, by rw [h2, last], h3, rfl, rfl⟩⟩
  · rw [modules_eq]
    generalize decls [] t = ds
    induction ds with
    | nil => simp
    | cons d ds ih =>
      rw [List.filterMap_cons]
      cases h : record valid d with
      | none => exact ih.cons d.2.2
      | some m =>
        obtain ⟨_, _, _, h4, h5⟩ := record_some.mp h
        rw [List.map_cons, List.map_cons]
        have : (m.start, m.stop) = d.2.2 := by rw [h4, h5]
        rw [this]
        exact ih.cons_cons d.2.2

theorem written_name {c : Cst} {l : List Name} (h : Written c l) : constantName c = l := by
  have parts : ∀ {c : Cst} {l : List Name}, Written c l → collectParts c = l := by
    intro c
    induction c with
    | read n =>
      intro l h
      exact h.symm
    | top n =>
      intro l h
      cases n with
      | none => cases h
      | some n => exact h.symm
    | under p n ih =>
      intro l h
      cases n with
      | none => cases h
      | some n =>
        obtain ⟨q, hq, rfl⟩ := h
        simp [collectParts, ih hq]
    | expr =>
      intro l h
      cases h
  cases c with
  | read n => exact parts h
  | top n => exact parts h
  | under p n => exact parts h
  | expr => cases h

theorem written_ne {c : Cst} {l : List Name} (h : Written c l) : l ≠ [] := by
  cases c with
  | read n => rw [show l = [n] from h]; simp
  | top n =>
    cases n with
    | none => cases h
    | some n => rw [show l = [n] from h]; simp
  | under p n =>
    cases n with
    | none => cases h
    | some n =>
      obtain ⟨q, _, rfl⟩ := h
      simp
  | expr => cases h

/-- Inside declarations of single constants a declaration with a relative name gets the full name that Ruby gives it. -/
theorem c79_names (valid : Name → Bool) (t : Syn) (around : List Cst) (c : Cst) (a b : Nat) (p : Path)
    (hd : (around, c, a, b) ∈ decls [] t) (simple : ∀ x ∈ around, ∃ n, x = .read n) (rel : ¬ Absolute c)
    (hp : Nested (around ++ [c]) p) (hv : ∀ n ∈ p, valid n = true) : ⟨p, a, b⟩ ∈ modules valid t := by
  have nest : ∀ {l : List Cst} {q : List Name}, Nested l q → (∀ x ∈ l, ∃ n, x = .read n) →
      q = l.flatMap (fun c => (constantName c).getLast?.toList) := by
    intro l q h
    induction h with
    | none => intro _; rfl
    | @relative around ns c l hn _ hw ih =>
      intro hs
      obtain ⟨n, rfl⟩ := hs c (by simp)
      have e : l = [n] := hw
      rw [ih (fun x hx => hs x (List.mem_append_left _ hx)), e]
      simp [constantName]
    | @absolute around c l ha _ =>
      intro hs
      obtain ⟨n, rfl⟩ := hs c (by simp)
      cases ha
  generalize hl : around ++ [c] = l at hp
  cases hp with
  | none => simp at hl
  | @relative ar ns c' w hn ha hw =>
    obtain ⟨h1, h2⟩ := List.append_inj' hl rfl
    cases h1
    cases h2
    refine ((c79_modules valid t).1 _).mpr ⟨around, c, hd, ?_, ?_, hv⟩
    · rw [written_name hw]
      exact written_ne hw
    · rw [written_name hw]
      dsimp only
      rw [nest hn simple]
  | @absolute ar c' w ha hw =>
    obtain ⟨h1, h2⟩ := List.append_inj' hl rfl
    cases h1
    cases h2
    exact absurd ha rel

/-! ## Who uses a module -/

theorem usageOf_some {m : Path} {e : EdgeFact} {k : Mix} {r : Range} :
    usageOf m e = some (k, r) ↔ e.target.path = m ∧ Uses k e ∧ r = e.range := by
  obtain ⟨⟨sp, ss⟩, tg, kind, rg⟩ := e
  simp only [usageOf, Uses]
  by_cases h : tg.path = m
  · cases kind <;> cases k <;> cases ss <;> simp [h, mixOf, eq_comm]
  · simp [h]

theorem bucket_perm {us vs : List (Mix × Loc)} (h : us.Perm vs) (k : Mix) : (bucket us k).Perm (bucket vs k) :=
  (h.filter _).map _

/-- The places of a lens for `include`, `prepend` or `extend` are the places of exactly those edges to the module, each once,
in the order of files and positions. -/
theorem c79_usages (g : Graph) (m : Path) (k : Mix) :
    (bucket (mixinUsages g m) k).Perm
      ((g.edges.filter (fun e => decide (e.target.path = m ∧ Uses k e))).filterMap (fun e => g.loc e.range)) ∧
    Sorted locLe (bucket (mixinUsages g m) k) := by
  constructor
  · have h1 : (mixinUsages g m).Perm ((g.edges.filterMap (usageOf m)).filterMap (fun u => (g.loc u.2).map (fun l => (u.1, l)))) :=
      (stableSort_perm _).trans ((stableSort_perm _).filterMap _)
    refine (bucket_perm h1 k).trans (List.Perm.of_eq ?_)
    generalize g.edges = es
    induction es with
    | nil => rfl
    | cons e es ih =>
      rw [List.filterMap_cons, List.filter_cons]
      cases hu : usageOf m e with
      | none =>
        rw [if_neg]
        · exact ih
        · intro hk
          have := usageOf_some.mpr ⟨(of_decide_eq_true hk).1, (of_decide_eq_true hk).2, rfl⟩
          rw [hu] at this
          cases this
      | some u =>
        obtain ⟨k', r⟩ := u
        obtain ⟨ht, hk', hr⟩ := usageOf_some.mp hu
        dsimp only
        rw [List.filterMap_cons]
        by_cases hk : k' = k
        · subst hk
          rw [if_pos (decide_eq_true ⟨ht, hk'⟩), List.filterMap_cons, ← hr]
          dsimp only
          cases g.loc r with
          | none => exact ih
          | some l =>
            simp only [Option.map_some, bucket, List.filter_cons, decide_true, if_true, List.map_cons]
            exact congrArg _ ih
        · rw [if_neg]
          · dsimp only
            cases g.loc r with
            | none => exact ih
            | some l =>
              simp only [Option.map_some, bucket, List.filter_cons, hk, decide_false]
              exact ih
          · intro hx
            have h2 := usageOf_some.mpr ⟨ht, (of_decide_eq_true hx).2, rfl⟩
            rw [hu] at h2
            cases h2
            exact hk rfl
  · have s : Sorted usageLe (mixinUsages g m) := stableSort_sorted usageLe_isOrder _
    simp only [bucket, Sorted]
    rw [List.pairwise_map]
    have f := List.Pairwise.filter (fun u : Mix × Loc => decide (u.1 = k)) s
    refine List.Pairwise.imp_of_mem ?_ f
    intro a b ha hb hab
    have ha := of_decide_eq_true (List.mem_filter.mp ha).2
    have hb := of_decide_eq_true (List.mem_filter.mp hb).2
    simp only [usageLe] at hab
    rw [if_pos (by rw [ha, hb])] at hab
    exact hab

theorem follows_iff {t : Ns} {e : EdgeFact} : follows t e = true ↔ (∃ k, Uses k e) ∧ e.target.path = t.path := by
  have hk : (∃ k, Uses k e) ↔ Uses .include e ∨ Uses .prepend e ∨ Uses .extend e := by
    constructor
    · rintro ⟨k, h⟩
      cases k
      · exact Or.inl h
      · exact Or.inr (Or.inl h)
      · exact Or.inr (Or.inr h)
    · rintro (h | h | h)
      · exact ⟨_, h⟩
      · exact ⟨_, h⟩
      · exact ⟨_, h⟩
  rw [hk]
  obtain ⟨⟨sp, ss⟩, tg, kind, rg⟩ := e
  simp only [follows, Uses]
  cases kind <;> cases ss <;> simp

theorem any_iff {g : Graph} {n : Ns} {k : NodeKind} : (nodesFor g n).any (fun x => x.kind = k) = true ↔ HasKind g n k := by
  simp only [nodesFor, HasKind, List.any_eq_true, List.mem_filter, decide_eq_true_eq, and_assoc]

theorem mem_gives {g : Graph} {t : Ns} {e : EdgeFact} {r : Range} :
    r ∈ gives g t e ↔ (∃ k, Uses k e) ∧ e.target.path = t.path ∧ ∃ x ∈ g.nodes, x.ns = e.source ∧ x.kind = .cls ∧ x.range = r := by
  simp only [gives]
  split
  · rename_i h
    obtain ⟨h1, h2⟩ := follows_iff.mp h
    simp only [nodesFor, List.mem_map, List.mem_filter, decide_eq_true_eq]
    constructor
    · rintro ⟨x, ⟨⟨a, b⟩, c⟩, d⟩
      exact ⟨h1, h2, x, a, b, c, d⟩
    · rintro ⟨_, _, x, a, b, c, d⟩
      exact ⟨x, ⟨⟨a, b⟩, c⟩, d⟩
  · rename_i h
    constructor
    · intro k
      cases k
    · rintro ⟨a, b, _⟩
      exact absurd (follows_iff.mpr ⟨a, b⟩) h

theorem mem_pushes_iff {g : Graph} {t : Ns} {e : EdgeFact} {n : Ns} :
    n ∈ pushes g t e ↔ n = e.source ∧ (∃ k, Uses k e) ∧ e.target.path = t.path ∧ IsModule g e.source := by
  simp only [pushes]
  split
  · rename_i h
    obtain ⟨h1, h2, h3⟩ := h
    obtain ⟨a, b⟩ := follows_iff.mp h1
    rw [List.mem_singleton]
    refine ⟨fun k => ⟨k, a, b, any_iff.mp h3, ?_⟩, fun k => k.1⟩
    intro c
    rw [any_iff.mpr c] at h2
    cases h2
  · rename_i h
    constructor
    · intro k
      cases k
    · rintro ⟨_, a, b, c⟩
      refine absurd ⟨follows_iff.mpr ⟨a, b⟩, ?_, any_iff.mpr c.1⟩ h
      rw [Bool.eq_false_iff]
      exact fun k => c.2 (any_iff.mp k)

theorem searched_iff (g : Graph) (m : Path) (r : Range) :
    r ∈ (searched g m).result ↔ ∃ t e x, Leads g m t ∧ e ∈ g.edges ∧ (∃ k, Uses k e) ∧ e.target.path = t.path ∧
      x ∈ g.nodes ∧ x.ns = e.source ∧ x.kind = .cls ∧ x.range = r := by
  have step : ∀ t, Leads g m t → ∀ e ∈ g.edges, ∀ n ∈ pushes g t e, Leads g m n := by
    intro t ht e he n hn
    obtain ⟨rfl, a, b, c⟩ := mem_pushes_iff.mp hn
    exact .step ht he a b c
  have start : Inv g (Leads g m) { queue := [⟨m, false⟩] } := by
    refine ⟨?_, ?_, ?_, ?_⟩
    · rintro n (hn | hn)
      · rw [List.mem_singleton.mp hn]
        exact .start
      · cases hn
    · intro r hr
      cases hr
    · intro t ht
      cases ht
    · intro t ht
      cases ht
  obtain ⟨inv, hq, hv⟩ := search_inv g (Leads g m) step (⟨m, false⟩ :: g.edges.map EdgeFact.source)
    (fun e he => List.mem_cons_of_mem _ (List.mem_map.mpr ⟨e, he, rfl⟩))
    ((g.edges.length + 1) * (g.edges.length + 1) + 1) { queue := [⟨m, false⟩] } start
    (by
      intro x hx
      rw [List.mem_singleton.mp hx]
      exact List.mem_cons_self)
    (by
      have := left_le (⟨m, false⟩ :: g.edges.map EdgeFact.source) ([] : List Ns)
      rw [List.length_cons, List.length_map] at this
      have := Nat.mul_le_mul_left (g.edges.length + 1) this
      simp only [List.length_singleton]
      omega)
  have all : ∀ t, Leads g m t → t ∈ (searched g m).visited := by
    intro t ht
    induction ht with
    | start => exact hv _ (Or.inl (List.mem_singleton_self _))
    | @step t e ht he hk htp hm ih =>
      have := inv.closed t ih e he e.source (mem_pushes_iff.mpr ⟨rfl, hk, htp, hm⟩)
      rcases this with k | k
      · exact k
      · rw [hq] at k
        cases k
  constructor
  · intro hr
    obtain ⟨t, ht, e, he, k⟩ := inv.result r hr
    obtain ⟨a, b, x, c, d, e', f⟩ := mem_gives.mp k
    exact ⟨t, e, x, ht, he, a, b, c, d, e', f⟩
  · rintro ⟨t, e, x, ht, he, hk, htp, hx, hns, hc, hr⟩
    exact inv.found t (all t ht) e he r (mem_gives.mpr ⟨hk, htp, x, hx, hns, hc, hr⟩)

/-- The search for classes ends for every graph, with cycles too, and finds the definitions of exactly the classes that mix in
a module that leads to the module; each range once, in order. -/
theorem c79_classes (g : Graph) (m : Path) :
    (∀ r, r ∈ classRanges g m ↔ ∃ t e x, Leads g m t ∧ e ∈ g.edges ∧ (∃ k, Uses k e) ∧ e.target.path = t.path ∧
      x ∈ g.nodes ∧ x.ns = e.source ∧ x.kind = .cls ∧ x.range = r) ∧
    (classRanges g m).Nodup := by
  constructor
  · intro r
    rw [← searched_iff]
    simp only [classRanges]
    rw [mem_dedupAdj, mem_stableSort]
  · simp only [classRanges]
    refine dedupAdj_nodup ?_ (stableSort_sorted (key_isOrder (fun r : Range => [r.file, r.start, r.stop])) _)
    intro a b h k
    have := lexLe_antisymm h k
    cases a
    cases b
    simp at this
    simp [this]

/-- When only modules are mixed in and no module is extended with another module, those are the classes that get the methods
of the module. -/
theorem c79_right (g : Graph) (m : Path) (targets : ∀ e ∈ g.edges, (∃ k, Uses k e) → IsModule g ⟨e.target.path, false⟩)
    (ext : ∀ e ∈ g.edges, Uses .extend e → IsModule g e.source → e.target.path = e.source.path) (r : Range) :
    r ∈ classRanges g m ↔ ∃ x ∈ g.nodes, x.kind = .cls ∧ x.range = r ∧ Gets g x.ns m := by
  have sound : ∀ t, Leads g m t → t.path = m ∨ Ancestor g t.path m := by
    intro t ht
    induction ht with
    | start => exact Or.inl rfl
    | @step t e ht he hk htp hm ih =>
      have inc : Uses .include e ∨ Uses .prepend e → e.source.path = m ∨ Ancestor g e.source.path m := by
        intro h
        rcases ih with k | k
        · have := Ancestor.direct he h
          rw [htp, k] at this
          exact Or.inr this
        · rw [← htp] at k
          exact Or.inr (.via he h k)
      obtain ⟨k, hk⟩ := hk
      cases k
      · exact inc (Or.inl hk)
      · exact inc (Or.inr hk)
      · rw [← ext e he hk hm, htp]
        exact ih
  have plain : ∀ {e : EdgeFact}, Uses .include e ∨ Uses .prepend e → e.source = ⟨e.source.path, false⟩ := by
    intro e h
    have : e.source.singleton = false := by
      rcases h with h | h
      · exact h.2
      · exact h.2
    rw [← this]
  have complete : ∀ a, Ancestor g a m → IsModule g ⟨a, false⟩ → Leads g m ⟨a, false⟩ := by
    intro a h
    have key : ∀ {a b : Path}, Ancestor g a b → IsModule g ⟨a, false⟩ → Leads g b ⟨a, false⟩ := by
      intro a b h
      induction h with
      | @direct e he hu =>
        intro hm
        rw [← plain hu] at hm ⊢
        exact .step .start he (hu.elim (fun h => ⟨_, h⟩) (fun h => ⟨_, h⟩)) rfl hm
      | @via e m he hu _ ih =>
        intro hm
        have hk : ∃ k, Uses k e := hu.elim (fun h => ⟨_, h⟩) (fun h => ⟨_, h⟩)
        rw [← plain hu] at hm ⊢
        exact .step (ih (targets e he hk)) he hk rfl hm
    exact key h
  rw [(c79_classes g m).1]
  constructor
  · rintro ⟨t, e, x, ht, he, ⟨k, hk⟩, htp, hx, hns, hc, hr⟩
    refine ⟨x, hx, hc, hr, ?_⟩
    have inc : Uses .include e ∨ Uses .prepend e → Gets g x.ns m := by
      intro h
      rw [hns, plain h]
      refine Or.inl ⟨rfl, ?_⟩
      dsimp only
      rcases sound t ht with k | k
      · have := Ancestor.direct he h
        rw [htp, k] at this
        exact this
      · rw [← htp] at k
        exact .via he h k
    cases k
    · exact inc (Or.inl hk)
    · exact inc (Or.inr hk)
    · refine Or.inr ⟨e, he, hk, hns.symm, ?_⟩
      rw [htp]
      exact sound t ht
  · rintro ⟨x, hx, hc, hr, hg⟩
    rcases hg with ⟨hs, ha⟩ | ⟨e, he, hu, hsrc, h⟩
    · have key : ∀ {a b : Path}, Ancestor g a b → b = m → ∃ t e, Leads g m t ∧ e ∈ g.edges ∧ (∃ k, Uses k e) ∧
          e.target.path = t.path ∧ e.source = ⟨a, false⟩ := by
        intro a b h hb
        cases h with
        | @direct e he hu => exact ⟨⟨m, false⟩, e, .start, he, hu.elim (fun h => ⟨_, h⟩) (fun h => ⟨_, h⟩), hb, plain hu⟩
        | @via e m' he hu h =>
          have hk : ∃ k, Uses k e := hu.elim (fun h => ⟨_, h⟩) (fun h => ⟨_, h⟩)
          rw [hb] at h
          exact ⟨⟨e.target.path, false⟩, e, complete _ h (targets e he hk), he, hk, rfl, plain hu⟩
      obtain ⟨t, e, ht, he, hk, htp, hsrc⟩ := key ha rfl
      refine ⟨t, e, x, ht, he, hk, htp, hx, ?_, hc, hr⟩
      rw [hsrc, ← hs]
    · rcases h with h | h
      · exact ⟨⟨m, false⟩, e, x, .start, he, ⟨_, hu⟩, h, hx, hsrc.symm, hc, hr⟩
      · exact ⟨⟨e.target.path, false⟩, e, x, complete _ h (targets e he ⟨_, hu⟩), he, ⟨_, hu⟩, rfl, hx, hsrc.symm, hc, hr⟩

/-! ## The lenses -/

/-- The places of the lens for classes: the definitions found by the search that have a place, sorted by file and position; each
once when different ranges have different places. -/
theorem c79_places (g : Graph) (m : Path) :
    (∀ l, l ∈ classLocations g m ↔ ∃ r ∈ classRanges g m, g.loc r = some l) ∧ Sorted locLe (classLocations g m) ∧
    ((∀ r s l, g.loc r = some l → g.loc s = some l → r = s) →
      (classLocations g m).Perm ((classRanges g m).filterMap g.loc)) := by
  refine ⟨?_, ?_, ?_⟩
  · intro l
    simp only [classLocations]
    rw [mem_dedupAdj, mem_stableSort, List.mem_filterMap]
  · exact List.Pairwise.sublist (dedupAdj_sublist _) (stableSort_sorted locLe_isOrder _)
  · intro inj
    have nd : ((classRanges g m).filterMap g.loc).Nodup := by
      refine List.Nodup.filterMap ?_ (c79_classes g m).2
      intro a b l ha hb
      exact inj a b l ha hb
    have nd' : (stableSort locLe ((classRanges g m).filterMap g.loc)).Nodup := (stableSort_perm _).nodup_iff.mpr nd
    have same : ∀ l : List Loc, l.Nodup → dedupAdj l = l := by
      intro l
      induction l with
      | nil => intro _; rfl
      | cons a l ih =>
        intro h
        obtain ⟨h1, h2⟩ := List.nodup_cons.mp h
        simp only [dedupAdj]
        rw [ih h2]
        cases l with
        | nil => rfl
        | cons b l =>
          dsimp only
          rw [if_neg]
          intro hab
          exact h1 (by rw [hab]; exact List.mem_cons_self)
    simp only [classLocations]
    rw [same _ nd']
    exact stableSort_perm _

/-- The lenses of a document, in order: for every module the includes, the prepends, the extends and the classes, each only when
there is a place, each with the number of its places and at the declaration. -/
theorem c79_lenses (valid : Name → Bool) (g : Graph) (pos : Nat → Pos) (t : Syn) :
    lenses valid g pos t = (modules valid t).flatMap (fun md =>
      ([("include", bucket (mixinUsages g md.fqn) .include), ("prepend", bucket (mixinUsages g md.fqn) .prepend),
        ("extend", bucket (mixinUsages g md.fqn) .extend),
        (if (classLocations g md.fqn).length = 1 then "class" else "classes", classLocations g md.fqn)].filter
          (fun x => !x.2.isEmpty)).map
        (fun x => { start := pos md.start, stop := pos md.stop, count := x.2.length, word := x.1, target := pos md.start, locs := x.2 })) := by
  simp only [lenses]
  congr 1
  funext md
  simp only [lensesOf]
  have mix : ∀ (us : List (Mix × Loc)) (k : Mix) (w : String), mixLens pos md us (k, w) =
      ([(w, bucket us k)].filter (fun x => !x.2.isEmpty)).map
        (fun x => { start := pos md.start, stop := pos md.stop, count := x.2.length, word := x.1, target := pos md.start, locs := x.2 }) := by
    intro us k w
    simp only [mixLens]
    cases bucket us k <;> simp
  have cl : ∀ cs : List Loc, classLens pos md cs =
      ([(if cs.length = 1 then "class" else "classes", cs)].filter (fun x => !x.2.isEmpty)).map
        (fun x => { start := pos md.start, stop := pos md.stop, count := x.2.length, word := x.1, target := pos md.start, locs := x.2 }) := by
    intro cs
    simp only [classLens]
    cases cs <;> simp
  split
  · rename_i h
    rw [h.1, h.2]
    simp [bucket]
  · simp only [List.flatMap_cons, List.flatMap_nil, mix, cl]
    simp only [List.append_nil, ← List.map_append, ← List.filter_append]
    rfl

/-- Without the setting the lenses are on; a document that is not open has none; a failure of extensions costs only their lenses. -/
theorem c79_handle (valid : Name → Bool) (g : Graph) (pos : Nat → Pos) (t : Syn) (ext : Option (List Lens)) (d : Option Syn) :
    handle (some false) valid g pos d ext = [] ∧ handle none valid g pos d ext = handle (some true) valid g pos d ext ∧
    handle none valid g pos none ext = [] ∧ handle none valid g pos (some t) none = lenses valid g pos t ∧
    (∀ l, l ∈ handle none valid g pos (some t) ext ↔ l ∈ lenses valid g pos t ∨ ∃ ls, ext = some ls ∧ l ∈ ls) := by
  refine ⟨rfl, rfl, rfl, ?_, ?_⟩
  · simp [handle]
  · intro l
    cases ext <;> simp [handle]

/-! ## Folding -/

/-- The nodes with a folding range. -/
def keeps (line : Nat → Nat) (x : Bool × FoldKind × Nat × Nat) : Bool :=
  !x.1 && decide (x.2.1 ≠ .other) && decide (line x.2.2.1 < line x.2.2.2)

theorem inside_nil (line : Nat → Nat) (d : Doc) : (preorder true d).filter (keeps line) = [] := by
  have h : ∀ d : Doc, ∀ x ∈ preorder true d, x.1 = true := by
    intro d
    induction d with
    | nil =>
      intro x hx
      cases hx
    | node k a b kids next ihk ihn =>
      intro x hx
      simp only [preorder, Bool.true_or, List.cons_append, List.mem_cons, List.mem_append] at hx
      rcases hx with hx | hx | hx
      · rw [hx]
      · exact ihk x hx
      · exact ihn x hx
  rw [List.filter_eq_nil_iff]
  intro x hx k
  simp only [keeps] at k
  rw [h d x hx] at k
  cases k

theorem fold_acc (line : Nat → Nat) (d : Doc) (acc : List Fold) :
    foldVisit line d acc = acc ++ ((preorder false d).filter (keeps line)).map (fun x => ⟨line x.2.2.1, line x.2.2.2⟩) := by
  induction d generalizing acc with
  | nil => simp [foldVisit, preorder]
  | node k a b kids next ihk ihn =>
    have nil := inside_nil line kids
    have hk : keeps line (false, k, a, b) = (decide (k ≠ .other) && decide (line a < line b)) := rfl
    simp only [foldVisit, preorder, List.cons_append, List.filter_cons, List.filter_append, hk]
    rw [ihn]
    by_cases h : line a < line b
    · cases k <;> simp only [ihk, createFold, h, if_true, Bool.false_or] <;> simp [nil]
    · cases k <;> simp only [ihk, createFold, h, if_false, Bool.false_or] <;> simp [nil]

/-- The folding ranges are, in the order of the text, the lines of the classes, modules, methods, conditions, loops, blocks,
arrays and hashes that have more than one line and have no method around them.  For every document. -/
theorem c79_folds (line : Nat → Nat) (d : Doc) :
    folds line d = ((preorder false d).filter
      (fun x => !x.1 && decide (x.2.1 ≠ .other) && decide (line x.2.2.1 < line x.2.2.2))).map
        (fun x => ⟨line x.2.2.1, line x.2.2.2⟩) := by
  simp only [folds]
  rw [fold_acc]
  rfl

/-! ## Examples and counterexamples -/

def A : Name := [65]
def B : Name := [66]
def C : Name := [67]
def M : Name := [77]
def N : Name := [78]

def at_ (n : Nat) : Range := ⟨0, n, n + 1⟩

/-- A graph where offset `n` is the start of line `n`. -/
def graph (nodes : List NodeFact) (edges : List EdgeFact) : Graph :=
  ⟨nodes, edges, fun r => some ⟨[47], r.start, 0, r.stop, 0⟩⟩

/-- `module M; end; class C; include M; end`. -/
def small : Graph := graph [⟨⟨[M], false⟩, .module, at_ 0⟩, ⟨⟨[C], false⟩, .cls, at_ 2⟩] [⟨⟨[C], false⟩, ⟨[M], false⟩, .include, at_ 3⟩]

theorem c79_example :
    lenses (fun _ => true) small (fun n => ⟨n, 0⟩) (.module (.read M) 0 8 .nil .nil .nil) =
      [⟨⟨0, 0⟩, ⟨8, 0⟩, 1, "include", ⟨0, 0⟩, [⟨[47], 3, 0, 4, 0⟩]⟩, ⟨⟨0, 0⟩, ⟨8, 0⟩, 1, "class", ⟨0, 0⟩, [⟨[47], 2, 0, 3, 0⟩]⟩] := by
  decide +kernel

/-- `module A::B; module C` has the lens of `B::C`. -/
theorem c79_nested_fails :
    Nested [.under (.read A) (some B), .read C] [A, B, C] ∧
    modules (fun _ => true) (.module (.under (.read A) (some B)) 0 11 .nil (.module (.read C) 13 21 .nil .nil .nil) .nil) =
      [⟨[A, B], 0, 11⟩, ⟨[B, C], 13, 21⟩] := by
  constructor
  · have h : Nested ([] ++ [.under (.read A) (some B)]) ([] ++ [A, B]) :=
      .relative .none (fun h => h) ⟨[A], rfl, rfl⟩
    exact Nested.relative (c := .read C) (l := [C]) h (fun h => h) rfl
  · decide +kernel

/-- `module A; module ::B` has the lens of `A::B`. -/
theorem c79_absolute_fails :
    Nested [.read A, .top (some B)] [B] ∧
    modules (fun _ => true) (.module (.read A) 0 8 .nil (.module (.top (some B)) 10 20 .nil .nil .nil) .nil) =
      [⟨[A], 0, 8⟩, ⟨[A, B], 10, 20⟩] :=
  ⟨Nested.absolute (around := [.read A]) (c := .top (some B)) (l := [B]) trivial rfl, by decide +kernel⟩

/-- One class that is opened twice is counted as two classes. -/
theorem c79_reopened_fails :
    (classLens (fun n => ⟨n, 0⟩) ⟨[M], 0, 8⟩ (classLocations (graph
      [⟨⟨[M], false⟩, .module, at_ 0⟩, ⟨⟨[C], false⟩, .cls, at_ 2⟩, ⟨⟨[C], false⟩, .cls, at_ 9⟩]
      [⟨⟨[C], false⟩, ⟨[M], false⟩, .include, at_ 3⟩]) [M])).map (fun l => (l.count, l.word)) = [(2, "classes")] := by
  decide +kernel

/-- `module N; extend M; end; class C; include N; end`: the class is counted for `M`, though neither it nor its objects have the
methods of `M`. -/
theorem c79_extend_fails :
    let g := graph [⟨⟨[M], false⟩, .module, at_ 0⟩, ⟨⟨[N], false⟩, .module, at_ 2⟩, ⟨⟨[C], false⟩, .cls, at_ 5⟩]
      [⟨⟨[N], false⟩, ⟨[M], false⟩, .extend, at_ 3⟩, ⟨⟨[N], true⟩, ⟨[M], false⟩, .include, at_ 3⟩,
        ⟨⟨[C], false⟩, ⟨[N], false⟩, .include, at_ 6⟩]
    classRanges g [M] = [at_ 5] ∧ ¬ Gets g ⟨[C], false⟩ [M] := by
  refine ⟨by decide +kernel, ?_⟩
  have no : ∀ {a b : Path}, Ancestor (graph
      [⟨⟨[M], false⟩, .module, at_ 0⟩, ⟨⟨[N], false⟩, .module, at_ 2⟩, ⟨⟨[C], false⟩, .cls, at_ 5⟩]
      [⟨⟨[N], false⟩, ⟨[M], false⟩, .extend, at_ 3⟩, ⟨⟨[N], true⟩, ⟨[M], false⟩, .include, at_ 3⟩,
        ⟨⟨[C], false⟩, ⟨[N], false⟩, .include, at_ 6⟩]) a b → b = [N] := by
    intro a b h
    induction h with
    | @direct e he hu =>
      rcases List.mem_cons.mp he with rfl | he
      · rcases hu with hu | hu <;> cases hu.1
      · rcases List.mem_cons.mp he with rfl | he
        · rcases hu with hu | hu
          · cases hu.2
          · cases hu.1
        · rw [List.mem_singleton.mp he]
    | via _ _ _ ih => exact ih
  rintro (⟨_, h⟩ | ⟨e, he, hu, hs, _⟩)
  · have := no h
    revert this
    decide
  · rcases List.mem_cons.mp he with rfl | he
    · revert hs
      decide
    · rcases List.mem_cons.mp he with rfl | he
      · cases hu
      · rw [List.mem_singleton.mp he] at hu
        cases hu

/-- `class C; class << self; include M; end; end` is in no lens of `M`, `class C; extend M; end` is. -/
theorem c79_singleton_fails :
    lensesOf (graph [⟨⟨[M], false⟩, .module, at_ 0⟩, ⟨⟨[C], false⟩, .cls, at_ 2⟩]
      [⟨⟨[C], true⟩, ⟨[M], false⟩, .include, at_ 3⟩]) (fun n => ⟨n, 0⟩) ⟨[M], 0, 8⟩ = [] ∧
    (lensesOf (graph [⟨⟨[M], false⟩, .module, at_ 0⟩, ⟨⟨[C], false⟩, .cls, at_ 2⟩]
      [⟨⟨[C], false⟩, ⟨[M], false⟩, .extend, at_ 3⟩, ⟨⟨[C], true⟩, ⟨[M], false⟩, .include, at_ 3⟩]) (fun n => ⟨n, 0⟩) ⟨[M], 0, 8⟩).map
        (fun l => (l.count, l.word)) = [(1, "extend"), (1, "class")] := by
  decide +kernel

/-- A condition of three lines folds at the top of a file and does not fold in a method. -/
theorem c79_folds_fails :
    folds id (.node .if_ 0 3 .nil .nil) = [⟨0, 3⟩] ∧
    folds id (.node .method 0 5 (.node .if_ 1 4 .nil .nil) .nil) = [⟨0, 5⟩] := by
  decide +kernel

end Verif.Lens
