import Verif.Lemmas.MethodLookup

/-!
C56: what the indexer records about method definitions and their visibility is what running the code does, with
counterexamples for the forms where it is not.
-/
namespace Verif.Visibility

open Ruby MethodLookup

/-- A fact whose visibility is changed after its definition shows the last change. -/
theorem record_changed : ∀ (evs : List Ev) (fo : List Fact × List Override) (f : Fact) (v : Vis), Orderly evs → f ∈ (record fo evs).1 →
    lastChange evs f.owner f.name = some v → f.vis = v
  | [], fo, f, v, _, _, h => by cases h
  | .define o m p w :: l, fo, f, v, ho, hf, h => by
    have hl : lastChange (.define o m p w :: l) f.owner f.name = lastChange l f.owner f.name := by
      simp only [lastChange, List.filterMap_cons, changeAt]
    rw [hl] at h
    exact record_changed l _ f v (List.pairwise_cons.mp ho).2 hf h
  | .change o m w p :: l, fo, f, v, ho, hf, h => by
    obtain ⟨ha, hb⟩ := List.pairwise_cons.mp ho
    cases hc : lastChange l f.owner f.name with
    | some v' =>
      have : lastChange (.change o m w p :: l) f.owner f.name = some v' := by
        unfold lastChange at hc ⊢
        rw [List.filterMap_cons]
        split
        · exact hc
        · rw [List.getLast?_cons, hc]
          rfl
      rw [this] at h
      cases h
      exact record_changed l _ f v hb hf hc
    | none =>
      have hnil : l.filterMap (changeAt f.owner f.name) = [] := List.getLast?_eq_none_iff.mp hc
      have hk : o = f.owner ∧ m = f.name ∧ v = w := by
        simp only [lastChange, List.filterMap_cons, changeAt] at h
        split at h
        · rw [hnil] at h; cases h
        · rename_i x hx
          split at hx
          · rename_i hk
            cases hx
            rw [hnil] at h
            simp only [List.getLast?_singleton, Option.some.injEq] at h
            exact ⟨hk.1, hk.2, h.symm⟩
          · cases hx
      obtain ⟨rfl, rfl, rfl⟩ := hk
      have hno : ∀ v' p', .change f.owner f.name v' p' ∉ l := by
        intro v' p' hm
        have : v' ∈ l.filterMap (changeAt f.owner f.name) := List.mem_filterMap.mpr ⟨_, hm, by simp [changeAt]⟩
        rw [hnil] at this
        cases this
      rcases record_unchanged l _ f hf hno with h1 | h1
      · obtain ⟨g, _, hg⟩ := List.mem_map.mp h1
        split at hg
        · rw [← hg]
        · rename_i hne
          rw [hg] at hne
          exact absurd ⟨rfl, rfl⟩ hne
      · have := ha _ h1
        simp at this

/-! ### Checks for the examples -/

def pairOk : Ev → Ev → Bool
  | .change o m _ _, .define o' m' _ _ => !(decide (o = o') && decide (m = m'))
  | .define o m _ v, .define o' m' _ v' => !(decide (o = o') && decide (m = m')) || decide (v = v')
  | _, _ => true

def orderlyB : List Ev → Bool
  | [] => true
  | e :: l => l.all (pairOk e) && orderlyB l

theorem orderly_of : ∀ {evs : List Ev}, orderlyB evs = true → Orderly evs
  | [], _ => List.Pairwise.nil
  | e :: l, h => by
    simp only [orderlyB, Bool.and_eq_true, List.all_eq_true] at h
    refine List.pairwise_cons.mpr ⟨?_, orderly_of h.2⟩
    intro b hb
    have := h.1 b hb
    cases e <;> cases b <;> simp_all [pairOk]
    · rcases this with (h1 | h1) | h1
      · exact fun a => absurd a h1
      · exact fun _ a => absurd a h1
      · exact fun _ _ => h1
    · rcases this with h1 | h1
      · exact fun a => absurd a h1
      · exact fun _ => h1

def changeOk (above : Owner → List Owner) (T : Tables) : Ev → Bool
  | .change o m v _ => (T o m).isSome || decide ((first T (above o) m).map (·.2) ≠ some v)
  | .define .. => true

def effectiveB (above : Owner → List Owner) : Tables → List Ev → Bool
  | _, [] => true
  | T, e :: l =>
    changeOk above T e &&
    (match step above T e with
      | none => true
      | some T' => effectiveB above T' l)

theorem effective_of {above : Owner → List Owner} {evs : List Ev} (h : effectiveB above noTables evs = true) : Effective above evs := by
  have key : ∀ (pre post : List Ev) (T0 : Tables) (e : Ev), effectiveB above T0 (pre ++ e :: post) = true → ∀ T, run above T0 pre = some T → effectiveB above T (e :: post) = true := by
    intro pre
    induction pre with
    | nil => intro post T0 e h T hr; cases hr; exact h
    | cons a l ih =>
      intro post T0 e h T hr
      simp only [run] at hr
      cases hs : step above T0 a with
      | none => rw [hs] at hr; cases hr
      | some T1 =>
        rw [hs] at hr
        rw [List.cons_append, effectiveB, Bool.and_eq_true, hs] at h
        exact ih post T1 e h.2 T hr
  intro pre o m v p post heq T hr ht d hf
  rw [heq] at h
  have := key pre post noTables _ h T hr
  rw [effectiveB, Bool.and_eq_true] at this
  simp [changeOk, ht, hf] at this

/-- `class A; def a; private; def b; public; def self.c; protected :a; class << self; private; def d; end; end` and
`module M; class B; def a; …` in the names 1 (`A`), 2 (`M`), 3 (`B`) and 10–13. -/
def sample : Code :=
  .ns true [1] false
    (.defn .none 10 100 (.keyword .priv .nil) (.keyword .priv (.defn .none 11 110 .nil (.keyword .pub (.defn .self 12 120 .nil (.change .prot [(10, 130)]
      (.sclass (.keyword .priv (.defn .none 13 140 .nil .nil)) .nil)))))))
    (.ns false [2] false (.ns true [3] false (.keyword .prot (.defn .none 10 200 .nil .nil)) .nil) .nil)

def sampleAbove : Owner → List Owner := fun o => if o = ⟨[2, 3], false⟩ then [⟨[1], false⟩] else []

theorem sample_plain : Plain .top sample = true ∧ Tame .top sample = true := by decide
theorem sample_orderly : Orderly (events .top sample) := orderly_of (by decide)
theorem sample_effective : Effective sampleAbove (events .top sample) := effective_of (by decide)
theorem sample_inOrder : InOrder (events .top sample) := by
  have : (events .top sample).map Ev.pos = [100, 110, 120, 130, 140, 200] := by decide
  have h2 : ((events .top sample).map Ev.pos).Pairwise (· < ·) := by rw [this]; decide
  exact List.pairwise_map.mp h2

/-! ### The properties -/

/-- The visit of any code completes without a panic, and the tracker ends as it began but for the current visibility. -/
theorem c56_index_completes (E : List Nat → Bool) (code : Code) :
    ∃ s v, visit E code .new = some s ∧ s.tracker = { Tracker.new with vis := [v] } := by
  obtain ⟨s, h1, h2⟩ := visit_restores E code .new ⟨by simp [State.new, Tracker.new], by simp [State.new, Tracker.new]⟩
  have hv := h2.visLen
  have hm := h2.modFunLen
  simp only [State.new, Tracker.new, List.length_cons, List.length_nil] at hv hm
  obtain ⟨v, hv⟩ := List.length_eq_one_iff.mp hv
  refine ⟨s, v, h1, ?_⟩
  have h3 := h2.frames
  have h4 := h2.exec
  have h5 := h2.kinds
  have h6 := h2.methods
  have h7 := List.length_eq_zero_iff.mp hm
  cases ht : s.tracker
  rw [ht] at h3 h4 h5 h6 h7 hv
  simp only at h3 h4 h5 h6 h7 hv
  rw [h3, h4, h5, h6, h7, hv]
  rfl

/-- What happens inside of a method, a class or a module does not change the tracker outside: not the visibility, not the
`module_function` flag, not the namespace. -/
theorem c56_bodies_do_not_leak (E : List Nat → Bool) (s : State) (r : Ready s.tracker) (body : Code) :
    (∀ x m pos s', definitionOwner s.tracker x ≠ some none → visit E (.defn x m pos body .nil) s = some s' → s'.tracker = s.tracker) ∧
    (∀ isClass path absolute s', visit E (.ns isClass path absolute body .nil) s = some s' → s'.tracker = s.tracker) := by
  refine ⟨?_, ?_⟩
  · intro x m pos s' hne h
    obtain ⟨s1, b, h1, -, h2⟩ := enterDef_some (E := E) r x m pos
    rcases h2 with ⟨hb, h2⟩ | ⟨hb, ns, name, k, d, h2⟩
    · subst hb
      unfold enterDef at h1
      split at h1
      · cases h1
      · rename_i h3; exact absurd h3 hne
      · simp only at h1
        split at h1
        · cases h1
        · simp at h1
    · subst hb
      obtain ⟨s2, h3, h4⟩ := visit_restores E body s1 (by rw [h2]; exact pushDef_ready r _ _ _ _ _ _)
      have h5 := exitDef_same h2 h4
      simp only [visit, h1, h3, h5, if_true, Option.some.injEq] at h
      rw [← h]
  · intro isClass path absolute s' h
    have r1 : Ready (enterNs s isClass path).tracker := by
      refine ⟨by simp [enterNs, Tracker.pushNs, Tracker.pushKind], ?_⟩
      intro e he
      simp only [enterNs, Tracker.pushNs, Tracker.pushKind, List.length_cons] at he ⊢
      have := r.exec e he
      omega
    obtain ⟨s1, h1, h2⟩ := visit_restores E body _ r1
    simp only [visit, h1] at h
    cases h3 : exitNs s1 with
    | none => rw [h3] at h; cases h
    | some s2 =>
      rw [h3] at h
      cases h
      have hf := h2.frames
      have he := h2.exec
      have hk := h2.kinds
      have hme := h2.methods
      have hm := h2.modFun
      have hml := h2.modFunLen
      have hv := h2.vis
      have hvl := h2.visLen
      simp only [enterNs, Tracker.pushNs, Tracker.pushKind, List.tail_cons, List.length_cons] at hf he hk hme hm hml hv hvl
      unfold exitNs Tracker.popNs at h3
      rw [hf] at h3
      cases hx : s1.tracker.modFun with
      | nil => rw [hx] at hml; simp at hml
      | cons x xs =>
        cases hz : s1.tracker.vis with
        | nil => rw [hz] at hvl; simp at hvl
        | cons z zs =>
          rw [hx, hz] at h3
          rw [hx] at hm
          rw [hz] at hv
          simp only [List.tail_cons] at hm hv
          subst hm hv
          simp only [Tracker.popKind, hk, he, hme, List.tail_cons, Option.some.injEq] at h3
          rw [← h3]

/-- The method facts of plain code are the definitions that running it makes: same owner, name and place, in order. -/
theorem c56_definitions_are_recorded (E : List Nat → Bool) (code : Code) (h : Plain .top code = true) :
    ∃ s, visit E code .new = some s ∧
      s.facts.map (fun f => (f.owner, f.name, f.pos)) = (events .top code).filterMap (fun e => match e with | .define o m p _ => some (o, m, p) | .change .. => none) := by
  obtain ⟨s, _, h1, _, h2, _⟩ := visit_plain E code .top .new h rfl rel_new
  refine ⟨s, h1, ?_⟩
  have h3 := congrArg (List.map (fun k : Owner × Nat × Nat × Kind × Avail => (k.1, k.2.1, k.2.2.1))) h2
  simp only [State.new, List.map_nil, List.nil_append, List.map_map, List.map_filterMap] at h3
  refine Eq.trans ?_ (h3.trans ?_)
  · rfl
  · congr 1
    funext e
    cases e <;> rfl

example : (visit (fun _ => true) sample .new).map (fun s => s.facts.map (fun f => (f.owner, f.name, f.pos))) =
    some [(⟨[1], false⟩, 10, 100), (⟨[1], false⟩, 11, 110), (⟨[1], true⟩, 12, 120), (⟨[1], true⟩, 13, 140), (⟨[2, 3], false⟩, 10, 200)] := by decide

/-- The visibility overrides of tame code are the changes of visibility that running it makes, in order. -/
theorem c56_changes_are_recorded (E : List Nat → Bool) (code : Code) (h : Plain .top code = true) (ht : Tame .top code = true) :
    ∃ s, visit E code .new = some s ∧
      s.overrides = (events .top code).filterMap (fun e => match e with | .define .. => none | .change o m v p => some { owner := o, name := m, vis := v, pos := p }) := by
  obtain ⟨s, _, h1, _, _, h2⟩ := visit_plain E code .top .new h rfl rel_new
  refine ⟨s, h1, ?_⟩
  have h3 : s.overrides = (record ([], []) (events .top code)).2 := congrArg Prod.snd (h2 ht (Or.inl rfl))
  rw [h3, record_overrides, List.nil_append]
  rfl

example : (visit (fun _ => true) sample .new).map (·.overrides) = some [{ owner := ⟨[1], false⟩, name := 10, vis := .prot, pos := 130 }] := by decide

/-- The visibility recorded for a method of tame code is the one it has after the code ran. -/
theorem c56_visibility_is_rubys (E : List Nat → Bool) (code : Code) (above : Owner → List Owner) (T : Tables) (h : Plain .top code = true) (ht : Tame .top code = true)
    (ho : Orderly (events .top code)) (he : Effective above (events .top code)) (hr : run above noTables (events .top code) = some T) :
    ∃ s, visit E code .new = some s ∧ ∀ f ∈ s.facts, ∃ e, T f.owner f.name = some e ∧ e.vis = f.vis := by
  obtain ⟨s, _, h1, _, _, h2⟩ := visit_plain E code .top .new h rfl rel_new
  refine ⟨s, h1, ?_⟩
  have h3 : s.facts = (record ([], []) (events .top code)).1 := congrArg Prod.fst (h2 ht (Or.inl rfl))
  have hd : Defs (events .top code) T := by simpa using Defs.run _ [] _ _ Defs.start hr
  have hv : Viss (events .top code) T := by simpa using Viss.run _ [] _ _ Viss.start rfl ho he hr
  intro f hf
  rw [h3] at hf
  cases hc : lastChange (events .top code) f.owner f.name with
  | some v =>
    rw [record_changed _ _ f v ho hf hc]
    exact hv.changed _ _ _ hc
  | none =>
    have hno : ∀ v p, .change f.owner f.name v p ∉ events .top code := by
      intro v p hm
      have : v ∈ (events .top code).filterMap (changeAt f.owner f.name) := List.mem_filterMap.mpr ⟨_, hm, by simp [changeAt]⟩
      rw [List.getLast?_eq_none_iff.mp hc] at this
      cases this
    rcases record_unchanged _ _ f hf hno with h4 | h4
    · cases h4
    · obtain ⟨q, w, hq⟩ := hd.of_event _ _ _ _ h4
      obtain ⟨p', v', h5, h6⟩ := hv.unchanged _ _ hc _ hq
      cases h5
      exact ⟨_, hq, orderly_same ho h6 h4⟩

example : (visit (fun _ => true) sample .new).map (fun s => s.facts.map (·.vis)) = some [.prot, .priv, .pub, .priv, .prot] := by decide
example : (run sampleAbove noTables (events .top sample)).isSome = true := by decide

/-! ### Forms that are recorded with another visibility, or another owner -/

/-- `class A; private def m; end; end`: Ruby makes the method private, the index shows it as public. -/
theorem c56_private_def_fails : ∃ code, Plain .top code = true ∧ ∀ E above,
    (visit E code .new).map (fun s => (s.facts, s.overrides)) = some ([{ owner := ⟨[1], false⟩, name := 10, pos := 100, vis := .pub }], []) ∧
    (run above noTables (events .top code)).map (fun T => T ⟨[1], false⟩ 10) = some (some (.meth 100 .priv)) :=
  ⟨.ns true [1] false (.changeDef .priv 10 100 .nil .nil) .nil, by decide, fun _ _ => ⟨rfl, rfl⟩⟩

/-- `class A; private; def self.m; end; end`: `private` does not apply to singleton methods, the index shows it as private. -/
theorem c56_self_method_in_private_section_fails : ∃ code, Plain .top code = true ∧ ∀ E above,
    (visit E code .new).map (fun s => (s.facts, s.overrides)) = some ([{ owner := ⟨[1], true⟩, name := 10, pos := 100, vis := .priv }], []) ∧
    (run above noTables (events .top code)).map (fun T => T ⟨[1], true⟩ 10) = some (some (.meth 100 .pub)) :=
  ⟨.ns true [1] false (.keyword .priv (.defn .self 10 100 .nil .nil)) .nil, by decide, fun _ _ => ⟨rfl, rfl⟩⟩

/-- `class A; private; def initialize; end; end`: `initialize` is private in any case and `new` stays the public method of
`Class`; the index shows a private `new`. -/
theorem c56_constructor_in_private_section_fails : ∃ code, ∀ E above,
    (visit E code .new).map (fun s => (s.facts, s.overrides)) = some ([{ owner := ⟨[1], true⟩, name := newName, pos := 100, vis := .priv }], []) ∧
    (run above noTables (events .top code)).map (fun T => (T ⟨[1], false⟩ initializeName, T ⟨[1], true⟩ newName)) = some (some (.meth 100 .priv), none) :=
  ⟨.ns true [1] false (.keyword .priv (.defn .none initializeName 100 .nil .nil)) .nil, fun _ _ => ⟨rfl, rfl⟩⟩

/-- `def m; end` at the top level: Ruby makes the method private, the index shows it as public. -/
theorem c56_top_level_def_fails : ∃ code, Plain .top code = true ∧ ∀ E above,
    (visit E code .new).map (fun s => (s.facts, s.overrides)) = some ([{ owner := ⟨[], false⟩, name := 10, pos := 100, vis := .pub }], []) ∧
    (run above noTables (events .top code)).map (fun T => T ⟨[], false⟩ 10) = some (some (.meth 100 .priv)) :=
  ⟨.defn .none 10 100 .nil .nil, by decide, fun _ _ => ⟨rfl, rfl⟩⟩

/-- `module M; module_function; def a; end; public; def b; end; end`: the instance method `a` is private and `b` is no
module function; the index shows a public `a` and a module function `b`. -/
theorem c56_module_function_fails : ∃ code, ∀ E above,
    (visit E code .new).map (fun s => (s.facts, s.overrides)) =
      some ([{ owner := ⟨[1], false⟩, name := 10, pos := 100, vis := .pub }, { owner := ⟨[1], true⟩, name := 10, pos := 100, vis := .pub },
        { owner := ⟨[1], false⟩, name := 11, pos := 110, vis := .pub }, { owner := ⟨[1], true⟩, name := 11, pos := 110, vis := .pub }], []) ∧
    (run above noTables (events .top code)).map (fun T => (T ⟨[1], false⟩ 10, T ⟨[1], true⟩ 10, T ⟨[1], false⟩ 11, T ⟨[1], true⟩ 11)) =
      some (some (.meth 100 .priv), some (.meth 100 .pub), some (.meth 110 .pub), none) :=
  ⟨.ns false [1] false (.moduleFunction (.defn .none 10 100 .nil (.keyword .pub (.defn .none 11 110 .nil .nil)))) .nil, fun _ _ => ⟨rfl, rfl⟩⟩

/-- `module M; class ::A; def m; end; end; end`: the method belongs to `A`, the index shows it in `M::A`. -/
theorem c56_absolute_path_fails : ∃ code, ∀ E above,
    (visit E code .new).map (fun s => s.facts) = some [{ owner := ⟨[2, 1], false⟩, name := 10, pos := 100, vis := .pub }] ∧
    (run above noTables (events .top code)).map (fun T => (T ⟨[1], false⟩ 10, T ⟨[2, 1], false⟩ 10)) = some (some (.meth 100 .pub), none) :=
  ⟨.ns false [2] false (.ns true [1] true (.defn .none 10 100 .nil .nil) .nil) .nil, fun _ _ => ⟨rfl, rfl⟩⟩

/-- A `def` on a constant that is not the innermost class or module is not recorded; what its body contains is taken to be outside of a method. -/
theorem c56_def_on_another_constant (E : List Nat → Bool) (s : State) (n m pos : Nat) (body rest : Code) (h : (nsOf s.tracker.frames).getLast? ≠ some n) :
    visit E (.defn (.const n) m pos body rest) s = (visit E body s).bind (visit E rest) := by
  rw [visit]
  have h1 : enterDef E s (.const n) m pos = some (s, false) := by
    unfold enterDef definitionOwner receiverKind
    simp only [if_neg h]
  rw [h1]
  cases hv : visit E body s with
  | none => simp [hv]
  | some s2 => simp [hv]

end Verif.Visibility
