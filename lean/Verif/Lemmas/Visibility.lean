import Verif.Spec.Visibility

/-! Lemmas about the model of the indexer's method facts and visibilities. -/
namespace Verif.Visibility

open Ruby

/-! ### The tracker is restored -/

/-- The tracker apart from the current visibility and `module_function` flag. -/
structure Same (t u : Tracker) : Prop where
  frames : u.frames = t.frames
  exec : u.exec = t.exec
  kinds : u.kinds = t.kinds
  methods : u.methods = t.methods
  modFun : u.modFun.tail = t.modFun.tail
  modFunLen : u.modFun.length = t.modFun.length
  vis : u.vis.tail = t.vis.tail
  visLen : u.vis.length = t.vis.length

/-- A tracker that cannot panic. -/
structure Ready (t : Tracker) : Prop where
  vis : t.vis ≠ []
  exec : ∀ e ∈ t.exec, e.scopeDepth ≤ t.kinds.length

theorem Same.refl (t : Tracker) : Same t t := ⟨rfl, rfl, rfl, rfl, rfl, rfl, rfl, rfl⟩

theorem Same.trans {t u w : Tracker} (h : Same t u) (k : Same u w) : Same t w :=
  ⟨k.frames.trans h.frames, k.exec.trans h.exec, k.kinds.trans h.kinds, k.methods.trans h.methods, k.modFun.trans h.modFun, k.modFunLen.trans h.modFunLen, k.vis.trans h.vis, k.visLen.trans h.visLen⟩

theorem Same.ready {t u : Tracker} (h : Same t u) (r : Ready t) : Ready u := by
  refine ⟨?_, ?_⟩
  · intro h1
    have h2 := h.visLen
    rw [h1] at h2
    exact r.vis (List.length_eq_zero_iff.mp h2.symm)
  · intro e he
    rw [h.exec] at he
    rw [h.kinds]
    exact r.exec e he

theorem currentExec_some {t : Tracker} (r : Ready t) : ∃ x, t.currentExec = some x := by
  unfold Tracker.currentExec
  split
  · exact ⟨_, rfl⟩
  · rename_i e l h
    have h1 := r.exec e (by rw [h]; exact List.mem_cons_self)
    rw [if_neg (by omega)]
    split
    · exact ⟨_, rfl⟩
    · exact ⟨_, rfl⟩

theorem definitionOwner_some {t : Tracker} (r : Ready t) (x : Recv) : ∃ y, definitionOwner t x = some y := by
  obtain ⟨e, he⟩ := currentExec_some r
  unfold definitionOwner
  cases x with
  | none =>
    simp only [Tracker.definition, he]
    cases e <;> exact ⟨_, rfl⟩
  | self =>
    simp only [Tracker.implicitReceiver, he]
    cases e with
    | none => simp only; split <;> exact ⟨_, rfl⟩
    | some e => simp only; split <;> exact ⟨_, rfl⟩
  | const n => simp only; split <;> exact ⟨_, rfl⟩
  | path => simp only; split <;> exact ⟨_, rfl⟩
  | other => simp only; split <;> exact ⟨_, rfl⟩

/-- Entering a `def` pushes one frame of each kind, or nothing. -/
theorem enterDef_some {E : List Nat → Bool} {s : State} (r : Ready s.tracker) (x : Recv) (m pos : Nat) :
    ∃ s' b, enterDef E s x m pos = some (s', b) ∧ s'.overrides = s.overrides ∧
      ((b = false ∧ s' = s) ∨ (b = true ∧ ∃ ns name k d, s'.tracker = ((s.tracker.pushMethod (ns, name)).pushKind k).pushExec ns d ns d)) := by
  obtain ⟨y, hy⟩ := definitionOwner_some r x
  unfold enterDef
  rw [hy]
  cases y with
  | none => exact ⟨s, false, rfl, rfl, Or.inl ⟨rfl, rfl⟩⟩
  | some p =>
    obtain ⟨ns, sing⟩ := p
    cases hv : s.tracker.vis with
    | nil => exact absurd hv r.vis
    | cons v l =>
      simp only
      exact ⟨_, true, rfl, rfl, Or.inr ⟨rfl, ns, _, _, sing, rfl⟩⟩

theorem pushDef_ready {t : Tracker} (r : Ready t) (n : List Nat × Nat) (k : ScopeKind) (a : List Nat) (b : Bool) (c : List Nat) (d : Bool) :
    Ready (((t.pushMethod n).pushKind k).pushExec a b c d) := by
  refine ⟨by simp [Tracker.pushExec], ?_⟩
  intro e he
  simp only [Tracker.pushExec, Tracker.pushKind, Tracker.pushMethod, List.mem_cons] at he ⊢
  rcases he with he | he
  · rw [he]
    simp
  · have := r.exec e he
    simp only [List.length_cons]
    omega

/-- Leaving the `def` takes the frames away again. -/
theorem exitDef_same {s1 s2 : State} {t : Tracker} {n : List Nat × Nat} {k : ScopeKind} {a c : List Nat} {b d : Bool}
    (h1 : s1.tracker = ((t.pushMethod n).pushKind k).pushExec a b c d) (h2 : Same s1.tracker s2.tracker) :
    exitDef s2 = some { s2 with tracker := t } := by
  rw [h1] at h2
  have he := h2.exec
  have hm := h2.modFun
  have hml := h2.modFunLen
  have hv := h2.vis
  have hvl := h2.visLen
  have hk := h2.kinds
  have hf := h2.frames
  have hme := h2.methods
  simp only [Tracker.pushExec, Tracker.pushKind, Tracker.pushMethod, List.tail_cons, List.length_cons] at he hm hml hv hvl hk hf hme
  unfold exitDef Tracker.popExec
  rw [he]
  cases hx : s2.tracker.modFun with
  | nil => rw [hx] at hml; simp at hml
  | cons x xs =>
    cases hz : s2.tracker.vis with
    | nil => rw [hz] at hvl; simp at hvl
    | cons z zs =>
      rw [hx] at hm
      rw [hz] at hv
      simp only [List.tail_cons] at hm hv
      subst hm hv
      simp only [Tracker.popMethod, Tracker.popKind, hk, hf, hme, List.tail_cons]

theorem setMethodVis_some {s : State} (r : Ready s.tracker) (v : Vis) (m pos : Nat) :
    ∃ s', setMethodVis s v m pos = some s' ∧ s'.tracker = s.tracker := by
  obtain ⟨e, he⟩ := currentExec_some r
  unfold setMethodVis Tracker.macroDefinition
  rw [he]
  cases e <;> exact ⟨_, rfl, rfl⟩

theorem setMethodsVis_some (v : Vis) : ∀ (l : List (Nat × Nat)) {s : State}, Ready s.tracker →
    ∃ s', setMethodsVis v l s = some s' ∧ s'.tracker = s.tracker
  | [], s, _ => ⟨s, rfl, rfl⟩
  | (m, pos) :: l, s, r => by
    obtain ⟨s1, h1, h2⟩ := setMethodVis_some r v m pos
    obtain ⟨s2, h3, h4⟩ := setMethodsVis_some v l (s := s1) (by rw [h2]; exact r)
    refine ⟨s2, ?_, h4.trans h2⟩
    simp only [setMethodsVis, h1, h3]

/-- The visit never panics and leaves the tracker as it was, but for the current visibility and flag. -/
theorem visit_restores (E : List Nat → Bool) : ∀ (code : Code) (s : State), Ready s.tracker →
    ∃ s', visit E code s = some s' ∧ Same s.tracker s'.tracker := by
  have hdef : ∀ (x : Recv) (m pos : Nat) (body rest : Code),
      (∀ (s : State), Ready s.tracker → ∃ s', visit E body s = some s' ∧ Same s.tracker s'.tracker) →
      (∀ (s : State), Ready s.tracker → ∃ s', visit E rest s = some s' ∧ Same s.tracker s'.tracker) →
      ∀ (s : State), Ready s.tracker → ∃ s', visit E (.defn x m pos body rest) s = some s' ∧ Same s.tracker s'.tracker := by
    intro x m pos body rest ih1 ih2 s r
    obtain ⟨s1, b, h1, -, h2⟩ := enterDef_some (E := E) r x m pos
    simp only [visit, h1]
    rcases h2 with ⟨hb, h2⟩ | ⟨hb, ns, name, k, d, h2⟩
    · subst hb h2
      obtain ⟨s2, h3, h4⟩ := ih1 s1 r
      obtain ⟨s3, h5, h6⟩ := ih2 s2 (h4.ready r)
      simp only [h3]
      refine ⟨s3, ?_, h4.trans h6⟩
      simpa using h5
    · subst hb
      obtain ⟨s2, h3, h4⟩ := ih1 s1 (by rw [h2]; exact pushDef_ready r _ _ _ _ _ _)
      have h5 := exitDef_same h2 h4
      obtain ⟨s3, h6, h7⟩ := ih2 { s2 with tracker := s.tracker } r
      simp only [h3, h5, if_true]
      exact ⟨s3, h6, h7⟩
  intro code
  induction code with
  | nil => exact fun s _ => ⟨s, rfl, Same.refl _⟩
  | defn x m pos body rest ih1 ih2 => exact hdef x m pos body rest ih1 ih2
  | changeDef v m pos body rest ih1 ih2 => exact hdef .none m pos body rest ih1 ih2
  | keyword v rest ih =>
    intro s r
    simp only [visit, Tracker.setVis]
    cases hv : s.tracker.vis with
    | nil => exact absurd hv r.vis
    | cons w l =>
      simp only
      have hs : Same s.tracker { s.tracker with vis := v :: l } := ⟨rfl, rfl, rfl, rfl, rfl, rfl, by simp [hv], by simp [hv]⟩
      obtain ⟨s', h1, h2⟩ := ih { s with tracker := { s.tracker with vis := v :: l } } (hs.ready r)
      exact ⟨s', h1, hs.trans h2⟩
  | change v names rest ih =>
    intro s r
    obtain ⟨s1, h1, h2⟩ := setMethodsVis_some v names r
    obtain ⟨s2, h3, h4⟩ := ih s1 (by rw [h2]; exact r)
    simp only [visit, h1]
    rw [h2] at h4
    exact ⟨s2, h3, h4⟩
  | moduleFunction rest ih =>
    intro s r
    simp only [visit]
    have hs : Same s.tracker s.tracker.enableModFun := by
      unfold Tracker.enableModFun
      refine ⟨rfl, rfl, rfl, rfl, ?_, ?_, rfl, rfl⟩ <;> cases s.tracker.modFun <;> rfl
    obtain ⟨s', h1, h2⟩ := ih { s with tracker := s.tracker.enableModFun } (hs.ready r)
    exact ⟨s', h1, hs.trans h2⟩
  | ns isClass path absolute body rest ih1 ih2 =>
    intro s r
    simp only [visit]
    have r1 : Ready (enterNs s isClass path).tracker := by
      refine ⟨by simp [enterNs, Tracker.pushNs, Tracker.pushKind], ?_⟩
      intro e he
      simp only [enterNs, Tracker.pushNs, Tracker.pushKind, List.length_cons] at he ⊢
      have := r.exec e he
      omega
    obtain ⟨s1, h1, h2⟩ := ih1 _ r1
    have h3 : exitNs s1 = some { s1 with tracker := s.tracker } := by
      have hf := h2.frames
      have he := h2.exec
      have hk := h2.kinds
      have hme := h2.methods
      have hm := h2.modFun
      have hml := h2.modFunLen
      have hv := h2.vis
      have hvl := h2.visLen
      simp only [enterNs, Tracker.pushNs, Tracker.pushKind, List.tail_cons, List.length_cons] at hf he hk hme hm hml hv hvl
      unfold exitNs Tracker.popNs
      rw [hf]
      cases hx : s1.tracker.modFun with
      | nil => rw [hx] at hml; simp at hml
      | cons x xs =>
        cases hz : s1.tracker.vis with
        | nil => rw [hz] at hvl; simp at hvl
        | cons z zs =>
          rw [hx] at hm
          rw [hz] at hv
          simp only [List.tail_cons] at hm hv
          subst hm hv
          simp only [Tracker.popKind, hk, he, hme, List.tail_cons]
    obtain ⟨s2, h4, h5⟩ := ih2 { s1 with tracker := s.tracker } r
    simp only [h1, h3]
    exact ⟨s2, h4, h5⟩
  | sclass body rest ih1 ih2 =>
    intro s r
    simp only [visit]
    have r1 : Ready s.tracker.enterSingleton := ⟨by simp [Tracker.enterSingleton], r.exec⟩
    obtain ⟨s1, h1, h2⟩ := ih1 { s with tracker := s.tracker.enterSingleton } r1
    obtain ⟨t, h3, h4⟩ : ∃ t, s1.tracker.exitSingleton = some t ∧ Same s.tracker t := by
      have hf := h2.frames
      have hv := h2.vis
      have hvl := h2.visLen
      simp only [Tracker.enterSingleton, List.tail_cons, List.length_cons] at hf hv hvl
      unfold Tracker.exitSingleton
      rw [hf]
      cases hz : s1.tracker.vis with
      | nil => rw [hz] at hvl; simp at hvl
      | cons z zs =>
        rw [hz] at hv
        simp only [List.tail_cons] at hv
        subst hv
        exact ⟨_, rfl, ⟨rfl, h2.exec, h2.kinds, h2.methods, h2.modFun, h2.modFunLen, rfl, rfl⟩⟩
    obtain ⟨s2, h5, h6⟩ := ih2 { s1 with tracker := t } (h4.ready r)
    simp only [h1, h3]
    exact ⟨s2, h5, h4.trans h6⟩

/-! ### What is recorded -/

/-- The tracker in the body of a class. -/
structure Rel (t : Tracker) (c : Ctx) : Prop where
  exec : t.exec = []
  ns : nsOf t.frames = c.parts
  sing : t.inSingleton = c.sing
  kind : t.kinds.head? = some .constant
  vis : t.vis ≠ []
  modFun : t.modFunEnabled = false

theorem Rel.ready {t : Tracker} {c : Ctx} (h : Rel t c) : Ready t := ⟨h.vis, by rw [h.exec]; simp⟩

theorem Rel.macro {t : Tracker} {c : Ctx} (h : Rel t c) : t.macroContext = c.sing := by
  unfold Tracker.macroContext
  have := h.kind
  split
  · rename_i l hl; rw [hl] at this; cases this
  · rename_i l hl; rw [hl] at this; cases this
  · exact h.sing

theorem Rel.macroDefinition {t : Tracker} {c : Ctx} (h : Rel t c) : t.macroDefinition = some c.sing := by
  unfold Tracker.macroDefinition Tracker.currentExec
  rw [h.exec]
  simp only [h.macro]

theorem Rel.definition {t : Tracker} {c : Ctx} (h : Rel t c) : t.definition = some (c.parts, c.sing) := by
  unfold Tracker.definition Tracker.currentExec
  rw [h.exec]
  simp only [h.macro, h.ns]

theorem Rel.implicitReceiver {t : Tracker} {c : Ctx} (h : Rel t c) (hc : c.parts ≠ []) : t.implicitReceiver = some (c.parts, true) := by
  unfold Tracker.implicitReceiver Tracker.currentExec
  rw [h.exec]
  simp only [h.ns, Option.some.injEq, Prod.mk.injEq, true_and]
  unfold Tracker.methodContext
  have := h.kind
  split
  · rename_i l hl; rw [hl] at this; cases this
  · rfl
  · rw [h.ns]
    cases hp : c.parts with
    | nil => exact absurd hp hc
    | cons a l => simp

/-- The default visibility is Ruby's. -/
def VisRel (t : Tracker) (c : Ctx) : Prop := c.parts = [] ∨ t.vis.head? = some c.vis

/-- What the collector records for the events of Ruby. -/
def record : List Fact × List Override → List Ev → List Fact × List Override
  | fo, [] => fo
  | fo, .define o m p v :: l => record (fo.1 ++ [{ owner := o, name := m, pos := p, vis := v }], fo.2) l
  | fo, .change o m v p :: l =>
    record (fo.1.map (fun f => if f.name = m ∧ f.owner = o then { f with vis := v } else f), fo.2 ++ [{ owner := o, name := m, vis := v, pos := p }]) l

theorem record_append (a b : List Ev) : ∀ fo, record fo (a ++ b) = record (record fo a) b := by
  induction a with
  | nil => intro fo; rfl
  | cons e l ih => intro fo; cases e <;> exact ih _

def key (f : Fact) : Owner × Nat × Nat × Kind × Avail := (f.owner, f.name, f.pos, f.kind, f.avail)

def defKey : Ev → Option (Owner × Nat × Nat × Kind × Avail)
  | .define o m p _ => some (o, m, p, .project, .available)
  | .change _ _ _ _ => none

theorem visit_quiet (E : List Nat → Bool) : ∀ (code : Code) (s : State), quiet code = true → s.tracker.vis ≠ [] →
    ∃ t, visit E code s = some { s with tracker := t }
  | .nil, s, _, _ => ⟨s.tracker, rfl⟩
  | .keyword v rest, s, h, hv => by
    simp only [visit, Tracker.setVis]
    cases hx : s.tracker.vis with
    | nil => exact absurd hx hv
    | cons w l => exact visit_quiet E rest _ h (by simp)
  | .moduleFunction rest, s, h, hv => visit_quiet E rest _ h hv
  | .defn _ _ _ _ _, _, h, _ => by cases h
  | .change _ _ _, _, h, _ => by cases h
  | .changeDef _ _ _ _ _, _, h, _ => by cases h
  | .ns _ _ _ _ _, _, h, _ => by cases h
  | .sclass _ _, _, h, _ => by cases h

/-- A plain `def` records one fact and leaves the tracker as it was. -/
theorem visit_def {E : List Nat → Bool} {s : State} {x : Recv} {m pos : Nat} {body : Code} {ns : List Nat} {sing : Bool} {v : Vis} {l : List Vis}
    (r : Ready s.tracker) (ho : definitionOwner s.tracker x = some (some (ns, sing))) (hm : x = .none → m ≠ initializeName)
    (hv : s.tracker.vis = v :: l) (hf : s.tracker.modFunEnabled = false) (hb : quiet body = true) (rest : Code) :
    visit E (.defn x m pos body rest) s = visit E rest { s with facts := s.facts ++ [{ owner := ⟨ns, sing⟩, name := m, pos := pos, vis := v }] } := by
  have hctor : (decide (m = initializeName) && decide (x = Recv.none) && !sing && provenClass E s.nodes ns) = false := by
    by_cases h1 : x = .none
    · simp [hm h1]
    · simp [h1]
  have h1 : enterDef E s x m pos = some ({ s with tracker := ((s.tracker.pushMethod (ns, m)).pushKind (if sing then .classMethod else .instanceMethod)).pushExec ns sing ns sing, facts := s.facts ++ [{ owner := ⟨ns, sing⟩, name := m, pos := pos, vis := v }] }, true) := by
    unfold enterDef
    rw [ho]
    simp only [hctor, hv, hf]
    simp
  simp only [visit, h1]
  have r1 := pushDef_ready r (ns, m) (if sing then .classMethod else .instanceMethod) ns sing ns sing
  obtain ⟨t, h2⟩ := visit_quiet E body { s with tracker := ((s.tracker.pushMethod (ns, m)).pushKind (if sing then .classMethod else .instanceMethod)).pushExec ns sing ns sing, facts := s.facts ++ [{ owner := ⟨ns, sing⟩, name := m, pos := pos, vis := v }] } hb r1.vis
  obtain ⟨s2, h3, h4⟩ := visit_restores E body { s with tracker := ((s.tracker.pushMethod (ns, m)).pushKind (if sing then .classMethod else .instanceMethod)).pushExec ns sing ns sing, facts := s.facts ++ [{ owner := ⟨ns, sing⟩, name := m, pos := pos, vis := v }] } r1
  rw [h2] at h3
  cases h3
  have h5 := exitDef_same (s1 := { s with tracker := ((s.tracker.pushMethod (ns, m)).pushKind (if sing then .classMethod else .instanceMethod)).pushExec ns sing ns sing, facts := s.facts ++ [{ owner := ⟨ns, sing⟩, name := m, pos := pos, vis := v }] }) rfl h4
  simp only [h2, h5, if_true]

theorem setMethodsVis_record {t : Tracker} {c : Ctx} (v : Vis) (h : Rel t c) : ∀ (l : List (Nat × Nat)) (s : State), s.tracker = t →
    ∃ s', setMethodsVis v l s = some s' ∧ s'.tracker = t ∧ s'.nodes = s.nodes ∧ s'.facts.map key = s.facts.map key ∧
      (s'.facts, s'.overrides) = record (s.facts, s.overrides) (l.map (fun n => .change ⟨c.parts, c.sing⟩ n.1 v n.2))
  | [], s, ht => ⟨s, rfl, ht, rfl, rfl, rfl⟩
  | (m, pos) :: l, s, ht => by
    have h1 : setMethodVis s v m pos = some { s with overrides := s.overrides ++ [{ owner := ⟨c.parts, c.sing⟩, name := m, vis := v, pos := pos }], facts := s.facts.map (fun f => if f.name = m ∧ f.owner = ⟨c.parts, c.sing⟩ then { f with vis := v } else f) } := by
      unfold setMethodVis
      rw [ht, h.macroDefinition, h.ns]
    obtain ⟨s', h2, h3, h4, h5, h6⟩ := setMethodsVis_record v h l { s with overrides := s.overrides ++ [{ owner := ⟨c.parts, c.sing⟩, name := m, vis := v, pos := pos }], facts := s.facts.map (fun f => if f.name = m ∧ f.owner = ⟨c.parts, c.sing⟩ then { f with vis := v } else f) } ht
    refine ⟨s', ?_, h3, h4, ?_, ?_⟩
    · simp only [setMethodsVis, h1, h2]
    · rw [h5]
      simp only [List.map_map]
      congr 1
      funext f
      simp only [Function.comp, key]
      split <;> rfl
    · rw [h6]
      rfl

theorem record_keys : ∀ (evs : List Ev) (fo : List Fact × List Override), (record fo evs).1.map key = fo.1.map key ++ evs.filterMap defKey
  | [], fo => by simp [record]
  | .define o m p v :: l, fo => by
    simp only [record, record_keys l, List.map_append, List.filterMap_cons, defKey]
    simp [key]
  | .change o m v p :: l, fo => by
    simp only [record, record_keys l, List.filterMap_cons, defKey, List.map_map]
    congr 1
    congr 1
    funext f
    simp only [Function.comp, key]
    split <;> rfl

/-- The overrides recorded are the changes. -/
def toOverride : Ev → Option Override
  | .define _ _ _ _ => none
  | .change o m v p => some { owner := o, name := m, vis := v, pos := p }

theorem record_overrides : ∀ (evs : List Ev) (fo : List Fact × List Override), (record fo evs).2 = fo.2 ++ evs.filterMap toOverride
  | [], fo => by simp [record]
  | .define o m p v :: l, fo => by simp only [record, record_overrides l, List.filterMap_cons, toOverride]
  | .change o m v p :: l, fo => by
    simp only [record, record_overrides l, List.filterMap_cons, toOverride]
    simp

/-- A fact whose visibility is not changed keeps that of its definition. -/
theorem record_unchanged : ∀ (evs : List Ev) (fo : List Fact × List Override) (f : Fact), f ∈ (record fo evs).1 → (∀ v p, .change f.owner f.name v p ∉ evs) →
    f ∈ fo.1 ∨ .define f.owner f.name f.pos f.vis ∈ evs
  | [], fo, f, h, _ => Or.inl h
  | .define o m p v :: l, fo, f, h, hn => by
    simp only [record] at h
    rcases record_unchanged l _ f h (fun v' p' hc => hn v' p' (List.mem_cons_of_mem _ hc)) with h1 | h1
    · rcases List.mem_append.mp h1 with h2 | h2
      · exact Or.inl h2
      · simp only [List.mem_singleton] at h2
        subst h2
        exact Or.inr List.mem_cons_self
    · exact Or.inr (List.mem_cons_of_mem _ h1)
  | .change o m v p :: l, fo, f, h, hn => by
    simp only [record] at h
    rcases record_unchanged l _ f h (fun v' p' hc => hn v' p' (List.mem_cons_of_mem _ hc)) with h1 | h1
    · obtain ⟨g, hg, h2⟩ := List.mem_map.mp h1
      split at h2
      · rename_i hk
        exfalso
        apply hn v p
        rw [← h2, ← hk.1, ← hk.2]
        exact List.mem_cons_self
      · rw [← h2]
        exact Or.inl hg
    · exact Or.inr (List.mem_cons_of_mem _ h1)

theorem Rel.setVis {t : Tracker} {c : Ctx} (h : Rel t c) (v : Vis) (w : Vis) : Rel { t with vis := v :: t.vis.tail } { c with vis := w } :=
  ⟨h.exec, h.ns, h.sing, h.kind, by simp, h.modFun⟩

theorem Rel.resume {t : Tracker} {c : Ctx} (h : Rel t c) (v : Vis) : Rel { t with vis := v :: t.vis.tail } c :=
  ⟨h.exec, h.ns, h.sing, h.kind, by simp, h.modFun⟩

theorem nsOf_pushNs (f : List Frame) (p : List Nat) : nsOf (.ns p false :: f) = nsOf f ++ p := by simp [nsOf]

/-- The visit of plain code, and what it records of tame code. -/
theorem visit_plain (E : List Nat → Bool) : ∀ (code : Code) (c : Ctx) (s : State), Plain c code = true → c.modFun = false → Rel s.tracker c →
    ∃ s' v, visit E code s = some s' ∧ s'.tracker = { s.tracker with vis := v :: s.tracker.vis.tail } ∧
      s'.facts.map key = s.facts.map key ++ (events c code).filterMap defKey ∧
      (Tame c code = true → VisRel s.tracker c → (s'.facts, s'.overrides) = record (s.facts, s.overrides) (events c code)) := by
  intro code
  induction code with
  | nil =>
    intro c s _ _ h
    cases hv : s.tracker.vis with
    | nil => exact absurd hv h.vis
    | cons v l =>
      refine ⟨s, v, rfl, ?_, by simp [events], fun _ _ => rfl⟩
      rw [List.tail_cons, ← hv]
  | defn x m pos body rest _ ih =>
    intro c s hp hcm h
    simp only [Plain, Bool.and_eq_true] at hp
    obtain ⟨⟨hx, hq⟩, hr⟩ := hp
    cases hv : s.tracker.vis with
    | nil => exact absurd hv h.vis
    | cons v l =>
      cases x with
      | none =>
        simp only [decide_eq_true_eq] at hx
        have ho : definitionOwner s.tracker .none = some (some (c.parts, c.sing)) := by
          simp only [definitionOwner, h.definition, Option.map_some]
        rw [visit_def h.ready ho (fun _ => hx) hv h.modFun hq]
        obtain ⟨s', v', h1, h2, h3, h4⟩ := ih c { s with facts := s.facts ++ [{ owner := ⟨c.parts, c.sing⟩, name := m, pos := pos, vis := v }] } hr hcm h
        rw [hv] at h2
        refine ⟨s', v', h1, h2, ?_, ?_⟩
        · rw [h3]
          simp [events, define, hcm, key, defKey]
        · intro ht hvr
          simp only [Tame, Bool.and_eq_true] at ht
          obtain ⟨⟨hne, hau⟩, ht⟩ := ht
          have hvc : v = c.vis := by
            rcases hvr with h5 | h5
            · rw [h5] at hne; simp at hne
            · rw [hv] at h5; simpa using h5
          rw [h4 ht hvr, hvc]
          simp only [Bool.not_eq_true'] at hau
          simp only [events, define, hcm, Bool.false_eq_true, if_false, hau, List.cons_append, List.nil_append, record]
      | self =>
        simp only [Bool.and_eq_true, Bool.not_eq_true', List.isEmpty_eq_false_iff] at hx
        have ho : definitionOwner s.tracker .self = some (some (c.parts, true)) := by
          simp only [definitionOwner, h.implicitReceiver hx.2, if_true]
        rw [visit_def h.ready ho (fun h => by cases h) hv h.modFun hq]
        obtain ⟨s', v', h1, h2, h3, h4⟩ := ih c { s with facts := s.facts ++ [{ owner := ⟨c.parts, true⟩, name := m, pos := pos, vis := v }] } hr hcm h
        rw [hv] at h2
        refine ⟨s', v', h1, h2, ?_, ?_⟩
        · rw [h3]
          simp [events, key, defKey]
        · intro ht hvr
          simp only [Tame, Bool.and_eq_true, decide_eq_true_eq] at ht
          have hvc : v = c.vis := by
            rcases hvr with h5 | h5
            · exact absurd h5 hx.2
            · rw [hv] at h5; simpa using h5
          rw [h4 ht.2 hvr, hvc, ht.1]
          rfl
      | const n => cases hx
      | path => cases hx
      | other => cases hx
  | changeDef w m pos body rest _ ih =>
    intro c s hp hcm h
    simp only [Plain, Bool.and_eq_true, decide_eq_true_eq] at hp
    obtain ⟨⟨hx, hq⟩, hr⟩ := hp
    cases hv : s.tracker.vis with
    | nil => exact absurd hv h.vis
    | cons v l =>
      have ho : definitionOwner s.tracker .none = some (some (c.parts, c.sing)) := by
        simp only [definitionOwner, h.definition, Option.map_some]
      have hvis : visit E (.changeDef w m pos body rest) s = visit E (.defn .none m pos body rest) s := rfl
      rw [hvis, visit_def h.ready ho (fun _ => hx) hv h.modFun hq]
      obtain ⟨s', v', h1, h2, h3, h4⟩ := ih c { s with facts := s.facts ++ [{ owner := ⟨c.parts, c.sing⟩, name := m, pos := pos, vis := v }] } hr hcm h
      rw [hv] at h2
      refine ⟨s', v', h1, h2, ?_, fun ht => by cases ht⟩
      rw [h3]
      simp only [events, define, hcm, Bool.false_eq_true, if_false, List.cons_append, List.nil_append, List.filterMap_cons, defKey]
      simp [key]
  | keyword v rest ih =>
    intro c s hp hcm h
    simp only [Plain] at hp
    have h0 : s.tracker.setVis v = some { s.tracker with vis := v :: s.tracker.vis.tail } := by
      unfold Tracker.setVis
      cases hv : s.tracker.vis with
      | nil => exact absurd hv h.vis
      | cons w l => rfl
    obtain ⟨s', v', h1, h2, h3, h4⟩ := ih { c with vis := v } { s with tracker := { s.tracker with vis := v :: s.tracker.vis.tail } } hp hcm (h.setVis v v)
    refine ⟨s', v', ?_, by simpa using h2, ?_, ?_⟩
    · simp only [visit, h0, h1]
    · rw [h3]
      simp only [events, hcm]
    · intro ht hvr
      rw [h4 ht (Or.inr rfl)]
      simp only [events, hcm]
  | change v names rest ih =>
    intro c s hp hcm h
    simp only [Plain] at hp
    obtain ⟨s1, h1, h2, h3, h4, h5⟩ := setMethodsVis_record v h names s rfl
    obtain ⟨s2, v', h6, h7, h8, h9⟩ := ih c s1 hp hcm (by rw [h2]; exact h)
    refine ⟨s2, v', by simp only [visit, h1, h6], by rw [h7, h2], ?_, ?_⟩
    · rw [h8, h4]
      congr 1
      simp only [events, List.filterMap_append]
      have hnil : (names.map (fun n => Ev.change ⟨c.parts, c.sing⟩ n.1 v n.2)).filterMap defKey = [] := by
        rw [List.filterMap_eq_nil_iff]
        intro e he
        obtain ⟨n, _, rfl⟩ := List.mem_map.mp he
        rfl
      rw [hnil, List.nil_append]
    · intro ht hvr
      rw [h9 ht (by rw [h2]; exact hvr)]
      simp only [events, record_append, ← h5]
  | moduleFunction rest ih =>
    intro c s hp
    cases hp
  | ns isClass path absolute body rest ih1 ih2 =>
    intro c s hp hcm h
    simp only [Plain, Bool.and_eq_true, Bool.not_eq_true', List.isEmpty_eq_false_iff] at hp
    obtain ⟨⟨⟨⟨hs, ha⟩, hn⟩, hb⟩, hr⟩ := hp
    have hrel : Rel (enterNs s isClass path).tracker { parts := c.parts ++ path, sing := false, vis := .pub, modFun := false } := by
      refine ⟨h.exec, ?_, rfl, rfl, by simp [enterNs, Tracker.pushNs, Tracker.pushKind], rfl⟩
      simp only [enterNs, Tracker.pushNs, Tracker.pushKind, nsOf_pushNs, h.ns]
    obtain ⟨s1, v1, h1, h2, h3, h4⟩ := ih1 _ (enterNs s isClass path) hb rfl hrel
    have h5 : exitNs s1 = some { s1 with tracker := s.tracker } := by
      unfold exitNs Tracker.popNs
      rw [h2]
      rfl
    obtain ⟨s2, v2, h6, h7, h8, h9⟩ := ih2 c { s1 with tracker := s.tracker } hr hcm h
    refine ⟨s2, v2, by simp only [visit, h1, h5, h6], h7, ?_, ?_⟩
    · rw [h8]
      simp only
      rw [h3]
      simp [events, ha, List.filterMap_append, enterNs]
    · intro ht hvr
      simp only [Tame, Bool.and_eq_true] at ht
      rw [h9 ht.2 hvr]
      simp only
      rw [h4 ht.1 (Or.inr rfl)]
      simp [events, ha, record_append, enterNs]
  | sclass body rest ih1 ih2 =>
    intro c s hp hcm h
    simp only [Plain, Bool.and_eq_true, Bool.not_eq_true', List.isEmpty_eq_false_iff] at hp
    obtain ⟨⟨⟨hs, hn⟩, hb⟩, hr⟩ := hp
    have hrel : Rel s.tracker.enterSingleton { c with sing := true, vis := .pub, modFun := false } :=
      ⟨h.exec, h.ns, rfl, h.kind, by simp [Tracker.enterSingleton], h.modFun⟩
    obtain ⟨s1, v1, h1, h2, h3, h4⟩ := ih1 _ { s with tracker := s.tracker.enterSingleton } hb rfl hrel
    have h5 : s1.tracker.exitSingleton = some s.tracker := by
      unfold Tracker.exitSingleton
      rw [h2]
      rfl
    obtain ⟨s2, v2, h6, h7, h8, h9⟩ := ih2 c { s1 with tracker := s.tracker } hr hcm h
    refine ⟨s2, v2, by simp only [visit, h1, h5, h6], h7, ?_, ?_⟩
    · rw [h8]
      simp only
      rw [h3]
      simp [events, List.filterMap_append]
    · intro ht hvr
      simp only [Tame, Bool.and_eq_true] at ht
      rw [h9 ht.2 hvr]
      simp only
      rw [h4 ht.1 (Or.inr rfl)]
      simp [events, record_append]

end Verif.Visibility
