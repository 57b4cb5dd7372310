import Verif.Lemmas.Dfs
import Verif.Props.GraphStore
import Mathlib.Data.List.Dedup
/-! C33: method lookup chains end, list each ancestor once, and list exactly the reachable ones. -/
namespace Verif.Mro
open Verif.GraphStore Verif.Store

theorem buildMro_eq (C : Cfg) (s : State) (allow : Bool) : ∀ fuel n st, buildMro C s allow fuel n st =
    dfs (before C s allow) (fun m => included C s allow m ++ (hooked C s allow m ++ super C s allow m)) fuel n st := by
  intro fuel
  induction fuel with
  | zero => intro n st; rfl
  | succ fuel ih =>
    intro n st
    unfold buildMro dfs
    split
    · rfl
    · rw [each_congr ih]
      congr 1
      funext st1
      rw [each_append]
      rw [each_congr ih]
      congr 1
      funext st2
      rw [each_append, each_congr ih]
      congr 1
      funext st3
      rw [each_congr ih]

/-- The store answers from the facts of `l`. -/
structure Faithful (s : State) (l : Log) : Prop where
  from_ : ∀ n, ListsEdges (edgesFrom s n) (l.edges.filter (fun e => decide (e.source = n)))
  all : s.edges.all.Perm l.edges
  res : ∀ n, SpecResolution l.edges n (superclassResolution s n)
  unres : ∀ n, hasUnresolvedExplicit s n = true ↔ ∃ u ∈ l.unresolved, u.source = n ∧ u.kind = .superclass ∧ u.prov = .explicit
  list : s.unresolved = l.unresolved
  nodes : ∀ n, nodesFor s n = stableSort (leBy fun d => [d.file, d.start, d.stop])
        ((l.nodes.filter (fun x => decide (x.1 = n))).map (·.2))

/-- Every history of valid calls gives a store that answers from the facts present. -/
theorem faithful_run (ops : List Op) (hv : ∀ op ∈ ops, op.Valid) : ∃ s, run ops init = .ok s ∧ Faithful s (logOf ops) := by
  obtain ⟨s, h1, h2, _, _, h5, h6, h7, h8⟩ := c17_graph_reflects_latest ops hv
  refine ⟨s, h1, h2, (stableSort_perm _).symm.trans h5.1, ?_, h8, h7, h6⟩
  intro n
  obtain ⟨s', e, r⟩ := c16_resolution_spec ops hv n
  rw [h1] at e; cases e
  exact r

section
variable {C : Cfg} {s : State} {l : Log} (F : Faithful s l) {allow : Bool}
include F

theorem mem_edgesFrom {n : Nat} {e : Edge} : e ∈ edgesFrom s n ↔ e ∈ l.edges ∧ e.source = n := by
  rw [(F.from_ n).1.mem_iff]; simp

theorem mem_edgesOf {n : Nat} {k : Kind} {e : Edge} : e ∈ edgesOf s n k ↔ e ∈ l.edges ∧ e.source = n ∧ e.kind = k := by
  simp [edgesOf, mem_edgesFrom F, and_assoc]

omit F in
theorem allowed_iff {n : Nat} {e : Edge} : allowed C allow n e = true ↔ Permitted C allow n e := by
  unfold allowed Permitted
  cases C.universal n <;> cases allow <;> simp

theorem mem_before {n m : Nat} : m ∈ before C s allow n ↔ Mixin C l allow .prep n m := by
  simp only [before, List.mem_map, List.mem_reverse, List.mem_filter, mem_edgesOf F, allowed_iff, Mixin]
  constructor
  · rintro ⟨e, ⟨⟨h1, h2, h3⟩, h4⟩, rfl⟩; exact ⟨e, h1, h2, rfl, h3, h4⟩
  · rintro ⟨e, h1, h2, rfl, h3, h4⟩; exact ⟨e, ⟨⟨h1, h2, h3⟩, h4⟩, rfl⟩

theorem mem_included {n m : Nat} : m ∈ included C s allow n ↔ Mixin C l allow .incl n m := by
  simp only [included, List.mem_map, List.mem_reverse, List.mem_filter, mem_edgesOf F, allowed_iff, Mixin]
  constructor
  · rintro ⟨e, ⟨⟨h1, h2, h3⟩, h4⟩, rfl⟩; exact ⟨e, h1, h2, rfl, h3, h4⟩
  · rintro ⟨e, h1, h2, rfl, h3, h4⟩; exact ⟨e, ⟨⟨h1, h2, h3⟩, h4⟩, rfl⟩

theorem mem_hooked {n m : Nat} : m ∈ hooked C s allow n ↔ HookLink C l allow n m := by
  unfold HookLink
  simp only [hooked, List.mem_map, List.mem_reverse, List.mem_filter, hookEdges]
  by_cases hs : C.singleton n = true
  · simp only [hs, if_true, List.mem_flatMap, List.mem_filter, List.mem_append, mem_edgesOf F, allowed_iff, true_and]
    constructor
    · rintro ⟨h, ⟨⟨e, ⟨h1, h2⟩, h3, h4⟩, h5⟩, rfl⟩
      rcases h1 with h1 | h1
      · exact ⟨e, h1.1, h1.2.1, .inl h1.2.2, h2, h, h3.1, h3.2.1, h3.2.2, rfl, h4⟩
      · exact ⟨e, h1.1, h1.2.1, .inr h1.2.2, h2, h, h3.1, h3.2.1, h3.2.2, rfl, h4⟩
    · rintro ⟨e, h1, h2, h3, h4, h, h5, h6, h7, rfl, h8⟩
      refine ⟨h, ⟨⟨e, ⟨?_, h4⟩, ⟨h5, h6, h7⟩, h8⟩, h8⟩, rfl⟩
      rcases h3 with h3 | h3
      · exact .inl ⟨h1, h2, h3⟩
      · exact .inr ⟨h1, h2, h3⟩
  · simp [hs]

theorem mem_super {n m : Nat} : m ∈ super C s allow n ↔ SuperLink C l allow n m := by
  unfold super SuperLink provenSuperclass
  simp only [← F.unres]
  have hres := F.res n
  generalize (if C.singleton n = true then C.inst n else n) = n'
  by_cases h : hasUnresolvedExplicit s n' = true
  · simp [h]
  · simp only [h, Bool.false_eq_true, not_false_eq_true, true_and, if_false]
    constructor
    · cases hr : superclassResolution s n with
      | missing => simp
      | ambiguous => simp
      | unique e =>
        rw [hr] at hres
        simp only [Option.mem_toList, Option.map_eq_some_iff, Option.filter_eq_some_iff, Option.some.injEq]
        rintro ⟨_, ⟨rfl, h1⟩, rfl⟩
        exact ⟨e, hres, rfl, allowed_iff.mp h1⟩
    · rintro ⟨e, h1, rfl, h2⟩
      rw [spec_unique (fun _ => Iff.rfl) hres h1]
      simp [allowed_iff.mpr h2]

theorem link_iff (n m : Nat) : Link C l allow n m ↔ m ∈ before C s allow n ∨
    m ∈ included C s allow n ++ (hooked C s allow n ++ super C s allow n) := by
  simp only [List.mem_append, mem_before F, mem_included F, mem_hooked F, mem_super F, Link]

omit F in
theorem link_target {n m : Nat} (h : Link C l allow n m) : m ∈ l.edges.map (·.target) := by
  rcases h with ⟨e, h, _, rfl, _⟩ | ⟨e, h, _, rfl, _⟩ | ⟨_, _, _, _, _, _, e, h, _, _, rfl, _⟩ | ⟨_, e, h, rfl, _⟩
  · exact List.mem_map_of_mem h
  · exact List.mem_map_of_mem h
  · exact List.mem_map_of_mem h
  · exact List.mem_map_of_mem h.1.1

theorem buildMro_some (n : Nat) (st : St) : ∃ st', buildMro C s allow (enough s) n st = some st' := by
  rw [buildMro_eq]
  refine dfs_some (U := n :: l.edges.map (·.target)) ?_ _ _ _ (List.mem_cons_self) ?_
  · intro a b h
    exact List.mem_cons_of_mem _ (link_target ((link_iff F a b).mpr h))
  · have h1 : left (n :: l.edges.map (·.target)) st.vis ≤ (n :: l.edges.map (·.target)).length := List.length_filter_le _ _
    have h2 : s.edges.all.length ≤ s.edges.slots.length := List.length_filterMap_le _ _
    rw [F.all.length_eq] at h2
    simp only [List.length_cons, List.length_map] at h1
    unfold enough
    omega

theorem buildMro_res {fuel n : Nat} {st st' : St} (h : buildMro C s allow fuel n st = some st') :
    ∃ new, Res (Link C l allow) (before C s allow) [n] st st' new := by
  rw [buildMro_eq] at h
  exact dfs_res (link_iff F) _ _ _ _ h

end

theorem reach_iff {R : Nat → Nat → Prop} {a b : Nat} : Avoid R (· ∈ ([] : List Nat)) a b ↔ Reach R a b :=
  ⟨fun h => h.reach, fun h => h.mono (fun _ hx => (by cases hx))⟩

/-- **C33**: after any history of the graph, however cyclic, the walk for a namespace ends, and the chain lists each ancestor
once and exactly the namespaces reachable through permitted links. -/
theorem c33_walk (ops : List Op) (hv : ∀ op ∈ ops, op.Valid) (C : Cfg) (allow : Bool) (n : Nat) :
    ∃ s st, run ops init = .ok s ∧ buildMro C s allow (enough s) n ⟨[], []⟩ = some st ∧ st.chain.Nodup ∧
      ∀ x, x ∈ st.chain ↔ Reach (Link C (logOf ops) allow) n x := by
  obtain ⟨s, h1, F⟩ := faithful_run ops hv
  obtain ⟨st, h2⟩ := buildMro_some (C := C) (allow := allow) F n ⟨[], []⟩
  obtain ⟨new, r⟩ := buildMro_res F h2
  have hc : st.chain = new := by simpa using r.chain
  refine ⟨s, st, h1, h2, hc ▸ r.nodup, ?_⟩
  intro x
  rw [hc, r.mem]
  simp only [List.mem_singleton, exists_eq_left, reach_iff]

/-- **C33**: the walk that continues an earlier chain adds each new ancestor once, and adds exactly the namespaces reachable
without passing through those already listed. -/
theorem c33_walk_continues (ops : List Op) (hv : ∀ op ∈ ops, op.Valid) (C : Cfg) (allow : Bool) (n : Nat) (chain : List Nat) :
    ∃ s st new, run ops init = .ok s ∧ buildMro C s allow (enough s) n ⟨chain, chain⟩ = some st ∧ st.chain = chain ++ new ∧
      new.Nodup ∧ ∀ x, x ∈ new ↔ Avoid (Link C (logOf ops) allow) (· ∈ chain) n x := by
  obtain ⟨s, h1, F⟩ := faithful_run ops hv
  obtain ⟨st, h2⟩ := buildMro_some (C := C) (allow := allow) F n ⟨chain, chain⟩
  obtain ⟨new, r⟩ := buildMro_res F h2
  refine ⟨s, st, new, h1, h2, r.chain, r.nodup, ?_⟩
  intro x
  rw [r.mem]
  simp

/-- **C33**: in every chain, whatever is prepended to a listed ancestor comes before it, unless the ancestor is itself
reachable from what is prepended (a cycle). -/
theorem c33_prepends_first (ops : List Op) (hv : ∀ op ∈ ops, op.Valid) (C : Cfg) (allow : Bool) (n : Nat) {s : State} {st : St}
    (hs : run ops init = .ok s) (h : buildMro C s allow (enough s) n ⟨[], []⟩ = some st) {x p : Nat} (hx : x ∈ st.chain)
    (hp : Mixin C (logOf ops) allow .prep x p) (hcyc : ¬ Reach (Link C (logOf ops) allow) p x) : Before st.chain p x := by
  obtain ⟨s', h1, F⟩ := faithful_run ops hv
  rw [hs] at h1; cases h1
  obtain ⟨new, r⟩ := buildMro_res F h
  have hc : st.chain = new := by simpa using r.chain
  rw [hc] at hx ⊢
  rcases r.order x hx p ((mem_before F).mpr hp) with h' | h' | h'
  · cases h'
  · exact absurd h' hcyc
  · exact h'

theorem each_split {R : Nat → Nat → Prop} {pre : Nat → List Nat} {f : Nat → St → Option St}
    (hf : ∀ m st st', f m st = some st' → ∃ new, Res R pre [m] st st' new) {l l' : List Nat} {st st' : St}
    (h : each f (l ++ l') st = some st') : ∃ st1 n1 n2, each f l st = some st1 ∧ each f l' st1 = some st' ∧
      Res R pre l st st1 n1 ∧ Res R pre l' st1 st' n2 := by
  rw [each_append] at h
  cases h1 : each f l st with
  | none => rw [h1] at h; cases h
  | some st1 =>
    rw [h1] at h
    obtain ⟨n1, r1⟩ := each_res hf _ _ _ h1
    obtain ⟨n2, r2⟩ := each_res hf _ _ _ h
    exact ⟨st1, n1, n2, rfl, h, r1, r2⟩

/-- The four parts of a chain and the states between them. -/
theorem sections {C : Cfg} {s : State} {l : Log} (F : Faithful s l) {allow : Bool} {fuel n : Nat} {st : St}
    (h : buildMro C s allow fuel n ⟨[], []⟩ = some st) :
    ∃ a b c d st1 st2 st3, st.chain = a ++ n :: (b ++ (c ++ d)) ∧
      each (buildMro C s allow (fuel - 1)) (before C s allow n) ⟨[], [n]⟩ = some st1 ∧
      Res (Link C l allow) (before C s allow) (before C s allow n) ⟨[], [n]⟩ st1 a ∧
      each (buildMro C s allow (fuel - 1)) (included C s allow n) { st1 with chain := st1.chain ++ [n] } = some st2 ∧
      Res (Link C l allow) (before C s allow) (included C s allow n) { st1 with chain := st1.chain ++ [n] } st2 b ∧
      Res (Link C l allow) (before C s allow) (hooked C s allow n) st2 st3 c ∧
      Res (Link C l allow) (before C s allow) (super C s allow n) st3 st d := by
  cases fuel with
  | zero => cases h
  | succ fuel =>
    unfold buildMro at h
    simp only [List.not_mem_nil, if_false, Option.bind_eq_some_iff] at h
    obtain ⟨st1, h1, st2, h2, st3, h3, h4⟩ := h
    have hf : ∀ m st st', buildMro C s allow fuel m st = some st' → ∃ new, Res (Link C l allow) (before C s allow) [m] st st' new :=
      fun _ _ _ h => buildMro_res F h
    obtain ⟨a, r1⟩ := each_res hf _ _ _ h1
    obtain ⟨b, r2⟩ := each_res hf _ _ _ h2
    obtain ⟨c, r3⟩ := each_res hf _ _ _ h3
    obtain ⟨d, r4⟩ := each_res hf _ _ _ h4
    refine ⟨a, b, c, d, st1, st2, st3, ?_, h1, r1, h2, r2, r3, r4⟩
    rw [r4.chain, r3.chain, r2.chain]
    simp only
    rw [r1.chain]
    simp

/-- **C33**: the order of a chain.  First come the prepended modules (with everything reachable from them), then the namespace
itself, then the included modules, then the modules gained by inclusion hooks, then the superclass, each part with
everything reachable from it that was not listed before. -/
theorem c33_order (ops : List Op) (hv : ∀ op ∈ ops, op.Valid) (C : Cfg) (allow : Bool) (n : Nat) {s : State} {st : St}
    (hs : run ops init = .ok s) (h : buildMro C s allow (enough s) n ⟨[], []⟩ = some st) :
    ∃ a b c d, st.chain = a ++ n :: (b ++ (c ++ d)) ∧
      (∀ x, x ∈ a ↔ ∃ p, Mixin C (logOf ops) allow .prep n p ∧ Avoid (Link C (logOf ops) allow) (· = n) p x) ∧
      (∀ x, x ∈ b ↔ ∃ p, Mixin C (logOf ops) allow .incl n p ∧ Avoid (Link C (logOf ops) allow) (· ∈ a ++ [n]) p x) ∧
      (∀ x, x ∈ c ↔ ∃ p, HookLink C (logOf ops) allow n p ∧ Avoid (Link C (logOf ops) allow) (· ∈ a ++ n :: b) p x) ∧
      (∀ x, x ∈ d ↔ ∃ p, SuperLink C (logOf ops) allow n p ∧ Avoid (Link C (logOf ops) allow) (· ∈ a ++ n :: (b ++ c)) p x) := by
  obtain ⟨s', h1, F⟩ := faithful_run ops hv
  rw [hs] at h1; cases h1
  obtain ⟨a, b, c, d, st1, st2, st3, hc, _, r1, _, r2, r3, r4⟩ := sections F h
  have e1 : (fun x => x ∈ st1.vis) = (fun x => x ∈ a ++ [n]) := by
    funext x; rw [r1.vis]; simp [or_comm]
  have e2 : (fun x => x ∈ st2.vis) = (fun x => x ∈ a ++ n :: b) := by
    funext x; rw [r2.vis]; simp only [r1.vis]; simp only [List.mem_append, List.mem_cons, List.not_mem_nil, or_false, eq_iff_iff]; tauto
  have e3 : (fun x => x ∈ st3.vis) = (fun x => x ∈ a ++ n :: (b ++ c)) := by
    funext x; rw [r3.vis, r2.vis]; simp only [r1.vis]
    simp only [List.mem_append, List.mem_cons, List.not_mem_nil, or_false, eq_iff_iff]; tauto
  refine ⟨a, b, c, d, hc, ?_, ?_, ?_, ?_⟩
  · intro x
    rw [r1.mem]
    simp only [mem_before F, List.mem_singleton]
  · intro x
    rw [r2.mem]
    simp only [mem_included F, e1]
  · intro x
    rw [r3.mem]
    simp only [mem_hooked F, e2]
  · intro x
    rw [r4.mem]
    simp only [mem_super F, e3]

/-- **C33**: a module included later comes before one included earlier, unless the earlier one is reachable from something
prepended or included later. -/
theorem c33_later_include_first (ops : List Op) (hv : ∀ op ∈ ops, op.Valid) (C : Cfg) (allow : Bool) (n : Nat) {s : State}
    {st : St} (hs : run ops init = .ok s) (h : buildMro C s allow (enough s) n ⟨[], []⟩ = some st) {e e' : Edge}
    (he : e ∈ (logOf ops).edges) (he' : e' ∈ (logOf ops).edges) (hk : e.kind = .incl ∧ e'.kind = .incl)
    (hsrc : e.source = n ∧ e'.source = n) (hp : Permitted C allow n e ∧ Permitted C allow n e') (hlt : edgeLt e e')
    (hself : e.target ≠ n) (hpre : ∀ p, Mixin C (logOf ops) allow .prep n p → ¬ Reach (Link C (logOf ops) allow) p e.target)
    (hlater : ∀ d ∈ (logOf ops).edges, d.source = n → d.kind = .incl → edgeLt e d →
      ¬ Reach (Link C (logOf ops) allow) d.target e.target) :
    Before st.chain e'.target e.target := by
  obtain ⟨s', h1, F⟩ := faithful_run ops hv
  rw [hs] at h1; cases h1
  obtain ⟨a, b, c, d, st1, st2, st3, hc, hb, r1, h2, r2, r3, r4⟩ := sections F h
  -- the edges in order
  have hsorted : ((edgesOf s n .incl).filter (allowed C allow n)).Pairwise (fun a b => edgeLt a b ∨ a = b) :=
    ((F.from_ n).2.filter _).filter _
  have hmem : ∀ x, x ∈ (edgesOf s n .incl).filter (allowed C allow n) ↔
      (x ∈ (logOf ops).edges ∧ x.source = n ∧ x.kind = .incl) ∧ Permitted C allow n x := by
    intro x; rw [List.mem_filter, mem_edgesOf F, allowed_iff]
  have hmE := (hmem e).mpr ⟨⟨he, hsrc.1, hk.1⟩, hp.1⟩
  have hmE' := (hmem e').mpr ⟨⟨he', hsrc.2, hk.2⟩, hp.2⟩
  unfold included at h2
  generalize (edgesOf s n .incl).filter (allowed C allow n) = L at hsorted hmem hmE hmE' h2
  obtain ⟨as, bs, hsplit, hnot⟩ := List.eq_append_cons_of_mem (List.mem_reverse.mpr hmE)
  rw [hsplit, List.map_append, List.map_cons] at h2
  have hrev : L.reverse.Pairwise (fun a b => edgeLt b a ∨ b = a) := List.pairwise_reverse.mpr hsorted
  rw [hsplit, List.pairwise_append] at hrev
  obtain ⟨_, hrev2, hrev3⟩ := hrev
  have hasy : ∀ x, edgeLt e x → edgeLt x e ∨ x = e → False := by
    intro x hx hx'
    have := edgeLe_anti e x ((edgeLe_iff _ _).mpr (.inl hx)) ((edgeLe_iff _ _).mpr hx')
    subst this
    unfold edgeLt at hx
    omega
  have he'as : e' ∈ as := by
    have : e' ∈ as ++ e :: bs := hsplit ▸ List.mem_reverse.mpr hmE'
    rcases List.mem_append.mp this with h | h
    · exact h
    · exfalso
      rcases List.mem_cons.mp h with h | h
      · exact hasy e' hlt (.inr h)
      · exact hasy e' hlt ((List.pairwise_cons.mp hrev2).1 e' h)
  have hf : ∀ m st st', buildMro C s allow (enough s - 1) m st = some st' →
      ∃ new, Res (Link C (logOf ops) allow) (before C s allow) [m] st st' new := fun _ _ _ h => buildMro_res F h
  obtain ⟨stm, n1, n2, _, _, q1, q2⟩ := each_split hf h2
  have hchain : st.chain = (a ++ n :: n1) ++ (n2 ++ (c ++ d)) := by
    rw [r4.chain, r3.chain, q2.chain, q1.chain]; simp only; rw [r1.chain]; simp
  have hvm : ∀ x, x ∈ stm.vis ↔ x ∈ a ++ n :: n1 := by
    intro x; rw [q1.vis]; simp only [r1.vis]
    simp only [List.mem_append, List.mem_cons, List.not_mem_nil, or_false]; tauto
  have hin : e'.target ∈ a ++ n :: n1 := (hvm _).mp (q1.roots _ (List.mem_map_of_mem he'as))
  have hout : e.target ∉ a ++ n :: n1 := by
    intro hm
    rcases List.mem_append.mp hm with h | h
    · obtain ⟨r, hr, ha⟩ := r1.sound _ h
      exact hpre r ((mem_before F).mp hr) ha.reach
    · rcases List.mem_cons.mp h with h | h
      · exact hself h
      · obtain ⟨r, hr, ha⟩ := q1.sound _ h
        obtain ⟨x, hx, rfl⟩ := List.mem_map.mp hr
        have hxL : x ∈ L := List.mem_reverse.mp (hsplit ▸ List.mem_append_left _ hx)
        obtain ⟨⟨m1, m2, m3⟩, _⟩ := (hmem x).mp hxL
        rcases hrev3 x hx e (List.mem_cons_self) with h' | h'
        · exact hlater x m1 m2 m3 h' ha.reach
        · subst h'; exact hnot hx
  have hn2 : e.target ∈ n2 := by
    have := q2.roots e.target (List.mem_cons_self)
    rcases (q2.vis _).mp this with h | h
    · exact absurd ((hvm _).mp h) hout
    · exact h
  rw [hchain]
  exact before_of hin (List.mem_append_left _ hn2)

/-- **C33**: a module prepended later comes before one prepended earlier, unless the earlier one is reachable from something
prepended later. -/
theorem c33_later_prepend_first (ops : List Op) (hv : ∀ op ∈ ops, op.Valid) (C : Cfg) (allow : Bool) (n : Nat) {s : State}
    {st : St} (hs : run ops init = .ok s) (h : buildMro C s allow (enough s) n ⟨[], []⟩ = some st) {e e' : Edge}
    (he : e ∈ (logOf ops).edges) (he' : e' ∈ (logOf ops).edges) (hk : e.kind = .prep ∧ e'.kind = .prep)
    (hsrc : e.source = n ∧ e'.source = n) (hp : Permitted C allow n e ∧ Permitted C allow n e') (hlt : edgeLt e e')
    (hself : e.target ≠ n) (hself' : e'.target ≠ n)
    (hlater : ∀ d ∈ (logOf ops).edges, d.source = n → d.kind = .prep → edgeLt e d →
      ¬ Reach (Link C (logOf ops) allow) d.target e.target) :
    Before st.chain e'.target e.target := by
  obtain ⟨s', h1, F⟩ := faithful_run ops hv
  rw [hs] at h1; cases h1
  obtain ⟨a, b, c, d, st1, st2, st3, hc, h2, r1, _, r2, r3, r4⟩ := sections F h
  -- the edges in order
  have hsorted : ((edgesOf s n .prep).filter (allowed C allow n)).Pairwise (fun a b => edgeLt a b ∨ a = b) :=
    ((F.from_ n).2.filter _).filter _
  have hmem : ∀ x, x ∈ (edgesOf s n .prep).filter (allowed C allow n) ↔
      (x ∈ (logOf ops).edges ∧ x.source = n ∧ x.kind = .prep) ∧ Permitted C allow n x := by
    intro x; rw [List.mem_filter, mem_edgesOf F, allowed_iff]
  have hmE := (hmem e).mpr ⟨⟨he, hsrc.1, hk.1⟩, hp.1⟩
  have hmE' := (hmem e').mpr ⟨⟨he', hsrc.2, hk.2⟩, hp.2⟩
  unfold before at h2
  generalize (edgesOf s n .prep).filter (allowed C allow n) = L at hsorted hmem hmE hmE' h2
  obtain ⟨as, bs, hsplit, hnot⟩ := List.eq_append_cons_of_mem (List.mem_reverse.mpr hmE)
  rw [hsplit, List.map_append, List.map_cons] at h2
  have hrev : L.reverse.Pairwise (fun a b => edgeLt b a ∨ b = a) := List.pairwise_reverse.mpr hsorted
  rw [hsplit, List.pairwise_append] at hrev
  obtain ⟨_, hrev2, hrev3⟩ := hrev
  have hasy : ∀ x, edgeLt e x → edgeLt x e ∨ x = e → False := by
    intro x hx hx'
    have := edgeLe_anti e x ((edgeLe_iff _ _).mpr (.inl hx)) ((edgeLe_iff _ _).mpr hx')
    subst this
    unfold edgeLt at hx
    omega
  have he'as : e' ∈ as := by
    have : e' ∈ as ++ e :: bs := hsplit ▸ List.mem_reverse.mpr hmE'
    rcases List.mem_append.mp this with h | h
    · exact h
    · exfalso
      rcases List.mem_cons.mp h with h | h
      · exact hasy e' hlt (.inr h)
      · exact hasy e' hlt ((List.pairwise_cons.mp hrev2).1 e' h)
  have hf : ∀ m st st', buildMro C s allow (enough s - 1) m st = some st' →
      ∃ new, Res (Link C (logOf ops) allow) (before C s allow) [m] st st' new := fun _ _ _ h => buildMro_res F h
  obtain ⟨stm, n1, n2, _, _, q1, q2⟩ := each_split hf h2
  have hchain : st.chain = n1 ++ (n2 ++ n :: (b ++ (c ++ d))) := by
    have : a = n1 ++ n2 := by
      have := r1.chain
      rw [q2.chain, q1.chain] at this
      simpa using this.symm
    rw [hc, this]; simp
  have hvm : ∀ x, x ∈ stm.vis ↔ x ∈ n1 ∨ x = n := by
    intro x; rw [q1.vis]
    simp only [List.mem_cons, List.not_mem_nil, or_false]; tauto
  have hne : e'.target ≠ n := hself'
  have hin : e'.target ∈ n1 := ((hvm _).mp (q1.roots _ (List.mem_map_of_mem he'as))).resolve_right hne
  have hout : ¬ (e.target ∈ n1 ∨ e.target = n) := by
    intro hm
    rcases hm with h | h
    · obtain ⟨r, hr, ha⟩ := q1.sound _ h
      obtain ⟨x, hx, rfl⟩ := List.mem_map.mp hr
      have hxL : x ∈ L := List.mem_reverse.mp (hsplit ▸ List.mem_append_left _ hx)
      obtain ⟨⟨m1, m2, m3⟩, _⟩ := (hmem x).mp hxL
      rcases hrev3 x hx e (List.mem_cons_self) with h' | h'
      · exact hlater x m1 m2 m3 h' ha.reach
      · subst h'; exact hnot hx
    · exact hself h
  have hn2 : e.target ∈ n2 := by
    have := q2.roots e.target (List.mem_cons_self)
    rcases (q2.vis _).mp this with h | h
    · exact absurd ((hvm _).mp h) hout
    · exact h
  rw [hchain]
  exact before_of hin (List.mem_append_left _ hn2)

/-! ### the whole chain -/

theorem link_mono {C : Cfg} {l : Log} {allow : Bool} {n m : Nat} (h : Link C l false n m) : Link C l allow n m := by
  have hp : ∀ e, Permitted C false n e → Permitted C allow n e := by
    intro e h hu
    rcases h hu with h | h
    · cases h
    · exact .inr h
  rcases h with ⟨e, h1, h2, h3, h4, h5⟩ | ⟨e, h1, h2, h3, h4, h5⟩ | ⟨h0, e, h1, h2, h3, h4, e', h5, h6, h7, h8, h9⟩ | ⟨h0, e, h1, h2, h3⟩
  · exact .inl ⟨e, h1, h2, h3, h4, hp _ h5⟩
  · exact .inr (.inl ⟨e, h1, h2, h3, h4, hp _ h5⟩)
  · exact .inr (.inr (.inl ⟨h0, e, h1, h2, h3, hp _ h4, e', h5, h6, h7, h8, hp _ h9⟩))
  · exact .inr (.inr (.inr ⟨h0, e, h1, h2, hp _ h3⟩))

/-- Avoiding a closed set only excludes the set itself. -/
theorem avoid_closed {R : Nat → Nat → Prop} {V : Nat → Prop} (hV : ∀ a b, V a → R a b → V b) {a x : Nat} :
    Avoid R V a x ↔ Reach R a x ∧ ¬ V x := by
  constructor
  · exact fun h => ⟨h.reach, h.right⟩
  · rintro ⟨h, hx⟩
    induction h with
    | refl _ => exact .refl hx
    | step _ r _ ih => exact .step (ih fun hm => hx (hV _ _ hm r)) r hx

theorem append_spec (m : List Nat) (st : St) (hv : ∀ x, x ∈ st.vis ↔ x ∈ st.chain) (hn : st.chain.Nodup) :
    (append m st).chain.Nodup ∧ (∀ x, x ∈ (append m st).vis ↔ x ∈ (append m st).chain) ∧
      ∀ x, x ∈ (append m st).chain ↔ x ∈ st.chain ∨ x ∈ m := by
  induction m generalizing st with
  | nil => exact ⟨hn, hv, by simp [append]⟩
  | cons a m ih =>
    unfold append
    split
    · rename_i ha
      obtain ⟨h1, h2, h3⟩ := ih st hv hn
      refine ⟨h1, h2, ?_⟩
      intro x
      rw [h3, List.mem_cons]
      constructor
      · rintro (h | h)
        · exact .inl h
        · exact .inr (.inr h)
      · rintro (h | h | h)
        · exact .inl h
        · exact .inl (h ▸ (hv a).mp ha)
        · exact .inr h
    · rename_i ha
      have ha' : a ∉ st.chain := fun h => ha ((hv a).mpr h)
      obtain ⟨h1, h2, h3⟩ := ih { chain := st.chain ++ [a], vis := a :: st.vis }
        (by intro x; simp [hv, or_comm])
        (by
          rw [List.nodup_append]
          refine ⟨hn, by simp, ?_⟩
          intro x hx y hy hxy
          simp only [List.mem_singleton] at hy
          subst hy; subst hxy
          exact ha' hx)
      refine ⟨h1, h2, ?_⟩
      intro x
      rw [h3]
      simp only [List.mem_append, List.mem_cons, List.not_mem_nil, or_false, or_assoc]

section
variable {C : Cfg} {s : State} {l : Log} (F : Faithful s l)
include F

theorem mem_depTargets {n m : Nat} : m ∈ depTargets s n ↔ DepLink l n m := by
  simp only [depTargets, List.mem_map, List.mem_filter, mem_edgesFrom F, DepLink, decide_eq_true_eq]
  constructor
  · rintro ⟨e, ⟨⟨h1, h2⟩, h3⟩, rfl⟩; exact ⟨e, h1, h2, rfl, h3⟩
  · rintro ⟨e, h1, h2, rfl, h3⟩; exact ⟨e, ⟨⟨h1, h2⟩, h3⟩, rfl⟩

theorem depStops_iff (n : Nat) : depStops C s n = true ↔ Doubt C l n := by
  have hr := F.res n
  simp only [depStops, Doubt, Bool.or_eq_true, decide_eq_true_eq, List.any_eq_true, Bool.and_eq_true, F.list]
  refine or_congr ⟨fun h => h ▸ hr, fun h => spec_unique (fun _ => Iff.rfl) hr h⟩ Iff.rfl

omit F in
theorem last_visit {R : Nat → Nat → Prop} {v : List Nat} {n r x : Nat} (h : Avoid R (· ∈ v) r x) (hx : x ≠ n) :
    Avoid R (· ∈ n :: v) r x ∨ ∃ r', R n r' ∧ Avoid R (· ∈ n :: v) r' x := by
  induction h with
  | refl h => exact .inl (.refl (by simp [hx, h]))
  | @step m k _ rr hk ih =>
    by_cases hm : m = n
    · subst hm
      exact .inr ⟨k, rr, .refl (by simp [hx, hk])⟩
    · have hk' : ¬ (k ∈ n :: v) := by simp [hx, hk]
      rcases ih hm with h | ⟨r', h1, h2⟩
      · exact .inl (.step h rr hk')
      · exact .inr ⟨r', h1, .step h2 rr hk'⟩

theorem depWalk_iff : ∀ fuel pending vis b, depWalk C s fuel pending vis = some b →
    (b = true ↔ ∃ r ∈ pending, ∃ x, Avoid (DepLink l) (· ∈ vis) r x ∧ Doubt C l x) := by
  intro fuel
  induction fuel with
  | zero =>
    intro pending vis b h
    cases pending with
    | nil => simp only [depWalk, Option.some.injEq] at h; subst h; simp
    | cons n p => cases h
  | succ fuel ih =>
    intro pending vis b h
    cases pending with
    | nil => simp only [depWalk, Option.some.injEq] at h; subst h; simp
    | cons n p =>
      unfold depWalk at h
      split at h
      · rename_i hn
        rw [ih _ _ _ h]
        constructor
        · rintro ⟨r, hr, hx⟩; exact ⟨r, List.mem_cons_of_mem _ hr, hx⟩
        · rintro ⟨r, hr, x, hx, hd⟩
          rcases List.mem_cons.mp hr with rfl | hr
          · exact absurd hn hx.left
          · exact ⟨r, hr, x, hx, hd⟩
      · rename_i hn
        split at h
        · rename_i hd
          simp only [Option.some.injEq] at h
          subst h
          simp only [true_iff]
          exact ⟨n, List.mem_cons_self, n, .refl hn, (depStops_iff F n).mp hd⟩
        · rename_i hd
          rw [depStops_iff F] at hd
          rw [ih _ _ _ h]
          simp only [List.mem_append, List.mem_reverse, mem_depTargets F]
          constructor
          · rintro ⟨r, hr, x, hx, hdx⟩
            have hx' := hx.mono (W := (· ∈ vis)) (fun y hy => List.mem_cons_of_mem _ hy)
            rcases hr with hr | hr
            · exact ⟨n, List.mem_cons_self, x, hx'.head hn hr, hdx⟩
            · exact ⟨r, List.mem_cons_of_mem _ hr, x, hx', hdx⟩
          · rintro ⟨r, hr, x, hx, hdx⟩
            have hxn : x ≠ n := by rintro rfl; exact hd hdx
            rcases last_visit hx hxn with h' | ⟨r', h1, h2⟩
            · rcases List.mem_cons.mp hr with rfl | hr
              · exact absurd (List.mem_cons_self) h'.left
              · exact ⟨r, .inr hr, x, h', hdx⟩
            · exact ⟨r', .inl h1, x, h2, hdx⟩

omit F in
theorem cost_cons {U v : List Nat} {n : Nat} (f : Nat → Nat) (hU : U.Nodup) (hn : n ∈ U) (hv : n ∉ v) :
    ((U.filter (fun x => decide (x ∉ n :: v))).map f).sum + f n = ((U.filter (fun x => decide (x ∉ v))).map f).sum := by
  induction U with
  | nil => cases hn
  | cons a U ih =>
    obtain ⟨haU, hU'⟩ := List.nodup_cons.mp hU
    simp only [List.filter_cons]
    by_cases ha : a = n
    · subst ha
      have : U.filter (fun x => decide (x ∉ a :: v)) = U.filter (fun x => decide (x ∉ v)) := by
        apply List.filter_congr
        intro x hx
        have : x ≠ a := by rintro rfl; exact haU hx
        simp [this]
      simp [hv]
      simp only [List.mem_cons] at this
      simp at this
      rw [this]
      omega
    · have hn' : n ∈ U := (List.mem_cons.mp hn).resolve_left (fun h => ha h.symm)
      have := ih hU' hn'
      by_cases hav : a ∈ v <;> simp [List.mem_cons, ha, hav] at this ⊢ <;> omega

omit F in
theorem depWalk_some {U : List Nat} (hU : U.Nodup) (hcl : ∀ n m, m ∈ depTargets s n → m ∈ U) : ∀ fuel pending vis,
    (∀ p ∈ pending, p ∈ U) →
    pending.length + ((U.filter (fun x => decide (x ∉ vis))).map (fun m => (depTargets s m).length)).sum ≤ fuel →
    ∃ b, depWalk C s fuel pending vis = some b := by
  intro fuel
  induction fuel with
  | zero =>
    intro pending vis hp h
    cases pending with
    | nil => exact ⟨false, rfl⟩
    | cons n p => simp at h
  | succ fuel ih =>
    intro pending vis hp h
    cases pending with
    | nil => exact ⟨false, rfl⟩
    | cons n p =>
      unfold depWalk
      simp only [List.length_cons] at h
      split
      · exact ih p vis (fun x hx => hp x (List.mem_cons_of_mem _ hx)) (by omega)
      · rename_i hn
        split
        · exact ⟨true, rfl⟩
        · have hc := cost_cons (v := vis) (fun m => (depTargets s m).length) hU (hp n List.mem_cons_self) hn
          refine ih _ _ ?_ ?_
          · intro x hx
            rcases List.mem_append.mp hx with h | h
            · exact hcl n x (List.mem_reverse.mp h)
            · exact hp x (List.mem_cons_of_mem _ h)
          · simp only [List.length_append, List.length_reverse]
            omega

theorem unresolvedDependency_spec (n : Nat) :
    ∃ b, unresolvedDependency C s n = some b ∧ (b = true ↔ Unproven C l n) := by
  obtain ⟨b, hb⟩ := depWalk_some (C := C) (s := s) (U := (n :: targets s).dedup) (List.nodup_dedup _) (by
      intro a m hm
      obtain ⟨e, he, _, rfl, _⟩ := (mem_depTargets F).mp hm
      rw [List.mem_dedup]
      exact List.mem_cons_of_mem _ (List.mem_map_of_mem (F.all.mem_iff.mpr he))) (enoughDep s n) [n] []
    (by intro p hp; rw [List.mem_singleton] at hp; subst hp; rw [List.mem_dedup]; exact List.mem_cons_self)
    (by
      have : (n :: targets s).dedup.filter (fun x => decide (x ∉ ([] : List Nat))) = (n :: targets s).dedup := by
        rw [List.filter_eq_self]; intro a _; simp
      rw [this]; simp [enoughDep])
  refine ⟨b, hb, ?_⟩
  rw [depWalk_iff F _ _ _ _ hb]
  simp only [List.mem_singleton, exists_eq_left, reach_iff, Unproven]

theorem known_iff (n : Nat) : (nodesFor s n).isEmpty = false ↔ Known l n := by
  rw [F.nodes]
  have hp := stableSort_perm (le := leBy fun d : Def => [d.file, d.start, d.stop]) ((l.nodes.filter (fun x => decide (x.1 = n))).map (·.2))
  rw [hp.isEmpty_eq]
  simp only [Known, List.isEmpty_eq_false_iff, ne_eq, List.map_eq_nil_iff, List.filter_eq_nil_iff, decide_eq_true_eq]
  push Not
  exact Iff.rfl

theorem moduleInstance_iff (n : Nat) : moduleInstance C s n = true ↔
    C.singleton n = false ∧ ∃ y ∈ l.nodes, y.1 = n ∧ y.2.kind = kindModule := by
  unfold moduleInstance
  rw [F.nodes]
  simp only [Bool.and_eq_true, Bool.not_eq_true', List.any_eq_true, decide_eq_true_eq, mem_stableSort, List.mem_map, List.mem_filter]
  refine and_congr Iff.rfl ?_
  constructor
  · rintro ⟨d, ⟨y, ⟨h1, h2⟩, rfl⟩, h3⟩; exact ⟨y, h1, h2, h3⟩
  · rintro ⟨y, h1, h2, h3⟩; exact ⟨y.2, ⟨y, ⟨h1, h2⟩, rfl⟩, h3⟩

theorem nodeKind_eq (n : Nat) : nodeKind s n = firstKind l n := by
  unfold nodeKind firstKind
  rw [F.nodes]

theorem walk_spec (allow : Bool) (n : Nat) : ∃ st, buildMro C s allow (enough s) n ⟨[], []⟩ = some st ∧ st.chain.Nodup ∧
    (∀ x, x ∈ st.vis ↔ x ∈ st.chain) ∧ ∀ x, x ∈ st.chain ↔ Reach (Link C l allow) n x := by
  obtain ⟨st, h⟩ := buildMro_some (C := C) (allow := allow) F n ⟨[], []⟩
  obtain ⟨new, r⟩ := buildMro_res F h
  have hc : st.chain = new := by simpa using r.chain
  refine ⟨st, h, hc ▸ r.nodup, ?_, ?_⟩
  · intro x; rw [r.vis, hc]; simp
  · intro x; rw [hc, r.mem]; simp only [List.mem_singleton, exists_eq_left, reach_iff]

/-- A walk that continues a chain closed under its links. -/
theorem walk_more (allow : Bool) (n : Nat) (st : St) (hv : ∀ x, x ∈ st.vis ↔ x ∈ st.chain) (hn : st.chain.Nodup)
    (hcl : ∀ a b, a ∈ st.chain → Link C l allow a b → b ∈ st.chain) :
    ∃ st', buildMro C s allow (enough s) n st = some st' ∧ st'.chain.Nodup ∧ (∀ x, x ∈ st'.vis ↔ x ∈ st'.chain) ∧
      ∀ x, x ∈ st'.chain ↔ x ∈ st.chain ∨ Reach (Link C l allow) n x := by
  obtain ⟨st', h⟩ := buildMro_some (C := C) (allow := allow) F n st
  obtain ⟨new, r⟩ := buildMro_res F h
  refine ⟨st', h, ?_, ?_, ?_⟩
  · rw [r.chain, List.nodup_append]
    refine ⟨hn, r.nodup, ?_⟩
    intro a ha b hb hab
    subst hab
    exact r.fresh a hb ((hv a).mpr ha)
  · intro x; rw [r.vis, r.chain, List.mem_append, hv]
  · intro x
    rw [r.chain, List.mem_append, r.mem]
    simp only [List.mem_singleton, exists_eq_left]
    rw [avoid_closed (fun a b ha hab => (hv b).mpr (hcl a b ((hv a).mp ha) hab)), hv]
    tauto

theorem topLevel_spec : ∃ ch, topLevelFallback C s = some ch ∧
    ∀ x, x ∈ ch ↔ Reach (Link C l true) C.root x ∨ Known l C.object ∧ Reach (Link C l true) C.object x := by
  obtain ⟨st, h1, h2, h3, h4⟩ := walk_spec (C := C) F true C.root
  unfold topLevelFallback
  rw [h1]
  simp only [Option.bind_some]
  by_cases hk : (nodesFor s C.object).isEmpty = true
  · have hk' : ¬ Known l C.object := by rw [← known_iff F, hk]; simp
    refine ⟨st.chain, by simp [hk], ?_⟩
    intro x; rw [h4]; simp [hk']
  · have hk' : Known l C.object := by rw [← known_iff F]; simpa using hk
    obtain ⟨st', g1, _, _, g4⟩ := walk_more (C := C) F true C.object st h3 h2
      (fun a b ha hab => (h4 b).mpr (.step ((h4 a).mp ha) hab (fun h => h)))
    refine ⟨st'.chain, by simp [hk, g1], ?_⟩
    intro x; rw [g4, h4]; simp [hk']

theorem objectFallback_spec : ∃ ch, objectFallback C s = some ch ∧
    ∀ x, x ∈ ch ↔ Known l C.object ∧ Reach (Link C l false) C.object x := by
  unfold objectFallback
  by_cases hk : (nodesFor s C.object).isEmpty = true
  · have hk' : ¬ Known l C.object := by rw [← known_iff F, hk]; simp
    exact ⟨[], by simp [hk], by simp [hk']⟩
  · have hk' : Known l C.object := by rw [← known_iff F]; simpa using hk
    obtain ⟨st, h1, _, _, h4⟩ := walk_spec (C := C) F false C.object
    exact ⟨st.chain, by simp [hk, h1], by intro x; rw [h4]; simp [hk']⟩

theorem without_spec (n : Nat) : ∃ ch, chainWithoutMetaclass C s n = some ch ∧ ch.Nodup ∧
    ∀ x, x ∈ ch ↔ Own C l n x ∨ ByObject C l n x := by
  obtain ⟨b, hb, hb'⟩ := unresolvedDependency_spec (C := C) F n
  unfold chainWithoutMetaclass
  rw [hb]
  simp only [Option.bind_some]
  by_cases hk : (nodesFor s n).isEmpty = true
  · have hk' : ¬ Known l n := by rw [← known_iff F, hk]; simp
    by_cases hp : C.noParts n = true
    · obtain ⟨ch, h1, h2⟩ := topLevel_spec (C := C) F
      obtain ⟨a1, a2, a3⟩ := append_spec ch ⟨[], []⟩ (by simp) (by simp)
      refine ⟨(append ch ⟨[], []⟩).chain, ?_, a1, ?_⟩
      · simp only [hk, hp, if_true, h1, Option.map_some, Option.some.injEq]
        have : C.root ∈ (append ch ⟨[], []⟩).chain := by
          rw [a3, h2]; exact .inr (.inl (.refl (fun h => h)))
        rw [if_neg]
        intro he
        rw [List.isEmpty_iff] at he
        rw [he] at this
        cases this
      · intro x; rw [a3, h2]; simp [Own, ByObject, hk', hp]
    · refine ⟨[n], by simp [hk, hp], by simp, ?_⟩
      intro x; simp [Own, ByObject, hk', hp]
  · have hk' : Known l n := by rw [← known_iff F]; simpa using hk
    obtain ⟨st, h1, h2, h3, h4⟩ := walk_spec (C := C) F (C.universal n) n
    simp only [hk, Bool.false_eq_true, if_false, h1, Option.bind_some]
    by_cases hc : (decide (C.root ∉ st.chain) && !C.noParts n && (moduleInstance C s n || C.singleton n) && !b) = true
    · obtain ⟨ch, g1, g2⟩ := objectFallback_spec (C := C) F
      obtain ⟨a1, a2, a3⟩ := append_spec ch st h3 h2
      refine ⟨(append ch st).chain, by simp only [hc, if_true, g1, Option.map_some], a1, ?_⟩
      simp only [Bool.and_eq_true, decide_eq_true_eq, Bool.not_eq_true', Bool.or_eq_true, moduleInstance_iff F, h4] at hc
      obtain ⟨⟨⟨c1, c2⟩, c3⟩, c4⟩ := hc
      have c4' : ¬ Unproven C l n := by rw [← hb', c4]; simp
      have c3' : C.singleton n = true ∨ ∃ y ∈ l.nodes, y.1 = n ∧ y.2.kind = kindModule := by tauto
      intro x
      rw [a3, g2, h4]
      simp only [Own, ByObject, hk', c1, c2, c3', c4', not_true_eq_false, true_and, false_and, or_false, not_false_eq_true]
    · refine ⟨st.chain, by simp only [hc, Bool.false_eq_true, if_false], h2, ?_⟩
      intro x
      have hno : ¬ ByObject C l n x := by
        rintro ⟨_, c1, c2, c3, c4, _, _⟩
        apply hc
        simp only [Bool.and_eq_true, decide_eq_true_eq, Bool.not_eq_true', Bool.or_eq_true, moduleInstance_iff F, h4]
        refine ⟨⟨⟨c1, c2⟩, ?_⟩, ?_⟩
        · cases hs : C.singleton n with
          | true => exact .inr rfl
          | false =>
            rw [hs] at c3
            rcases c3 with c3 | c3
            · cases c3
            · exact .inl ⟨rfl, c3⟩
        · rw [← hb'] at c4; simpa using c4
      rw [h4]
      simp only [Own, hk', hno, not_true_eq_false, true_and, false_and, or_false]

theorem lookup_spec (n : Nat) : ∃ ch, lookupChain C s n = some ch ∧ ch.Nodup ∧
    ∀ x, x ∈ ch ↔ Own C l n x ∨ ByObject C l n x ∨ ByMetaclass C l n x := by
  obtain ⟨ch, h1, h2, h3⟩ := without_spec (C := C) F n
  unfold lookupChain
  rw [h1]
  simp only [Option.bind_some]
  have hnone : metaclass C s n = none → ∀ x, ¬ ByMetaclass C l n x := by
    rintro h x ⟨m1, k, m2, m3, _⟩
    unfold metaclass at h
    rw [nodeKind_eq F, m1, m2] at h
    have m3' := (known_iff F _).mpr m3
    simp [m3'] at h
  cases hm : metaclass C s n with
  | none =>
    refine ⟨ch, rfl, h2, ?_⟩
    intro x; rw [h3]; simp [hnone hm x]
  | some m =>
    unfold metaclass at hm
    split at hm
    · rename_i hs
      split at hm
      · cases hm
      · rename_i k hk
        by_cases hkn : (nodesFor s (if k = kindClass then C.cls else C.modl)).isEmpty = true
        · simp only [hkn, if_true, reduceCtorEq] at hm
        · simp only [hkn, Bool.false_eq_true, if_false, Option.some.injEq] at hm
          have hkn' : Known l (if k = kindClass then C.cls else C.modl) := by rw [← known_iff F]; simpa using hkn
          have hkn2 : Known l n := by
            rw [← known_iff F]
            unfold nodeKind at hk
            cases hl : nodesFor s n with
            | nil => rw [hl] at hk; cases hk
            | cons a t => rfl
          obtain ⟨st', g1, g2, _, g4⟩ := walk_more (C := C) F false m ⟨ch, ch⟩ (fun _ => Iff.rfl) h2 (by
            intro a b ha hab
            simp only [h3] at ha ⊢
            rcases ha with ha | ha
            · rcases ha with ⟨c1, c2⟩ | ⟨c1, _⟩ | ⟨c1, _⟩
              · exact .inl (.inl ⟨c1, .step c2 (link_mono hab) (fun h => h)⟩)
              · exact absurd hkn2 c1
              · exact absurd hkn2 c1
            · obtain ⟨c1, c2, c3, c4, c5, c6, c7⟩ := ha
              exact .inr ⟨c1, c2, c3, c4, c5, c6, .step c7 hab (fun h => h)⟩)
          refine ⟨st'.chain, by simp [g1], g2, ?_⟩
          intro x
          rw [g4, h3, or_assoc]
          refine or_congr Iff.rfl (or_congr Iff.rfl ?_)
          rw [nodeKind_eq F] at hk
          constructor
          · intro hx
            subst hm
            exact ⟨hs, k, hk, hkn', hx⟩
          · rintro ⟨_, k', hk', _, hx⟩
            rw [hk] at hk'
            cases hk'
            subst hm
            exact hx
    · cases hm

end

/-- **C33**: after any history of the graph the whole lookup chain of any namespace is found; it lists each ancestor once, and
exactly the namespace's own ancestors, those it has through `Object` and those of its metaclass. -/
theorem c33_chain (ops : List Op) (hv : ∀ op ∈ ops, op.Valid) (C : Cfg) (n : Nat) :
    ∃ s ch, run ops init = .ok s ∧ lookupChain C s n = some ch ∧ ch.Nodup ∧
      ∀ x, x ∈ ch ↔ Own C (logOf ops) n x ∨ ByObject C (logOf ops) n x ∨ ByMetaclass C (logOf ops) n x := by
  obtain ⟨s, h1, F⟩ := faithful_run ops hv
  obtain ⟨ch, h2, h3, h4⟩ := lookup_spec (C := C) F n
  exact ⟨s, ch, h1, h2, h3, h4⟩

/-- **C33**: whether the ancestry of a namespace is in doubt is decided exactly, on every graph. -/
theorem c33_doubt (ops : List Op) (hv : ∀ op ∈ ops, op.Valid) (C : Cfg) (n : Nat) :
    ∃ s b, run ops init = .ok s ∧ unresolvedDependency C s n = some b ∧ (b = true ↔ Unproven C (logOf ops) n) := by
  obtain ⟨s, h1, F⟩ := faithful_run ops hv
  obtain ⟨b, h2, h3⟩ := unresolvedDependency_spec (C := C) F n
  exact ⟨s, b, h1, h2, h3⟩

/-- The names of the example: even numbers are instance namespaces, odd ones their singletons. -/
def exampleCfg : Cfg :=
  { singleton := fun n => n % 2 == 1, inst := fun n => n - n % 2, noParts := fun n => decide (n < 2),
    universal := fun n => decide (n < 10), languageOwned := fun f => decide (f = 0), root := 0, object := 2, cls := 4, modl := 6 }

/-- Example: class 10 prepends 12, includes 14 and 16 (which includes 10 again) and has superclass 20, which includes 14; its
singleton 11 is extended by 18 through the hook of 14 and has the ancestors of `Class`; `Object` is mixed into by file 1
only, which counts for `Object` itself but not for others. -/
theorem c33_example :
    let e (source target : Nat) (kind : Kind) (start file : Nat) : Edge :=
      { source, target, kind, prov := .explicit, file, start, stop := 9 }
    let d (n kind file : Nat) : Op := .addNode n { kind, file, start := 0, stop := 1 }
    let ops : List Op := [d 2 0 0, d 4 0 0, d 10 0 1, d 11 0 1, d 20 0 1, d 12 1 1,
      .addEdge (e 4 2 .superclass 0 0), .addEdge (e 2 30 .incl 0 1), .addEdge (e 2 32 .incl 0 0),
      .addEdge (e 10 20 .superclass 0 1), .addEdge (e 10 14 .incl 1 1), .addEdge (e 10 16 .incl 2 1), .addEdge (e 10 12 .prep 3 1),
      .addEdge (e 16 10 .incl 0 1), .addEdge (e 20 14 .incl 5 1), .addEdge (e 14 18 .extend 0 1)]
    let chain (n : Nat) := (run ops init).state?.bind fun s => lookupChain exampleCfg s n
    chain 10 = some [12, 10, 16, 14, 20] ∧
    chain 11 = some [11, 18, 2, 32, 4] ∧
    chain 12 = some [12, 2, 32] ∧
    chain 2 = some [2, 30, 32] ∧
    chain 99 = some [99] ∧
    chain 0 = some [0, 2, 30, 32] := by
  decide

end Verif.Mro
