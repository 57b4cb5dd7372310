import Verif.Spec.EngineGraph
import Verif.Props.Mro
import Mathlib.Data.List.Induction
/-! C35: links and the history of indexing.  C46: the cached fallback chains. -/
namespace Verif.EngineGraph
open Verif.GraphStore Verif.Store Verif.Mro

section
variable {N : Names} {s : State} {l : Log} (F : Faithful s l)
include F

theorem empty_iff (n : Nat) : (nodesFor s n).isEmpty = !defined l.nodes n := by
  have h := known_iff F n
  have h2 : defined l.nodes n = true ↔ Known l n := by simp [defined, Known]
  rw [← h2] at h
  revert h
  cases (nodesFor s n).isEmpty <;> cases defined l.nodes n <;> simp

theorem noClass_iff (n : Nat) : (nodesFor s n).all (fun d => decide (d.kind ≠ kindClass)) = !definedClass l.nodes n := by
  rw [F.nodes]
  apply Bool.eq_iff_iff.mpr
  simp only [List.all_eq_true, mem_stableSort, List.mem_map, List.mem_filter, decide_eq_true_eq, Bool.not_eq_true', definedClass,
    List.any_eq_false, Bool.and_eq_true, not_and]
  constructor
  · intro h x hx hn; exact h x.2 ⟨x, ⟨hx, hn⟩, rfl⟩
  · rintro h d ⟨x, ⟨hx, hn⟩, rfl⟩; exact h x hx hn

theorem search_eq (path outer : List Nat) : search N s path outer =
    (((List.range (outer.length + 1)).reverse).map fun k => N.ns (outer.reverse.take k ++ path)).find? (defined l.nodes) := by
  induction outer with
  | nil =>
    simp only [search, empty_iff F]
    cases h : defined l.nodes (N.ns path) <;> simp [h]
  | cons x outer ih =>
    rw [search]
    simp only [empty_iff F]
    rw [List.length_cons, List.range_succ, List.reverse_append, List.reverse_singleton, List.singleton_append, List.map_cons,
      List.find?_cons]
    have e1 : (x :: outer).reverse.take (outer.length + 1) = (x :: outer).reverse := by
      apply List.take_of_length_le; simp
    rw [e1]
    cases h : defined l.nodes (N.ns ((x :: outer).reverse ++ path)) with
    | true => simp
    | false =>
      simp only [Bool.not_false, if_true, ih]
      congr 1
      apply List.map_congr_left
      intro k hk
      simp only [List.mem_reverse, List.mem_range] at hk
      rw [List.reverse_cons, List.take_append_of_le_length (by simp; omega)]

theorem resolveTarget_eq (u : Unresolved) : resolveTarget N s u = target N l.nodes u := by
  unfold resolveTarget target candidates
  simp only [search_eq F]
  cases h : (N.lookup u.target).absolute with
  | true =>
    simp only [if_true]
    cases h2 : defined l.nodes (N.ns (N.lookup u.target).path) <;> simp [h2]
  | false =>
    simp

theorem companion_eq (u : Unresolved) (t : Nat) : companion N s u t =
    if u.kind = .superclass ∧ N.cfg.singleton t = false ∧ N.cfg.singleton u.source = false ∧
          definedClass l.nodes u.source = true ∧ definedClass l.nodes t = true
    then some (N.single u.source, N.single t) else none := by
  unfold companion
  rw [noClass_iff F, noClass_iff F]
  by_cases h1 : u.kind = .superclass <;> cases N.cfg.singleton t <;> cases N.cfg.singleton u.source <;>
    cases definedClass l.nodes u.source <;> cases definedClass l.nodes t <;> simp [h1]

end

/-! ### the graph after every history -/

theorem run_append (a b : List Op) (s : State) : GraphStore.run (a ++ b) s = (GraphStore.run a s).bind (GraphStore.run b) := by
  induction a generalizing s with
  | nil => rfl
  | cons x a ih =>
    simp only [List.cons_append, GraphStore.run]
    cases apply s x with
    | ok s' => exact ih s'
    | disabled => rfl
    | panic => rfl

/-- The calls on the graph that led to a state, and what it contains. -/
def Holds (s : State) (l : Log) : Prop := ∃ ops, (∀ op ∈ ops, op.Valid) ∧ GraphStore.run ops GraphStore.init = .ok s ∧ logOf ops = l

theorem Holds.faithful {s : State} {l : Log} (h : Holds s l) : Faithful s l := by
  obtain ⟨ops, hv, hr, rfl⟩ := h
  obtain ⟨s', h1, F⟩ := faithful_run ops hv
  rw [hr] at h1; cases h1
  exact F

theorem Holds.step {s : State} {l : Log} (h : Holds s l) (op : Op) (hop : op.Valid) :
    ∃ s', apply s op = .ok s' ∧ Holds s' (logOp l op) := by
  obtain ⟨ops, hv, hr, rfl⟩ := h
  have hv' : ∀ o ∈ ops ++ [op], o.Valid := by
    intro o ho
    rcases List.mem_append.mp ho with ho | ho
    · exact hv o ho
    · rw [List.mem_singleton] at ho; exact ho ▸ hop
  obtain ⟨s', h1, _⟩ := faithful_run (ops ++ [op]) hv'
  have h1' := h1
  rw [run_append, hr] at h1
  have h2 : apply s op = .ok s' := by
    simp only [Outcome.bind, GraphStore.run] at h1
    cases ha : apply s op with
    | ok t => rw [ha] at h1; simpa using h1
    | disabled => rw [ha] at h1; cases h1
    | panic => rw [ha] at h1; cases h1
  exact ⟨s', h2, ops ++ [op], hv', h1', by simp [logOf, List.foldl_append]⟩

theorem retryOne_holds {N : Names} {s : State} {l : Log} (h : Holds s l) (u : Unresolved) :
    ∃ s', retryOne N s u = .ok s' ∧ Holds s'
      { nodes := l.nodes, edges := l.edges ++ links N l.nodes u,
        unresolved := l.unresolved ++ if (links N l.nodes u).isEmpty then [u] else [] } := by
  have F := h.faithful
  unfold retryOne
  rw [resolveTarget_eq F]
  cases ht : target N l.nodes u with
  | none =>
    obtain ⟨s', h1, h2⟩ := h.step (.addUnresolved u) trivial
    refine ⟨s', h1, ?_⟩
    simp only [links, ht, List.append_nil, List.isEmpty_nil, if_true]
    exact h2
  | some t =>
    simp only
    obtain ⟨s1, h1, h2⟩ := h.step (.addEdge (edgeOf u u.source t u.kind)) trivial
    rw [show addEdge s (edgeOf u u.source t u.kind) = apply s (.addEdge (edgeOf u u.source t u.kind)) from rfl, h1]
    simp only [Outcome.bind, companion_eq F]
    by_cases hc : u.kind = .superclass ∧ N.cfg.singleton t = false ∧ N.cfg.singleton u.source = false ∧
          definedClass l.nodes u.source = true ∧ definedClass l.nodes t = true
    · simp only [if_pos hc]
      obtain ⟨s2, h3, h4⟩ := h2.step (.addEdge (edgeOf u (N.single u.source) (N.single t) .superclass)) trivial
      refine ⟨s2, h3, ?_⟩
      simp only [links, ht, if_pos hc]
      simpa [logOp, edgeOf, linkOf] using h4
    · simp only [if_neg hc]
      refine ⟨s1, rfl, ?_⟩
      simp only [links, ht, if_neg hc]
      simpa [logOp, edgeOf, linkOf] using h2

theorem retryAll_holds {N : Names} (us : List Unresolved) {s : State} {l : Log} (h : Holds s l) :
    ∃ s', retryAll N us s = .ok s' ∧ Holds s'
      { nodes := l.nodes, edges := l.edges ++ us.flatMap (links N l.nodes),
        unresolved := l.unresolved ++ us.filter fun u => (links N l.nodes u).isEmpty } := by
  induction us generalizing s l with
  | nil => exact ⟨s, rfl, by simpa using h⟩
  | cons u us ih =>
    obtain ⟨s1, h1, h2⟩ := retryOne_holds (N := N) h u
    obtain ⟨s2, h3, h4⟩ := ih h2
    refine ⟨s2, by simp [retryAll, h1, Outcome.bind, h3], ?_⟩
    have e : (l.unresolved ++ if (links N l.nodes u).isEmpty then [u] else []) ++ us.filter (fun u => (links N l.nodes u).isEmpty) =
        l.unresolved ++ (u :: us).filter (fun u => (links N l.nodes u).isEmpty) := by
      rw [List.filter_cons]
      split <;> simp
    simp only [List.flatMap_cons]
    rw [← e, ← List.append_assoc]
    exact h4

theorem retry_holds {N : Names} {s : State} {l : Log} (h : Holds s l) :
    ∃ s', retry N s = .ok s' ∧ Holds s' (logCall N l .resolve) := by
  unfold retry
  have F := h.faithful
  split
  · rename_i he
    rw [F.list, List.isEmpty_iff] at he
    refine ⟨s, rfl, ?_⟩
    simp only [logCall, he]
    obtain ⟨ops, hv, hr, hl⟩ := h
    refine ⟨ops, hv, hr, ?_⟩
    rw [hl]
    cases l
    simp only at he
    subst he
    simp
  · obtain ⟨s0, h0, h1⟩ := h.step .takeUnresolved trivial
    simp only [apply, Outcome.ok.injEq] at h0
    obtain ⟨s', h2, h3⟩ := retryAll_holds (N := N) s.unresolved h1
    rw [h0]
    refine ⟨s', h2, ?_⟩
    simpa [logCall, logOp, F.list] using h3

/-- **C35**: after any history of replacements, resolutions and questions the engine has not panicked, and its graph contains
the facts described by `logCalls`. -/
theorem c35_runs (N : Names) (calls : List Call) (hv : ∀ c ∈ calls, c.Valid) :
    ∃ e, Engine.run N calls Engine.init = .ok e ∧ Holds e.graph (logCalls N calls) := by
  have key : ∀ calls e l, (∀ c ∈ calls, c.Valid) → Holds e.graph l →
      ∃ e', Engine.run N calls e = .ok e' ∧ Holds e'.graph (calls.foldl (logCall N) l) := by
    intro calls
    induction calls with
    | nil => intro e l _ h; exact ⟨e, rfl, h⟩
    | cons c cs ih =>
      intro e l hv h
      have hstep : ∃ e1, e.apply N c = .ok e1 ∧ Holds e1.graph (logCall N l c) := by
        cases c with
        | replace f x =>
          obtain ⟨s', h1, h2⟩ := h.step (.replace f x.nodes x.edges x.unresolved) (hv _ List.mem_cons_self)
          refine ⟨⟨s', none, none⟩, ?_, h2⟩
          simp only [Engine.apply, Engine.replace]
          rw [show replaceFile e.graph f x.nodes x.edges x.unresolved = apply e.graph (.replace f x.nodes x.edges x.unresolved) from rfl, h1]
          rfl
        | resolve =>
          obtain ⟨s', h1, h2⟩ := retry_holds (N := N) h
          exact ⟨{ e with graph := s' }, by simp [Engine.apply, Engine.resolve, h1, Outcome.bind], h2⟩
        | askTopLevel =>
          obtain ⟨ch, hch, _⟩ := topLevel_spec (C := N.cfg) h.faithful
          simp only [Engine.apply, Engine.askTopLevel]
          cases ht : e.topLevel with
          | some c => exact ⟨e, rfl, h⟩
          | none => rw [hch]; exact ⟨_, rfl, h⟩
        | askObject =>
          obtain ⟨ch, hch, _⟩ := objectFallback_spec (C := N.cfg) h.faithful
          simp only [Engine.apply, Engine.askObject]
          cases ht : e.object with
          | some c => exact ⟨e, rfl, h⟩
          | none => rw [hch]; exact ⟨_, rfl, h⟩
      obtain ⟨e1, h1, h2⟩ := hstep
      obtain ⟨e2, h3, h4⟩ := ih e1 _ (fun c hc => hv c (List.mem_cons_of_mem _ hc)) h2
      exact ⟨e2, by simp [Engine.run, h1, Outcome.bind, h3], h4⟩
  exact key calls Engine.init Log.empty hv ⟨[], by simp, rfl, rfl⟩

/-! ### links and history -/

theorem links_file {N : Names} {nodes : List (Nat × Def)} {u : Unresolved} {e : Edge} (h : e ∈ links N nodes u) : e.file = u.file := by
  unfold links at h
  split at h
  · cases h
  · rcases List.mem_cons.mp h with rfl | h
    · rfl
    · split at h
      · rw [List.mem_singleton] at h; subst h; rfl
      · cases h

/-- The links of a history: those resolved so far, with the facts they come from. -/
structure Track (D L : Log) (done : List (Unresolved × List Edge)) : Prop where
  nodes : L.nodes = D.nodes
  unres : D.unresolved.Perm (done.map (·.1) ++ L.unresolved)
  edges : L.edges.Perm (D.edges ++ done.flatMap (·.2))
  files : ∀ p ∈ done, ∀ e ∈ p.2, e.file = p.1.file

theorem track_replace {D L : Log} {done : List (Unresolved × List Edge)} (h : Track D L done) (f : Nat) (x : Facts) :
    Track (logOp D (.replace f x.nodes x.edges x.unresolved)) (logOp L (.replace f x.nodes x.edges x.unresolved))
      (done.filter fun p => decide (p.1.file ≠ f)) := by
  constructor
  · simp [logOp, Log.without, h.nodes]
  · simp only [logOp, Log.without]
    have h1 := h.unres.filter (fun u => decide (u.file ≠ f))
    rw [List.filter_append, List.filter_map] at h1
    have e : (fun u : Unresolved => decide (u.file ≠ f)) ∘ (fun p : Unresolved × List Edge => p.1) = fun p => decide (p.1.file ≠ f) := rfl
    rw [e] at h1
    rw [← List.append_assoc]
    exact h1.append_right _
  · simp only [logOp, Log.without]
    have h1 := h.edges.filter (fun e => decide (e.file ≠ f))
    rw [List.filter_append] at h1
    have e : ∀ d : List (Unresolved × List Edge), (∀ p ∈ d, ∀ e ∈ p.2, e.file = p.1.file) →
        (d.flatMap (·.2)).filter (fun e => decide (e.file ≠ f)) = (d.filter fun p => decide (p.1.file ≠ f)).flatMap (·.2) := by
      intro d hd
      induction d with
      | nil => rfl
      | cons p d ih =>
        rw [List.flatMap_cons, List.filter_append, ih fun q hq => hd q (List.mem_cons_of_mem _ hq), List.filter_cons]
        have hp := hd p List.mem_cons_self
        by_cases hf : p.1.file = f
        · have : p.2.filter (fun e => decide (e.file ≠ f)) = [] := by
            rw [List.filter_eq_nil_iff]; intro e he; simp [hp e he, hf]
          simp only [hf, ne_eq, not_true_eq_false, decide_false, Bool.false_eq_true, if_false]
          simp only [ne_eq] at this
          rw [this, List.nil_append]
        · have : p.2.filter (fun e => decide (e.file ≠ f)) = p.2 := by
            rw [List.filter_eq_self]; intro e he; simp [hp e he, hf]
          simp only [hf, ne_eq, not_false_eq_true, decide_true, if_true, List.flatMap_cons]
          simp only [ne_eq] at this
          rw [this]
    rw [e done h.files] at h1
    refine (h1.append_right x.edges).trans ?_
    simp only [List.append_assoc]
    exact List.Perm.append_left _ List.perm_append_comm
  · intro p hp
    exact h.files p (List.mem_filter.mp hp).1

theorem flatMap_split {α β : Type} (f : α → List β) (q : α → Bool) (hq : ∀ a, q a = true → f a = []) (l : List α) :
    l.flatMap f = (l.filter fun a => !q a).flatMap f := by
  induction l with
  | nil => rfl
  | cons a l ih =>
    rw [List.flatMap_cons, List.filter_cons, ih]
    cases h : q a with
    | true => simp [hq a h]
    | false => simp

theorem filter_split {α : Type} (q : α → Bool) (l : List α) : l.Perm ((l.filter fun a => !q a) ++ l.filter q) := by
  induction l with
  | nil => simp
  | cons a l ih =>
    rw [List.filter_cons, List.filter_cons]
    cases h : q a with
    | true =>
      simp only [Bool.not_true, Bool.false_eq_true, if_false, if_true]
      exact (List.Perm.cons a ih).trans List.perm_middle.symm
    | false => simpa using ih

theorem track_resolve {N : Names} {D L : Log} {done : List (Unresolved × List Edge)} (h : Track D L done) :
    Track D (logCall N L .resolve)
      (done ++ (L.unresolved.filter fun u => !(links N L.nodes u).isEmpty).map fun u => (u, links N L.nodes u)) := by
  constructor
  · exact h.nodes
  · simp only [logCall, List.map_append, List.map_map]
    have e : ((fun p : Unresolved × List Edge => p.1) ∘ fun u => (u, links N L.nodes u)) = id := rfl
    rw [e, List.map_id, List.append_assoc]
    exact h.unres.trans (List.Perm.append_left _ (filter_split _ _))
  · simp only [logCall, List.flatMap_append, List.flatMap_map]
    rw [← List.append_assoc]
    rw [flatMap_split (links N L.nodes) (fun u => (links N L.nodes u).isEmpty) (fun a ha => List.isEmpty_iff.mp ha)]
    exact h.edges.append_right _
  · intro p hp
    rcases List.mem_append.mp hp with hp | hp
    · exact h.files p hp
    · obtain ⟨u, _, rfl⟩ := List.mem_map.mp hp
      exact fun e he => links_file he

theorem current_append (a b : List Call) : current (a ++ b) = b.foldl currentStep (current a) := by
  simp [current, List.foldl_append]

theorem logCalls_append (N : Names) (a b : List Call) : logCalls N (a ++ b) = b.foldl (logCall N) (logCalls N a) := by
  simp [logCalls, List.foldl_append]

theorem track_all {N : Names} (fin : List (Nat × Def)) (c1 c2 : List Call)
    (hs : ∀ a b, c1 = a ++ Call.resolve :: b → ∀ u ∈ (logCalls N a).unresolved, u.file ∉ replaced (b ++ c2) →
      links N (logCalls N a).nodes u ≠ [] → links N (logCalls N a).nodes u = links N fin u) :
    ∃ done, Track (current c1) (logCalls N c1) done ∧ ∀ p ∈ done, p.1.file ∉ replaced c2 → p.2 = links N fin p.1 := by
  induction c1 using List.reverseRecOn generalizing c2 with
  | nil => exact ⟨[], ⟨rfl, .refl _, .refl _, by simp⟩, by simp⟩
  | append_singleton c1 c ih =>
    obtain ⟨done, h1, h2⟩ := ih (c :: c2) (by
      intro a b hab u hu hf hne
      refine hs a (b ++ [c]) (by rw [hab]; simp) u hu ?_ hne
      simpa using hf)
    rw [current_append, logCalls_append]
    simp only [List.foldl_cons, List.foldl_nil]
    cases c with
    | replace f x =>
      refine ⟨_, track_replace h1 f x, ?_⟩
      intro p hp hf
      obtain ⟨hp1, hp2⟩ := List.mem_filter.mp hp
      refine h2 p hp1 ?_
      simp only [decide_eq_true_eq] at hp2
      simp only [replaced, List.filterMap_cons, List.mem_cons] at hf ⊢
      push Not
      exact ⟨hp2, hf⟩
    | resolve =>
      refine ⟨_, track_resolve (N := N) h1, ?_⟩
      intro p hp hf
      rcases List.mem_append.mp hp with hp | hp
      · exact h2 p hp (by simpa [replaced] using hf)
      · obtain ⟨u, hu, rfl⟩ := List.mem_map.mp hp
        obtain ⟨hu1, hu2⟩ := List.mem_filter.mp hu
        refine hs c1 [] rfl u hu1 (by simpa using hf) ?_
        simpa using hu2
    | askTopLevel => exact ⟨done, h1, fun p hp hf => h2 p hp (by simpa [replaced] using hf)⟩
    | askObject => exact ⟨done, h1, fun p hp hf => h2 p hp (by simpa [replaced] using hf)⟩

/-- **C35**, partial: after a history whose intermediate resolutions agree with the final facts, and a last resolution, the
links are those the current facts stand for.  Missing: histories in which a definition that changes the meaning of a constant is
added or removed after the constant was resolved (`c35_nearer_definition`, `c35_removed_definition`). -/
theorem c35_links_partial (N : Names) (calls : List Call) (hv : ∀ c ∈ calls, c.Valid) (hs : Stable N calls) :
    ∃ e, Engine.run N (calls ++ [.resolve]) Engine.init = .ok e ∧ e.graph.edges.all.Perm (wanted N (current calls)) := by
  obtain ⟨e, h1, h2⟩ := c35_runs N (calls ++ [.resolve]) (by
    intro c hc
    rcases List.mem_append.mp hc with hc | hc
    · exact hv c hc
    · rw [List.mem_singleton] at hc; subst hc; trivial)
  refine ⟨e, h1, h2.faithful.all.trans ?_⟩
  obtain ⟨done, t1, t2⟩ := track_all (N := N) (current calls).nodes calls [] (by
    intro a b hab u hu hf hne
    exact hs a b hab u hu (by simpa using hf) hne)
  rw [logCalls_append]
  simp only [List.foldl_cons, List.foldl_nil, logCall, wanted]
  have e1 : done.flatMap (·.2) = (done.map (·.1)).flatMap (links N (current calls).nodes) := by
    have : ∀ d : List (Unresolved × List Edge), (∀ p ∈ d, p.2 = links N (current calls).nodes p.1) →
        d.flatMap (·.2) = (d.map (·.1)).flatMap (links N (current calls).nodes) := by
      intro d hd
      induction d with
      | nil => rfl
      | cons p d ih => rw [List.flatMap_cons, List.map_cons, List.flatMap_cons, hd p List.mem_cons_self, ih fun q hq => hd q (List.mem_cons_of_mem _ hq)]
    exact this done fun p hp => t2 p hp (by simp [replaced])
  have h3 := t1.edges
  rw [e1] at h3
  rw [t1.nodes]
  refine (h3.append_right _).trans ?_
  rw [List.append_assoc, ← List.flatMap_append]
  exact List.Perm.append_left _ (t1.unres.symm.flatMap_right _)

/-- **C35**, partial: with a single resolution at the end the links are those of the current facts, whatever the order of
replacements. -/
theorem c35_one_resolution_partial (N : Names) (calls : List Call) (hv : ∀ c ∈ calls, c.Valid) (hr : Call.resolve ∉ calls) :
    ∃ e, Engine.run N (calls ++ [.resolve]) Engine.init = .ok e ∧ e.graph.edges.all.Perm (wanted N (current calls)) := by
  refine c35_links_partial N calls hv ?_
  intro a b hab
  exact absurd (hab ▸ List.mem_append_right a List.mem_cons_self) hr

theorem links_congr {N : Names} {nodes nodes' : List (Nat × Def)} (h : ∀ x, x ∈ nodes ↔ x ∈ nodes') (u : Unresolved) :
    links N nodes u = links N nodes' u := by
  have h1 : defined nodes = defined nodes' := by
    funext n
    apply Bool.eq_iff_iff.mpr
    simp [defined, h]
  have h2 : definedClass nodes = definedClass nodes' := by
    funext n
    apply Bool.eq_iff_iff.mpr
    simp [definedClass, h]
  unfold links target
  rw [h1, h2]

/-- **C35**, partial: two such histories with the same current facts give the same links, and every namespace the same
superclass. -/
theorem c35_same_links_partial (N : Names) (calls calls' : List Call) (hv : ∀ c ∈ calls, c.Valid) (hv' : ∀ c ∈ calls', c.Valid)
    (hs : Stable N calls) (hs' : Stable N calls') (hn : ∀ x, x ∈ (current calls).nodes ↔ x ∈ (current calls').nodes)
    (he : (current calls).edges.Perm (current calls').edges) (hu : (current calls).unresolved.Perm (current calls').unresolved) :
    ∃ e e', Engine.run N (calls ++ [.resolve]) Engine.init = .ok e ∧ Engine.run N (calls' ++ [.resolve]) Engine.init = .ok e' ∧
      e.graph.edges.all.Perm e'.graph.edges.all ∧ ∀ n, superclassResolution e.graph n = superclassResolution e'.graph n := by
  have hv2 : ∀ cs : List Call, (∀ c ∈ cs, c.Valid) → ∀ c ∈ cs ++ [Call.resolve], c.Valid := by
    intro cs h c hc
    rcases List.mem_append.mp hc with hc | hc
    · exact h c hc
    · rw [List.mem_singleton] at hc; subst hc; trivial
  obtain ⟨e, h1, h2⟩ := c35_links_partial N calls hv hs
  obtain ⟨e', h1', h2'⟩ := c35_links_partial N calls' hv' hs'
  obtain ⟨f, g1, g2⟩ := c35_runs N _ (hv2 calls hv)
  rw [h1] at g1; cases g1
  obtain ⟨f', g1', g2'⟩ := c35_runs N _ (hv2 calls' hv')
  rw [h1'] at g1'; cases g1'
  have hp : e.graph.edges.all.Perm e'.graph.edges.all := by
    refine h2.trans (.trans ?_ h2'.symm)
    refine he.append ?_
    have : links N (current calls).nodes = links N (current calls').nodes := by funext u; exact links_congr hn u
    rw [this]
    exact hu.flatMap_right _
  refine ⟨e, e', h1, h1', hp, ?_⟩
  intro n
  refine spec_unique ?_ (g2.faithful.res n) (g2'.faithful.res n)
  intro x
  rw [← g2.faithful.all.mem_iff, ← g2'.faithful.all.mem_iff, hp.mem_iff]

/-- **C35**: resolving again without a replacement in between changes nothing. -/
theorem c35_idempotent (N : Names) (calls : List Call) (hv : ∀ c ∈ calls, c.Valid) :
    ∃ e e', Engine.run N (calls ++ [.resolve]) Engine.init = .ok e ∧ Engine.run N (calls ++ [.resolve, .resolve]) Engine.init = .ok e' ∧
      e.graph.edges.all.Perm e'.graph.edges.all ∧ e.graph.unresolved = e'.graph.unresolved := by
  have hv2 : ∀ cs : List Call, (∀ c ∈ cs, c.Valid) → ∀ c ∈ cs ++ [Call.resolve], c.Valid := by
    intro cs h c hc
    rcases List.mem_append.mp hc with hc | hc
    · exact h c hc
    · rw [List.mem_singleton] at hc; subst hc; trivial
  obtain ⟨e, h1, h2⟩ := c35_runs N _ (hv2 calls hv)
  obtain ⟨e', h1', h2'⟩ := c35_runs N _ (hv2 _ (hv2 calls hv))
  refine ⟨e, e', h1, by simpa using h1', ?_, ?_⟩
  · refine h2.faithful.all.trans (.trans ?_ h2'.faithful.all.symm)
    rw [logCalls_append (b := [Call.resolve]) (a := calls ++ [Call.resolve])]
    rw [logCalls_append]
    simp only [List.foldl_cons, List.foldl_nil, logCall]
    have : ((logCalls N calls).unresolved.filter fun u => (links N (logCalls N calls).nodes u).isEmpty).flatMap
        (links N (logCalls N calls).nodes) = [] := by
      rw [List.flatMap_eq_nil_iff]
      intro u hu
      exact List.isEmpty_iff.mp (List.mem_filter.mp hu).2
    rw [this, List.append_nil]
  · rw [h2.faithful.list, h2'.faithful.list]
    rw [logCalls_append (b := [Call.resolve]) (a := calls ++ [Call.resolve])]
    rw [logCalls_append]
    simp [logCall]

/-! ### the cached chains -/

/-- Two graphs that differ only in the bookkeeping of unresolved links. -/
structure Alike (s t : State) : Prop where
  nodes : s.nodes = t.nodes
  edges : s.edges = t.edges
  unres : ∀ n, hasUnresolvedExplicit s n = hasUnresolvedExplicit t n

section
variable {s t : State} (h : Alike s t)
include h

theorem Alike.nodesFor (n : Nat) : nodesFor s n = GraphStore.nodesFor t n := by simp [GraphStore.nodesFor, h.nodes]

theorem Alike.edgesOf (n : Nat) (k : Kind) : edgesOf s n k = Mro.edgesOf t n k := by
  simp [Mro.edgesOf, edgesFrom, edgesByIds, h.nodes, h.edges]

theorem Alike.buildMro (C : Cfg) (allow : Bool) : ∀ fuel n st, buildMro C s allow fuel n st = Mro.buildMro C t allow fuel n st := by
  have h1 : before C s allow = before C t allow := by funext n; simp [before, h.edgesOf]
  have h2 : included C s allow = included C t allow := by funext n; simp [included, h.edgesOf]
  have h3 : hooked C s allow = hooked C t allow := by
    funext n; unfold hooked hookEdges; simp only [h.edgesOf]
  have h4 : super C s allow = super C t allow := by
    funext n; simp [super, provenSuperclass, h.unres, superclassResolution, h.nodes, h.edges]
  intro fuel
  induction fuel with
  | zero => intro n st; rfl
  | succ fuel ih =>
    have : Mro.buildMro C s allow fuel = Mro.buildMro C t allow fuel := by funext n st; exact ih n st
    intro n st
    simp only [Mro.buildMro, h1, h2, h3, h4, this]

theorem Alike.fallbacks (C : Cfg) : topLevelFallback C s = topLevelFallback C t ∧ objectFallback C s = objectFallback C t := by
  have : enough s = enough t := by simp [enough, h.edges]
  constructor
  · unfold topLevelFallback; simp only [h.buildMro, h.nodesFor, this]
  · unfold objectFallback; simp only [h.buildMro, h.nodesFor, this]

end

theorem retryAll_keeps {N : Names} {l : Log} (us : List Unresolved) {s : State} (h : Holds s l) {s' : State}
    (hu : ∀ u ∈ us, links N l.nodes u = []) (hr : retryAll N us s = .ok s') : s'.nodes = s.nodes ∧ s'.edges = s.edges := by
  induction us generalizing s l with
  | nil => cases hr; exact ⟨rfl, rfl⟩
  | cons u us ih =>
    have h0 := hu u List.mem_cons_self
    have ht : resolveTarget N s u = none := by
      rw [resolveTarget_eq h.faithful]
      unfold links at h0
      split at h0
      · assumption
      · cases h0
    have h1 : retryOne N s u = .ok (addUnresolved s u) := by simp [retryOne, ht]
    simp only [retryAll, h1, Outcome.bind] at hr
    obtain ⟨s1, g1, g2⟩ := h.step (.addUnresolved u) trivial
    cases g1
    have := ih (s := addUnresolved s u) g2 (fun v hv => hu v (List.mem_cons_of_mem _ hv)) hr
    exact this

/-- Resolving when nothing can be resolved changes nothing a chain depends on. -/
theorem retry_alike {N : Names} {s : State} {l : Log} (h : Holds s l) (hu : ∀ u ∈ l.unresolved, links N l.nodes u = []) {s' : State}
    (hr : retry N s = .ok s') : Alike s' s := by
  obtain ⟨t, h1, h2⟩ := retry_holds (N := N) h
  rw [hr] at h1; cases h1
  have F := h.faithful
  have F' := h2.faithful
  have hkeep : s'.nodes = s.nodes ∧ s'.edges = s.edges := by
    unfold retry at hr
    split at hr
    · cases hr; exact ⟨rfl, rfl⟩
    · obtain ⟨s0, g0, g1⟩ := h.step .takeUnresolved trivial
      cases g0
      exact retryAll_keeps s.unresolved g1 (by rw [F.list]; exact hu) hr
  refine ⟨hkeep.1, hkeep.2, fun n => ?_⟩
  apply Bool.eq_iff_iff.mpr
  rw [F.unres, F'.unres]
  have : (logCall N l .resolve).unresolved = l.unresolved := by
    simp only [logCall, List.filter_eq_self]
    intro u hm
    simp [hu u hm]
  rw [this]

/-- Whatever is cached is what would be computed now. -/
def Fresh (N : Names) (e : Engine) : Prop :=
  (∀ ch, e.topLevel = some ch → topLevelFallback N.cfg e.graph = some ch) ∧
    ∀ ch, e.object = some ch → objectFallback N.cfg e.graph = some ch

theorem fresh_run {N : Names} : ∀ (calls : List Call) (e : Engine) (l : Log) (dirty : Bool), (∀ c ∈ calls, c.Valid) → Holds e.graph l →
    (if dirty then e.topLevel = none ∧ e.object = none else Fresh N e ∧ ∀ u ∈ l.unresolved, links N l.nodes u = []) →
    Quiet dirty calls → ∀ e', Engine.run N calls e = .ok e' → Fresh N e' := by
  intro calls
  induction calls with
  | nil =>
    intro e l dirty _ _ hd _ e' hr
    cases hr
    cases dirty with
    | true =>
      simp only [if_true] at hd
      exact ⟨fun ch h => (by rw [hd.1] at h; cases h), fun ch h => (by rw [hd.2] at h; cases h)⟩
    | false => exact hd.1
  | cons c cs ih =>
    intro e l dirty hv h hd hq e' hr
    have hv' := fun c hc => hv c (List.mem_cons_of_mem _ hc)
    simp only [Engine.run] at hr
    cases c with
    | replace f x =>
      obtain ⟨s', h1, h2⟩ := h.step (.replace f x.nodes x.edges x.unresolved) (hv _ List.mem_cons_self)
      have h3 : e.apply N (.replace f x) = .ok ⟨s', none, none⟩ := by
        simp only [Engine.apply, Engine.replace]
        rw [show replaceFile e.graph f x.nodes x.edges x.unresolved = apply e.graph (.replace f x.nodes x.edges x.unresolved) from rfl, h1]
        rfl
      rw [h3] at hr
      exact ih _ _ true hv' h2 ⟨rfl, rfl⟩ hq e' hr
    | resolve =>
      obtain ⟨s', h1, h2⟩ := retry_holds (N := N) h
      have h3 : e.apply N .resolve = .ok { e with graph := s' } := by simp [Engine.apply, Engine.resolve, h1, Outcome.bind]
      rw [h3] at hr
      refine ih { e with graph := s' } _ false hv' h2 ?_ hq e' hr
      refine ⟨?_, ?_⟩
      · cases dirty with
        | true =>
          simp only [if_true] at hd
          exact ⟨fun ch h => (by simp only [hd.1] at h; cases h), fun ch h => (by simp only [hd.2] at h; cases h)⟩
        | false =>
          have ha := (retry_alike h hd.2 h1).fallbacks N.cfg
          refine ⟨fun ch hc => ?_, fun ch hc => ?_⟩
          · exact ha.1.trans (hd.1.1 ch hc)
          · exact ha.2.trans (hd.1.2 ch hc)
      · intro u hu
        simp only [logCall, List.mem_filter] at hu ⊢
        exact List.isEmpty_iff.mp hu.2
    | askTopLevel =>
      obtain ⟨rfl, hq⟩ := hq
      simp only [Bool.false_eq_true, if_false] at hd
      obtain ⟨ch, hch, _⟩ := topLevel_spec (C := N.cfg) h.faithful
      cases ht : e.topLevel with
      | some c =>
        simp only [Engine.apply, Engine.askTopLevel, ht, Outcome.bind] at hr
        exact ih e l false hv' h hd hq e' hr
      | none =>
        simp only [Engine.apply, Engine.askTopLevel, ht, hch, Outcome.bind] at hr
        refine ih { e with topLevel := some ch } l false hv' h ⟨⟨?_, hd.1.2⟩, hd.2⟩ hq e' hr
        intro ch' h'
        cases h'
        exact hch
    | askObject =>
      obtain ⟨rfl, hq⟩ := hq
      simp only [Bool.false_eq_true, if_false] at hd
      obtain ⟨ch, hch, _⟩ := objectFallback_spec (C := N.cfg) h.faithful
      cases ht : e.object with
      | some c =>
        simp only [Engine.apply, Engine.askObject, ht, Outcome.bind] at hr
        exact ih e l false hv' h hd hq e' hr
      | none =>
        simp only [Engine.apply, Engine.askObject, ht, hch, Outcome.bind] at hr
        refine ih { e with object := some ch } l false hv' h ⟨⟨hd.1.1, ?_⟩, hd.2⟩ hq e' hr
        intro ch' h'
        cases h'
        exact hch

/-- **C46**, partial: when no chain is asked for between a replacement and the next resolution, the answers are those of the
current links: the fallback of the top level and of `Object` list exactly the namespaces reachable now.  Missing: questions asked
in between, after which the answers may be stale (`c46_stale`). -/
theorem c46_fresh_partial (N : Names) (calls : List Call) (hv : ∀ c ∈ calls, c.Valid) (hq : Quiet false calls) :
    ∃ e, Engine.run N calls Engine.init = .ok e ∧
      (∃ e' ch, e.askTopLevel N = .ok (e', ch) ∧ topLevelFallback N.cfg e.graph = some ch ∧
        ∀ x, x ∈ ch ↔ Reach (Link N.cfg (logCalls N calls) true) N.cfg.root x ∨
          Known (logCalls N calls) N.cfg.object ∧ Reach (Link N.cfg (logCalls N calls) true) N.cfg.object x) ∧
      ∃ e' ch, e.askObject N = .ok (e', ch) ∧ objectFallback N.cfg e.graph = some ch ∧
        ∀ x, x ∈ ch ↔ Known (logCalls N calls) N.cfg.object ∧ Reach (Link N.cfg (logCalls N calls) false) N.cfg.object x := by
  obtain ⟨e, h1, h2⟩ := c35_runs N calls hv
  have hf := fresh_run calls Engine.init Log.empty false hv ⟨[], by simp, rfl, rfl⟩
    ⟨⟨fun _ h => (by cases h), fun _ h => (by cases h)⟩, fun u hu => (by cases hu)⟩ hq e h1
  obtain ⟨a, ha, ha'⟩ := topLevel_spec (C := N.cfg) h2.faithful
  obtain ⟨b, hb, hb'⟩ := objectFallback_spec (C := N.cfg) h2.faithful
  refine ⟨e, h1, ?_, ?_⟩
  · cases ht : e.topLevel with
    | some ch =>
      have := hf.1 ch ht
      rw [ha] at this; cases this
      exact ⟨e, a, by simp [Engine.askTopLevel, ht], ha, ha'⟩
    | none => exact ⟨{ e with topLevel := some a }, a, by simp [Engine.askTopLevel, ht, ha], ha, ha'⟩
  · cases ht : e.object with
    | some ch =>
      have := hf.2 ch ht
      rw [hb] at this; cases this
      exact ⟨e, b, by simp [Engine.askObject, ht], hb, hb'⟩
    | none => exact ⟨{ e with object := some b }, b, by simp [Engine.askObject, ht, hb], hb, hb'⟩

/-! ### examples -/

/-- Parts 1, 2, 3, …; the namespace of `A::B` is `2 * (100 * A + B)`, its singleton one more; lookup 50 is `K` (part 7)
from inside namespace 5, lookup 51 is `K` from the top level. -/
def exampleNames : Names :=
  { cfg := exampleCfg
    lookup := fun t => if t = 50 then ⟨[7], false, [5]⟩ else ⟨[7], false, []⟩
    ns := fun p => 2 * p.foldl (fun a x => 100 * a + x) 0
    single := fun n => n + 1 }

/-- Class `5::C` (number 1020) wants superclass `K`: 14 at the top level, 1014 inside 5. -/
def wantsK : Facts :=
  { nodes := [(1020, ⟨0, 1, 0, 1⟩)], edges := [], unresolved := [⟨1020, 50, .superclass, .explicit, 1, 3, 4⟩] }
def outerK : Facts := { nodes := [(14, ⟨0, 2, 0, 1⟩)], edges := [], unresolved := [] }
def innerK : Facts := { nodes := [(1014, ⟨0, 3, 0, 1⟩)], edges := [], unresolved := [] }
def noFacts : Facts := { nodes := [], edges := [], unresolved := [] }

def linksAfter (calls : List Call) : List (Nat × Nat) :=
  match Engine.run exampleNames calls Engine.init with
  | .ok e => e.graph.edges.all.map fun x => (x.source, x.target)
  | _ => []

/-- Example: the class and its singleton get their superclasses. -/
theorem c35_example :
    linksAfter [.replace 1 wantsK, .replace 2 outerK, .replace 3 innerK, .resolve] = [(1020, 1014), (1021, 1015)] ∧
    linksAfter [.replace 2 outerK, .resolve, .replace 1 wantsK, .resolve] = [(1020, 14), (1021, 15)] := by
  decide

/-- **C35** fails: the same files indexed in another order, with a resolution in between, give another superclass, because a
link that is resolved is never looked at again when a nearer definition appears. -/
theorem c35_nearer_definition :
    linksAfter [.replace 1 wantsK, .replace 2 outerK, .resolve, .replace 3 innerK, .resolve] = [(1020, 14), (1021, 15)] ∧
    linksAfter [.replace 1 wantsK, .replace 2 outerK, .replace 3 innerK, .resolve] = [(1020, 1014), (1021, 1015)] := by
  decide

/-- **C35** fails: when the file that defines the superclass is emptied, the link stays. -/
theorem c35_removed_definition :
    linksAfter [.replace 1 wantsK, .replace 2 outerK, .resolve, .replace 2 noFacts, .resolve] = [(1020, 14), (1021, 15)] ∧
    linksAfter [.replace 1 wantsK, .replace 2 noFacts, .resolve] = [] := by
  decide

/-- File 0 belongs to the language: `Object` includes `K`. -/
def objectFacts : Facts :=
  { nodes := [(2, ⟨0, 0, 0, 1⟩), (14, ⟨1, 0, 2, 3⟩)], edges := [], unresolved := [⟨2, 51, .incl, .explicit, 0, 3, 4⟩] }

def objectAfter (calls : List Call) : Option (List Nat × Option (List Nat)) :=
  match Engine.run exampleNames calls Engine.init with
  | .ok e =>
    match e.askObject exampleNames with
    | .ok r => some (r.2, objectFallback exampleCfg r.1.graph)
    | _ => none
  | _ => none

/-- **C46** fails: asked between the replacement and the resolution, the engine remembers a chain without `K` and keeps giving it
after the link to `K` has been added. -/
theorem c46_stale :
    objectAfter [.replace 0 objectFacts, .resolve] = some ([2, 14], some [2, 14]) ∧
    objectAfter [.replace 0 objectFacts, .askObject, .resolve] = some ([2], some [2, 14]) := by
  decide

end Verif.EngineGraph
