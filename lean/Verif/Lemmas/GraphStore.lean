import Verif.Spec.GraphStore
import Verif.Lemmas.Arena
namespace Verif.GraphStore
open Verif.Store

/-- "No order": the graph's id lists are kept in order of arrival. -/
def anyLe {α : Type} (_ _ : α) : Bool := true

theorem anyLe_order {α : Type} : IsOrder (anyLe (α := α)) := ⟨fun _ _ => .inl rfl, fun _ _ _ _ _ => rfl⟩

theorem stableSort_any {α : Type} {le : α → α → Bool} (h : ∀ a b, le a b = true) (l : List α) : stableSort le l = l :=
  stableSort_of_sorted (List.pairwise_of_forall fun a b => h a b)

theorem sortedIds_any {α : Type} (log : List (Nat × α)) (p : α → Bool) :
    sortedIds anyLe log p = (log.filter (fun x => p x.2)).map (·.1) := by
  rw [sortedIds, stableSort_any (le := fun x y : Nat × α => anyLe x.2 y.2) (fun _ _ => rfl)]

theorem idx_push {κ : Type} [DecidableEq κ] {α : Type} {keyOf : α → Option κ} {log : List (Nat × α)} {m : κ → List Nat}
    (h : IdxOk anyLe keyOf log m) (id : Nat) (a : α) : IdxOk anyLe keyOf (log ++ [(id, a)]) (push m (keyOf a) id) := by
  intro k
  have := (h.app.push id a) k
  rw [this, sortedIds_any, sortedIds_any, List.filter_append, List.map_append]
  simp

def kOut (e : Edge) : Option (Nat × Kind) := some (e.source, e.kind)
def kInc (e : Edge) : Option (Nat × Kind) := some (e.target, e.kind)
def kFile (e : Edge) : Option Nat := some e.file

/-- The out-lists as one index. -/
def outIdx (nodes : Nat → Node) : Nat × Kind → List Nat := fun p => (nodes p.1).out p.2
def incIdx (nodes : Nat → Node) : Nat × Kind → List Nat := fun p => (nodes p.1).inc p.2

/-- How many counted unresolved edges a source has, `none` for zero. -/
def countSpec (us : List Unresolved) (n : Nat) : Option Nat :=
  let c := (us.filter (fun u => u.counted && decide (u.source = n))).length
  if c = 0 then none else some c

structure NodesOk (s : State) (l : List (Nat × Def)) : Prop where
  defs : ∀ n, (s.nodes n).defs = stableSort (leBy defKey) ((l.filter (fun x => decide (x.1 = n))).map (·.2))
  files : ∀ x ∈ l, s.defFiles x.2.file = true

structure EdgesOk (s : State) (l : List (Nat × Edge)) : Prop where
  arena : ArenaOk s.edges l
  out : IdxOk anyLe kOut l (outIdx s.nodes)
  inc : IdxOk anyLe kInc l (incIdx s.nodes)

structure UnresOk (s : State) (us : List Unresolved) : Prop where
  list : s.unresolved = us
  counts : ∀ n, s.counts n = countSpec us n

structure Inv (s : State) (ids : List (Nat × Edge)) (L : Log) : Prop where
  nodes : NodesOk s L.nodes
  edges : EdgesOk s ids
  file : IdxOk anyLe kFile ids s.byFile
  facts : ids.map (·.2) = L.edges
  unres : UnresOk s L.unresolved

theorem inv_init : Inv init [] Log.empty :=
  ⟨⟨fun _ => rfl, fun _ h => absurd h (by simp [Log.empty])⟩, ⟨arenaOk_empty, idxOk_empty, idxOk_empty⟩, idxOk_empty, rfl,
    ⟨rfl, fun _ => rfl⟩⟩

/-! ### node definitions -/

theorem addNode_ok {s : State} {l : List (Nat × Def)} (h : NodesOk s l) (n : Nat) (d : Def) :
    NodesOk (addNode s n d) (l ++ [(n, d)]) := by
  constructor
  · intro m
    by_cases hm : m = n
    · subst hm
      simp only [addNode, updNode, if_true]
      rw [h.defs, stableSort_append_left (leBy_order _), List.filter_append, List.map_append]
      simp
    · simp only [addNode, updNode, if_neg hm]
      rw [h.defs, List.filter_append]
      simp [Ne.symm hm]
  · intro x hx
    simp only [addNode]
    rcases List.mem_append.mp hx with hx | hx
    · split
      · rfl
      · exact h.files x hx
    · simp only [List.mem_singleton] at hx; subst hx; simp

theorem addNode_out (s : State) (n : Nat) (d : Def) : outIdx (addNode s n d).nodes = outIdx s.nodes := by
  funext p
  simp only [outIdx, addNode, updNode]
  split
  · rename_i h; rw [h]
  · rfl

theorem addNode_inc (s : State) (n : Nat) (d : Def) : incIdx (addNode s n d).nodes = incIdx s.nodes := by
  funext p
  simp only [incIdx, addNode, updNode]
  split
  · rename_i h; rw [h]
  · rfl

theorem noEdges_iff (x : Node) : x.noEdges = true ↔ (∀ k, x.out k = []) ∧ ∀ k, x.inc k = [] := by
  unfold Node.noEdges
  simp only [Bool.and_eq_true, List.isEmpty_iff]
  constructor
  · rintro ⟨⟨⟨⟨⟨⟨⟨⟨⟨h1, h2⟩, h3⟩, h4⟩, h5⟩, h6⟩, h7⟩, h8⟩, h9⟩, h10⟩
    exact ⟨fun k => by cases k <;> assumption, fun k => by cases k <;> assumption⟩
  · rintro ⟨h1, h2⟩
    simp [h1, h2]

/-- Dropping a node that has nothing left does not change any list. -/
theorem dropDefs_lists (s : State) (f n : Nat) :
    ((dropDefs s f).nodes n).defs = (if s.defFiles f then (s.nodes n).defs.filter (fun d => decide (d.file ≠ f)) else (s.nodes n).defs) ∧
    ((dropDefs s f).nodes n).out = (s.nodes n).out ∧ ((dropDefs s f).nodes n).inc = (s.nodes n).inc := by
  unfold dropDefs
  by_cases hf : s.defFiles f = true
  · simp only [hf, if_true]
    split
    · rename_i h
      rw [Bool.and_eq_true, List.isEmpty_iff, noEdges_iff] at h
      refine ⟨h.1.symm, ?_, ?_⟩
      · funext k; exact (h.2.1 k).symm
      · funext k; exact (h.2.2 k).symm
    · exact ⟨rfl, rfl, rfl⟩
  · simp [hf]

theorem dropDefs_nodes {s : State} {l : List (Nat × Def)} (h : NodesOk s l) (f : Nat) :
    NodesOk (dropDefs s f) (l.filter (fun x => decide (x.2.file ≠ f))) := by
  have hcomm : ∀ n, (l.filter (fun x => decide (x.2.file ≠ f))).filter (fun x => decide (x.1 = n))
      = (l.filter (fun x => decide (x.1 = n))).filter (fun x => decide (x.2.file ≠ f)) := by
    intro n; rw [List.filter_filter, List.filter_filter]; congr 1; funext a; rw [Bool.and_comm]
  constructor
  · intro n
    rw [(dropDefs_lists s f n).1, hcomm]
    have hmap : ((l.filter (fun x => decide (x.1 = n))).filter (fun x => decide (x.2.file ≠ f))).map (·.2)
        = ((l.filter (fun x => decide (x.1 = n))).map (·.2)).filter (fun d => decide (d.file ≠ f)) := by
      rw [List.filter_map]; rfl
    rw [hmap, ← stableSort_filter (leBy_order _), ← h.defs]
    split
    · rfl
    · rename_i hf
      symm
      rw [List.filter_eq_self]
      intro d hd
      rw [h.defs, mem_stableSort] at hd
      obtain ⟨x, hx, rfl⟩ := List.mem_map.mp hd
      have := h.files x (List.mem_filter.mp hx).1
      simp only [ne_eq, decide_eq_true_eq]
      intro he
      rw [he] at this
      exact hf this
  · intro x hx
    obtain ⟨h1, h2⟩ := List.mem_filter.mp hx
    have hne : x.2.file ≠ f := by simpa using h2
    have := h.files x h1
    unfold dropDefs
    split
    · simp [hne, this]
    · exact this

theorem dropDefs_edges {s : State} {ids : List (Nat × Edge)} (h : EdgesOk s ids) (f : Nat) : EdgesOk (dropDefs s f) ids := by
  have h1 : (dropDefs s f).edges = s.edges := by unfold dropDefs; split <;> rfl
  refine ⟨h1 ▸ h.arena, ?_, ?_⟩
  · have : outIdx (dropDefs s f).nodes = outIdx s.nodes := by funext p; simp only [outIdx]; rw [(dropDefs_lists s f p.1).2.1]
    rw [this]; exact h.out
  · have : incIdx (dropDefs s f).nodes = incIdx s.nodes := by funext p; simp only [incIdx]; rw [(dropDefs_lists s f p.1).2.2]
    rw [this]; exact h.inc

/-! ### edges -/

theorem out_push (nodes : Nat → Node) (e : Edge) (id : Nat) :
    outIdx (updNode (updNode nodes e.source ((nodes e.source).pushOut e.kind id)) e.target
      (((updNode nodes e.source ((nodes e.source).pushOut e.kind id)) e.target).pushInc e.kind id))
      = push (outIdx nodes) (kOut e) id := by
  funext p
  obtain ⟨n, k⟩ := p
  simp only [outIdx, push, kOut, upd, updNode, Node.pushOut, Node.pushInc, Prod.mk.injEq]
  by_cases h1 : n = e.target <;> by_cases h2 : n = e.source <;> by_cases h3 : k = e.kind <;> by_cases h4 : e.target = e.source <;>
    simp_all

theorem inc_push (nodes : Nat → Node) (e : Edge) (id : Nat) :
    incIdx (updNode (updNode nodes e.source ((nodes e.source).pushOut e.kind id)) e.target
      (((updNode nodes e.source ((nodes e.source).pushOut e.kind id)) e.target).pushInc e.kind id))
      = push (incIdx nodes) (kInc e) id := by
  funext p
  obtain ⟨n, k⟩ := p
  simp only [incIdx, push, kInc, upd, updNode, Node.pushOut, Node.pushInc, Prod.mk.injEq]
  by_cases h1 : n = e.target <;> by_cases h2 : n = e.source <;> by_cases h3 : k = e.kind <;> by_cases h4 : e.target = e.source <;>
    simp_all

theorem out_retain (nodes : Nat → Node) (e : Edge) (id : Nat) :
    outIdx (updNode (updNode nodes e.source ((nodes e.source).retainOut e.kind id)) e.target
      (((updNode nodes e.source ((nodes e.source).retainOut e.kind id)) e.target).retainInc e.kind id))
      = retain (outIdx nodes) (kOut e) id := by
  funext p
  obtain ⟨n, k⟩ := p
  simp only [outIdx, retain, kOut, upd, updNode, Node.retainOut, Node.retainInc, Prod.mk.injEq]
  by_cases h1 : n = e.target <;> by_cases h2 : n = e.source <;> by_cases h3 : k = e.kind <;> by_cases h4 : e.target = e.source <;>
    simp_all

theorem inc_retain (nodes : Nat → Node) (e : Edge) (id : Nat) :
    incIdx (updNode (updNode nodes e.source ((nodes e.source).retainOut e.kind id)) e.target
      (((updNode nodes e.source ((nodes e.source).retainOut e.kind id)) e.target).retainInc e.kind id))
      = retain (incIdx nodes) (kInc e) id := by
  funext p
  obtain ⟨n, k⟩ := p
  simp only [incIdx, retain, kInc, upd, updNode, Node.retainOut, Node.retainInc, Prod.mk.injEq]
  by_cases h1 : n = e.target <;> by_cases h2 : n = e.source <;> by_cases h3 : k = e.kind <;> by_cases h4 : e.target = e.source <;>
    simp_all

/-- The two node updates of an edge do not touch definitions. -/
theorem updNode_defs (nodes : Nat → Node) (x y : Node) (a b n : Nat) (hx : x.defs = (nodes a).defs)
    (hy : y.defs = (updNode nodes a x b).defs) : (updNode (updNode nodes a x) b y n).defs = (nodes n).defs := by
  have h0 : ∀ m, (updNode nodes a x m).defs = (nodes m).defs := by
    intro m; simp only [updNode]; split
    · rename_i h; rw [h, hx]
    · rfl
  have : (updNode (updNode nodes a x) b y n).defs = (updNode nodes a x n).defs := by
    generalize hz : updNode nodes a x = z at hy
    simp only [updNode]; split
    · rename_i h; rw [h, hy]
    · rfl
  rw [this, h0]

theorem addEdge_ok {s : State} {ids : List (Nat × Edge)} {L : Log} (h : Inv s ids L) (e : Edge) :
    ∃ s' id, addEdge s e = .ok s' ∧ Inv s' (ids ++ [(id, e)]) { L with edges := L.edges ++ [e] } := by
  obtain ⟨A, id, h1, h2, _⟩ := h.edges.arena.insert e
  have heq : addEdge s e = .ok { s with
      edges := A
      nodes := updNode (updNode s.nodes e.source ((s.nodes e.source).pushOut e.kind id)) e.target
        (((updNode s.nodes e.source ((s.nodes e.source).pushOut e.kind id)) e.target).pushInc e.kind id)
      byFile := push s.byFile (some e.file) id } := by rw [addEdge, h1]; rfl
  refine ⟨_, id, heq, ⟨?_, h.nodes.files⟩, ⟨h2, ?_, ?_⟩, idx_push h.file id e, ?_, h.unres.1, h.unres.2⟩
  · intro n
    rw [← h.nodes.defs]
    exact updNode_defs _ _ _ _ _ _ rfl rfl
  · show IdxOk anyLe kOut _ (outIdx _)
    rw [out_push]; exact idx_push h.edges.out id e
  · show IdxOk anyLe kInc _ (incIdx _)
    rw [inc_push]; exact idx_push h.edges.inc id e
  · rw [List.map_append, h.facts]; rfl

/-- Invariant while the edges of file `f` are being removed. -/
structure Rem (f : Nat) (s0 s : State) (ids : List (Nat × Edge)) : Prop where
  edges : EdgesOk s ids
  file : ∀ g, g ≠ f → s.byFile g = sortedIds anyLe ids (hasKey kFile g)
  gone : s.byFile f = []
  defs : ∀ n, (s.nodes n).defs = (s0.nodes n).defs
  defFiles : s.defFiles = s0.defFiles
  unres : s.unresolved = s0.unresolved
  counts : s.counts = s0.counts

theorem removeEdge_ok {f : Nat} {s0 s : State} {ids : List (Nat × Edge)} (h : Rem f s0 s ids) {id : Nat} {e : Edge}
    (hm : (id, e) ∈ ids) (hf : e.file = f) :
    ∃ s', removeEdge s id = .ok s' ∧ Rem f s0 s' (ids.filter (fun x => decide (x.1 ≠ id))) := by
  obtain ⟨A, h1, h2⟩ := h.edges.arena.take hm
  have heq : removeEdge s id = .ok { s with
      edges := A
      nodes := updNode (updNode s.nodes e.source ((s.nodes e.source).retainOut e.kind id)) e.target
        (((updNode s.nodes e.source ((s.nodes e.source).retainOut e.kind id)) e.target).retainInc e.kind id) } := by
    rw [removeEdge, h1]
  refine ⟨_, heq, ⟨h2, ?_, ?_⟩, ?_, h.gone, ?_, h.defFiles, h.unres, h.counts⟩
  · show IdxOk anyLe kOut _ (outIdx _)
    rw [out_retain]; exact h.edges.out.remove anyLe_order h.edges.arena hm
  · show IdxOk anyLe kInc _ (incIdx _)
    rw [inc_retain]; exact h.edges.inc.remove anyLe_order h.edges.arena hm
  · intro g hg
    rw [sortedIds_remove_other h.edges.arena hm]
    · exact h.file g hg
    · simp [hasKey, kFile, hf, Ne.symm hg]
  · intro n
    rw [← h.defs]
    exact updNode_defs _ _ _ _ _ _ rfl rfl

theorem removeEdges_ok {f : Nat} {s0 : State} (l : List Nat) {s : State} {ids : List (Nat × Edge)} (h : Rem f s0 s ids)
    (hnd : l.Nodup) (hm : ∀ i ∈ l, ∃ e, (i, e) ∈ ids ∧ e.file = f) :
    ∃ s', removeEdges l s = .ok s' ∧ Rem f s0 s' (ids.filter (fun x => decide (x.1 ∉ l))) := by
  induction l generalizing s ids with
  | nil => exact ⟨s, rfl, by simpa using h⟩
  | cons i l ih =>
    obtain ⟨e, h1, h2⟩ := hm i (by simp)
    have hc := List.nodup_cons.mp hnd
    obtain ⟨s1, e1, e2⟩ := removeEdge_ok h h1 h2
    obtain ⟨s2, f1, f2⟩ := ih e2 hc.2 (by
      intro j hj
      obtain ⟨b, hb1, hb2⟩ := hm j (by simp [hj])
      refine ⟨b, List.mem_filter.mpr ⟨hb1, ?_⟩, hb2⟩
      have : j ≠ i := fun e => hc.1 (e ▸ hj)
      simpa using this)
    refine ⟨s2, by rw [removeEdges, e1]; exact f1, ?_⟩
    rw [List.filter_filter] at f2
    convert f2 using 2
    funext x
    simp [List.mem_cons, not_or, Bool.and_comm]

/-! ### unresolved edges -/

theorem countSpec_append (us vs : List Unresolved) (n : Nat) :
    countSpec (us ++ vs) n = (let c := (us.filter (fun u => u.counted && decide (u.source = n))).length
        + (vs.filter (fun u => u.counted && decide (u.source = n))).length
      if c = 0 then none else some c) := by
  simp [countSpec, List.filter_append]

theorem addUnresolved_ok {s : State} {us : List Unresolved} (h : UnresOk s us) (u : Unresolved) :
    UnresOk (addUnresolved s u) (us ++ [u]) := by
  refine ⟨by simp [addUnresolved, h.list], ?_⟩
  intro n
  rw [countSpec_append]
  simp only [addUnresolved]
  by_cases hc : u.counted = true
  · by_cases hn : n = u.source
    · subst hn
      simp only [hc, if_true, h.counts, countSpec]
      simp only [List.filter_cons, hc, Bool.true_and, decide_true, if_true, List.filter_nil, List.length_cons, List.length_nil]
      split
      · rename_i h0; simp [h0]
      · simp
    · simp only [hc, if_true, if_neg hn, h.counts, countSpec]
      simp [Ne.symm hn]
  · rw [if_neg hc, h.counts]
    simp [countSpec, hc]

/-- Uncounting a sublist of counted facts. -/
theorem uncountAll_ok (rest stale : List Unresolved) {s : State}
    (h : ∀ n, s.counts n = countSpec (stale ++ rest) n) :
    ∃ s', uncountAll stale s = .ok s' ∧ (∀ n, s'.counts n = countSpec rest n) ∧ s'.nodes = s.nodes ∧ s'.edges = s.edges ∧
      s'.defFiles = s.defFiles ∧ s'.byFile = s.byFile ∧ s'.unresolved = s.unresolved := by
  induction stale generalizing s with
  | nil => exact ⟨s, rfl, h, rfl, rfl, rfl, rfl, rfl⟩
  | cons u l ih =>
    by_cases hc : u.counted = true
    · have hu := h u.source
      simp only [List.cons_append, countSpec, List.filter_cons, hc, Bool.true_and, decide_true, if_true, List.length_cons] at hu
      rw [if_neg (by omega)] at hu
      obtain ⟨s', e1, e2, e3, e4, e5, e6, e7⟩ := ih (s := { s with counts := fun n => if n = u.source then
          (if ((l ++ rest).filter (fun v => v.counted && decide (v.source = u.source))).length = 0 then none
            else some ((l ++ rest).filter (fun v => v.counted && decide (v.source = u.source))).length) else s.counts n }) (by
        intro n
        simp only
        by_cases hn : n = u.source
        · subst hn; simp [countSpec]
        · rw [if_neg hn, h]
          simp [countSpec, hc, Ne.symm hn])
      refine ⟨s', ?_, e2, e3, e4, e5, e6, e7⟩
      rw [uncountAll, uncount, if_pos hc, hu]
      exact e1
    · obtain ⟨s', e1, e2⟩ := ih (s := s) (by
        intro n; rw [h]
        simp [countSpec, hc])
      refine ⟨s', ?_, e2⟩
      rw [uncountAll, uncount, if_neg hc]
      exact e1

/-- Splitting the unresolved edges into those of a file and the others keeps the counts. -/
theorem countSpec_split (us : List Unresolved) (f n : Nat) :
    countSpec (us.filter (fun u => decide (u.file = f)) ++ us.filter (fun u => decide (u.file ≠ f))) n = countSpec us n := by
  have : ∀ l : List Unresolved,
      ((l.filter (fun u => decide (u.file = f))).filter (fun u => u.counted && decide (u.source = n))).length
        + ((l.filter (fun u => decide (u.file ≠ f))).filter (fun u => u.counted && decide (u.source = n))).length
      = (l.filter (fun u => u.counted && decide (u.source = n))).length := by
    intro l
    induction l with
    | nil => rfl
    | cons u l ih =>
      by_cases hf : u.file = f <;> by_cases hq : (u.counted && decide (u.source = n)) = true <;>
        simp only [List.filter_cons, hf, hq, decide_true, ne_eq, not_true_eq_false, not_false_eq_true, decide_false, if_true,
          Bool.false_eq_true, if_false, List.length_cons] at ih ⊢ <;> omega
  rw [countSpec_append, this]
  rfl

/-! ### whole operations -/

theorem removeFile_ok {s : State} {ids : List (Nat × Edge)} {L : Log} (h : Inv s ids L) (f : Nat) :
    ∃ s', removeFile s f = .ok s' ∧ Inv s' (ids.filter (fun x => decide (x.2.file ≠ f))) (L.without f) := by
  have hn := dropDefs_nodes h.nodes f
  have he := dropDefs_edges h.edges f
  have hfile : (dropDefs s f).byFile = s.byFile := by unfold dropDefs; split <;> rfl
  have hun : (dropDefs s f).unresolved = s.unresolved := by unfold dropDefs; split <;> rfl
  have hco : (dropDefs s f).counts = s.counts := by unfold dropDefs; split <;> rfl
  generalize hs1 : dropDefs s f = s1 at hn he hfile hun hco
  obtain ⟨s2, e1, e2, e3, e4, e5, e6, e7⟩ := uncountAll_ok (L.unresolved.filter (fun u => decide (u.file ≠ f)))
    (L.unresolved.filter (fun u => decide (u.file = f)))
    (s := { s1 with unresolved := L.unresolved.filter (fun u => decide (u.file ≠ f)) }) (by
      intro n
      rw [countSpec_split]
      show s1.counts n = _
      rw [hco]; exact h.unres.counts n)
  simp only at e3 e4 e5 e6 e7
  have h0 : Rem f s2 { s2 with byFile := upd s2.byFile f [] } ids := by
    refine ⟨⟨e4 ▸ he.arena, ?_, ?_⟩, ?_, by simp [upd], fun _ => rfl, rfl, rfl, rfl⟩
    · show IdxOk anyLe kOut ids (outIdx s2.nodes); rw [e3]; exact he.out
    · show IdxOk anyLe kInc ids (incIdx s2.nodes); rw [e3]; exact he.inc
    · intro g hg
      simp only [upd, if_neg hg]
      rw [e6, hfile]; exact h.file g
  obtain ⟨s3, f1, f2⟩ := removeEdges_ok (s2.byFile f) h0
    (by rw [e6, hfile, h.file f]; exact sortedIds_nodup h.edges.arena _)
    (by
      intro i hi
      rw [e6, hfile, h.file f, mem_sortedIds] at hi
      obtain ⟨a, h1, h2⟩ := hi
      exact ⟨a, h1, by simpa [hasKey, kFile] using h2⟩)
  have heq : ids.filter (fun x => decide (x.1 ∉ s2.byFile f)) = ids.filter (fun x => decide (x.2.file ≠ f)) := by
    rw [e6, hfile, h.file f, filter_not_sortedIds h.edges.arena]
    apply List.filter_congr
    intro x _
    simp [hasKey, kFile]
  rw [heq] at f2
  refine ⟨s3, ?_, ⟨?_, ?_⟩, f2.edges, ?_, ?_, ?_, ?_⟩
  · rw [removeFile]
    simp only [hs1, hun, h.unres.list, e1, Outcome.bind_ok]
    exact f1
  · intro n
    rw [f2.defs, e3]; exact hn.defs n
  · intro x hx
    rw [f2.defFiles, e5]; exact hn.files x hx
  · intro g
    by_cases hg : g = f
    · subst hg
      rw [f2.gone, sortedIds, List.filter_eq_nil_iff.mpr]
      · rfl
      · intro x hx
        have := (List.mem_filter.mp hx).2
        simpa [hasKey, kFile] using this
    · exact f2.file g hg
  · simp only [Log.without]
    rw [← h.facts, List.filter_map]; rfl
  · rw [f2.unres, e7]; rfl
  · intro n; rw [f2.counts, e2]; rfl

theorem addNodes_ok {f : Nat} (ns : List (Nat × Def)) {s : State} {ids : List (Nat × Edge)} {L : Log} (h : Inv s ids L)
    (hf : ∀ x ∈ ns, x.2.file = f) : ∃ s', addNodes f ns s = .ok s' ∧ Inv s' ids { L with nodes := L.nodes ++ ns } := by
  induction ns generalizing s L with
  | nil => exact ⟨s, rfl, by simpa using h⟩
  | cons x ns ih =>
    obtain ⟨n, d⟩ := x
    have hx := hf (n, d) (by simp)
    have hadd : Inv (addNode s n d) ids { L with nodes := L.nodes ++ [(n, d)] } := by
      refine ⟨addNode_ok h.nodes n d, ⟨h.edges.arena, ?_, ?_⟩, h.file, h.facts, h.unres.1, h.unres.2⟩
      · rw [addNode_out]; exact h.edges.out
      · rw [addNode_inc]; exact h.edges.inc
    obtain ⟨s', e1, e2⟩ := ih hadd (fun y hy => hf y (by simp [hy]))
    refine ⟨s', by rw [addNodes, if_pos hx]; exact e1, ?_⟩
    simpa [List.append_assoc] using e2

theorem addEdges_ok {f : Nat} (es : List Edge) {s : State} {ids : List (Nat × Edge)} {L : Log} (h : Inv s ids L)
    (hf : ∀ e ∈ es, e.file = f) :
    ∃ s' ids', addEdges f es s = .ok s' ∧ Inv s' ids' { L with edges := L.edges ++ es } := by
  induction es generalizing s ids L with
  | nil => exact ⟨s, ids, rfl, by simpa using h⟩
  | cons e es ih =>
    obtain ⟨s1, id, e1, e2⟩ := addEdge_ok h e
    obtain ⟨s', ids', f1, f2⟩ := ih e2 (fun y hy => hf y (by simp [hy]))
    refine ⟨s', ids', by rw [addEdges, if_pos (hf e (by simp)), e1]; exact f1, ?_⟩
    simpa [List.append_assoc] using f2

theorem addUnresolvedAll_ok {f : Nat} (us : List Unresolved) {s : State} {ids : List (Nat × Edge)} {L : Log} (h : Inv s ids L)
    (hf : ∀ u ∈ us, u.file = f) :
    ∃ s', addUnresolvedAll f us s = .ok s' ∧ Inv s' ids { L with unresolved := L.unresolved ++ us } := by
  induction us generalizing s L with
  | nil => exact ⟨s, rfl, by simpa using h⟩
  | cons u us ih =>
    have hadd : Inv (addUnresolved s u) ids { L with unresolved := L.unresolved ++ [u] } :=
      ⟨⟨h.nodes.1, h.nodes.2⟩, ⟨h.edges.1, h.edges.2, h.edges.3⟩, h.file, h.facts, addUnresolved_ok h.unres u⟩
    obtain ⟨s', e1, e2⟩ := ih hadd (fun y hy => hf y (by simp [hy]))
    refine ⟨s', by rw [addUnresolvedAll, if_pos (hf u (by simp))]; exact e1, ?_⟩
    simpa [List.append_assoc] using e2

theorem apply_ok {s : State} {ids : List (Nat × Edge)} {L : Log} (h : Inv s ids L) {op : Op} (hv : op.Valid) :
    ∃ s' ids', apply s op = .ok s' ∧ Inv s' ids' (logOp L op) := by
  cases op with
  | addNode n d =>
    refine ⟨_, ids, rfl, ⟨addNode_ok h.nodes n d, ⟨h.edges.arena, ?_, ?_⟩, h.file, h.facts, h.unres.1, h.unres.2⟩⟩
    · rw [addNode_out]; exact h.edges.out
    · rw [addNode_inc]; exact h.edges.inc
  | addEdge e =>
    obtain ⟨s', id, e1, e2⟩ := addEdge_ok h e
    exact ⟨s', _, e1, e2⟩
  | addUnresolved u =>
    exact ⟨_, ids, rfl, ⟨h.nodes.1, h.nodes.2⟩, ⟨h.edges.1, h.edges.2, h.edges.3⟩, h.file, h.facts, addUnresolved_ok h.unres u⟩
  | takeUnresolved =>
    exact ⟨_, ids, rfl, ⟨h.nodes.1, h.nodes.2⟩, ⟨h.edges.1, h.edges.2, h.edges.3⟩, h.file, h.facts, ⟨rfl, fun _ => rfl⟩⟩
  | remove f =>
    obtain ⟨s', e1, e2⟩ := removeFile_ok h f
    exact ⟨s', _, e1, e2⟩
  | replace f ns es us =>
    obtain ⟨v1, v2, v3⟩ := hv
    obtain ⟨s1, a1, a2⟩ := removeFile_ok h f
    obtain ⟨s2, b1, b2⟩ := addNodes_ok ns a2 v1
    obtain ⟨s3, ids', c1, c2⟩ := addEdges_ok es b2 v2
    obtain ⟨s4, d1, d2⟩ := addUnresolvedAll_ok us c2 v3
    exact ⟨s4, ids', by simp only [apply, replaceFile, a1, Outcome.bind_ok, b1, c1, d1], d2⟩

theorem run_ok (ops : List Op) (hv : ∀ op ∈ ops, op.Valid) {s : State} {ids : List (Nat × Edge)} {L : Log} (h : Inv s ids L) :
    ∃ s' ids', run ops s = .ok s' ∧ Inv s' ids' (ops.foldl logOp L) := by
  induction ops generalizing s ids L with
  | nil => exact ⟨s, ids, rfl, h⟩
  | cons op ops ih =>
    obtain ⟨s1, ids1, e1, e2⟩ := apply_ok h (hv op (by simp))
    obtain ⟨s2, ids2, f1, f2⟩ := ih (fun o ho => hv o (by simp [ho])) e2
    exact ⟨s2, ids2, by rw [run, e1]; exact f1, f2⟩

end Verif.GraphStore
