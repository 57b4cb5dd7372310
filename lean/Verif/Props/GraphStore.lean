import Mathlib.Tactic.Tauto
import Verif.Lemmas.GraphStore
/-!
C16 – superclass resolution depends only on the set of known edges.
C17 – the inheritance graph and its unresolved-superclass ledger match the latest facts.
-/
namespace Verif.GraphStore
open Verif.Store

theorem rank_inj {k k' : Kind} (h : k.rank = k'.rank) : k = k' := by cases k <;> cases k' <;> simp_all [Kind.rank]
theorem prank_inj {k k' : Prov} (h : k.rank = k'.rank) : k = k' := by cases k <;> cases k' <;> simp_all [Prov.rank]

theorem edgeLe_iff (a b : Edge) : leBy edgeKey a b = true ↔ edgeLt a b ∨ a = b := by
  have hext : a = b ↔ a.source = b.source ∧ a.file = b.file ∧ a.start = b.start ∧ a.stop = b.stop ∧ a.kind.rank = b.kind.rank ∧
      a.prov.rank = b.prov.rank ∧ a.target = b.target := by
    constructor
    · rintro rfl; simp
    · rintro ⟨h1, h2, h3, h4, h5, h6, h7⟩
      have h5 := rank_inj h5
      have h6 := prank_inj h6
      cases a; cases b; simp_all
  rw [hext]
  simp only [leBy, edgeKey, lexLe, edgeLt]
  simp only [Bool.if_true_left, Bool.if_false_right, Bool.or_eq_true, Bool.and_eq_true, decide_eq_true_eq]
  tauto

theorem edgeLe_anti (a b : Edge) (h1 : leBy edgeKey a b = true) (h2 : leBy edgeKey b a = true) : a = b := by
  rw [edgeLe_iff] at h1 h2
  rcases h1 with h1 | h1
  · rcases h2 with h2 | h2
    · simp only [edgeLt] at h1 h2; omega
    · exact h2.symm
  · exact h1

theorem listsEdges_sort {l es : List Edge} (h : l.Perm es) : ListsEdges (stableSort (leBy edgeKey) l) es := by
  refine ⟨(stableSort_perm l).trans h, ?_⟩
  refine (stableSort_sorted (leBy_order _) l).imp ?_
  intro a b hab
  exact (edgeLe_iff a b).mp hab

theorem clone_idx {κ : Type} [DecidableEq κ] {keyOf : Edge → Option κ} {A : Arena Edge} {ids : List (Nat × Edge)} {m : κ → List Nat}
    (ha : ArenaOk A ids) (h : IdxOk anyLe keyOf ids m) (k : κ) : A.clone (m k) = (ids.map (·.2)).filter (hasKey keyOf k) := by
  rw [h k, ha.clone_sortedIds, stableSort_any (le := anyLe) (fun _ _ => rfl)]

theorem clone_append {A : Arena Edge} (l l' : List Nat) : A.clone (l ++ l') = A.clone l ++ A.clone l' := by
  simp [Arena.clone]

/-- The five per-kind lists together are all edges of the node. -/
theorem kinds_perm (es : List Edge) (q : Edge → Nat) (n : Nat) :
    (es.filter (fun e => decide (q e = n ∧ e.kind = .superclass)) ++ es.filter (fun e => decide (q e = n ∧ e.kind = .incl)) ++
      es.filter (fun e => decide (q e = n ∧ e.kind = .prep)) ++ es.filter (fun e => decide (q e = n ∧ e.kind = .extend)) ++
      es.filter (fun e => decide (q e = n ∧ e.kind = .context))).Perm (es.filter (fun e => decide (q e = n))) := by
  rw [List.perm_iff_count]
  intro a
  simp only [List.count_append]
  have key : ∀ p : Edge → Bool, (es.filter p).count a = if p a then es.count a else 0 := by
    intro p
    by_cases h : p a = true
    · rw [List.count_filter h, if_pos h]
    · rw [if_neg h, List.count_eq_zero]
      intro hm
      exact h (List.mem_filter.mp hm).2
  simp only [key]
  by_cases hq : q a = n
  · cases hk : a.kind <;> simp [hq]
  · simp [hq]

/-- **C17**: after any history of valid calls the graph has not panicked; the edges from a name, to a name, of a file and of
the whole graph, and the definitions of a name, are exactly those of the facts present, in order; a name is reported to have an
unresolved explicit superclass exactly when such a fact is present. -/
theorem c17_graph_reflects_latest (ops : List Op) (hv : ∀ op ∈ ops, op.Valid) :
    ∃ s, run ops init = .ok s ∧
      (∀ n, ListsEdges (edgesFrom s n) ((logOf ops).edges.filter (fun e => decide (e.source = n)))) ∧
      (∀ n, ListsEdges (edgesTo s n) ((logOf ops).edges.filter (fun e => decide (e.target = n)))) ∧
      (∀ f, ListsEdges (edgesInFile s f) ((logOf ops).edges.filter (fun e => decide (e.file = f)))) ∧
      ListsEdges (allEdges s) (logOf ops).edges ∧
      (∀ n, nodesFor s n = stableSort (leBy fun d => [d.file, d.start, d.stop])
        (((logOf ops).nodes.filter (fun x => decide (x.1 = n))).map (·.2))) ∧
      s.unresolved = (logOf ops).unresolved ∧
      (∀ n, hasUnresolvedExplicit s n = true ↔
        ∃ u ∈ (logOf ops).unresolved, u.source = n ∧ u.kind = .superclass ∧ u.prov = .explicit) := by
  obtain ⟨s, ids, h1, h2⟩ := run_ok ops hv inv_init
  have h2 : Inv s ids (logOf ops) := h2
  have hout : ∀ n k, s.edges.clone ((s.nodes n).out k) = (logOf ops).edges.filter (fun e => decide (e.source = n ∧ e.kind = k)) := by
    intro n k
    have := clone_idx h2.edges.arena h2.edges.out (n, k)
    rw [h2.facts] at this
    rw [show (s.nodes n).out k = outIdx s.nodes (n, k) from rfl, this]
    apply List.filter_congr
    intro e _
    simp [hasKey, kOut]
  have hinc : ∀ n k, s.edges.clone ((s.nodes n).inc k) = (logOf ops).edges.filter (fun e => decide (e.target = n ∧ e.kind = k)) := by
    intro n k
    have := clone_idx h2.edges.arena h2.edges.inc (n, k)
    rw [h2.facts] at this
    rw [show (s.nodes n).inc k = incIdx s.nodes (n, k) from rfl, this]
    apply List.filter_congr
    intro e _
    simp [hasKey, kInc]
  refine ⟨s, h1, ?_, ?_, ?_, ?_, h2.nodes.defs, h2.unres.list, ?_⟩
  · intro n
    refine listsEdges_sort ?_
    simp only [clone_append, hout]
    exact kinds_perm _ Edge.source n
  · intro n
    refine listsEdges_sort ?_
    simp only [clone_append, hinc]
    exact kinds_perm _ Edge.target n
  · intro f
    refine listsEdges_sort ?_
    have := clone_idx h2.edges.arena h2.file f
    rw [h2.facts] at this
    rw [this]
    refine List.Perm.of_eq ?_
    apply List.filter_congr
    intro e _
    simp [hasKey, kFile]
  · refine listsEdges_sort ?_
    rw [← h2.facts]; exact h2.edges.arena.all_perm
  · intro n
    unfold hasUnresolvedExplicit
    rw [h2.unres.counts, countSpec]
    split
    · rename_i h0
      simp only [Option.isSome_none, Bool.false_eq_true, false_iff]
      rintro ⟨u, hu, e1, e2, e3⟩
      rw [List.length_eq_zero_iff, List.filter_eq_nil_iff] at h0
      exact h0 u hu (by simp [Unresolved.counted, e1, e2, e3])
    · rename_i h0
      simp only [Option.isSome_some, true_iff]
      obtain ⟨u, hu⟩ := List.exists_mem_of_length_pos (Nat.pos_of_ne_zero h0)
      obtain ⟨h3, h4⟩ := List.mem_filter.mp hu
      simp only [Unresolved.counted, Bool.and_eq_true, decide_eq_true_eq] at h4
      exact ⟨u, h3, h4.2, h4.1.1, h4.1.2⟩

/-- A replacement fact of another file is refused by a panic. -/
theorem c17_foreign_edge_panics (s : State) (f : Nat) (e : Edge) (es : List Edge) (us : List Unresolved) (h : e.file ≠ f)
    (hr : ∃ s', removeFile s f = .ok s') : replaceFile s f [] (e :: es) us = .panic := by
  obtain ⟨s', hr⟩ := hr
  simp [replaceFile, hr, Outcome.bind, addNodes, addEdges, h]

/-! ### superclass resolution -/

theorem choose_cons (he : Bool) (e : Edge) (l : List Edge) (c : Option Edge) :
    choose he (e :: l) c = if he && decide (e.prov ≠ .explicit) then choose he l c
      else match c with
        | none => choose he l (some e)
        | some p => if p.target ≠ e.target then .ambiguous
          else choose he l (some (if !leBy edgeKey p e then e else p)) := by
  cases c <;> rfl

theorem choose_skip (he : Bool) (es : List Edge) (c : Option Edge) :
    choose he es c = choose false (es.filter (fun e => !(he && decide (e.prov ≠ .explicit)))) c := by
  induction es generalizing c with
  | nil => cases c <;> rfl
  | cons e es ih =>
    by_cases hs : (he && decide (e.prov ≠ .explicit)) = true
    · rw [choose_cons, if_pos hs, ih, List.filter_cons, if_neg (by rw [hs]; decide)]
    · rw [choose_cons, if_neg hs, List.filter_cons, if_pos (by rw [Bool.eq_false_iff.mpr hs]; rfl)]
      rw [choose_cons, if_neg (by simp)]
      cases c with
      | none => exact ih _
      | some p =>
        simp only
        split
        · rfl
        · exact ih _

/-- What the loop computes once a candidate is chosen. -/
def Chosen (l : List Edge) (p : Edge) : Resolution → Prop
  | .missing => False
  | .unique e => (e = p ∨ e ∈ l) ∧ (∀ d, d = p ∨ d ∈ l → d.target = e.target ∧ leBy edgeKey e d = true)
  | .ambiguous => ∃ d ∈ l, d.target ≠ p.target

theorem choose_some (l : List Edge) (p : Edge) : Chosen l p (choose false l (some p)) := by
  induction l generalizing p with
  | nil =>
    simp only [choose, Chosen]
    refine ⟨.inl trivial, ?_⟩
    intro d hd
    simp only [List.not_mem_nil, or_false] at hd
    subst hd
    exact ⟨rfl, by rcases (leBy_order edgeKey).total d d with h | h <;> exact h⟩
  | cons e l ih =>
    rw [choose_cons, if_neg (by simp)]
    dsimp only
    by_cases ht : p.target = e.target
    · rw [if_neg (by simpa using ht)]
      by_cases hle : leBy edgeKey p e = true
      · simp only [hle, Bool.not_true, Bool.false_eq_true, if_false]
        have := ih p
        revert this
        generalize choose false l (some p) = r
        cases r with
        | missing => exact id
        | unique x =>
          rintro ⟨h1, h2⟩
          refine ⟨by rcases h1 with h | h <;> simp [h], ?_⟩
          intro d hd
          rcases hd with rfl | hd
          · exact h2 d (.inl rfl)
          · rcases List.mem_cons.mp hd with rfl | hd
            · have hp := h2 p (.inl rfl)
              exact ⟨by rw [← ht]; exact hp.1, (leBy_order edgeKey).trans _ _ _ hp.2 hle⟩
            · exact h2 d (.inr hd)
        | ambiguous =>
          rintro ⟨d, hd, hne⟩
          exact ⟨d, by simp [hd], hne⟩
      · have hlep : leBy edgeKey e p = true := ((leBy_order edgeKey).total p e).resolve_left hle
        simp only [hle, Bool.not_false, if_true]
        have := ih e
        revert this
        generalize choose false l (some e) = r
        cases r with
        | missing => exact id
        | unique x =>
          rintro ⟨h1, h2⟩
          refine ⟨by rcases h1 with h | h <;> simp [h], ?_⟩
          intro d hd
          rcases hd with rfl | hd
          · have hp := h2 e (.inl rfl)
            exact ⟨by rw [ht]; exact hp.1, (leBy_order edgeKey).trans _ _ _ hp.2 hlep⟩
          · rcases List.mem_cons.mp hd with rfl | hd
            · exact h2 d (.inl rfl)
            · exact h2 d (.inr hd)
        | ambiguous =>
          rintro ⟨d, hd, hne⟩
          exact ⟨d, by simp [hd], by rw [ht]; exact hne⟩
    · rw [if_pos ht]
      exact ⟨e, by simp, fun h => ht h.symm⟩

/-- **C16**: the reported superclass is the one the set of known edges prescribes: an explicit superclass beats the implicit
one, two different targets of the winning kind are ambiguous, no edge is missing, and among several facts for the same superclass
the first in edge order is reported. -/
theorem c16_resolution_spec (ops : List Op) (hv : ∀ op ∈ ops, op.Valid) (n : Nat) :
    ∃ s, run ops init = .ok s ∧ SpecResolution (logOf ops).edges n (superclassResolution s n) := by
  obtain ⟨s, ids, h1, h2⟩ := run_ok ops hv inv_init
  have h2 : Inv s ids (logOf ops) := h2
  refine ⟨s, h1, ?_⟩
  have hout : s.edges.clone ((s.nodes n).out .superclass)
      = (logOf ops).edges.filter (fun e => decide (e.source = n ∧ e.kind = .superclass)) := by
    have := clone_idx h2.edges.arena h2.edges.out (n, .superclass)
    rw [h2.facts] at this
    rw [show (s.nodes n).out .superclass = outIdx s.nodes (n, .superclass) from rfl, this]
    apply List.filter_congr
    intro e _
    simp [hasKey, kOut]
  rw [superclassResolution]
  rw [hout]
  generalize hes : (logOf ops).edges = es
  generalize hE : es.filter (fun e => decide (e.source = n ∧ e.kind = .superclass)) = E
  have hmemE : ∀ e, e ∈ E ↔ e ∈ es ∧ e.source = n ∧ e.kind = .superclass := by
    intro e; rw [← hE, List.mem_filter]; simp
  have hany : E.any (fun e => decide (e.prov = .explicit)) = true ↔
      ∃ d ∈ es, d.source = n ∧ d.kind = .superclass ∧ d.prov = .explicit := by
    rw [List.any_eq_true]
    constructor
    · rintro ⟨d, hd, hp⟩
      obtain ⟨a, b, c⟩ := (hmemE d).mp hd
      exact ⟨d, a, b, c, by simpa using hp⟩
    · rintro ⟨d, a, b, c, hp⟩
      exact ⟨d, (hmemE d).mpr ⟨a, b, c⟩, by simpa using hp⟩
  rw [choose_skip]
  have hW : ∀ e, e ∈ E.filter (fun e => !(E.any (fun e => decide (e.prov = .explicit)) && decide (e.prov ≠ .explicit)))
      ↔ Winning es n e := by
    intro e
    rw [List.mem_filter, hmemE]
    unfold Winning
    rw [← hany]
    cases E.any (fun e => decide (e.prov = .explicit)) with
    | false => simp
    | true => simp; tauto
  generalize E.filter (fun e => !(E.any (fun e => decide (e.prov = .explicit)) && decide (e.prov ≠ .explicit))) = W at hW
  cases W with
  | nil =>
    simp only [choose, SpecResolution]
    intro e he
    simpa using (hW e).mpr he
  | cons p l =>
    rw [choose_cons, if_neg (by simp)]
    simp only
    have := choose_some l p
    revert this
    generalize choose false l (some p) = r
    cases r with
    | missing => exact False.elim
    | unique e =>
      rintro ⟨a, b⟩
      refine ⟨(hW e).mp (by rcases a with rfl | a <;> simp_all), ?_⟩
      intro d hd
      have := b d (by simpa using (hW d).mpr hd)
      exact ⟨this.1, (edgeLe_iff e d).mp this.2⟩
    | ambiguous =>
      rintro ⟨d, hd, hne⟩
      exact ⟨d, p, (hW d).mp (by simp [hd]), (hW p).mp (by simp), hne⟩

/-- The specification determines the answer. -/
theorem spec_unique {es es' : List Edge} {n : Nat} (hsame : ∀ e, e ∈ es ↔ e ∈ es') {r r' : Resolution}
    (h : SpecResolution es n r) (h' : SpecResolution es' n r') : r = r' := by
  have hw : ∀ e, Winning es n e ↔ Winning es' n e := by
    intro e; unfold Winning; simp only [hsame]
  cases r with
  | missing =>
    cases r' with
    | missing => rfl
    | unique e => exact absurd ((hw e).mpr h'.1) (h e)
    | ambiguous => obtain ⟨d, _, hd, _⟩ := h'; exact absurd ((hw d).mpr hd) (h d)
  | unique e =>
    cases r' with
    | missing => exact absurd ((hw e).mp h.1) (h' e)
    | unique e' =>
      have a := (h.2 e' ((hw e').mpr h'.1)).2
      have b := (h'.2 e ((hw e).mp h.1)).2
      rw [edgeLe_anti e e' ((edgeLe_iff _ _).mpr a) ((edgeLe_iff _ _).mpr b)]
    | ambiguous =>
      obtain ⟨d, d', hd, hd', hne⟩ := h'
      exact absurd ((h.2 d ((hw d).mpr hd)).1.trans (h.2 d' ((hw d').mpr hd')).1.symm) hne
  | ambiguous =>
    obtain ⟨d, d', hd, hd', hne⟩ := h
    cases r' with
    | missing => exact absurd ((hw d).mp hd) (h' d)
    | unique e =>
      exact absurd ((h'.2 d ((hw d).mp hd)).1.trans (h'.2 d' ((hw d').mp hd')).1.symm) hne
    | ambiguous => rfl

/-- **C16**: two histories that lead to the same set of edges report the same superclass for every class. -/
theorem c16_independent_of_history (ops ops' : List Op) (hv : ∀ o ∈ ops, o.Valid) (hv' : ∀ o ∈ ops', o.Valid) {s s' : State}
    (h : run ops init = .ok s) (h' : run ops' init = .ok s')
    (hsame : ∀ e, e ∈ (logOf ops).edges ↔ e ∈ (logOf ops').edges) (n : Nat) :
    superclassResolution s n = superclassResolution s' n := by
  obtain ⟨s1, e1, r1⟩ := c16_resolution_spec ops hv n
  rw [h] at e1; cases e1
  obtain ⟨s2, e2, r2⟩ := c16_resolution_spec ops' hv' n
  rw [h'] at e2; cases e2
  exact spec_unique hsame r1 r2

/-- Example: the implicit superclass gives way to an explicit one, two explicit ones are ambiguous, and removing one file
makes the answer unique again. -/
theorem c16_example :
    let e (file target : Nat) (prov : Prov) : Edge := { source := 1, target, kind := .superclass, prov, file, start := 0, stop := 5 }
    let res (ops : List Op) := ((run ops init).state?.map fun s => superclassResolution s 1)
    res [] = some .missing ∧
    res [.replace 1 [] [e 1 9 .implicitObject] []] = some (.unique (e 1 9 .implicitObject)) ∧
    res [.replace 1 [] [e 1 9 .implicitObject] [], .replace 2 [] [e 2 8 .explicit] []] = some (.unique (e 2 8 .explicit)) ∧
    res [.addEdge (e 1 7 .explicit), .replace 2 [] [e 2 8 .explicit] []] = some .ambiguous ∧
    res [.addEdge (e 1 7 .explicit), .replace 2 [] [e 2 8 .explicit] [], .remove 1] = some (.unique (e 2 8 .explicit)) := by
  decide

/-- Example: the ledger of unresolved explicit superclasses survives replacement, retry and removal. -/
theorem c17_example :
    let u (file : Nat) (kind : Kind) : Unresolved := { source := 1, target := 4, kind, prov := .explicit, file, start := 0, stop := 5 }
    let e : Edge := { source := 1, target := 4, kind := .superclass, prov := .explicit, file := 1, start := 0, stop := 5 }
    let has (ops : List Op) := ((run ops init).state?.map fun s => (hasUnresolvedExplicit s 1, (edgesTo s 4).length))
    has [.replace 1 [] [] [u 1 .superclass], .replace 2 [] [] [u 2 .superclass], .remove 1] = some (true, 0) ∧
    has [.replace 1 [] [] [u 1 .superclass], .replace 2 [] [] [u 2 .incl], .remove 1] = some (false, 0) ∧
    has [.replace 1 [] [] [u 1 .superclass], .takeUnresolved, .addEdge e] = some (false, 1) ∧
    has [.replace 1 [] [] [u 1 .superclass], .takeUnresolved, .addEdge e, .remove 1] = some (false, 0) ∧
    has [.replace 1 [] [] [u 1 .superclass], .takeUnresolved, .addUnresolved (u 1 .superclass), .remove 1] = some (false, 0) := by
  decide

end Verif.GraphStore
