import Mathlib.Tactic.Tauto
import Verif.Lemmas.Arena
import Verif.Spec.ReferenceStore
/-!
C18 – find-references returns exactly the current references.
-/
namespace Verif.ReferenceStore
open Verif.Store

theorem factLe_eq : leBy factKey = before := by
  funext a b
  simp only [leBy, factKey, lexLe, before]
  rw [Bool.eq_iff_iff]
  simp only [Bool.if_true_left, Bool.if_false_right, Bool.or_eq_true, Bool.and_eq_true, decide_eq_true_eq, Nat.le_iff_lt_or_eq]
  tauto

theorem natOrder : IsOrder (fun a b : Nat => decide (a ≤ b)) :=
  ⟨fun a b => by simp; omega, fun a b c h1 h2 => by simp at *; omega⟩

/-- The state matches the log `log`; `d` says whether references were added since the last sort. -/
structure Inv (s : State) (log : List (Nat × Fact)) (d : Bool) : Prop where
  facts : ∀ t, stableSort (leBy factKey) (s.facts t) = stableSort (leBy factKey) (refsOf log t)
  targets : ∀ f t, t ∈ s.targets f ↔ ∃ x ∈ log, x.1 = t ∧ x.2.file = f
  sorted : d = false → ∀ t, s.facts t = stableSort (leBy factKey) (s.facts t)
  nodup : d = false → ∀ f, (s.targets f).Pairwise (· < ·)

theorem Inv.perm {s : State} {log : List (Nat × Fact)} {d : Bool} (h : Inv s log d) (t : Nat) : (s.facts t).Perm (refsOf log t) :=
  ((stableSort_perm _).symm.trans (List.Perm.of_eq (h.facts t))).trans (stableSort_perm _)

theorem inv_init : Inv init [] false := by
  refine ⟨fun t => rfl, ?_, fun _ t => rfl, fun _ f => List.Pairwise.nil⟩
  intro f t
  simp [init]

theorem refsOf_append (log log' : List (Nat × Fact)) (t : Nat) : refsOf (log ++ log') t = refsOf log t ++ refsOf log' t := by
  simp [refsOf]

theorem inv_add {s : State} {log : List (Nat × Fact)} {d : Bool} (h : Inv s log d) (t : Nat) (a : Fact) :
    Inv (add s t a) (log ++ [(t, a)]) true := by
  refine ⟨?_, ?_, fun h => by simp at h, fun h => by simp at h⟩
  · intro t'
    rw [refsOf_append]
    by_cases ht : t' = t
    · subst ht
      simp only [add, upd_self]
      rw [← stableSort_append_left (leBy_order _), h.facts, stableSort_append_left (leBy_order _)]
      simp [refsOf]
    · simp only [add, upd_ne _ ht]
      rw [h.facts]
      have hz : refsOf [(t, a)] t' = [] := by simp [refsOf, Ne.symm ht]
      rw [hz, List.append_nil]
  · intro f t'
    by_cases hf : f = a.file
    · subst hf
      simp only [add, upd_self, List.mem_append, h.targets, List.mem_singleton]
      constructor
      · rintro (⟨x, hx, h1⟩ | rfl)
        · exact ⟨x, .inl hx, h1⟩
        · exact ⟨_, .inr rfl, rfl, rfl⟩
      · rintro ⟨x, hx | rfl, h1, h2⟩
        · exact .inl ⟨x, hx, h1, h2⟩
        · exact .inr h1.symm
    · simp only [add, upd_ne _ hf, List.mem_append, h.targets, List.mem_singleton]
      constructor
      · rintro ⟨x, hx, h1⟩
        exact ⟨x, .inl hx, h1⟩
      · rintro ⟨x, hx | rfl, h1, h2⟩
        · exact ⟨x, hx, h1, h2⟩
        · exact absurd h2.symm hf

theorem inv_sort {s : State} {log : List (Nat × Fact)} {d : Bool} (h : Inv s log d) : Inv (sortAll s) log false := by
  have hss : ∀ l : List Fact, stableSort (leBy factKey) (stableSort (leBy factKey) l) = stableSort (leBy factKey) l := fun l =>
    stableSort_of_sorted (stableSort_sorted (leBy_order _) l)
  refine ⟨?_, ?_, ?_, ?_⟩
  · intro t; simp only [sortAll]; rw [hss, h.facts]
  · intro f t; simp only [sortAll]; rw [mem_dedupAdj, mem_stableSort, h.targets]
  · intro _ t; simp only [sortAll]; rw [hss]
  · intro _ f
    simp only [sortAll]
    have hs := stableSort_sorted natOrder (s.targets f)
    have hn := dedupAdj_nodup (le := fun a b : Nat => decide (a ≤ b)) (fun a b h1 h2 => by simp at h1 h2; omega) hs
    have hs' : List.Pairwise (fun a b : Nat => decide (a ≤ b) = true) (dedupAdj (stableSort (fun a b : Nat => decide (a ≤ b)) (s.targets f))) :=
      List.Pairwise.sublist (dedupAdj_sublist _) hs
    refine (hs'.and hn).imp ?_
    intro a b hab
    have := hab.1
    have h2 := hab.2
    simp only [decide_eq_true_eq] at this
    omega

theorem removeOne_fold (f : Nat) (ts : List Nat) (m : Nat → List Fact) (t : Nat) :
    (ts.foldl (removeOne f) m) t = if t ∈ ts then (m t).filter (fun a => decide (a.file ≠ f)) else m t := by
  induction ts generalizing m with
  | nil => simp
  | cons x ts ih =>
    rw [List.foldl_cons, ih]
    by_cases hx : t = x
    · subst hx
      simp only [removeOne, upd_self, List.mem_cons, true_or, if_true, List.filter_filter, Bool.and_self]
      split <;> rfl
    · simp [removeOne, upd_ne _ hx, hx]

theorem refsOf_remove (log : List (Nat × Fact)) (f t : Nat) :
    refsOf (log.filter (fun x => decide (x.2.file ≠ f))) t = (refsOf log t).filter (fun a => decide (a.file ≠ f)) := by
  simp only [refsOf, List.filter_map, List.filter_filter]
  congr 1
  apply List.filter_congr
  intro x _
  simp [Bool.and_comm]

theorem inv_remove {s : State} {log : List (Nat × Fact)} {d : Bool} (h : Inv s log d) (f : Nat) :
    Inv (removeFile s f) (log.filter (fun x => decide (x.2.file ≠ f))) d := by
  have hfacts : ∀ t, (removeFile s f).facts t = (s.facts t).filter (fun a => decide (a.file ≠ f)) := by
    intro t
    simp only [removeFile]
    rw [removeOne_fold]
    split
    · rfl
    · rename_i hn
      rw [List.filter_eq_self.mpr]
      intro a ha
      rw [h.targets] at hn
      have := (h.perm t).mem_iff.mp ha
      simp only [refsOf, List.mem_map, List.mem_filter, decide_eq_true_eq] at this
      obtain ⟨x, ⟨h1, h2⟩, rfl⟩ := this
      simp only [ne_eq, decide_eq_true_eq]
      intro hf
      exact hn ⟨x, h1, h2, hf⟩
  refine ⟨?_, ?_, ?_, ?_⟩
  · intro t
    rw [hfacts, refsOf_remove, ← stableSort_filter (leBy_order _), ← stableSort_filter (leBy_order _), h.facts]
  · intro f' t
    by_cases hf : f' = f
    · subst hf
      simp only [removeFile, upd_self, List.not_mem_nil, false_iff]
      rintro ⟨x, hx, _, h2⟩
      simp [h2] at hx
    · simp only [removeFile, upd_ne _ hf, h.targets, List.mem_filter, decide_eq_true_eq]
      constructor
      · rintro ⟨x, hx, h1, h2⟩
        exact ⟨x, ⟨hx, by simpa [h2] using hf⟩, h1, h2⟩
      · rintro ⟨x, hx, h1, h2⟩
        exact ⟨x, hx.1, h1, h2⟩
  · intro hd t
    rw [hfacts, ← stableSort_filter (leBy_order _), ← h.sorted hd]
  · intro hd f'
    by_cases hf : f' = f
    · subst hf; simp [removeFile, upd_self]
    · simp only [removeFile, upd_ne _ hf]; exact h.nodup hd f'

theorem addAll_ok (f : Nat) (facts : List (Nat × Fact)) (hv : ∀ x ∈ facts, x.2.file = f) {s : State} {log : List (Nat × Fact)} {d : Bool}
    (h : Inv s log d) : ∃ s' d', addAll f facts s = .ok s' ∧ Inv s' (log ++ facts) d' := by
  induction facts generalizing s log d with
  | nil => exact ⟨s, d, rfl, by simpa using h⟩
  | cons x l ih =>
    obtain ⟨s', d', h1, h2⟩ := ih (fun y hy => hv y (by simp [hy])) (inv_add h x.1 x.2)
    refine ⟨s', d', ?_, by simpa using h2⟩
    rw [addAll, if_neg (by simp [hv x (by simp)])]
    exact h1

theorem apply_ok (op : Op) (hv : op.Valid) {s : State} {log : List (Nat × Fact)} {d : Bool} (h : Inv s log d) :
    ∃ s', apply s op = .ok s' ∧ Inv s' (logOp log op) (dirtyOp d op) := by
  cases op with
  | add t a => exact ⟨_, rfl, inv_add h t a⟩
  | addSorted t a => exact ⟨_, rfl, inv_sort (inv_add h t a)⟩
  | sortAll => exact ⟨_, rfl, inv_sort h⟩
  | remove f => exact ⟨_, rfl, inv_remove h f⟩
  | clear => exact ⟨_, rfl, inv_init⟩
  | replace f facts =>
    obtain ⟨s', d', h1, h2⟩ := addAll_ok f facts hv (inv_remove h f)
    exact ⟨_, by simp [apply, replaceFile, h1, Outcome.bind], inv_sort h2⟩

theorem run_ok (ops : List Op) (hv : ∀ op ∈ ops, op.Valid) {s : State} {log : List (Nat × Fact)} {d : Bool} (h : Inv s log d) :
    ∃ s', run ops s = .ok s' ∧ Inv s' (ops.foldl logOp log) (ops.foldl dirtyOp d) := by
  induction ops generalizing s log d with
  | nil => exact ⟨s, rfl, h⟩
  | cons op ops ih =>
    obtain ⟨s1, h1, h2⟩ := apply_ok op (hv op (by simp)) h
    obtain ⟨s2, h3, h4⟩ := ih (fun o ho => hv o (by simp [ho])) h2
    exact ⟨s2, by rw [run, h1]; exact h3, h4⟩

theorem flatMap_perm {g g' : Nat → List Fact} (ts : List Nat) (h : ∀ t, (g t).Perm (g' t)) : (ts.flatMap g).Perm (ts.flatMap g') := by
  induction ts with
  | nil => simp
  | cons t ts ih => rw [List.flatMap_cons, List.flatMap_cons]; exact (h t).append ih

/-- Collecting each distinct target's facts of a file gives all facts of the file. -/
theorem flatMap_targets_perm (f : Nat) (ts : List Nat) (hn : ts.Nodup) (log : List (Nat × Fact)) :
    (ts.flatMap fun t => (refsOf log t).filter (fun a => decide (a.file = f))).Perm
      ((log.filter (fun x => decide (x.1 ∈ ts ∧ x.2.file = f))).map (·.2)) := by
  induction ts with
  | nil => simp
  | cons t ts ih =>
    rw [List.nodup_cons] at hn
    rw [List.flatMap_cons]
    refine ((List.Perm.refl _).append (ih hn.2)).trans ?_
    have e1 : (refsOf log t).filter (fun a => decide (a.file = f)) = (log.filter (fun x => decide (x.1 = t ∧ x.2.file = f))).map (·.2) := by
      simp only [refsOf, List.filter_map, List.filter_filter]
      congr 1
      apply List.filter_congr
      intro x _
      simp [Bool.and_comm]
    rw [e1, ← List.map_append]
    refine List.Perm.map _ ?_
    clear e1 ih
    simp only [List.mem_cons]
    induction log with
    | nil => simp
    | cons x log ihl =>
      simp only [List.filter_cons]
      by_cases hf : x.2.file = f
      · by_cases h1 : x.1 = t
        · have h2 : x.1 ∉ ts := by rw [h1]; exact hn.1
          simp only [h1, hf, hn.1, false_and, true_and, true_or, decide_true, decide_false, if_true, if_false, Bool.false_eq_true, List.cons_append]
          exact ihl.cons x
        · by_cases h2 : x.1 ∈ ts
          · simp only [h1, h2, hf, false_and, true_and, or_true, decide_true, decide_false, if_true, if_false, Bool.false_eq_true]
            exact List.perm_middle.trans (ihl.cons x)
          · simp only [h1, h2, hf, false_and, or_self, decide_false, if_false, Bool.false_eq_true]
            exact ihl
      · simp only [hf, and_false, decide_false, if_false, Bool.false_eq_true]
        exact ihl

/-- **C18**: after any history of valid calls the store has not panicked and holds for each target exactly the references
present. Unless references were added since the last sort, the references of a target come in file and position order, the
references of a file are each reported exactly once, and the targets of a range are exactly those with a reference there, each
once and in ascending order. -/
theorem c18_references_reflect_latest (ops : List Op) (hv : ∀ op ∈ ops, op.Valid) :
    ∃ s, run ops init = .ok s ∧
      (∀ t, (factsFor s t).Perm (refsOf (logOf ops) t)) ∧
      (∀ f a, a ∈ factsInFile s f ↔ a ∈ refsIn (logOf ops) f) ∧
      (dirty ops = false →
        (∀ t, Lists (factsFor s t) (refsOf (logOf ops) t)) ∧
        (∀ f, (factsInFile s f).Perm (refsIn (logOf ops) f)) ∧
        (∀ file start stop,
          (targetsForExactRange s file start stop).Pairwise (· < ·) ∧
          ∀ t, t ∈ targetsForExactRange s file start stop ↔
            ∃ a, (t, a) ∈ logOf ops ∧ a.file = file ∧ a.start = start ∧ a.stop = stop)) := by
  obtain ⟨s, h1, h2⟩ := run_ok ops hv inv_init
  have h2 : Inv s (logOf ops) (dirty ops) := h2
  refine ⟨s, h1, h2.perm, ?_, ?_⟩
  · intro f a
    simp only [factsInFile, List.mem_flatMap, List.mem_filter, decide_eq_true_eq, refsIn, List.mem_map]
    constructor
    · rintro ⟨t, _, ha, hf⟩
      have := (h2.perm t).mem_iff.mp ha
      simp only [refsOf, List.mem_map, List.mem_filter, decide_eq_true_eq] at this
      obtain ⟨x, ⟨h3, _⟩, rfl⟩ := this
      exact ⟨x, ⟨h3, hf⟩, rfl⟩
    · rintro ⟨x, ⟨h3, hf⟩, rfl⟩
      refine ⟨x.1, (h2.targets f x.1).mpr ⟨x, h3, rfl, hf⟩, ?_, hf⟩
      rw [(h2.perm x.1).mem_iff]
      simp only [refsOf, List.mem_map, List.mem_filter, decide_eq_true_eq]
      exact ⟨x, ⟨h3, rfl⟩, rfl⟩
  · intro hd
    have hfacts : ∀ t, s.facts t = stableSort before (refsOf (logOf ops) t) := by
      intro t; rw [← factLe_eq, h2.sorted hd, h2.facts]
    have ho : IsOrder before := by rw [← factLe_eq]; exact leBy_order _
    refine ⟨?_, ?_, ?_⟩
    · intro t
      rw [factsFor, hfacts]
      refine ⟨stableSort_perm _, stableSort_sorted ho _, ?_⟩
      intro k
      refine filter_stableSort ?_
      intro a b ha hb
      rw [Bool.and_eq_true] at ha hb
      exact ho.trans _ _ _ ha.1 hb.2
    · intro f
      have hnd : (s.targets f).Nodup := (h2.nodup hd f).imp (fun h => Nat.ne_of_lt h)
      have hcong : (factsInFile s f).Perm ((s.targets f).flatMap fun t => (refsOf (logOf ops) t).filter (fun a => decide (a.file = f))) := by
        rw [factsInFile]
        exact flatMap_perm _ fun t => (h2.perm t).filter _
      refine hcong.trans ((flatMap_targets_perm f _ hnd _).trans (List.Perm.of_eq ?_))
      rw [refsIn]
      congr 1
      apply List.filter_congr
      intro x hx
      rw [Bool.eq_iff_iff]
      simp only [decide_eq_true_eq]
      constructor
      · exact fun h => h.2
      · exact fun h => ⟨(h2.targets f x.1).mpr ⟨x, hx, rfl, h⟩, h⟩
    · intro file start stop
      refine ⟨(h2.nodup hd file).sublist List.filter_sublist, ?_⟩
      intro t
      simp only [targetsForExactRange, List.mem_filter, List.any_eq_true, decide_eq_true_eq]
      constructor
      · rintro ⟨_, a, ha, hr⟩
        have := (h2.perm t).mem_iff.mp ha
        simp only [refsOf, List.mem_map, List.mem_filter, decide_eq_true_eq] at this
        obtain ⟨x, ⟨h3, rfl⟩, rfl⟩ := this
        exact ⟨x.2, h3, hr⟩
      · rintro ⟨a, ha, hr⟩
        refine ⟨(h2.targets file t).mpr ⟨_, ha, rfl, hr.1⟩, a, ?_, hr⟩
        rw [(h2.perm t).mem_iff]
        simp only [refsOf, List.mem_map, List.mem_filter, decide_eq_true_eq]
        exact ⟨_, ⟨ha, rfl⟩, rfl⟩

/-- **C18**: a call about one file leaves the references that other files contribute to each target as they were. -/
theorem c18_other_files_unchanged (ops : List Op) (hv : ∀ op ∈ ops, op.Valid) (f f' : Nat) (facts : List (Nat × Fact))
    (hx : ∀ x ∈ facts, x.2.file = f) (hne : f' ≠ f) {s : State} (h : run ops init = .ok s) :
    ∃ s', replaceFile s f facts = .ok s' ∧
      ∀ t, ((factsFor s' t).filter (fun a => decide (a.file = f'))).Perm ((factsFor s t).filter (fun a => decide (a.file = f'))) := by
  obtain ⟨s1, h1, h2⟩ := run_ok ops hv inv_init
  rw [h] at h1; cases h1
  obtain ⟨s', h3, h4⟩ := apply_ok (.replace f facts) hx h2
  refine ⟨s', h3, ?_⟩
  intro t
  refine ((h4.perm t).filter _).trans (List.Perm.trans (List.Perm.of_eq ?_) ((h2.perm t).filter _).symm)
  simp only [logOp]
  rw [refsOf_append, List.filter_append, refsOf_remove, List.filter_filter]
  have e1 : (refsOf facts t).filter (fun a => decide (a.file = f')) = [] := by
    rw [List.filter_eq_nil_iff]
    intro a ha
    simp only [refsOf, List.mem_map, List.mem_filter] at ha
    obtain ⟨x, ⟨h5, _⟩, rfl⟩ := ha
    simp [hx x h5, Ne.symm hne]
  rw [e1, List.append_nil]
  apply List.filter_congr
  intro a _
  by_cases ha : a.file = f'
  · simp [ha, hne]
  · simp [ha]

/-- A reference of another file is refused by a panic. -/
theorem c18_foreign_fact_panics (s : State) (f : Nat) (x : Nat × Fact) (l l' : List (Nat × Fact)) (hx : x.2.file ≠ f) :
    replaceFile s f (l ++ x :: l') = .panic := by
  have : ∀ s, addAll f (l ++ x :: l') s = .panic := by
    induction l with
    | nil => intro s; simp [addAll, hx]
    | cons y l ih =>
      intro s
      rw [List.cons_append, addAll]
      split
      · rfl
      · exact ih _
  rw [replaceFile, this]
  rfl

/-- Before the sort that ends a resolve pass, a file with two references to one target reports each of them twice: the
hypothesis `dirty ops = false` of `c18_references_reflect_latest` is needed. -/
theorem c18_unsorted_repeats :
    ∃ ops s, (∀ op ∈ ops, op.Valid) ∧ run ops init = .ok s ∧ ¬ (factsInFile s 1).Perm (refsIn (logOf ops) 1) := by
  refine ⟨[.add 7 ⟨1, 0, 1, 0⟩, .add 7 ⟨1, 5, 6, 0⟩], add (add init 7 ⟨1, 0, 1, 0⟩) 7 ⟨1, 5, 6, 0⟩, ?_, rfl, ?_⟩
  · intro op hop; simp at hop; rcases hop with rfl | rfl <;> trivial
  · decide

/-- Example: the same two references after the sort, and after the file has been replaced. -/
theorem c18_example :
    let res (ops : List Op) := ((run ops init).state?.map fun s => ((factsFor s 7).map (·.start), (factsInFile s 1).length, targetsForExactRange s 1 5 6))
    res [.add 7 ⟨1, 5, 6, 0⟩, .add 7 ⟨1, 0, 1, 0⟩, .add 3 ⟨1, 5, 6, 0⟩, .sortAll] = some ([0, 5], 3, [3, 7]) ∧
    res [.add 7 ⟨1, 5, 6, 0⟩, .add 7 ⟨2, 0, 1, 0⟩, .sortAll, .replace 1 [(7, ⟨1, 9, 10, 0⟩)]] = some ([9, 0], 1, []) ∧
    res [.add 7 ⟨1, 5, 6, 0⟩, .add 7 ⟨2, 0, 1, 0⟩, .remove 1] = some ([0], 0, []) := by
  decide

/-! ### candidates -/

theorem crun_ok (ops : List (Nat × List Cand)) (hv : ∀ x ∈ ops, ∀ c ∈ x.2, c.file = x.1) (s : CState) (L : Nat → List Cand)
    (h1 : ∀ f, s.constants f = stableSort (leBy candKey) ((L f).filter (fun c => decide (c.kind = .constant))))
    (h2 : ∀ f, s.methods f = stableSort (leBy candKey) ((L f).filter (fun c => decide (c.kind = .method))))
    (h3 : ∀ f, s.resolved f = stableSort (leBy candKey) ((L f).filter (fun c => decide (c.kind = .resolved)))) :
    ∃ s', crun ops s = .ok s' ∧ ∀ f, candidatesInFile s' f
      = candidatesInFile
          { constants := fun f => stableSort (leBy candKey) ((ops.foldl (fun acc x => if x.1 = f then x.2 else acc) (L f)).filter (fun c => decide (c.kind = .constant))),
            methods := fun f => stableSort (leBy candKey) ((ops.foldl (fun acc x => if x.1 = f then x.2 else acc) (L f)).filter (fun c => decide (c.kind = .method))),
            resolved := fun f => stableSort (leBy candKey) ((ops.foldl (fun acc x => if x.1 = f then x.2 else acc) (L f)).filter (fun c => decide (c.kind = .resolved))) } f := by
  induction ops generalizing s L with
  | nil =>
    refine ⟨s, rfl, fun f => ?_⟩
    simp [candidatesInFile, h1, h2, h3]
  | cons x ops ih =>
    have hx : ¬ (x.2.any (fun c => decide (c.file ≠ x.1)) = true) := by
      rw [List.any_eq_true]
      rintro ⟨c, hc, hne⟩
      simp [hv x (by simp) c hc] at hne
    have key : ∀ (m : Nat → List Cand) (k : CandKind) (_ : ∀ f, m f = stableSort (leBy candKey) ((L f).filter (fun c => decide (c.kind = k)))) (f : Nat),
        upd m x.1 (stableSort (leBy candKey) (x.2.filter (fun c => decide (c.kind = k)))) f
          = stableSort (leBy candKey) ((if x.1 = f then x.2 else L f).filter (fun c => decide (c.kind = k))) := by
      intro m k hm f
      by_cases hf : f = x.1
      · subst hf; simp [upd_self]
      · rw [upd_ne _ hf, hm, if_neg (fun h => hf h.symm)]
    obtain ⟨s', e1, e2⟩ := ih (fun y hy => hv y (by simp [hy]))
      { constants := upd s.constants x.1 (stableSort (leBy candKey) (x.2.filter (fun c => decide (c.kind = .constant)))),
        methods := upd s.methods x.1 (stableSort (leBy candKey) (x.2.filter (fun c => decide (c.kind = .method)))),
        resolved := upd s.resolved x.1 (stableSort (leBy candKey) (x.2.filter (fun c => decide (c.kind = .resolved)))) }
      (fun f => if x.1 = f then x.2 else L f) (key _ _ h1) (key _ _ h2) (key _ _ h3)
    refine ⟨s', ?_, e2⟩
    rw [crun, creplace, if_neg hx]
    exact e1

theorem kind_perm (l : List Cand) :
    (l.filter (fun c => decide (c.kind = .constant)) ++ l.filter (fun c => decide (c.kind = .method)) ++
      l.filter (fun c => decide (c.kind = .resolved))).Perm l := by
  rw [List.perm_iff_count]
  intro a
  have key : ∀ p : Cand → Bool, (l.filter p).count a = if p a then l.count a else 0 := by
    intro p
    by_cases h : p a = true
    · rw [List.count_filter h, if_pos h]
    · rw [if_neg h, List.count_eq_zero]
      intro hm
      exact h (List.mem_filter.mp hm).2
  simp only [List.count_append, key]
  cases a.kind <;> simp

/-- **C18**: the reference candidates of a file are exactly the ones last supplied for it, ordered by position, whatever
happened to other files. -/
theorem c18_candidates_reflect_latest (ops : List (Nat × List Cand)) (hv : ∀ x ∈ ops, ∀ c ∈ x.2, c.file = x.1) :
    ∃ s, crun ops cinit = .ok s ∧ ∀ f,
      (candidatesInFile s f).Perm (latest ops f) ∧
      (candidatesInFile s f).Pairwise (fun a b => a.start < b.start ∨ (a.start = b.start ∧ a.stop ≤ b.stop)) := by
  obtain ⟨s, h1, h2⟩ := crun_ok ops hv cinit (fun _ => []) (fun _ => rfl) (fun _ => rfl) (fun _ => rfl)
  refine ⟨s, h1, fun f => ?_⟩
  rw [h2]
  constructor
  · simp only [candidatesInFile]
    refine (stableSort_perm _).trans ?_
    refine (((stableSort_perm _).append (stableSort_perm _)).append (stableSort_perm _)).trans ?_
    exact kind_perm _
  · refine (stableSort_sorted (leBy_order candKey) _).imp ?_
    intro a b hab
    simp only [leBy, candKey, lexLe, Bool.if_true_left, Bool.if_false_right, Bool.or_eq_true, Bool.and_eq_true, decide_eq_true_eq] at hab
    omega

end Verif.ReferenceStore
