import Verif.Lemmas.SymbolStore
/-!
C14 – the symbol index reflects exactly the latest facts of each file.
C19 – incremental placement equals a full re-sort.
-/
namespace Verif.SymbolStore
open Verif.Store

theorem beforeInName_eq : beforeInName = leBy fqnKey := by
  funext a b
  simp only [beforeInName, leBy, fqnKey, lexLe]
  rcases Nat.lt_trichotomy a.file b.file with h | h | h
  · simp [h]
  · rcases Nat.lt_trichotomy a.start b.start with h1 | h1 | h1
    · simp [h, h1]
    · rcases Nat.lt_trichotomy a.stop b.stop with h2 | h2 | h2
      · simp [h, h1, h2]
      · rcases Nat.lt_trichotomy a.kind b.kind with h3 | h3 | h3
        · simp [h, h1, h2, h3, Nat.le_of_lt h3]
        · simp [h, h1, h2, h3]
        · have : ¬ a.kind ≤ b.kind := by omega
          have h4 : ¬ a.kind < b.kind := by omega
          have h5 : a.kind ≠ b.kind := by omega
          simp [h, h1, h2, this, h4, h5]
      · have h4 : ¬ a.stop < b.stop := by omega
        have h5 : a.stop ≠ b.stop := by omega
        simp [h, h1, h4, h5]
    · have h4 : ¬ a.start < b.start := by omega
      have h5 : a.start ≠ b.start := by omega
      simp [h, h4, h5]
  · have h4 : ¬ a.file < b.file := by omega
    have h5 : a.file ≠ b.file := by omega
    simp [h4, h5]

theorem beforeInFile_eq : beforeInFile = leBy fileKey := by
  funext a b
  simp only [beforeInFile, leBy, fileKey, lexLe]
  rcases Nat.lt_trichotomy a.start b.start with h1 | h1 | h1
  · simp [h1]
  · rcases Nat.lt_trichotomy a.stop b.stop with h2 | h2 | h2
    · simp [h1, h2]
    · rcases Nat.lt_trichotomy a.kind b.kind with h3 | h3 | h3
      · simp [h1, h2, h3, Nat.le_of_lt h3]
      · simp [h1, h2, h3]
      · have : ¬ a.kind ≤ b.kind := by omega
        have h4 : ¬ a.kind < b.kind := by omega
        have h5 : a.kind ≠ b.kind := by omega
        simp [h1, h2, this, h4, h5]
    · have h4 : ¬ a.stop < b.stop := by omega
      have h5 : a.stop ≠ b.stop := by omega
      simp [h1, h4, h5]
  · have h4 : ¬ a.start < b.start := by omega
    have h5 : a.start ≠ b.start := by omega
    simp [h4, h5]

theorem lists_stableSort {le : Fact → Fact → Bool} (o : IsOrder le) (l : List Fact) : Lists le (stableSort le l) l :=
  ⟨stableSort_perm l, stableSort_sorted o l, fun k => filter_stableSort (by
    intro a b ha hb
    simp only [Bool.and_eq_true] at ha hb
    exact o.trans _ _ _ ha.1 hb.2)⟩

theorem Lists.unique {le : Fact → Fact → Bool} (o : IsOrder le) {l l' facts : List Fact} (h : Lists le l facts)
    (h' : Lists le l' facts) : l = l' := by
  rw [stableSort_unique o h.ordered h.stable, stableSort_unique o h'.ordered h'.stable]

/-- **C14**: after any history of valid calls the store has not panicked; every name and every file lists exactly the facts
present, in the documented order; and the store's contents are exactly the facts present. -/
theorem c14_index_reflects_latest (ops : List Op) (hv : ∀ op ∈ ops, op.Valid) :
    ∃ s, run ops init = .ok s ∧
      (∀ n, Lists beforeInName (factsFor s n) ((logOf ops).filter (fun a => decide (a.fqn = n)))) ∧
      (∀ f, Lists beforeInFile (factsInFile s f) ((logOf ops).filter (fun a => decide (a.file = f)))) ∧
      (allFacts s).Perm (logOf ops) := by
  obtain ⟨s, log, h1, h2, h3⟩ := run_ok ops hv inv_init
  have h3 : log.map (·.2) = logOf ops := h3
  refine ⟨s, h1, ?_, ?_, ?_⟩
  · intro n
    rw [factsFor, h2.fqn, h2.arena.clone_sortedIds, h3, beforeInName_eq]
    exact lists_stableSort oFqn _
  · intro f
    rw [factsInFile, h2.file, h2.arena.clone_sortedIds, h3, beforeInFile_eq]
    exact lists_stableSort oFile _
  · rw [← h3]; exact h2.arena.all_perm

theorem run_append (ops : List Op) (op : Op) (s : State) :
    run (ops ++ [op]) s = (run ops s).bind (fun s => apply s op) := by
  induction ops generalizing s with
  | nil =>
    simp only [List.nil_append, run, Outcome.bind]
    cases apply s op <;> rfl
  | cons o ops ih =>
    simp only [List.cons_append, run]
    cases h : apply s o with
    | ok s' => simp only [Outcome.bind_ok]; exact ih s'
    | disabled => rfl
    | panic => rfl

/-- A call leaves the facts of other files where they were. -/
theorem logOp_other (log : List Fact) {op : Op} (hv : op.Valid) (q : Fact → Bool) (hq : ∀ a, q a = true → a.file ≠ op.file) :
    (logOp log op).filter q = log.filter q := by
  have hrem : ∀ f, (∀ a, q a = true → a.file ≠ f) →
      (log.filter (fun a => decide (a.file ≠ f))).filter q = log.filter q := by
    intro f hf
    rw [List.filter_filter]
    apply List.filter_congr
    intro a _
    by_cases h : q a = true
    · simp [h, hf a h]
    · simp [h]
  cases op with
  | add a =>
    have : q a ≠ true := fun h => hq a h rfl
    simp [logOp, List.filter_append, this]
  | remove f => exact hrem f hq
  | replace f facts =>
    have : facts.filter q = [] := by
      rw [List.filter_eq_nil_iff]
      intro a ha h
      exact hq a h (hv a ha)
    simp only [logOp]
    rw [List.filter_append, this, List.append_nil]
    exact hrem f hq

/-- **C14**: a call concerning one file changes neither what another file reports nor the part of any name's list that comes
from other files. -/
theorem c14_other_files_unchanged (ops : List Op) (op : Op) (hv : ∀ o ∈ ops ++ [op], o.Valid) {s s' : State}
    (h : run ops init = .ok s) (h' : run (ops ++ [op]) init = .ok s') :
    (∀ f, f ≠ op.file → factsInFile s' f = factsInFile s f) ∧
    (∀ n, (factsFor s' n).filter (fun a => decide (a.file ≠ op.file)) = (factsFor s n).filter (fun a => decide (a.file ≠ op.file))) := by
  obtain ⟨s1, log1, e1, i1, l1⟩ := run_ok ops (fun o ho => hv o (by simp [ho])) inv_init
  rw [h] at e1; cases e1
  obtain ⟨s2, log2, e2, i2, l2⟩ := run_ok (ops ++ [op]) hv inv_init
  rw [h'] at e2; cases e2
  have hop : op.Valid := hv op (by simp)
  have hl : log2.map (·.2) = logOp (log1.map (·.2)) op := by
    rw [l2, l1, List.foldl_append]; rfl
  constructor
  · intro f hf
    rw [factsInFile, factsInFile, i1.file, i2.file, i1.arena.clone_sortedIds, i2.arena.clone_sortedIds, hl]
    rw [logOp_other _ hop]
    intro a ha
    simp only [isFile, decide_eq_true_eq] at ha
    rw [ha]; exact hf
  · intro n
    rw [factsFor, factsFor, i1.fqn, i2.fqn, i1.arena.clone_sortedIds, i2.arena.clone_sortedIds, hl]
    rw [stableSort_filter oFqn, stableSort_filter oFqn, List.filter_filter, List.filter_filter, logOp_other _ hop]
    intro a ha
    simp only [Bool.and_eq_true, decide_eq_true_eq] at ha
    exact ha.1

/-- **C14**: the answer for a name does not depend on the order in which files were indexed – two histories that leave every
file with the same facts give the same list. -/
theorem c14_independent_of_file_order (ops ops' : List Op) (hv : ∀ o ∈ ops, o.Valid) (hv' : ∀ o ∈ ops', o.Valid)
    {s s' : State} (h : run ops init = .ok s) (h' : run ops' init = .ok s')
    (hsame : ∀ f, (logOf ops).filter (fun a => decide (a.file = f)) = (logOf ops').filter (fun a => decide (a.file = f))) (n : Nat) :
    factsFor s n = factsFor s' n := by
  obtain ⟨s1, log1, e1, i1, l1⟩ := run_ok ops hv inv_init
  rw [h] at e1; cases e1
  obtain ⟨s2, log2, e2, i2, l2⟩ := run_ok ops' hv' inv_init
  rw [h'] at e2; cases e2
  rw [factsFor, factsFor, i1.fqn, i2.fqn, i1.arena.clone_sortedIds, i2.arena.clone_sortedIds]
  refine stableSort_unique oFqn (stableSort_sorted oFqn _) ?_
  intro k
  rw [(lists_stableSort oFqn _).stable k]
  have key : ∀ l : List Fact, (l.filter (isFqn n)).filter (fun a => leBy fqnKey a k && leBy fqnKey k a)
      = ((l.filter (fun a => decide (a.file = k.file))).filter (isFqn n)).filter (fun a => leBy fqnKey a k && leBy fqnKey k a) := by
    intro l
    simp only [List.filter_filter]
    apply List.filter_congr
    intro a _
    by_cases hc : (leBy fqnKey a k && leBy fqnKey k a) = true
    · simp only [Bool.and_eq_true] at hc
      have h1 := fqnKey_file hc.1
      have h2 := fqnKey_file hc.2
      have : a.file = k.file := by omega
      simp [this]
    · simp [hc]
  rw [key, key (log2.map _)]
  have hs := hsame k.file
  unfold logOf at hs
  rw [show log1.map (·.2) = ops.foldl logOp [] from l1, show log2.map (·.2) = ops'.foldl logOp [] from l2, hs]

/-- A replacement fact of another file is refused by a panic, as the code asserts. -/
theorem c14_foreign_fact_panics (s : State) (f : Nat) (a : Fact) (rest : List Fact)
    (h : a.file ≠ f) : replaceFile s f (a :: rest) = .panic := by
  simp [replaceFile, append, h, Outcome.bind]

/-- Example: slots are reused, two files share a name, and a re-indexed file takes its place between the others. -/
theorem c14_example :
    let a (file start rest : Nat) : Fact := { fqn := 7, file, start, stop := start + 1, kind := 0, rest }
    let ops : List Op := [.replace 2 [a 2 9 0, a 2 1 1], .replace 1 [a 1 5 2], .add (a 3 0 3), .replace 2 [a 2 4 4],
      .remove 1, .replace 1 [a 1 8 5, a 1 3 6]]
    ((run ops init).state?.map fun s => ((factsFor s 7).map (·.rest), (factsInFile s 1).map (·.rest), (factsInFile s 2).map (·.rest)))
      = some ([6, 5, 4, 3], [6, 5], [4]) := by decide

/-- **C19**: placing the facts of one freshly indexed file in an ordered index that no longer contains the file gives the
stable sort of the whole list. -/
theorem c19_place_eq_full_sort {T : Type} [DecidableEq T] (key : T → List Nat) (fileOf : T → Nat) (f : Nat) (index new : List T)
    (hs : index.Pairwise (fun a b => leBy (fun x => fileOf x :: key x) a b = true))
    (hne : new ≠ []) (hold : ∀ a ∈ index, fileOf a ≠ f) (hnew : ∀ a ∈ new, fileOf a = f) :
    place (index ++ new) new.length f fileOf (fun l => .ok (stableSort (leBy (fun x => fileOf x :: key x)) l))
      = .ok (stableSort (leBy (fun x => fileOf x :: key x)) (index ++ new)) := by
  refine place_eq_sort (leBy_order _) ?_ ?_ hs hne hold hnew rfl
  · intro a b h
    simp only [leBy, lexLe] at h
    split at h
    · omega
    · split at h
      · omega
      · simp at h
  · intro a b h
    simp [leBy, lexLe, h]

/-- **C19**: the placed list has the same elements, is ordered by file and position, and keeps elements with equal keys in
their previous order. -/
theorem c19_place_ordered {T : Type} [DecidableEq T] (key : T → List Nat) (fileOf : T → Nat) (f : Nat) (index new : List T)
    (hs : index.Pairwise (fun a b => leBy (fun x => fileOf x :: key x) a b = true))
    (hne : new ≠ []) (hold : ∀ a ∈ index, fileOf a ≠ f) (hnew : ∀ a ∈ new, fileOf a = f) :
    ∃ out, place (index ++ new) new.length f fileOf (fun l => .ok (stableSort (leBy (fun x => fileOf x :: key x)) l)) = .ok out ∧
      out.Perm (index ++ new) ∧ out.Pairwise (fun a b => fileOf a ≤ fileOf b) ∧
      out.Pairwise (fun a b => leBy (fun x => fileOf x :: key x) a b = true) ∧
      ∀ k, out.filter (fun x => decide (fileOf x :: key x = k)) = (index ++ new).filter (fun x => decide (fileOf x :: key x = k)) := by
  refine ⟨_, c19_place_eq_full_sort key fileOf f index new hs hne hold hnew, stableSort_perm _, ?_, stableSort_sorted (leBy_order _) _, ?_⟩
  · refine (stableSort_sorted (leBy_order _) _).imp ?_
    intro a b h
    simp only [leBy, lexLe] at h
    split at h
    · omega
    · split at h
      · omega
      · simp at h
  · intro k
    refine filter_stableSort ?_
    intro a b ha hb
    have ha := of_decide_eq_true ha
    have hb := of_decide_eq_true hb
    simp only [leBy]
    rw [ha, hb]
    exact lexLe_refl _

/-- **C19**: an ordered index that still contains the file is refused by a panic. -/
theorem c19_stale_file_panics {T : Type} [DecidableEq T] (fileOf : T → Nat) (f : Nat) (index new : List T)
    (sort : List T → Outcome (List T)) (hs : index.Pairwise (fun a b => fileOf a ≤ fileOf b)) (hne : new ≠ [])
    {x : T} (hx : x ∈ index) (hf : fileOf x = f) (hsort : ∃ l, sort new = .ok l) :
    place (index ++ new) new.length f fileOf sort = .panic := by
  obtain ⟨tail, ht⟩ := hsort
  have hlen : 0 < new.length := List.length_pos_iff.mpr hne
  have hstart : (index ++ new).length - new.length = index.length := by simp
  rw [place, if_pos ⟨hlen, by simp⟩]
  simp only [hstart, List.drop_left, List.take_left, ht, Outcome.bind_ok]
  have hsplit : index = index.filter (fun a => decide (fileOf a < f)) ++ index.filter (fun a => !decide (fileOf a < f)) := by
    clear hx
    induction index with
    | nil => rfl
    | cons a l ih =>
      have hp := List.pairwise_cons.mp hs
      have ih := ih hp.2 (by simp)
      by_cases ha : fileOf a < f
      · simp only [List.filter_cons, ha, decide_true, if_true, Bool.not_true, Bool.false_eq_true, if_false,
          List.cons_append]
        rw [← ih]
      · have : l.filter (fun a => decide (fileOf a < f)) = [] := by
          rw [List.filter_eq_nil_iff]
          intro y hy
          have := hp.1 y hy
          simp; omega
        rw [this] at ih
        simp only [List.filter_cons, ha, decide_false, Bool.not_false, if_true, Bool.false_eq_true, if_false, this,
          List.nil_append]
        rw [List.nil_append] at ih
        rw [← ih]
  rw [partitionPoint, if_pos hsplit, Outcome.bind_ok]
  generalize hA : index.filter (fun a => decide (fileOf a < f)) = A at hsplit
  generalize hB : index.filter (fun a => !decide (fileOf a < f)) = B at hsplit
  have hxB : x ∈ B := by rw [← hB, List.mem_filter]; exact ⟨hx, by simp [hf]⟩
  have hget : (index[A.length]?).any (fun e => fileOf e == f) = true := by
    cases B with
    | nil => simp at hxB
    | cons b B =>
      have hb1 : ¬ fileOf b < f := by
        have : b ∈ index.filter (fun a => !decide (fileOf a < f)) := by rw [hB]; simp
        simpa using (List.mem_filter.mp this).2
      have hb2 : fileOf b ≤ f := by
        have hsB : (b :: B).Pairwise (fun a b => fileOf a ≤ fileOf b) := by
          rw [← hB]; exact hs.sublist List.filter_sublist
        rcases List.mem_cons.mp hxB with rfl | hm
        · omega
        · have := (List.pairwise_cons.mp hsB).1 x hm; omega
      have : index[A.length]? = some b := by rw [hsplit]; simp
      rw [this]
      simp only [Option.any_some, beq_iff_eq]
      omega
  rw [hget]; rfl

/-- Example: two new facts of file 2 go between files 1 and 3, sorted by position. -/
theorem c19_example :
    place [(1, 4), (1, 9), (3, 0), (2, 8), (2, 5)] 2 2 Prod.fst
      (fun l => .ok (stableSort (leBy (fun x : Nat × Nat => [x.1, x.2])) l))
      = .ok [(1, 4), (1, 9), (2, 5), (2, 8), (3, 0)] := by decide

end Verif.SymbolStore
