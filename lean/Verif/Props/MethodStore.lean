import Verif.Lemmas.MethodStore
/-!
C15 – the method index reflects exactly the latest facts and composes availability deterministically.
-/
namespace Verif.MethodStore
open Verif.Store

theorem inOrder_eq (tie : Fact → Nat) : inOrder tie = leBy (fun a => [a.file, a.start, a.stop, tie a]) := by
  funext a b
  simp only [inOrder, leBy, lexLe]
  rcases Nat.lt_trichotomy a.file b.file with h | h | h
  · simp [h]
  · rcases Nat.lt_trichotomy a.start b.start with h1 | h1 | h1
    · simp [h, h1]
    · rcases Nat.lt_trichotomy a.stop b.stop with h2 | h2 | h2
      · simp [h, h1, h2]
      · rcases Nat.lt_trichotomy (tie a) (tie b) with h3 | h3 | h3
        · simp [h, h1, h2, h3, Nat.le_of_lt h3]
        · simp [h, h1, h2, h3]
        · have : ¬ tie a ≤ tie b := by omega
          have h4 : ¬ tie a < tie b := by omega
          have h5 : tie a ≠ tie b := by omega
          simp [h, h1, h2, this, h4, h5]
      · have h4 : ¬ a.stop < b.stop := by omega
        have h5 : a.stop ≠ b.stop := by omega
        simp [h, h1, h4, h5]
    · have h4 : ¬ a.start < b.start := by omega
      have h5 : a.start ≠ b.start := by omega
      simp [h, h4, h5]
  · have h4 : ¬ a.file < b.file := by omega
    have h5 : a.file ≠ b.file := by omega
    simp [h4, h5]

theorem inFileOrder_eq : inFileOrder = leBy fileKey := by
  funext a b
  simp only [inFileOrder, leBy, fileKey, lexLe]
  rcases Nat.lt_trichotomy a.start b.start with h1 | h1 | h1
  · simp [h1]
  · rcases Nat.lt_trichotomy a.stop b.stop with h3 | h3 | h3
    · simp [h1, h3, Nat.le_of_lt h3]
    · simp [h1, h3]
    · have : ¬ a.stop ≤ b.stop := by omega
      have h4 : ¬ a.stop < b.stop := by omega
      have h5 : a.stop ≠ b.stop := by omega
      simp [h1, this, h4, h5]
  · have h4 : ¬ a.start < b.start := by omega
    have h5 : a.start ≠ b.start := by omega
    simp [h4, h5]

theorem lists_stableSort {le : Fact → Fact → Bool} (o : IsOrder le) (l : List Fact) : Lists le (stableSort le l) l :=
  ⟨stableSort_perm l, stableSort_sorted o l, fun k => filter_stableSort (by
    intro a b ha hb
    simp only [Bool.and_eq_true] at ha hb
    exact o.trans _ _ _ ha.1 hb.2)⟩

theorem clone_idx {κ : Type} [DecidableEq κ] {le : Fact → Fact → Bool} (o : IsOrder le) {keyOf : Fact → Option κ} {A : Arena Fact}
    {log : List (Nat × Fact)} {m : κ → List Nat} (ha : ArenaOk A log) (h : IdxOk le keyOf log m) (k : κ) :
    Lists le (A.clone (m k)) ((log.map (·.2)).filter (hasKey keyOf k)) := by
  rw [h k, ha.clone_sortedIds]
  exact lists_stableSort o _

theorem hasKey_ownerName (o m : Nat) : hasKey Fact.ownerName (o, m) = fun a => decide (a.owner = o ∧ a.method = some m) := by
  funext a
  unfold hasKey Fact.ownerName
  cases h : a.method with
  | none => simp
  | some x => simp

theorem hasKey_fqn (n : Nat) : hasKey kFqn n = fun a => decide (a.fqn = n) := by funext a; simp [hasKey, kFqn]
theorem hasKey_owner (n : Nat) : hasKey kOwner n = fun a => decide (a.owner = n) := by funext a; simp [hasKey, kOwner]
theorem hasKey_file (n : Nat) : hasKey kFile n = fun a => decide (a.file = n) := by funext a; simp [hasKey, kFile]

/-- **C15**: after any history of valid calls the store has not panicked, and every index lists exactly the facts present
with its key, in the documented order. -/
theorem c15_index_reflects_latest (ops : List Op) (hv : ∀ op ∈ ops, op.Valid) :
    ∃ s, run ops init = .ok s ∧
      (∀ n, Lists (inOrder Fact.owner) (factsFor s n) ((logOf ops).filter (fun a => decide (a.fqn = n)))) ∧
      (∀ o q, Lists (inOrder Fact.fqn) (factsMatchingOwner s o q)
        ((logOf ops).filter (fun a => decide (a.owner = o) && a.method.any q))) ∧
      (∀ o m, Lists (inOrder Fact.fqn) (factsMatchingOwnerName s o m) (about (logOf ops) o m)) ∧
      (∀ f, Lists inFileOrder (factsInFile s f) ((logOf ops).filter (fun a => decide (a.file = f)))) ∧
      (allFacts s).Perm (logOf ops) := by
  obtain ⟨s, log, h1, h2, h3⟩ := run_ok ops hv inv_init
  have h3 : log.map (·.2) = logOf ops := h3
  refine ⟨s, h1, ?_, ?_, ?_, ?_, ?_⟩
  · intro n
    have := clone_idx (leBy_order _) h2.arena h2.fqn n
    rw [h3, hasKey_fqn] at this
    rw [inOrder_eq]
    exact this
  · intro o q
    rw [inOrder_eq]
    have hk : ((s.byOwner o).filterMap s.arena.get) = stableSort (leBy ownerKey) ((logOf ops).filter (hasKey kOwner o)) := by
      rw [← h3, ← h2.arena.clone_sortedIds, ← h2.owner o]; rfl
    rw [factsMatchingOwner, hk, stableSort_filter (leBy_order _), List.filter_filter]
    have hq : (fun a : Fact => a.method.any q && hasKey kOwner o a) = (fun a => decide (a.owner = o) && a.method.any q) := by
      funext a; rw [hasKey_owner, Bool.and_comm]
    rw [hq]
    exact lists_stableSort (leBy_order ownerKey) _
  · intro o m
    have := clone_idx (leBy_order _) h2.arena h2.ownerName (o, m)
    rw [h3] at this
    rw [inOrder_eq, about]
    rw [hasKey_ownerName] at this
    exact this
  · intro f
    have := clone_idx (leBy_order _) h2.arena h2.file f
    rw [h3, hasKey_file] at this
    rw [inFileOrder_eq]
    exact this
  · rw [← h3]; exact h2.arena.all_perm

theorem isUnavailable_iff (a : Fact) : isUnavailable a = true ↔ ∃ r, a.avail = .unavailable r := by
  unfold isUnavailable; cases a.avail <;> simp

theorem isAbsent_iff (a : Fact) : isAbsent a = true ↔ ∃ r, a.avail = .absent r := by
  unfold isAbsent; cases a.avail <;> simp

/-- **C15**: the effective method, from the facts present alone: never a panic; missing exactly when a fact marks it absent
or there is no fact; unique exactly when all deciding facts are the same fact; ambiguous otherwise. -/
theorem c15_effective_method (ops : List Op) (hv : ∀ op ∈ ops, op.Valid) (owner m : Nat) :
    ∃ s r, run ops init = .ok s ∧ effective s owner m = .ok r ∧
      (r = .missing ↔ Masked (logOf ops) owner m ∨ ∀ a, ¬ Deciding (logOf ops) owner m a) ∧
      (∀ a, r = .unique a ↔ ¬ Masked (logOf ops) owner m ∧ Deciding (logOf ops) owner m a ∧
        ∀ b, Deciding (logOf ops) owner m b → b = a) ∧
      (r = .ambiguous ↔ ¬ Masked (logOf ops) owner m ∧
        ∃ a b, Deciding (logOf ops) owner m a ∧ Deciding (logOf ops) owner m b ∧ a ≠ b) := by
  obtain ⟨s, log, h1, h2, h3⟩ := run_ok ops hv inv_init
  have h3 : log.map (·.2) = logOf ops := h3
  have hfacts : (s.byOwnerName (owner, m)).filterMap s.arena.get = stableSort (leBy ownerKey) (about (logOf ops) owner m) := by
    have := h2.arena.clone_sortedIds (leBy ownerKey) (hasKey Fact.ownerName (owner, m))
    rw [← h2.ownerName (owner, m), h3, hasKey_ownerName] at this
    exact this
  have hall : (s.byOwnerName (owner, m)).all (fun i => (s.arena.get i).isSome) = true := by
    rw [List.all_eq_true]
    intro i hi
    rw [h2.ownerName (owner, m), mem_sortedIds] at hi
    obtain ⟨a, ha, _⟩ := hi
    rw [(h2.arena.live i a).mp ha]; rfl
  have hmem : ∀ a, a ∈ stableSort (leBy ownerKey) (about (logOf ops) owner m) ↔ a ∈ about (logOf ops) owner m :=
    fun a => mem_stableSort
  generalize hF : stableSort (leBy ownerKey) (about (logOf ops) owner m) = F at hfacts hmem
  have heff : effective s owner m = (if F.any isAbsent then .ok .missing
      else match F.filter (fun a => !(F.any isUnavailable) || isUnavailable a) with
        | [] => .ok .missing
        | first :: l => if l.any (fun a => decide (a ≠ first)) then .ok .ambiguous else .ok (.unique first)) := by
    unfold effective
    simp only [hall, if_true, hfacts]
    rfl
  have hmask : F.any isAbsent = true ↔ Masked (logOf ops) owner m := by
    rw [List.any_eq_true]
    unfold Masked
    constructor
    · rintro ⟨a, ha, hb⟩; exact ⟨a, (hmem a).mp ha, (isAbsent_iff a).mp hb⟩
    · rintro ⟨a, ha, hb⟩; exact ⟨a, (hmem a).mpr ha, (isAbsent_iff a).mpr hb⟩
  have hdec : ∀ a, a ∈ F.filter (fun a => !(F.any isUnavailable) || isUnavailable a) ↔ Deciding (logOf ops) owner m a := by
    intro a
    rw [List.mem_filter, hmem]
    unfold Deciding
    have hany : F.any isUnavailable = true ↔ ∃ b ∈ about (logOf ops) owner m, ∃ r, b.avail = .unavailable r := by
      rw [List.any_eq_true]
      constructor
      · rintro ⟨a, ha, hb⟩; exact ⟨a, (hmem a).mp ha, (isUnavailable_iff a).mp hb⟩
      · rintro ⟨a, ha, hb⟩; exact ⟨a, (hmem a).mpr ha, (isUnavailable_iff a).mpr hb⟩
    rw [← hany, ← isUnavailable_iff]
    cases F.any isUnavailable <;> simp
  generalize hE : F.filter (fun a => !(F.any isUnavailable) || isUnavailable a) = E at heff hdec
  by_cases hm : F.any isAbsent = true
  · have hM := hmask.mp hm
    rw [if_pos hm] at heff
    exact ⟨s, .missing, h1, heff, by simp [hM], by simp [hM], by simp [hM]⟩
  · have hM : ¬ Masked (logOf ops) owner m := fun h => hm (hmask.mpr h)
    rw [if_neg hm] at heff
    cases E with
    | nil =>
      have hno : ∀ a, ¬ Deciding (logOf ops) owner m a := fun a ha => by simpa using (hdec a).mpr ha
      exact ⟨s, .missing, h1, heff, by simp [hno], by simp [hno], by simp [hno]⟩
    | cons first l =>
      have hfirst : Deciding (logOf ops) owner m first := (hdec first).mp (by simp)
      simp only at heff
      by_cases hl : l.any (fun a => decide (a ≠ first)) = true
      · rw [if_pos hl] at heff
        rw [List.any_eq_true] at hl
        obtain ⟨b, hb, hne⟩ := hl
        have hb' : Deciding (logOf ops) owner m b := (hdec b).mp (by simp [hb])
        have hne : b ≠ first := by simpa using hne
        refine ⟨s, .ambiguous, h1, heff, ?_, ?_, ?_⟩
        · simp only [reduceCtorEq, false_iff, not_or]
          exact ⟨hM, fun h => h first hfirst⟩
        · intro a
          simp only [reduceCtorEq, false_iff]
          rintro ⟨_, _, h⟩
          exact hne ((h b hb').trans (h first hfirst).symm)
        · simp only [true_iff]
          exact ⟨hM, b, first, hb', hfirst, hne⟩
      · rw [if_neg hl] at heff
        have hsame : ∀ b, Deciding (logOf ops) owner m b → b = first := by
          intro b hb
          rcases List.mem_cons.mp ((hdec b).mpr hb) with h | h
          · exact h
          · by_contra hc
            exact hl (List.any_eq_true.mpr ⟨b, h, by simpa using hc⟩)
        refine ⟨s, .unique first, h1, heff, ?_, ?_, ?_⟩
        · simp only [reduceCtorEq, false_iff, not_or]
          exact ⟨hM, fun h => h first hfirst⟩
        · intro a
          simp only [Match.unique.injEq]
          constructor
          · rintro rfl; exact ⟨hM, hfirst, hsame⟩
          · rintro ⟨_, ha, _⟩; exact (hsame a ha).symm
        · simp only [reduceCtorEq, false_iff]
          rintro ⟨_, a, b, ha, hb, hne⟩
          exact hne ((hsame a ha).trans (hsame b hb).symm)

theorem foldl_note (l : List Fact) (acc : List Nat) (hacc : acc.Nodup) :
    (l.foldl (fun names a => note names a.method) acc).Nodup ∧
    ∀ x, x ∈ l.foldl (fun names a => note names a.method) acc ↔ x ∈ acc ∨ ∃ a ∈ l, a.method = some x := by
  induction l generalizing acc with
  | nil => simp [hacc]
  | cons a l ih =>
    obtain ⟨h1, h2⟩ := ih (note acc a.method) (note_nodup hacc a.method)
    refine ⟨h1, ?_⟩
    intro x
    rw [List.foldl_cons, h2, mem_note]
    simp only [List.mem_cons, exists_eq_or_imp]
    tauto

/-- **C15**: the method names of an owner are exactly the names of its present facts, each once. -/
theorem c15_method_names (ops : List Op) (hv : ∀ op ∈ ops, op.Valid) (owner : Nat) :
    ∃ s, run ops init = .ok s ∧ (methodNames s owner).Nodup ∧
      ∀ m, m ∈ methodNames s owner ↔ ∃ a ∈ logOf ops, a.owner = owner ∧ a.method = some m := by
  obtain ⟨s, log, h1, h2, h3⟩ := run_ok ops hv inv_init
  have h3 : log.map (·.2) = logOf ops := h3
  have hk : ((s.byOwner owner).filterMap s.arena.get) = stableSort (leBy ownerKey) ((logOf ops).filter (hasKey kOwner owner)) := by
    rw [← h3, ← h2.arena.clone_sortedIds, ← h2.owner owner]; rfl
  obtain ⟨n1, n2⟩ := foldl_note ((s.byOwner owner).filterMap s.arena.get) [] List.nodup_nil
  refine ⟨s, h1, n1, ?_⟩
  intro m
  unfold methodNames
  rw [n2, hk]
  simp only [List.not_mem_nil, false_or, mem_stableSort, List.mem_filter, hasKey, kOwner, Option.some.injEq,
    decide_eq_true_eq]
  constructor
  · rintro ⟨a, ⟨h1, h2⟩, h3⟩; exact ⟨a, h1, h2, h3⟩
  · rintro ⟨a, h1, h2, h3⟩; exact ⟨a, ⟨h1, h2⟩, h3⟩

/-- Examples: two identical facts are one method; a different one makes it ambiguous; an unavailable one overrides; an
absent one hides it; removing its file brings the method back. -/
theorem c15_example :
    let π : Orders := ⟨id, List.reverse, id⟩
    let a (file : Nat) (avail : Availability) (rest : Nat) : Fact :=
      { fqn := 5, owner := 3, method := some 8, file, start := 0, stop := 1, avail, rest }
    let eff (ops : List Op) := ((run ops init).state?.bind fun s => (effective s 3 8).state?)
    eff [] = some .missing ∧
    eff [.add (a 1 .available 0), .replace π 1 [a 1 .available 0, a 1 .available 0]] = some (.unique (a 1 .available 0)) ∧
    eff [.add (a 1 .available 0), .replace π 2 [a 2 .available 0]] = some .ambiguous ∧
    eff [.add (a 1 .available 0), .replace π 2 [a 2 (.unavailable 9) 0]] = some (.unique (a 2 (.unavailable 9) 0)) ∧
    eff [.add (a 1 .available 0), .add (a 2 (.absent 9) 0)] = some .missing ∧
    eff [.add (a 1 .available 0), .add (a 2 (.absent 9) 0), .remove 2] = some (.unique (a 1 .available 0)) := by decide

end Verif.MethodStore
