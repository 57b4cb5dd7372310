import Verif.Spec.SymbolStore
import Verif.Lemmas.Arena
namespace Verif.SymbolStore
open Verif.Store

theorem oFqn : IsOrder (leBy fqnKey) := leBy_order _
theorem oFile : IsOrder (leBy fileKey) := leBy_order _

theorem fqnKey_file {a b : Fact} (h : leBy fqnKey a b = true) : a.file ≤ b.file := by
  simp only [leBy, fqnKey, lexLe] at h
  split at h
  · omega
  · split at h
    · omega
    · simp at h

theorem fqnKey_lt {a b : Fact} (h : a.file < b.file) : leBy fqnKey a b = true := by
  simp [leBy, fqnKey, lexLe, h]

def isFqn (n : Nat) (a : Fact) : Bool := decide (a.fqn = n)
def isFile (f : Nat) (a : Fact) : Bool := decide (a.file = f)

/-- Every index lists exactly the logged facts with its key, in order. -/
structure Inv (s : State) (log : List (Nat × Fact)) : Prop where
  arena : ArenaOk s.arena log
  fqn : ∀ n, s.byFqn n = sortedIds (leBy fqnKey) log (isFqn n)
  file : ∀ f, s.byFile f = sortedIds (leBy fileKey) log (isFile f)

theorem inv_init : Inv init [] := ⟨arenaOk_empty, fun _ => rfl, fun _ => rfl⟩

theorem add_ok {s : State} {log : List (Nat × Fact)} (h : Inv s log) (a : Fact) :
    ∃ s' id, add s a = .ok s' ∧ Inv s' (log ++ [(id, a)]) := by
  obtain ⟨A, id, h1, h2, h3⟩ := h.arena.insert a
  have e1 := h2.sortIds_push oFqn (isFqn a.fqn)
  have e2 := h2.sortIds_push oFile (isFile a.file)
  have f1 : ([(id, a)] : List (Nat × Fact)).filter (fun x => isFqn a.fqn x.2) = [(id, a)] := by simp [isFqn]
  have f2 : ([(id, a)] : List (Nat × Fact)).filter (fun x => isFile a.file x.2) = [(id, a)] := by simp [isFile]
  rw [f1, ← h.fqn] at e1
  rw [f2, ← h.file] at e2
  simp only [List.map_cons, List.map_nil] at e1 e2
  refine ⟨_, id, by rw [add, h1]; simp only [Outcome.bind_ok]; rw [e1, Outcome.bind_ok, e2, Outcome.bind_ok], h2, ?_, ?_⟩
  · intro n
    by_cases hn : n = a.fqn
    · subst hn; simp [upd]
    · simp only [upd, if_neg hn]
      rw [h.fqn, sortedIds_append]
      simp [isFqn, Ne.symm hn]
  · intro f
    by_cases hf : f = a.file
    · subst hf; simp [upd]
    · simp only [upd, if_neg hf]
      rw [h.file, sortedIds_append]
      simp [isFile, Ne.symm hf]

/-- Invariant while the facts of file `f` are being removed: its own bucket is already gone. -/
structure Rem (f : Nat) (s : State) (log : List (Nat × Fact)) : Prop where
  arena : ArenaOk s.arena log
  fqn : ∀ n, s.byFqn n = sortedIds (leBy fqnKey) log (isFqn n)
  file : ∀ g, g ≠ f → s.byFile g = sortedIds (leBy fileKey) log (isFile g)
  gone : s.byFile f = []

theorem removeOne_ok {f : Nat} {s : State} {log : List (Nat × Fact)} (h : Rem f s log) {id : Nat} {a : Fact}
    (hm : (id, a) ∈ log) (ha : a.file = f) : Rem f (removeOne s id) (log.filter (fun x => decide (x.1 ≠ id))) := by
  obtain ⟨A, h1, h2⟩ := h.arena.take hm
  rw [removeOne, h1]
  refine ⟨h2, ?_, ?_, h.gone⟩
  · intro n
    by_cases hn : n = a.fqn
    · subst hn
      simp only [upd, if_true]
      rw [h.fqn, sortedIds_remove oFqn]
    · simp only [upd, if_neg hn]
      rw [h.fqn, sortedIds_remove_other h.arena hm]
      simp [isFqn, Ne.symm hn]
  · intro g hg
    rw [h.file g hg, sortedIds_remove_other h.arena hm]
    simp [isFile, ha, Ne.symm hg]

theorem removeMany_ok {f : Nat} (ids : List Nat) {s : State} {log : List (Nat × Fact)} (h : Rem f s log)
    (hnd : ids.Nodup) (hm : ∀ i ∈ ids, ∃ a, (i, a) ∈ log ∧ a.file = f) :
    Rem f (ids.foldl removeOne s) (log.filter (fun x => decide (x.1 ∉ ids))) := by
  induction ids generalizing s log with
  | nil => simpa using h
  | cons i ids ih =>
    obtain ⟨a, h1, h2⟩ := hm i (by simp)
    have hc := List.nodup_cons.mp hnd
    have := ih (removeOne_ok h h1 h2) hc.2 (by
      intro j hj
      obtain ⟨b, hb1, hb2⟩ := hm j (by simp [hj])
      refine ⟨b, List.mem_filter.mpr ⟨hb1, ?_⟩, hb2⟩
      have : j ≠ i := fun e => hc.1 (e ▸ hj)
      simpa using this)
    rw [List.filter_filter] at this
    rw [List.foldl_cons]
    convert this using 2
    funext x
    simp [List.mem_cons, not_or, Bool.and_comm]

theorem removeFile_ok {s : State} {log : List (Nat × Fact)} (h : Inv s log) (f : Nat) :
    Inv (removeFile s f) (log.filter (fun x => decide (x.2.file ≠ f))) := by
  have h0 : Rem f { s with byFile := upd s.byFile f [] } log :=
    ⟨h.arena, h.fqn, fun g hg => by simp only [upd, if_neg hg]; exact h.file g, by simp [upd]⟩
  have hnd : (s.byFile f).Nodup := by
    rw [h.file]
    refine ((stableSort_perm _).map _).nodup_iff.mpr ?_
    exact h.arena.nodup.sublist ((List.filter_sublist).map _)
  have hmem : ∀ i, i ∈ s.byFile f ↔ ∃ a, (i, a) ∈ log ∧ a.file = f := by
    intro i
    rw [h.file, mem_sortedIds]
    simp [isFile]
  have h1 := removeMany_ok (s.byFile f) h0 hnd (fun i hi => (hmem i).mp hi)
  have heq : log.filter (fun x => decide (x.1 ∉ s.byFile f)) = log.filter (fun x => decide (x.2.file ≠ f)) := by
    apply List.filter_congr
    intro x hx
    have : x.1 ∈ s.byFile f ↔ x.2.file = f := by
      rw [hmem]
      constructor
      · rintro ⟨a, ha, hf⟩
        have e1 := (h.arena.live x.1 x.2).mp hx
        have e2 := (h.arena.live x.1 a).mp ha
        rw [e1] at e2
        rw [Option.some.inj e2]; exact hf
      · intro hf; exact ⟨x.2, hx, hf⟩
    simp [this]
  rw [heq] at h1
  refine ⟨h1.arena, h1.fqn, ?_⟩
  intro g
  by_cases hg : g = f
  · subst hg
    rw [show (removeFile s g).byFile g = [] from h1.gone, sortedIds, List.filter_eq_nil_iff.mpr]
    · rfl
    · intro x hx
      have := (List.mem_filter.mp hx).2
      simpa [isFile] using this
  · exact h1.file g hg

/-- How often a name occurs among the appended facts. -/
def countOf (new : List (Nat × Fact)) (k : Nat) : Nat := (new.filter (fun x => isFqn k x.2)).length

/-- `touched` counts exactly the names among the appended facts. -/
structure Touched (t : List (Nat × Nat)) (new : List (Nat × Fact)) : Prop where
  nodup : (t.map (·.1)).Nodup
  count : ∀ k n, (k, n) ∈ t → n = countOf new k ∧ 0 < n
  all : ∀ x ∈ new, x.2.fqn ∈ t.map (·.1)

theorem bump_keys (k : Nat) (t : List (Nat × Nat)) (k' : Nat) : k' ∈ (bump k t).map (·.1) ↔ k' = k ∨ k' ∈ t.map (·.1) := by
  induction t with
  | nil => simp [bump]
  | cons p t ih =>
    obtain ⟨a, n⟩ := p
    simp only [bump]
    split
    · rename_i h; subst h; simp
    · simp only [List.map_cons, List.mem_cons, ih]
      constructor
      · rintro (h | h | h) <;> simp [h]
      · rintro (h | h | h) <;> simp [h]

theorem bump_nodup {k : Nat} {t : List (Nat × Nat)} (h : (t.map (·.1)).Nodup) : ((bump k t).map (·.1)).Nodup := by
  induction t with
  | nil => simp [bump]
  | cons p t ih =>
    obtain ⟨a, n⟩ := p
    simp only [List.map_cons, List.nodup_cons] at h
    simp only [bump]
    split
    · simpa using h
    · rename_i hne
      simp only [List.map_cons, List.nodup_cons]
      refine ⟨?_, ih h.2⟩
      rw [bump_keys]
      rintro (h' | h')
      · exact hne h'
      · exact h.1 h'

theorem bump_mem {k k' n : Nat} {t : List (Nat × Nat)} (h : (t.map (·.1)).Nodup) (hm : (k', n) ∈ bump k t) :
    (k' ≠ k ∧ (k', n) ∈ t) ∨ (k' = k ∧ ((n = 1 ∧ k ∉ t.map (·.1)) ∨ ∃ m, n = m + 1 ∧ (k, m) ∈ t)) := by
  induction t with
  | nil =>
    simp only [bump, List.mem_singleton, Prod.mk.injEq] at hm
    exact .inr ⟨hm.1, .inl ⟨hm.2, by simp⟩⟩
  | cons p t ih =>
    obtain ⟨a, m⟩ := p
    simp only [List.map_cons, List.nodup_cons] at h
    simp only [bump] at hm
    split at hm
    · rename_i he
      subst he
      rcases List.mem_cons.mp hm with hm | hm
      · obtain ⟨rfl, rfl⟩ := Prod.mk.inj hm
        exact .inr ⟨rfl, .inr ⟨m, rfl, by simp⟩⟩
      · refine .inl ⟨?_, by simp [hm]⟩
        intro he
        exact h.1 (List.mem_map.mpr ⟨_, hm, he⟩)
    · rename_i hne
      rcases List.mem_cons.mp hm with hm | hm
      · obtain ⟨rfl, rfl⟩ := Prod.mk.inj hm
        exact .inl ⟨hne, by simp⟩
      · rcases ih h.2 hm with ⟨h1, h2⟩ | ⟨h1, ⟨h2, h3⟩ | ⟨m', h2, h3⟩⟩
        · exact .inl ⟨h1, by simp [h2]⟩
        · refine .inr ⟨h1, .inl ⟨h2, ?_⟩⟩
          simp only [List.map_cons, List.mem_cons, not_or]
          exact ⟨fun e => hne e.symm, h3⟩
        · exact .inr ⟨h1, .inr ⟨m', h2, by simp [h3]⟩⟩

theorem countOf_append (new : List (Nat × Fact)) (i : Nat) (a : Fact) (k : Nat) :
    countOf (new ++ [(i, a)]) k = countOf new k + if a.fqn = k then 1 else 0 := by
  unfold countOf
  rw [List.filter_append, List.length_append]
  congr 1
  by_cases h : a.fqn = k <;> simp [isFqn, h]

theorem touched_bump {t : List (Nat × Nat)} {new : List (Nat × Fact)} (h : Touched t new) (i : Nat) (a : Fact) :
    Touched (bump a.fqn t) (new ++ [(i, a)]) := by
  refine ⟨bump_nodup h.nodup, ?_, ?_⟩
  · intro k n hm
    rw [countOf_append]
    rcases bump_mem h.nodup hm with ⟨h1, h2⟩ | ⟨h1, ⟨h2, h3⟩ | ⟨m, h2, h3⟩⟩
    · rw [if_neg (Ne.symm h1)]; exact h.count k n h2
    · subst h1 h2
      have : countOf new a.fqn = 0 := by
        unfold countOf
        rw [List.length_eq_zero_iff, List.filter_eq_nil_iff]
        intro x hx hc
        have := h.all x hx
        simp only [isFqn, decide_eq_true_eq] at hc
        rw [hc] at this
        exact h3 this
      rw [this]; simp
    · subst h1 h2
      have := h.count _ _ h3
      simp only [if_true]; omega
  · intro x hx
    rw [bump_keys]
    rcases List.mem_append.mp hx with hx | hx
    · exact .inr (h.all x hx)
    · simp only [List.mem_singleton] at hx; subst hx; exact .inl rfl

/-- Invariant while replacement facts are appended. -/
structure App (f : Nat) (s : State) (log new : List (Nat × Fact)) : Prop where
  arena : ArenaOk s.arena (log ++ new)
  fqn : ∀ n, s.byFqn n = sortedIds (leBy fqnKey) log (isFqn n) ++ (new.filter (fun x => isFqn n x.2)).map (·.1)
  file : ∀ g, g ≠ f → s.byFile g = sortedIds (leBy fileKey) log (isFile g)
  own : s.byFile f = new.map (·.1)
  old : ∀ x ∈ log, x.2.file ≠ f
  mine : ∀ x ∈ new, x.2.file = f

theorem append_ok {f : Nat} (l : List Fact) {s : State} {log new : List (Nat × Fact)} {t : List (Nat × Nat)}
    (h : App f s log new) (ht : Touched t new) (hl : ∀ a ∈ l, a.file = f) :
    ∃ s' t' new', append f l s t = .ok (s', t') ∧ App f s' log new' ∧ Touched t' new' ∧
      new'.map (·.2) = new.map (·.2) ++ l := by
  induction l generalizing s new t with
  | nil => exact ⟨s, t, new, rfl, h, ht, by simp⟩
  | cons a l ih =>
    have ha := hl a (by simp)
    obtain ⟨A, id, h1, h2, h3⟩ := h.arena.insert a
    rw [List.append_assoc] at h2
    have happ : App f
        { arena := A
          byFqn := upd s.byFqn a.fqn (s.byFqn a.fqn ++ [id])
          byFile := upd s.byFile f (s.byFile f ++ [id]) } log (new ++ [(id, a)]) := by
      refine ⟨h2, ?_, ?_, ?_, h.old, ?_⟩
      · intro n
        by_cases hn : n = a.fqn
        · subst hn
          simp only [upd, if_true]
          rw [h.fqn, List.filter_append, List.map_append, List.append_assoc]
          simp [isFqn]
        · simp only [upd, if_neg hn]
          rw [h.fqn, List.filter_append]
          simp [isFqn, Ne.symm hn]
      · intro g hg
        simp only [upd, if_neg hg]
        exact h.file g hg
      · simp only [upd, if_true]
        rw [h.own]; simp
      · intro x hx
        rcases List.mem_append.mp hx with hx | hx
        · exact h.mine x hx
        · simp only [List.mem_singleton] at hx; subst hx; exact ha
    obtain ⟨s', t', new', e1, e2, e3, e4⟩ := ih happ (touched_bump ht id a) (fun b hb => hl b (by simp [hb]))
    refine ⟨s', t', new', ?_, e2, e3, ?_⟩
    · rw [append, if_pos ha, h1]; exact e1
    · rw [e4]; simp

theorem placeTouched_ok {f : Nat} {log new : List (Nat × Fact)} (ho : ∀ x ∈ log, x.2.file ≠ f)
    (hn : ∀ x ∈ new, x.2.file = f) (t : List (Nat × Nat)) {s : State} (ha : ArenaOk s.arena (log ++ new))
    (hnd : (t.map (·.1)).Nodup) (hc : ∀ k n, (k, n) ∈ t → n = countOf new k ∧ 0 < n)
    (hin : ∀ k ∈ t.map (·.1), s.byFqn k = sortedIds (leBy fqnKey) log (isFqn k) ++ (new.filter (fun x => isFqn k x.2)).map (·.1))
    (hout : ∀ k, k ∉ t.map (·.1) → s.byFqn k = sortedIds (leBy fqnKey) (log ++ new) (isFqn k)) :
    ∃ s', placeTouched f t s = .ok s' ∧ s'.arena = s.arena ∧ s'.byFile = s.byFile ∧
      ∀ k, s'.byFqn k = sortedIds (leBy fqnKey) (log ++ new) (isFqn k) := by
  induction t generalizing s with
  | nil => exact ⟨s, rfl, rfl, rfl, fun k => hout k (by simp)⟩
  | cons p t ih =>
    obtain ⟨k, n⟩ := p
    simp only [List.map_cons, List.nodup_cons] at hnd
    obtain ⟨hcn, hpos⟩ := hc k n (by simp)
    have hne : new.filter (fun x => isFqn k x.2) ≠ [] := by
      intro he
      rw [hcn, countOf, he] at hpos
      simp at hpos
    have hp := ha.place oFqn (file := Fact.file) (f := f) (fun a b => fqnKey_file) (fun a b => fqnKey_lt) ho hn (isFqn k) hne
    rw [← hin k (by simp), show (new.filter (fun x => isFqn k x.2)).length = n from hcn.symm] at hp
    obtain ⟨s', e1, e2, e3, e4⟩ := ih (s := { s with byFqn := upd s.byFqn k (sortedIds (leBy fqnKey) (log ++ new) (isFqn k)) })
      ha hnd.2 (fun k' n' hm => hc k' n' (by simp [hm])) (by
        intro k' hk'
        have : k' ≠ k := fun e => hnd.1 (e ▸ hk')
        simp only [upd, if_neg this]
        exact hin k' (by simp only [List.map_cons, List.mem_cons]; exact .inr hk')) (by
        intro k' hk'
        by_cases he : k' = k
        · subst he; simp [upd]
        · simp only [upd, if_neg he]
          exact hout k' (by simp only [List.map_cons, List.mem_cons, not_or]; exact ⟨he, hk'⟩))
    refine ⟨s', ?_, e2, e3, e4⟩
    rw [placeTouched, hp]; exact e1

theorem replaceFile_ok {s : State} {log : List (Nat × Fact)} (h : Inv s log) (f : Nat) {facts : List Fact}
    (hf : ∀ a ∈ facts, a.file = f) :
    ∃ s' new, replaceFile s f facts = .ok s' ∧ new.map (·.2) = facts ∧
      Inv s' (log.filter (fun x => decide (x.2.file ≠ f)) ++ new) := by
  have h0 := removeFile_ok h f
  generalize hlog : log.filter (fun x => decide (x.2.file ≠ f)) = log0 at h0
  have hold : ∀ x ∈ log0, x.2.file ≠ f := by
    intro x hx; rw [← hlog] at hx; simpa using (List.mem_filter.mp hx).2
  have happ : App f (removeFile s f) log0 [] := by
    refine ⟨by simpa using h0.arena, by simpa using h0.fqn, fun g _ => h0.file g, ?_, hold, by simp⟩
    rw [h0.file, sortedIds, List.filter_eq_nil_iff.mpr]
    · rfl
    · intro x hx; simpa [isFile] using hold x hx
  obtain ⟨s1, t, new, e1, e2, e3, e4⟩ := append_ok facts happ (t := []) ⟨List.nodup_nil, fun _ _ h => absurd h (by simp), fun _ h => absurd h (by simp)⟩ hf
  obtain ⟨s2, p1, p2, p3, p4⟩ := placeTouched_ok e2.old e2.mine t e2.arena e3.nodup e3.count (fun k _ => e2.fqn k) (by
    intro k hk
    rw [e2.fqn, sortedIds_append, List.filter_eq_nil_iff.mpr]
    · simp
    · intro x hx hc
      simp only [isFqn, decide_eq_true_eq] at hc
      exact hk (hc ▸ e3.all x hx)
    · intro x hx
      have : x.2.fqn ≠ k := fun e => hk (e ▸ e3.all x hx)
      simp [isFqn, this])
  have ha2 : ArenaOk s2.arena (log0 ++ new) := p2 ▸ e2.arena
  have hsort := ha2.sortIds_push oFile (isFile f)
  have hz : sortedIds (leBy fileKey) log0 (isFile f) = [] := by
    rw [sortedIds, List.filter_eq_nil_iff.mpr]
    · rfl
    · intro x hx; simpa [isFile] using hold x hx
  have hall : new.filter (fun x => isFile f x.2) = new := by
    rw [List.filter_eq_self]
    intro x hx; simp [isFile, e2.mine x hx]
  rw [hz, hall, List.nil_append, ← e2.own, ← p3] at hsort
  refine ⟨{ s2 with byFile := upd s2.byFile f (sortedIds (leBy fileKey) (log0 ++ new) (isFile f)) }, new,
    by rw [replaceFile, e1]; simp only [Outcome.bind_ok]; rw [p1, Outcome.bind_ok, hsort, Outcome.bind_ok],
    by simpa using e4, ha2, p4, ?_⟩
  intro g
  by_cases hg : g = f
  · subst hg; simp [upd]
  · simp only [upd, if_neg hg]
    rw [p3, e2.file g hg, sortedIds_append]
    intro x hx; simp [isFile, e2.mine x hx, Ne.symm hg]

/-- Every history of valid calls runs without a panic and keeps the indexes equal to the log. -/
theorem apply_ok {s : State} {log : List (Nat × Fact)} (h : Inv s log) {op : Op} (hv : op.Valid) :
    ∃ s' log', apply s op = .ok s' ∧ Inv s' log' ∧ log'.map (·.2) = logOp (log.map (·.2)) op := by
  cases op with
  | add a =>
    obtain ⟨s', id, h1, h2⟩ := add_ok h a
    exact ⟨s', _, h1, h2, by simp [logOp]⟩
  | remove f =>
    refine ⟨_, _, rfl, removeFile_ok h f, ?_⟩
    simp only [logOp]
    rw [List.filter_map]; rfl
  | replace f facts =>
    obtain ⟨s', new, h1, h2, h3⟩ := replaceFile_ok h f hv
    refine ⟨s', _, h1, h3, ?_⟩
    simp only [logOp]
    rw [List.map_append, h2, List.filter_map]; rfl

theorem run_ok (ops : List Op) (hv : ∀ op ∈ ops, op.Valid) {s : State} {log : List (Nat × Fact)} (h : Inv s log) :
    ∃ s' log', run ops s = .ok s' ∧ Inv s' log' ∧ log'.map (·.2) = ops.foldl logOp (log.map (·.2)) := by
  induction ops generalizing s log with
  | nil => exact ⟨s, log, rfl, h, rfl⟩
  | cons op ops ih =>
    obtain ⟨s1, log1, e1, e2, e3⟩ := apply_ok h (hv op (by simp))
    obtain ⟨s2, log2, f1, f2, f3⟩ := ih (fun o ho => hv o (by simp [ho])) e2
    refine ⟨s2, log2, by rw [run, e1]; exact f1, f2, ?_⟩
    rw [f3, e3]; rfl

end Verif.SymbolStore
