import Mathlib.Tactic.Tauto
import Verif.Spec.TypeStore
import Verif.Lemmas.SymbolStore
namespace Verif.TypeStore
open Verif.Store

section generic
variable {α κ : Type} [DecidableEq κ] {le : α → α → Bool} {keyOf : α → Option κ}

/-- The index lists, for every key, exactly the logged facts with that key, in some order. -/
def IdxPerm (keyOf : α → Option κ) (log : List (Nat × α)) (m : κ → List Nat) : Prop :=
  ∀ k, (m k).Perm ((log.filter (fun x => hasKey keyOf k x.2)).map (·.1))

theorem sortedIds_perm (le : α → α → Bool) (log : List (Nat × α)) (p : α → Bool) :
    (sortedIds le log p).Perm ((log.filter (fun x => p x.2)).map (·.1)) := (stableSort_perm _).map _

theorem IdxPerm.of_ok {log : List (Nat × α)} {m : κ → List Nat} (h : IdxOk le keyOf log m) : IdxPerm keyOf log m := by
  intro k; rw [h k]; exact sortedIds_perm _ _ _

theorem IdxPerm.push {log : List (Nat × α)} {m : κ → List Nat} (h : IdxPerm keyOf log m) (id : Nat) (a : α) :
    IdxPerm keyOf (log ++ [(id, a)]) (push m (keyOf a) id) := by
  intro k
  rw [List.filter_append, List.map_append]
  cases hk : keyOf a with
  | none => simpa [Store.push, hasKey, hk] using h k
  | some k' =>
    by_cases he : k = k'
    · subst he
      simp only [Store.push, upd_self]
      refine (h k).append (List.Perm.of_eq ?_)
      simp [hasKey, hk]
    · simp only [Store.push, upd_ne _ he]
      have : ([(id, a)] : List (Nat × α)).filter (fun x => hasKey keyOf k x.2) = [] := by simp [hasKey, hk, Ne.symm he]
      rw [this]; simpa using h k

theorem IdxPerm.remove {A : Arena α} {log : List (Nat × α)} {m : κ → List Nat} (h : IdxPerm keyOf log m) (ha : ArenaOk A log)
    {id : Nat} {a : α} (hm : (id, a) ∈ log) : IdxPerm keyOf (log.filter (fun x => decide (x.1 ≠ id))) (retain m (keyOf a) id) := by
  intro k
  have hcomm : ((log.filter (fun x => decide (x.1 ≠ id))).filter (fun x => hasKey keyOf k x.2)).map (·.1)
      = ((log.filter (fun x => hasKey keyOf k x.2)).map (·.1)).filter (fun i => decide (i ≠ id)) := by
    rw [List.filter_map, List.filter_filter, List.filter_filter]
    congr 1
    apply List.filter_congr
    intro x _
    simp [Bool.and_comm]
  rw [hcomm]
  by_cases he : keyOf a = some k
  · rw [he]
    simp only [retain, upd_self]
    exact (h k).filter _
  · have hsame : retain m (keyOf a) id k = m k := by
      cases hk : keyOf a with
      | none => rfl
      | some k' =>
        have : k ≠ k' := fun e => he (by rw [hk, e])
        simp only [retain, upd_ne _ this]
    rw [hsame, List.filter_eq_self.mpr]
    · exact h k
    · intro i hi
      simp only [List.mem_map, List.mem_filter] at hi
      obtain ⟨x, ⟨h1, h2⟩, rfl⟩ := hi
      simp only [decide_eq_true_eq]
      intro e
      have : (id, x.2) ∈ log := by rw [← e]; exact h1
      have := ha.unique hm this
      rw [← this] at h2
      simp only [hasKey, decide_eq_true_eq] at h2
      exact he h2

theorem IdxPerm.mem {log : List (Nat × α)} {m : κ → List Nat} (h : IdxPerm keyOf log m) {k : κ} {i : Nat} :
    i ∈ m k ↔ ∃ a, (i, a) ∈ log ∧ keyOf a = some k := by
  rw [(h k).mem_iff]
  simp only [List.mem_map, List.mem_filter, hasKey, decide_eq_true_eq]
  constructor
  · rintro ⟨x, ⟨h1, h2⟩, rfl⟩; exact ⟨x.2, h1, h2⟩
  · rintro ⟨a, h1, h2⟩; exact ⟨(i, a), ⟨h1, h2⟩, rfl⟩

theorem IdxPerm.nodup {A : Arena α} {log : List (Nat × α)} {m : κ → List Nat} (h : IdxPerm keyOf log m) (ha : ArenaOk A log) (k : κ) :
    (m k).Nodup := (h k).nodup_iff.mpr (ha.nodup.sublist ((List.filter_sublist).map _))

theorem IdxPerm.clone {A : Arena α} {log : List (Nat × α)} {m : κ → List Nat} (h : IdxPerm keyOf log m) (ha : ArenaOk A log) (k : κ) :
    (A.clone (m k)).Perm ((log.map (·.2)).filter (hasKey keyOf k)) := by
  have h1 : (A.clone (m k)).Perm (A.clone ((log.filter (fun x => hasKey keyOf k x.2)).map (·.1))) := (h k).filterMap _
  refine h1.trans (List.Perm.of_eq ?_)
  rw [ha.clone (fun x hx => (List.mem_filter.mp hx).1), List.filter_map]
  rfl

/-- Sorting the ids of a bucket permutes them. -/
theorem sortIds_live {A : Arena α} {ids : List Nat} (le : α → α → Bool) (h : ∀ i ∈ ids, ∃ a, A.get i = some a) :
    ∃ ids', A.sortIds le ids = .ok ids' ∧ ids'.Perm ids := by
  have hall : ids.all (fun i => (A.get i).isSome) = true := by
    rw [List.all_eq_true]
    intro i hi
    obtain ⟨a, ha⟩ := h i hi
    simp [ha]
  exact ⟨_, by rw [Arena.sortIds, if_pos hall], stableSort_perm _⟩

theorem IdxPerm.sort {A : Arena α} {log : List (Nat × α)} {m : κ → List Nat} (h : IdxPerm keyOf log m) (ha : ArenaOk A log)
    (le : α → α → Bool) (k : κ) : ∃ ids, A.sortIds le (m k) = .ok ids ∧ IdxPerm keyOf log (upd m k ids) := by
  obtain ⟨ids, h1, h2⟩ := sortIds_live (A := A) le (ids := m k) (by
    intro i hi
    obtain ⟨a, h3, _⟩ := h.mem.mp hi
    exact ⟨a, (ha.live i a).mp h3⟩)
  refine ⟨ids, h1, ?_⟩
  intro k'
  by_cases hk : k' = k
  · subst hk; rw [upd_self]; exact h2.trans (h k')
  · rw [upd_ne _ hk]; exact h k'

/-- Overwriting a live slot. -/
theorem arenaOk_set {A : Arena α} {log : List (Nat × α)} (h : ArenaOk A log) {id : Nat} {a : α} (hm : (id, a) ∈ log) (b : α) :
    ArenaOk { A with slots := A.slots.set id (some b) } (log.map (fun x => if x.1 = id then (id, b) else x)) := by
  have hg := (h.live id a).mp hm
  have hs : A.slots[id]? = some (some a) := by
    unfold Arena.get at hg
    cases hx : A.slots[id]? with
    | none => rw [hx] at hg; simp at hg
    | some o => rw [hx] at hg; simp only [Option.join_some] at hg; rw [hg]
  have hlt : id < A.slots.length := by
    rcases Nat.lt_or_ge id A.slots.length with h | h
    · exact h
    · rw [List.getElem?_eq_none h] at hs; simp at hs
  have hset : ∀ i, (A.slots.set id (some b))[i]? = if i = id then some (some b) else A.slots[i]? := by
    intro i
    by_cases hi : i = id
    · subst hi; simp [hlt]
    · rw [if_neg hi, List.getElem?_set_ne (Ne.symm hi)]
  refine ⟨?_, ?_, h.freeNodup, ?_⟩
  · intro i x
    simp only [Arena.get]
    rw [hset]
    simp only [List.mem_map]
    by_cases hi : i = id
    · subst hi
      simp only [if_true, Option.join_some, Option.some.injEq]
      constructor
      · rintro ⟨y, hy, he⟩
        by_cases hyi : y.1 = i
        · rw [if_pos hyi] at he; exact (Prod.mk.inj he).2
        · rw [if_neg hyi] at he; rw [he] at hyi; exact absurd rfl hyi
      · rintro rfl
        exact ⟨_, hm, by simp⟩
    · rw [if_neg hi]
      constructor
      · rintro ⟨y, hy, he⟩
        by_cases hyi : y.1 = id
        · rw [if_pos hyi] at he; exact absurd (Prod.mk.inj he).1.symm hi
        · rw [if_neg hyi] at he; subst he; exact (h.live i x).mp hy
      · intro hx
        exact ⟨(i, x), (h.live i x).mpr hx, by simp [hi]⟩
  · have : (log.map (fun x => if x.1 = id then (id, b) else x)).map (·.1) = log.map (·.1) := by
      rw [List.map_map]
      apply List.map_congr_left
      intro x _
      simp only [Function.comp]
      split <;> simp_all
    rw [this]; exact h.nodup
  · intro i
    rw [h.free, hset]
    by_cases hi : i = id
    · subst hi; simp [hs]
    · rw [if_neg hi]

end generic

theorem oNamed : IsOrder (leBy namedKey) := leBy_order _

/-- Invariant of the store: `log` are the live facts with their ids. -/
structure Inv (s : State) (log : List (Nat × Fact)) : Prop where
  arena : ArenaOk s.arena log
  named : IdxPerm kNamed log s.byNamed
  file : IdxPerm kFile log s.byFile
  exact : s.ordered = true → IdxOk (leBy namedKey) kNamed log s.byNamed
  valid : ∀ x ∈ log, subjectOk x.2 = true

theorem inv_init : Inv init [] :=
  ⟨arenaOk_empty, fun _ => by simp [init], fun _ => by simp [init], fun _ _ => rfl, by simp⟩

theorem subjectOk_iff {a : Fact} : subjectOk a = true ↔ a.Valid := by
  unfold subjectOk Fact.Valid
  cases h : a.subject with
  | named n => simp
  | expr f i j =>
    simp only [decide_eq_true_eq, Subject.expr.injEq]
    constructor
    · rintro h1 _ _ _ ⟨rfl, rfl, rfl⟩; exact h1
    · intro h1; exact h1 f i j ⟨rfl, rfl, rfl⟩

theorem add_ok {s : State} {log : List (Nat × Fact)} (h : Inv s log) {a : Fact} (hv : a.Valid) :
    ∃ s' id, add s a = .ok s' ∧ Inv s' (log ++ [(id, a)]) := by
  obtain ⟨A, id, h1, h2, _⟩ := h.arena.insert a
  have heq : add s a = .ok { arena := A, byNamed := push s.byNamed (kNamed a) id, byFile := push s.byFile (kFile a) id, ordered := false } := by
    rw [add, if_pos (subjectOk_iff.mpr hv), h1]; rfl
  refine ⟨_, id, heq, h2, h.named.push id a, h.file.push id a, fun hc => by simp at hc, ?_⟩
  intro x hx
  rcases List.mem_append.mp hx with hx | hx
  · exact h.valid x hx
  · simp only [List.mem_singleton] at hx; subst hx; exact subjectOk_iff.mpr hv

/-- Invariant while the facts of file `f` are being removed. -/
structure Rem (f : Nat) (byFile : Nat → List Nat) (ord : Bool) (s : State) (log : List (Nat × Fact)) : Prop where
  arena : ArenaOk s.arena log
  named : IdxPerm kNamed log s.byNamed
  file : s.byFile = upd byFile f []
  ord : s.ordered = ord
  exact : s.ordered = true → IdxOk (leBy namedKey) kNamed log s.byNamed

theorem removeFile_ok {s : State} {log : List (Nat × Fact)} (h : Inv s log) (f : Nat) :
    Inv (removeFile s f) (log.filter (fun x => decide (x.2.file ≠ f))) ∧ (removeFile s f).ordered = s.ordered := by
  have h0 : Rem f s.byFile s.ordered { s with byFile := upd s.byFile f [] } log := ⟨h.arena, h.named, rfl, rfl, h.exact⟩
  have h1 := foldl_remove (Rem f s.byFile s.ordered) removeOne (fun a => a.file = f) (by
    intro s' log' i a hp hm ha
    obtain ⟨A, h1, h2⟩ := hp.arena.take hm
    rw [removeOne, h1]
    exact ⟨h2, hp.named.remove hp.arena hm, hp.file, hp.ord, fun ho => (hp.exact ho).remove oNamed hp.arena hm⟩)
    (s.byFile f) h0 (h.file.nodup h.arena f) (by
      intro i hi
      obtain ⟨a, h1, h2⟩ := h.file.mem.mp hi
      exact ⟨a, h1, by simpa [kFile] using h2⟩)
  have heq : log.filter (fun x => decide (x.1 ∉ s.byFile f)) = log.filter (fun x => decide (x.2.file ≠ f)) := by
    apply List.filter_congr
    intro x hx
    have : x.1 ∈ s.byFile f ↔ x.2.file = f := by
      rw [h.file.mem]
      constructor
      · rintro ⟨a, ha, hk⟩
        rw [h.arena.unique (a := x.2) (b := a) hx ha]; simpa [kFile] using hk
      · intro hf; exact ⟨x.2, hx, by simp [kFile, hf]⟩
    simp [this]
  rw [heq] at h1
  refine ⟨⟨h1.arena, h1.named, ?_, h1.exact, fun x hx => h.valid x (List.mem_filter.mp hx).1⟩, h1.ord⟩
  intro g
  have hb : (removeFile s f).byFile = upd s.byFile f [] := h1.file
  rw [hb]
  by_cases hg : g = f
  · subst hg
    rw [upd_self, List.filter_eq_nil_iff.mpr]
    · exact List.Perm.refl _
    · intro x hx
      have := (List.mem_filter.mp hx).2
      simpa [hasKey, kFile] using this
  · rw [upd_ne _ hg]
    refine (h.file g).trans (List.Perm.of_eq ?_)
    rw [List.filter_filter]
    congr 1
    apply List.filter_congr
    intro x _
    by_cases hx : x.2.file = g
    · simp [hasKey, kFile, hx, hg]
    · simp [hasKey, kFile, hx]

/-- How often a subject occurs among the appended facts. -/
def countOf (new : List (Nat × Fact)) (k : Nat) : Nat := (new.filter (fun x => hasKey kNamed k x.2)).length

/-- `touched` counts exactly the subjects among the appended facts. -/
structure Touched (t : List (Nat × Nat)) (new : List (Nat × Fact)) : Prop where
  nodup : (t.map (·.1)).Nodup
  count : ∀ k n, (k, n) ∈ t → n = countOf new k ∧ 0 < n
  all : ∀ x ∈ new, ∀ k, kNamed x.2 = some k → k ∈ t.map (·.1)

theorem countOf_append (new : List (Nat × Fact)) (i : Nat) (a : Fact) (k : Nat) :
    countOf (new ++ [(i, a)]) k = countOf new k + if kNamed a = some k then 1 else 0 := by
  unfold countOf
  rw [List.filter_append, List.length_append]
  congr 1
  by_cases h : kNamed a = some k <;> simp [hasKey, h]

theorem touched_bump {t : List (Nat × Nat)} {new : List (Nat × Fact)} (h : Touched t new) (i : Nat) (a : Fact) :
    Touched (bumpKey (kNamed a) t) (new ++ [(i, a)]) := by
  cases ha : kNamed a with
  | none =>
    refine ⟨h.nodup, ?_, ?_⟩
    · intro k n hm
      rw [countOf_append, ha]; simpa using h.count k n hm
    · intro x hx k hk
      rcases List.mem_append.mp hx with hx | hx
      · exact h.all x hx k hk
      · simp only [List.mem_singleton] at hx; subst hx; rw [ha] at hk; simp at hk
  | some k0 =>
    refine ⟨SymbolStore.bump_nodup h.nodup, ?_, ?_⟩
    · intro k n hm
      rw [countOf_append, ha]
      rcases SymbolStore.bump_mem h.nodup hm with ⟨h1, h2⟩ | ⟨h1, ⟨h2, h3⟩ | ⟨m, h2, h3⟩⟩
      · rw [if_neg (by simpa using Ne.symm h1)]; exact h.count k n h2
      · subst h1 h2
        have : countOf new k = 0 := by
          unfold countOf
          rw [List.length_eq_zero_iff, List.filter_eq_nil_iff]
          intro x hx hc
          simp only [hasKey, decide_eq_true_eq] at hc
          exact h3 (h.all x hx k hc)
        rw [this]; simp
      · subst h1 h2
        have := h.count _ _ h3
        simp only [if_true]; omega
    · intro x hx k hk
      simp only [bumpKey]
      rw [SymbolStore.bump_keys]
      rcases List.mem_append.mp hx with hx | hx
      · exact .inr (h.all x hx k hk)
      · simp only [List.mem_singleton] at hx; subst hx
        rw [ha] at hk; exact .inl (Option.some.inj hk).symm

/-- Invariant while replacement facts are appended. -/
structure App (f : Nat) (s : State) (log new : List (Nat × Fact)) : Prop where
  arena : ArenaOk s.arena (log ++ new)
  named : IdxPerm kNamed (log ++ new) s.byNamed
  file : IdxPerm kFile (log ++ new) s.byFile
  exact : s.ordered = true → IdxApp (leBy namedKey) kNamed log new s.byNamed
  old : ∀ x ∈ log, x.2.file ≠ f
  mine : ∀ x ∈ new, x.2.file = f
  valid : ∀ x ∈ log ++ new, subjectOk x.2 = true

theorem append_ok {f : Nat} (l : List Fact) {s : State} {log new : List (Nat × Fact)} {t : List (Nat × Nat)}
    (h : App f s log new) (ht : Touched t new) (hl : ∀ a ∈ l, a.file = f ∧ a.Valid) :
    ∃ s' t' new', append f l s t = .ok (s', t') ∧ App f s' log new' ∧ Touched t' new' ∧ new'.map (·.2) = new.map (·.2) ++ l := by
  induction l generalizing s new t with
  | nil => exact ⟨s, t, new, rfl, h, ht, by simp⟩
  | cons a l ih =>
    obtain ⟨ha, hav⟩ := hl a (by simp)
    obtain ⟨A, id, h1, h2, h3⟩ := h.arena.insert a
    have h2' := h2
    rw [List.append_assoc] at h2
    have happ : App f { s with arena := A, byNamed := push s.byNamed (kNamed a) id, byFile := push s.byFile (kFile a) id } log (new ++ [(id, a)]) := by
      refine ⟨h2, ?_, ?_, ?_, h.old, ?_, ?_⟩
      · rw [← List.append_assoc]; exact h.named.push id a
      · rw [← List.append_assoc]; exact h.file.push id a
      · intro ho; exact (h.exact ho).push id a
      · intro x hx
        rcases List.mem_append.mp hx with hx | hx
        · exact h.mine x hx
        · simp only [List.mem_singleton] at hx; subst hx; exact ha
      · intro x hx
        rw [← List.append_assoc] at hx
        rcases List.mem_append.mp hx with hx | hx
        · exact h.valid x hx
        · simp only [List.mem_singleton] at hx; subst hx; exact subjectOk_iff.mpr hav
    obtain ⟨s', t', new', e1, e2, e3, e4⟩ := ih happ (touched_bump ht id a) (fun b hb => hl b (by simp [hb]))
    refine ⟨s', t', new', ?_, e2, e3, ?_⟩
    · rw [append, if_pos ⟨ha, subjectOk_iff.mpr hav⟩, h1]; exact e1
    · rw [e4]; simp

theorem namedKey_file {a b : Fact} (h : leBy namedKey a b = true) : a.file ≤ b.file := by
  simp only [leBy, namedKey, lexLe] at h
  split at h
  · omega
  · split at h
    · omega
    · simp at h

theorem namedKey_lt {a b : Fact} (h : a.file < b.file) : leBy namedKey a b = true := by
  simp [leBy, namedKey, lexLe, h]

theorem placeTouched_ok {f : Nat} {log new : List (Nat × Fact)} (ho : ∀ x ∈ log, x.2.file ≠ f)
    (hn : ∀ x ∈ new, x.2.file = f) (t : List (Nat × Nat)) {s : State} (ha : ArenaOk s.arena (log ++ new))
    (hnd : (t.map (·.1)).Nodup) (hc : ∀ k n, (k, n) ∈ t → n = countOf new k ∧ 0 < n)
    (hperm : IdxPerm kNamed (log ++ new) s.byNamed)
    (hin : s.ordered = true → ∀ k ∈ t.map (·.1), s.byNamed k
      = sortedIds (leBy namedKey) log (hasKey kNamed k) ++ (new.filter (fun x => hasKey kNamed k x.2)).map (·.1))
    (hout : s.ordered = true → ∀ k, k ∉ t.map (·.1) → s.byNamed k = sortedIds (leBy namedKey) (log ++ new) (hasKey kNamed k)) :
    ∃ s', placeTouched f t s = .ok s' ∧ s'.arena = s.arena ∧ s'.byFile = s.byFile ∧ s'.ordered = s.ordered ∧
      IdxPerm kNamed (log ++ new) s'.byNamed ∧ (s.ordered = true → IdxOk (leBy namedKey) kNamed (log ++ new) s'.byNamed) := by
  induction t generalizing s with
  | nil => exact ⟨s, rfl, rfl, rfl, rfl, hperm, fun h k => hout h k (by simp)⟩
  | cons p t ih =>
    obtain ⟨k, n⟩ := p
    simp only [List.map_cons, List.nodup_cons] at hnd
    obtain ⟨hcn, hpos⟩ := hc k n (by simp)
    cases hord : s.ordered with
    | false =>
      obtain ⟨ids, h1, h2⟩ := hperm.sort ha (leBy namedKey) k
      obtain ⟨s', e1, e2, e3, e4, e5, e6⟩ := ih (s := { s with byNamed := upd s.byNamed k ids })
        ha hnd.2 (fun k' n' hm => hc k' n' (by simp [hm])) h2 (fun h => by simp [hord] at h) (fun h => by simp [hord] at h)
      refine ⟨s', ?_, e2, e3, e4.trans hord, e5, fun h => by simp at h⟩
      rw [placeTouched, if_neg (by simp [hord]), h1]; exact e1
    | true =>
      have hne : new.filter (fun x => hasKey kNamed k x.2) ≠ [] := by
        intro he
        rw [hcn, countOf, he] at hpos
        simp at hpos
      have hp := ha.place oNamed (file := Fact.file) (f := f) (fun a b => namedKey_file) (fun a b => namedKey_lt) ho hn (hasKey kNamed k) hne
      rw [← hin hord k (by simp), show (new.filter (fun x => hasKey kNamed k x.2)).length = n from hcn.symm] at hp
      obtain ⟨s', e1, e2, e3, e4, e5, e6⟩ := ih
        (s := { s with byNamed := upd s.byNamed k (sortedIds (leBy namedKey) (log ++ new) (hasKey kNamed k)) })
        ha hnd.2 (fun k' n' hm => hc k' n' (by simp [hm])) (by
          intro k'
          by_cases he : k' = k
          · subst he; simp only [upd_self]; exact sortedIds_perm _ _ _
          · simp only [upd_ne _ he]; exact hperm k') (by
          intro _ k' hk'
          have : k' ≠ k := fun e => hnd.1 (e ▸ hk')
          simp only [upd_ne _ this]
          exact hin hord k' (by simp only [List.map_cons, List.mem_cons]; exact .inr hk')) (by
          intro _ k' hk'
          by_cases he : k' = k
          · subst he; simp only [upd_self]
          · simp only [upd_ne _ he]
            exact hout hord k' (by simp only [List.map_cons, List.mem_cons, not_or]; exact ⟨he, hk'⟩))
      refine ⟨s', ?_, e2, e3, e4.trans hord, e5, fun _ => e6 hord⟩
      rw [placeTouched, if_pos hord, hp]; exact e1

theorem replaceFile_ok {s : State} {log : List (Nat × Fact)} (h : Inv s log) (f : Nat) {facts : List Fact}
    (hf : ∀ a ∈ facts, a.file = f ∧ a.Valid) :
    ∃ s' new, replaceFile s f facts = .ok s' ∧ new.map (·.2) = facts ∧ s'.ordered = s.ordered ∧
      Inv s' (log.filter (fun x => decide (x.2.file ≠ f)) ++ new) := by
  obtain ⟨h0, hord⟩ := removeFile_ok h f
  generalize hlog : log.filter (fun x => decide (x.2.file ≠ f)) = log0 at h0
  have hold : ∀ x ∈ log0, x.2.file ≠ f := by
    intro x hx; rw [← hlog] at hx; simpa using (List.mem_filter.mp hx).2
  have happ : App f (removeFile s f) log0 [] := by
    refine ⟨by simpa using h0.arena, by simpa using h0.named, by simpa using h0.file, fun ho => (h0.exact ho).app, hold, by simp, ?_⟩
    simpa using h0.valid
  obtain ⟨s1, t, new, e1, e2, e3, e4⟩ := append_ok facts happ (t := [])
    ⟨List.nodup_nil, fun _ _ h => absurd h (by simp), fun _ h => absurd h (by simp)⟩ hf
  obtain ⟨s2, p1, p2, p3, p4, p5, p6⟩ := placeTouched_ok e2.old e2.mine t e2.arena e3.nodup e3.count e2.named
    (fun ho k _ => e2.exact ho k) (by
    intro ho k hk
    have hz : ∀ x ∈ new, hasKey kNamed k x.2 = false := by
      intro x hx
      simp only [hasKey, decide_eq_false_iff_not]
      intro hc
      exact hk (e3.all x hx k hc)
    rw [e2.exact ho, sortedIds_append hz, List.filter_eq_nil_iff.mpr (fun x hx => by simp [hz x hx])]
    simp)
  have ha2 : ArenaOk s2.arena (log0 ++ new) := p2 ▸ e2.arena
  have hf2 : IdxPerm kFile (log0 ++ new) s2.byFile := p3 ▸ e2.file
  obtain ⟨fids, q1, q2⟩ := hf2.sort ha2 (leBy fileKey) f
  have heq : replaceFile s f facts = .ok { s2 with byFile := upd s2.byFile f fids } := by
    rw [replaceFile, e1]; simp only [Outcome.bind_ok]; rw [p1, Outcome.bind_ok, q1, Outcome.bind_ok]
  refine ⟨_, new, heq, by simpa using e4, ?_, ha2, p5, q2, fun ho => p6 (p4 ▸ ho), e2.valid⟩
  simp only
  rw [p4]
  have : ∀ (l : List Fact) (s s' : State) (t t' : List (Nat × Nat)), append f l s t = .ok (s', t') → s'.ordered = s.ordered := by
    intro l
    induction l with
    | nil => intro s s' t t' h; simp only [append, Outcome.ok.injEq, Prod.mk.injEq] at h; rw [h.1]
    | cons a l ih =>
      intro s s' t t' h
      rw [append] at h
      split at h
      · cases hi : s.arena.insert a with
        | ok r =>
          rw [hi, Outcome.bind_ok] at h
          exact ih { s with arena := r.1, byNamed := push s.byNamed (kNamed a) r.2, byFile := push s.byFile (kFile a) r.2 } _ _ _ h
        | disabled => rw [hi] at h; simp [Outcome.bind] at h
        | panic => rw [hi] at h; simp [Outcome.bind] at h
      · simp at h
  rw [this _ _ _ _ _ e1, hord]

/-! ### retyping -/

/-- The log after retyping. -/
def retypeLog (c : Nat × Fact → Bool) (ty : Nat) (log : List (Nat × Fact)) : List (Nat × Fact) :=
  log.map fun x => if c x then (x.1, { x.2 with ty := ty }) else x

theorem retypeIds_ok (strict : Bool) (cond : Fact → Bool) (ty : Nat) (ids : List Nat) {A : Arena Fact} {log : List (Nat × Fact)}
    (h : ArenaOk A log) (hm : ∀ i ∈ ids, ∃ a, (i, a) ∈ log) (hnd : ids.Nodup) :
    ∃ A', retypeIds strict cond ty ids A = .ok A' ∧ ArenaOk A' (retypeLog (fun x => decide (x.1 ∈ ids) && cond x.2) ty log) := by
  induction ids generalizing A log with
  | nil => exact ⟨A, rfl, by simpa [retypeLog] using h⟩
  | cons i ids ih =>
    rw [List.nodup_cons] at hnd
    obtain ⟨a, ha⟩ := hm i (by simp)
    have hg := (h.live i a).mp ha
    by_cases hc : cond a = true
    · obtain ⟨A', h1, h2⟩ := ih (arenaOk_set h ha { a with ty := ty }) (by
        intro j hj
        obtain ⟨b, hb⟩ := hm j (by simp [hj])
        have hji : j ≠ i := fun e => hnd.1 (e ▸ hj)
        exact ⟨b, List.mem_map.mpr ⟨_, hb, by simp [hji]⟩⟩) hnd.2
      refine ⟨A', ?_, ?_⟩
      · rw [retypeIds, hg]; simp only [hc, if_true]; exact h1
      · convert h2 using 1
        simp only [retypeLog, List.map_map]
        apply List.map_congr_left
        intro x hx
        simp only [Function.comp]
        by_cases hxi : x.1 = i
        · have : x.2 = a := by
            refine h.unique (i := i) ?_ ha
            rw [← hxi]; exact hx
          simp [hxi, this, hc, hnd.1]
        · simp [hxi]
    · obtain ⟨A', h1, h2⟩ := ih h (fun j hj => hm j (by simp [hj])) hnd.2
      refine ⟨A', ?_, ?_⟩
      · rw [retypeIds, hg]; simp only [hc, Bool.false_eq_true, if_false]; exact h1
      · convert h2 using 1
        simp only [retypeLog]
        apply List.map_congr_left
        intro x hx
        by_cases hxi : x.1 = i
        · have : x.2 = a := by
            refine h.unique (i := i) ?_ ha
            rw [← hxi]; exact hx
          simp [this, hc]
        · simp [hxi]

theorem retypeLog_fst (c : Nat × Fact → Bool) (ty : Nat) (log : List (Nat × Fact)) (p : Fact → Bool)
    (hp : ∀ a : Fact, p { a with ty := ty } = p a) :
    (retypeLog c ty log).filter (fun x => p x.2) = retypeLog c ty (log.filter (fun x => p x.2)) := by
  simp only [retypeLog, List.filter_map]
  congr 1
  apply List.filter_congr
  intro x _
  simp only [Function.comp]
  split <;> simp [hp]

theorem retypeLog_ids (c : Nat × Fact → Bool) (ty : Nat) (log : List (Nat × Fact)) : (retypeLog c ty log).map (·.1) = log.map (·.1) := by
  simp only [retypeLog, List.map_map]
  apply List.map_congr_left
  intro x _
  simp only [Function.comp]
  split <;> rfl

theorem inv_retype {s : State} {log : List (Nat × Fact)} (h : Inv s log) {c : Nat × Fact → Bool} {ty : Nat} {A : Arena Fact}
    (ha : ArenaOk A (retypeLog c ty log)) : Inv { s with arena := A } (retypeLog c ty log) := by
  refine ⟨ha, ?_, ?_, ?_, ?_⟩
  · intro k
    rw [retypeLog_fst c ty log (hasKey kNamed k) (fun a => rfl), retypeLog_ids]
    exact h.named k
  · intro k
    rw [retypeLog_fst c ty log (hasKey kFile k) (fun a => rfl), retypeLog_ids]
    exact h.file k
  · intro ho k
    rw [h.exact ho k]
    simp only [sortedIds]
    rw [retypeLog_fst c ty log (hasKey kNamed k) (fun a => rfl)]
    generalize log.filter (fun x => hasKey kNamed k x.2) = l
    rw [retypeLog, stableSort_map (le := fun x y => leBy namedKey x.2 y.2)]
    · rw [List.map_map]
      apply List.map_congr_left
      intro x _
      simp only [Function.comp]
      split <;> rfl
    · intro a _ b _
      split <;> split <;> rfl
  · intro x hx
    simp only [retypeLog, List.mem_map] at hx
    obtain ⟨y, hy, rfl⟩ := hx
    have := h.valid y hy
    split
    · exact this
    · exact this

theorem retypeLog_snd {c : Nat × Fact → Bool} {d : Fact → Bool} {ty : Nat} {log : List (Nat × Fact)}
    (h : ∀ x ∈ log, c x = d x.2) : (retypeLog c ty log).map (·.2) = retype d ty (log.map (·.2)) := by
  simp only [retypeLog, retype, List.map_map]
  apply List.map_congr_left
  intro x hx
  simp only [Function.comp, h x hx]
  split <;> rfl

theorem mem_bucket {κ : Type} [DecidableEq κ] {keyOf : Fact → Option κ} {A : Arena Fact} {log : List (Nat × Fact)} {m : κ → List Nat}
    (h : IdxPerm keyOf log m) (ha : ArenaOk A log) {x : Nat × Fact} (hx : x ∈ log) (k : κ) : x.1 ∈ m k ↔ keyOf x.2 = some k := by
  rw [h.mem]
  constructor
  · rintro ⟨a, h1, h2⟩; rw [ha.unique (a := x.2) (b := a) hx h1]; exact h2
  · intro h1; exact ⟨x.2, hx, h1⟩

theorem kNamed_iff {a : Fact} {n : Nat} : kNamed a = some n ↔ a.subject = .named n := by
  unfold kNamed
  cases a.subject <;> simp

/-- Every valid call succeeds and keeps the indexes equal to the log. -/
theorem apply_ok {s : State} {log : List (Nat × Fact)} (h : Inv s log) {op : Op} (hv : op.Valid) :
    ∃ s' log', apply s op = .ok s' ∧ Inv s' log' ∧ log'.map (·.2) = logOp (log.map (·.2)) op ∧
      ((∀ a, op ≠ .add a) → s'.ordered = s.ordered) := by
  cases op with
  | add a =>
    obtain ⟨s', id, h1, h2⟩ := add_ok h hv
    exact ⟨s', _, h1, h2, by simp [logOp], fun hc => absurd rfl (hc a)⟩
  | remove f =>
    obtain ⟨h1, h2⟩ := removeFile_ok h f
    refine ⟨_, _, rfl, h1, ?_, fun _ => h2⟩
    simp only [logOp]
    rw [List.filter_map]; rfl
  | replace f facts =>
    obtain ⟨s', new, h1, h2, h3, h4⟩ := replaceFile_ok h f hv
    refine ⟨s', _, h1, h4, ?_, fun _ => h3⟩
    simp only [logOp]
    rw [List.map_append, h2, List.filter_map]; rfl
  | updateInferred f n ty =>
    obtain ⟨A, h1, h2⟩ := retypeIds_ok true (fun a => decide (a.file = f ∧ a.prov = inferred)) ty (s.byNamed n) h.arena
      (fun i hi => by obtain ⟨a, ha, _⟩ := h.named.mem.mp hi; exact ⟨a, ha⟩) (h.named.nodup h.arena n)
    have heq : apply s (.updateInferred f n ty) = .ok { s with arena := A } := by
      simp only [apply, updateInferred]; rw [h1]; rfl
    refine ⟨_, _, heq, inv_retype h h2, ?_, fun _ => rfl⟩
    refine retypeLog_snd ?_
    intro x hx
    rw [Bool.eq_iff_iff]
    simp only [Bool.and_eq_true, decide_eq_true_eq, mem_bucket h.named h.arena hx, kNamed_iff]
  | updateEquation n f i j ty =>
    obtain ⟨A, h1, h2⟩ := retypeIds_ok true (fun a => decide (a.file = f ∧ a.start = i ∧ a.stop = j)) ty (s.byNamed n) h.arena
      (fun i hi => by obtain ⟨a, ha, _⟩ := h.named.mem.mp hi; exact ⟨a, ha⟩) (h.named.nodup h.arena n)
    have heq : apply s (.updateEquation n f i j ty) = .ok { s with arena := A } := by
      simp only [apply, updateEquation]; rw [h1]; rfl
    refine ⟨_, _, heq, inv_retype h h2, ?_, fun _ => rfl⟩
    refine retypeLog_snd ?_
    intro x hx
    rw [Bool.eq_iff_iff]
    simp only [Bool.and_eq_true, decide_eq_true_eq, mem_bucket h.named h.arena hx, kNamed_iff]
  | updateLocal isLocal f i j ty =>
    obtain ⟨A, h1, h2⟩ := retypeIds_ok false
      (fun a => decide (a.file = f ∧ a.start = i ∧ a.stop = j) && (kNamed a).any isLocal) ty (s.byFile f) h.arena
      (fun i hi => by obtain ⟨a, ha, _⟩ := h.file.mem.mp hi; exact ⟨a, ha⟩) (h.file.nodup h.arena f)
    have heq : apply s (.updateLocal isLocal f i j ty) = .ok { s with arena := A } := by
      simp only [apply, updateLocal]; rw [h1]; rfl
    refine ⟨_, _, heq, inv_retype h h2, ?_, fun _ => rfl⟩
    refine retypeLog_snd ?_
    intro x hx
    rw [Bool.eq_iff_iff]
    simp only [Bool.and_eq_true, decide_eq_true_eq, mem_bucket h.file h.arena hx, kFile, Option.some.injEq]
    have : (kNamed x.2).any isLocal = true ↔ (match x.2.subject with
      | .named n => isLocal n
      | .expr _ _ _ => false) = true := by
      unfold kNamed
      cases x.2.subject <;> simp
    rw [this]
    tauto

theorem run_ok (ops : List Op) (hv : ∀ op ∈ ops, op.Valid) {s : State} {log : List (Nat × Fact)} (h : Inv s log) :
    ∃ s' log', run ops s = .ok s' ∧ Inv s' log' ∧ log'.map (·.2) = ops.foldl logOp (log.map (·.2)) ∧
      ((∀ a, Op.add a ∉ ops) → s'.ordered = s.ordered) := by
  induction ops generalizing s log with
  | nil => exact ⟨s, log, rfl, h, rfl, fun _ => rfl⟩
  | cons op ops ih =>
    obtain ⟨s1, log1, e1, e2, e3, e4⟩ := apply_ok h (hv op (by simp))
    obtain ⟨s2, log2, f1, f2, f3, f4⟩ := ih (fun o ho => hv o (by simp [ho])) e2
    refine ⟨s2, log2, by rw [run, e1]; exact f1, f2, ?_, ?_⟩
    · rw [f3, e3]; rfl
    · intro hn
      rw [f4 (fun a ha => hn a (by simp [ha])), e4 (fun a ha => hn a (by simp [ha]))]

end Verif.TypeStore
