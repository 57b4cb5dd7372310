import Verif.Spec.MethodStore
import Verif.Lemmas.Arena
namespace Verif.MethodStore
open Verif.Store

def kFqn (a : Fact) : Option Nat := some a.fqn
def kOwner (a : Fact) : Option Nat := some a.owner
def kFile (a : Fact) : Option Nat := some a.file

/-- All indexes agree with the log. -/
structure Inv (s : State) (log : List (Nat × Fact)) : Prop where
  arena : ArenaOk s.arena log
  fqn : IdxOk (leBy fqnKey) kFqn log s.byFqn
  owner : IdxOk (leBy ownerKey) kOwner log s.byOwner
  ownerName : IdxOk (leBy ownerKey) Fact.ownerName log s.byOwnerName
  file : IdxOk (leBy fileKey) kFile log s.byFile

theorem inv_init : Inv init [] := ⟨arenaOk_empty, idxOk_empty, idxOk_empty, idxOk_empty, idxOk_empty⟩

theorem add_ok {s : State} {log : List (Nat × Fact)} (h : Inv s log) (a : Fact) :
    ∃ s' id, add s a = .ok s' ∧ Inv s' (log ++ [(id, a)]) := by
  obtain ⟨A, id, h1, h2, _⟩ := h.arena.insert a
  obtain ⟨m1, e1, i1⟩ := h.fqn.add (leBy_order _) h2
  obtain ⟨m2, e2, i2⟩ := h.owner.add (leBy_order _) h2
  obtain ⟨m3, e3, i3⟩ := h.ownerName.add (leBy_order _) h2
  obtain ⟨m4, e4, i4⟩ := h.file.add (leBy_order _) h2
  simp only [kFqn, kOwner, kFile] at e1 e2 e4
  exact ⟨⟨A, m1, m2, m3, m4⟩, id, by rw [add, h1]; simp only [Outcome.bind_ok, e1, e2, e3, e4], h2, i1, i2, i3, i4⟩

/-- Invariant while the facts of file `f` are being removed. -/
structure Rem (f : Nat) (s : State) (log : List (Nat × Fact)) : Prop where
  arena : ArenaOk s.arena log
  fqn : IdxOk (leBy fqnKey) kFqn log s.byFqn
  owner : IdxOk (leBy ownerKey) kOwner log s.byOwner
  ownerName : IdxOk (leBy ownerKey) Fact.ownerName log s.byOwnerName
  file : ∀ g, g ≠ f → s.byFile g = sortedIds (leBy fileKey) log (hasKey kFile g)
  gone : s.byFile f = []

theorem removeOne_ok (f : Nat) (s : State) (log : List (Nat × Fact)) (id : Nat) (a : Fact) (h : Rem f s log)
    (hm : (id, a) ∈ log) (ha : a.file = f) : Rem f (removeOne s id) (log.filter (fun x => decide (x.1 ≠ id))) := by
  obtain ⟨A, h1, h2⟩ := h.arena.take hm
  rw [removeOne, h1]
  refine ⟨h2, h.fqn.remove (leBy_order _) h.arena hm, h.owner.remove (leBy_order _) h.arena hm,
    h.ownerName.remove (leBy_order _) h.arena hm, ?_, h.gone⟩
  intro g hg
  rw [h.file g hg, sortedIds_remove_other h.arena hm]
  simp [hasKey, kFile, ha, Ne.symm hg]

theorem removeFile_ok {s : State} {log : List (Nat × Fact)} (h : Inv s log) (f : Nat) :
    Inv (removeFile s f) (log.filter (fun x => decide (x.2.file ≠ f))) ∧ (removeFile s f).byFile f = [] := by
  have h0 : Rem f { s with byFile := upd s.byFile f [] } log :=
    ⟨h.arena, h.fqn, h.owner, h.ownerName, fun g hg => by simp only [upd, if_neg hg]; exact h.file g, by simp [upd]⟩
  have h1 := foldl_remove (Rem f) removeOne (fun a => a.file = f) (removeOne_ok f) (s.byFile f) h0
    (by rw [h.file f]; exact sortedIds_nodup h.arena _)
    (by
      intro i hi
      rw [h.file f, mem_sortedIds] at hi
      obtain ⟨a, h1, h2⟩ := hi
      exact ⟨a, h1, by simpa [hasKey, kFile] using h2⟩)
  have heq : log.filter (fun x => decide (x.1 ∉ s.byFile f)) = log.filter (fun x => decide (x.2.file ≠ f)) := by
    rw [h.file f, filter_not_sortedIds h.arena]
    apply List.filter_congr
    intro x _
    simp [hasKey, kFile]
  rw [heq] at h1
  refine ⟨⟨h1.arena, h1.fqn, h1.owner, h1.ownerName, ?_⟩, h1.gone⟩
  intro g
  by_cases hg : g = f
  · subst hg
    rw [show (removeFile s g).byFile g = [] from h1.gone, sortedIds, List.filter_eq_nil_iff.mpr]
    · rfl
    · intro x hx
      have := (List.mem_filter.mp hx).2
      simpa [hasKey, kFile] using this
  · exact h1.file g hg

/-- Invariant while replacement facts are appended. -/
structure App (s : State) (log new : List (Nat × Fact)) : Prop where
  arena : ArenaOk s.arena (log ++ new)
  fqn : IdxApp (leBy fqnKey) kFqn log new s.byFqn
  owner : IdxApp (leBy ownerKey) kOwner log new s.byOwner
  ownerName : IdxApp (leBy ownerKey) Fact.ownerName log new s.byOwnerName
  file : IdxApp (leBy fileKey) kFile log new s.byFile

structure TouchedOk (t : Touched) (new : List (Nat × Fact)) : Prop where
  n1 : t.fqns.Nodup
  n2 : t.owners.Nodup
  n3 : t.ownerNames.Nodup
  m1 : ∀ x ∈ new, ∀ k, kFqn x.2 = some k → k ∈ t.fqns
  m2 : ∀ x ∈ new, ∀ k, kOwner x.2 = some k → k ∈ t.owners
  m3 : ∀ x ∈ new, ∀ k, x.2.ownerName = some k → k ∈ t.ownerNames

theorem note_all {κ : Type} [DecidableEq κ] {ks : List κ} {keyOf : Fact → Option κ} {new : List (Nat × Fact)}
    (h : ∀ x ∈ new, ∀ k, keyOf x.2 = some k → k ∈ ks) (i : Nat) (a : Fact) :
    ∀ x ∈ new ++ [(i, a)], ∀ k, keyOf x.2 = some k → k ∈ note ks (keyOf a) := by
  intro x hx k hk
  rw [mem_note]
  rcases List.mem_append.mp hx with hx | hx
  · exact .inl (h x hx k hk)
  · simp only [List.mem_singleton] at hx; subst hx; exact .inr hk

theorem append_ok {f : Nat} (l : List Fact) {s : State} {log new : List (Nat × Fact)} {t : Touched}
    (h : App s log new) (ht : TouchedOk t new) (hl : ∀ a ∈ l, a.file = f) :
    ∃ s' t' new', append f l s t = .ok (s', t') ∧ App s' log new' ∧ TouchedOk t' new' ∧
      new'.map (·.2) = new.map (·.2) ++ l := by
  induction l generalizing s new t with
  | nil => exact ⟨s, t, new, rfl, h, ht, by simp⟩
  | cons a l ih =>
    have ha := hl a (by simp)
    obtain ⟨A, id, h1, h2, h3⟩ := h.arena.insert a
    rw [List.append_assoc] at h2
    have hfile := h.file.push id a
    rw [show kFile a = some f by simp [kFile, ha]] at hfile
    obtain ⟨s', t', new', e1, e2, e3, e4⟩ := ih
      (s := ⟨A, push s.byFqn (some a.fqn) id, push s.byOwner (some a.owner) id, push s.byOwnerName a.ownerName id,
        push s.byFile (some f) id⟩)
      ⟨h2, h.fqn.push id a, h.owner.push id a, h.ownerName.push id a, hfile⟩
      (t := ⟨note t.fqns (some a.fqn), note t.owners (some a.owner), note t.ownerNames a.ownerName⟩)
      ⟨note_nodup ht.n1 (some a.fqn), note_nodup ht.n2 (some a.owner), note_nodup ht.n3 a.ownerName, note_all ht.m1 id a, note_all ht.m2 id a,
        note_all ht.m3 id a⟩ (fun b hb => hl b (by simp [hb]))
    refine ⟨s', t', new', ?_, e2, e3, ?_⟩
    · rw [append, if_pos ha, h1]; exact e1
    · rw [e4]; simp

theorem replaceFile_ok {π : Orders} {s : State} {log : List (Nat × Fact)} (h : Inv s log) (f : Nat) {facts : List Fact}
    (hv : (Op.replace π f facts).Valid) :
    ∃ s' new, replaceFile π s f facts = .ok s' ∧ new.map (·.2) = facts ∧
      Inv s' (log.filter (fun x => decide (x.2.file ≠ f)) ++ new) := by
  obtain ⟨hf, p1, p2, p3⟩ := hv
  obtain ⟨h0, _⟩ := removeFile_ok h f
  generalize log.filter (fun x => decide (x.2.file ≠ f)) = log0 at h0
  obtain ⟨s1, t, new, e1, e2, e3, e4⟩ := append_ok (f := f) facts (s := removeFile s f) (log := log0) (new := [])
    ⟨by simpa using h0.arena, h0.fqn.app, h0.owner.app, h0.ownerName.app, h0.file.app⟩ (t := ⟨[], [], []⟩)
    ⟨List.nodup_nil, List.nodup_nil, List.nodup_nil, fun _ h => absurd h (by simp), fun _ h => absurd h (by simp),
      fun _ h => absurd h (by simp)⟩ hf
  have e4 : new.map (·.2) = facts := by simpa using e4
  have hmine : ∀ x ∈ new, x.2.file = f := by
    intro x hx
    refine hf _ ?_
    rw [← e4]; exact List.mem_map_of_mem hx
  obtain ⟨m1, a1, b1⟩ := e2.fqn.sortKeys (leBy_order _) e2.arena ((p1 t.fqns).nodup_iff.mpr e3.n1)
    (fun x hx k hk => (p1 t.fqns).mem_iff.mpr (e3.m1 x hx k hk))
  obtain ⟨m2, a2, b2⟩ := e2.owner.sortKeys (leBy_order _) e2.arena ((p2 t.owners).nodup_iff.mpr e3.n2)
    (fun x hx k hk => (p2 t.owners).mem_iff.mpr (e3.m2 x hx k hk))
  obtain ⟨m3, a3, b3⟩ := e2.ownerName.sortKeys (leBy_order _) e2.arena ((p3 t.ownerNames).nodup_iff.mpr e3.n3)
    (fun x hx k hk => (p3 t.ownerNames).mem_iff.mpr (e3.m3 x hx k hk))
  obtain ⟨m4, a4, b4⟩ := e2.file.sortKeys (leBy_order _) e2.arena (ks := [f]) (by simp)
    (fun x hx k hk => by
      have := hmine x hx
      simp only [kFile, this, Option.some.injEq] at hk
      simp [hk])
  have a4 : s1.arena.sortKey (leBy fileKey) (some f) s1.byFile = .ok m4 := by
    rw [Arena.sortKeys] at a4
    cases hx : s1.arena.sortKey (leBy fileKey) (some f) s1.byFile with
    | ok m => rw [hx, Outcome.bind_ok, Arena.sortKeys] at a4; exact a4
    | disabled => rw [hx] at a4; simp [Outcome.bind] at a4
    | panic => rw [hx] at a4; simp [Outcome.bind] at a4
  exact ⟨⟨s1.arena, m1, m2, m3, m4⟩, new, by rw [replaceFile, e1]; simp only [Outcome.bind_ok, a1, a2, a3, a4], e4,
    e2.arena, b1, b2, b3, b4⟩

theorem apply_ok {s : State} {log : List (Nat × Fact)} (h : Inv s log) {op : Op} (hv : op.Valid) :
    ∃ s' log', apply s op = .ok s' ∧ Inv s' log' ∧ log'.map (·.2) = logOp (log.map (·.2)) op := by
  cases op with
  | add a =>
    obtain ⟨s', id, h1, h2⟩ := add_ok h a
    exact ⟨s', _, h1, h2, by simp [logOp]⟩
  | remove f =>
    refine ⟨_, _, rfl, (removeFile_ok h f).1, ?_⟩
    simp only [logOp]
    rw [List.filter_map]; rfl
  | replace π f facts =>
    obtain ⟨s', new, h1, h2, h3⟩ := replaceFile_ok h f hv
    refine ⟨s', _, h1, h3, ?_⟩
    simp only [logOp]
    rw [List.map_append, h2, List.filter_map]; rfl

theorem run_ok (ops : List Op) (hv : ∀ op ∈ ops, op.Valid) {s : State} {log : List (Nat × Fact)} (h : Inv s log) :
    ∃ s' log', run ops s = .ok s' ∧ Inv s' log' ∧ log'.map (·.2) = ops.foldl logOp (log.map (·.2)) := by
  induction ops generalizing s log with
  | nil => exact ⟨s, log, rfl, h, rfl⟩
  | cons op ops ih =>
    obtain ⟨s1, log1, e1, e2, e3⟩ := apply_ok h (hv op (by simp))
    obtain ⟨s2, log2, f1, f2, f3⟩ := ih (fun o ho => hv o (by simp [ho])) e2
    refine ⟨s2, log2, by rw [run, e1]; exact f1, f2, ?_⟩
    rw [f3, e3]; rfl

end Verif.MethodStore
