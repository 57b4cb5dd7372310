import Verif.Spec.Sources
import Mathlib.Tactic.Common
namespace Verif.Sources
variable {p : Params}

structure Inv (e : Engine p) : Prop where
  byPath_byId : ∀ path id, e.byPath path = some id → e.byId id = some path
  byId_byPath : ∀ path id, e.byId id = some path → e.byPath path = some id
  lt : ∀ id path, e.byId id = some path → id < e.nextId
  known : ∀ id f, e.files id = some f → e.byId id = some f.record.path
  rev : ∀ id f, e.files id = some f → f.revision ≤ e.nextRevision

theorem inv_init (i : Nat) : Inv (init i : Engine p) := by
  constructor <;> simp [init]

theorem insert_self {α β : Type} [DecidableEq α] (f : α → Option β) (k : α) (v : β) : insert f k v k = some v := by simp [insert]
theorem insert_ne {α β : Type} [DecidableEq α] (f : α → Option β) {k x : α} (v : β) (h : x ≠ k) : insert f k v x = f x := by simp [insert, h]

/-- What `get_or_insert` guarantees. -/
theorem getOrInsert_spec {e : Engine p} (i : Inv e) (path : p.Path) :
    let r := getOrInsert e path
    Inv r.2 ∧ r.2.byPath path = some r.1 ∧ r.2.files = e.files ∧ r.2.nextRevision = e.nextRevision ∧
    r.2.instanceId = e.instanceId ∧ r.2.facts = e.facts ∧
    (∀ q id, e.byPath q = some id → r.2.byPath q = some id) ∧ (∀ id q, e.byId id = some q → r.2.byId id = some q) := by
  unfold getOrInsert
  split
  · rename_i id h
    exact ⟨i, h, rfl, rfl, rfl, rfl, fun _ _ h => h, fun _ _ h => h⟩
  · rename_i h
    have hfresh : e.byId e.nextId = none := by
      cases hb : e.byId e.nextId with
      | none => rfl
      | some q => exact absurd (i.lt _ _ hb) (by omega)
    have hp : ∀ q id, e.byPath q = some id → q ≠ path := by
      rintro q id hq rfl; rw [h] at hq; cases hq
    have hi : ∀ id q, e.byId id = some q → id ≠ e.nextId := by
      rintro id q hq rfl; rw [hfresh] at hq; cases hq
    refine ⟨⟨?_, ?_, ?_, ?_, i.rev⟩, insert_self _ _ _, rfl, rfl, rfl, rfl, ?_, ?_⟩
    · intro q id hq
      dsimp only at hq ⊢
      by_cases hqp : q = path
      · subst hqp
        rw [insert_self] at hq; cases hq
        exact insert_self _ _ _
      · rw [insert_ne _ _ hqp] at hq
        have := i.byPath_byId _ _ hq
        rw [insert_ne _ _ (hi _ _ this)]; exact this
    · intro q id hq
      dsimp only at hq ⊢
      by_cases hid : id = e.nextId
      · subst hid
        rw [insert_self] at hq; cases hq
        exact insert_self _ _ _
      · rw [insert_ne _ _ hid] at hq
        have := i.byId_byPath _ _ hq
        rw [insert_ne _ _ (hp _ _ this)]; exact this
    · intro id q hq
      dsimp only at hq ⊢
      by_cases hid : id = e.nextId
      · omega
      · rw [insert_ne _ _ hid] at hq
        have := i.lt _ _ hq; omega
    · intro id f hf
      dsimp only at hf ⊢
      have := i.known _ _ hf
      rw [insert_ne _ _ (hi _ _ this)]; exact this
    · intro q id hq
      dsimp only
      rw [insert_ne _ _ (hp _ _ hq)]; exact hq
    · intro id q hq
      dsimp only
      rw [insert_ne _ _ (hi _ _ hq)]; exact hq

/-- What registering a record guarantees. -/
theorem registerIndexed_spec {e : Engine p} (i : Inv e) (r : Record p) :
    let x := registerIndexed e r
    Inv x.2 ∧ x.2.byPath r.path = some x.1 ∧ x.2.instanceId = e.instanceId ∧ x.2.facts = e.facts ∧
    (∃ f, x.2.files x.1 = some f ∧ f.record = r ∧
      ((∃ g, e.files x.1 = some g ∧ g.record = r ∧ f = g) ∨ ((∀ g, e.files x.1 = some g → g.record ≠ r) ∧ e.nextRevision < f.revision))) ∧
    (∀ id, id ≠ x.1 → x.2.files id = e.files id) ∧ e.nextRevision ≤ x.2.nextRevision ∧
    (∀ q id, e.byPath q = some id → x.2.byPath q = some id) ∧ (∀ id q, e.byId id = some q → x.2.byId id = some q) := by
  obtain ⟨i1, h1, h2, h3, h4, h5, h6, h7⟩ := getOrInsert_spec i r.path
  unfold registerIndexed
  set g := getOrInsert e r.path with hg
  obtain ⟨id, e1⟩ := g
  dsimp only at *
  have inv' : Inv { e1 with nextRevision := e1.nextRevision + 1, files := insert e1.files id { record := r, revision := e1.nextRevision + 1 } } := by
    refine ⟨i1.byPath_byId, i1.byId_byPath, i1.lt, ?_, ?_⟩
    · intro id' f hf
      dsimp only at hf ⊢
      by_cases hid : id' = id
      · subst hid
        rw [insert_self] at hf; cases hf
        exact i1.byPath_byId _ _ h1
      · rw [insert_ne _ _ hid] at hf; exact i1.known _ _ hf
    · intro id' f hf
      dsimp only at hf ⊢
      by_cases hid : id' = id
      · subst hid
        rw [insert_self] at hf; cases hf
        exact Nat.le_refl _
      · rw [insert_ne _ _ hid] at hf
        have := i1.rev _ _ hf; omega
  split
  · rename_i existing hex
    split
    · rename_i heq
      refine ⟨i1, h1, h4, h5, ⟨existing, hex, heq, Or.inl ⟨existing, by rw [← h2]; exact hex, heq, rfl⟩⟩, fun _ _ => by rw [h2], by dsimp only; omega, h6, h7⟩
    · rename_i hne
      refine ⟨inv', h1, h4, h5, ⟨_, insert_self _ _ _, rfl, Or.inr ⟨?_, by dsimp only; omega⟩⟩, ?_, by dsimp only; omega, h6, h7⟩
      · intro g' hg'
        rw [← h2, hex] at hg'; cases hg'
        exact hne
      · intro id' hid
        dsimp only
        rw [insert_ne _ _ hid, h2]
  · rename_i hex
    refine ⟨inv', h1, h4, h5, ⟨_, insert_self _ _ _, rfl, Or.inr ⟨?_, by dsimp only; omega⟩⟩, ?_, by dsimp only; omega, h6, h7⟩
    · intro g' hg'
      rw [← h2, hex] at hg'; cases hg'
    · intro id' hid
      dsimp only
      rw [insert_ne _ _ hid, h2]

theorem replaceFacts_ok {e e' : Engine p} {fileId : Nat} {facts : p.Facts} (h : replaceFacts e fileId facts = .ok e') :
    e' = { e with facts := insert e.facts fileId facts } := by
  unfold replaceFacts at h
  split at h <;> cases h
  rfl

/-- A call either registers one record or leaves the registry alone. -/
theorem step_cases {e e' : Engine p} {op : Op p} (h : step e op = .ok e') :
    (∃ r, stored e op = some r ∧ e' = (registerIndexed e r).2) ∨
    (stored e op = none ∧ ∃ facts, e' = { e with facts := facts }) := by
  cases op with
  | register raw content kind package =>
    simp only [step, Outcome.ok.injEq] at h
    exact Or.inl ⟨_, rfl, h.symm⟩
  | registerIf raw content kind expected =>
    simp only [step] at h
    split at h
    · rename_i r heq
      cases h
      unfold registerIfSnapshot at heq
      split at heq
      · cases heq
      · split at heq
        · rename_i hne
          cases heq
          exact Or.inr ⟨by simp [stored, hne], e.facts, rfl⟩
        · rename_i hne
          push Not at hne
          simp only at heq
          split at heq
          · cases heq
          · cases heq
            exact Or.inl ⟨_, by simp only [stored, hne, if_true], rfl⟩
    · cases h
    · cases h
  | replace fileId facts =>
    exact Or.inr ⟨rfl, _, replaceFacts_ok h⟩
  | replaceIf expected facts =>
    simp only [step] at h
    split at h
    · rename_i r heq
      cases h
      unfold replaceIfSnapshot at heq
      split at heq
      · cases heq
      · split at heq
        · cases heq
          exact Or.inr ⟨rfl, e.facts, rfl⟩
        · split at heq
          · rename_i hr
            cases heq
            exact Or.inr ⟨rfl, _, replaceFacts_ok hr⟩
          · cases heq
          · cases heq
    · cases h
    · cases h

theorem inv_step {e e' : Engine p} (i : Inv e) {op : Op p} (h : step e op = .ok e') : Inv e' := by
  rcases step_cases h with ⟨r, -, rfl⟩ | ⟨-, facts, rfl⟩
  · exact (registerIndexed_spec i r).1
  · exact ⟨i.byPath_byId, i.byId_byPath, i.lt, i.known, i.rev⟩

theorem reachable_inv {e : Engine p} (h : Reachable e) : Inv e := by
  induction h with
  | init i => exact inv_init i
  | clone j _ ih => exact ⟨ih.byPath_byId, ih.byId_byPath, ih.lt, ih.known, ih.rev⟩
  | step op _ hs ih => exact inv_step ih hs

theorem step_instance {e e' : Engine p} (i : Inv e) {op : Op p} (h : step e op = .ok e') : e'.instanceId = e.instanceId := by
  rcases step_cases h with ⟨r, -, rfl⟩ | ⟨-, facts, rfl⟩
  · exact (registerIndexed_spec i r).2.2.1
  · rfl

theorem step_ids {e e' : Engine p} (i : Inv e) {op : Op p} (h : step e op = .ok e') :
    (∀ q id, e.byPath q = some id → e'.byPath q = some id) ∧ (∀ id q, e.byId id = some q → e'.byId id = some q) := by
  rcases step_cases h with ⟨r, -, rfl⟩ | ⟨-, facts, rfl⟩
  · exact (registerIndexed_spec i r).2.2.2.2.2.2.2
  · exact ⟨fun _ _ h => h, fun _ _ h => h⟩

/-- Effect of one call on one file. -/
theorem step_file {e e' : Engine p} (i : Inv e) {op : Op p} (h : step e op = .ok e') {id : Nat} {f : SourceFile p}
    (hf : e.files id = some f) :
    e.nextRevision ≤ e'.nextRevision ∧
    ∃ f', e'.files id = some f' ∧ f'.record.path = f.record.path ∧
      (((∀ r, stored e op = some r → r.path = f.record.path → r = f.record) ∧ f' = f) ∨
       (∃ r, stored e op = some r ∧ r.path = f.record.path ∧ r ≠ f.record ∧ f'.record = r ∧ e.nextRevision < f'.revision)) := by
  rcases step_cases h with ⟨r, hr, rfl⟩ | ⟨hn, facts, rfl⟩
  · obtain ⟨i', h1, h2, h3, ⟨f', hf', hrec, hcase⟩, h5, h6, h7, h8⟩ := registerIndexed_spec i r
    refine ⟨h6, ?_⟩
    by_cases hid : id = (registerIndexed e r).1
    · subst hid
      have hpath : f.record.path = r.path := by
        have a := i'.byPath_byId _ _ h1
        have b := h8 _ _ (i.known _ _ hf)
        rw [a] at b; exact (Option.some.inj b).symm
      refine ⟨f', hf', by rw [hrec, hpath], ?_⟩
      rcases hcase with ⟨g, hg, hgr, rfl⟩ | ⟨hne, hlt⟩
      · rw [hf] at hg; cases hg
        left
        refine ⟨?_, rfl⟩
        intro r' hr' _
        rw [hr] at hr'; cases hr'
        exact hgr.symm
      · right
        exact ⟨r, hr, hpath.symm, fun hc => hne f hf hc.symm, hrec, hlt⟩
    · refine ⟨f, by rw [h5 id hid]; exact hf, rfl, Or.inl ⟨?_, rfl⟩⟩
      intro r' hr' hp
      rw [hr] at hr'; cases hr'
      exfalso
      apply hid
      have a := h7 _ _ (i.byId_byPath _ _ (i.known _ _ hf))
      rw [← hp, h1] at a
      exact (Option.some.inj a).symm
  · refine ⟨Nat.le_refl _, f, hf, rfl, Or.inl ⟨?_, rfl⟩⟩
    intro r hr
    rw [hn] at hr; cases hr

end Verif.Sources
