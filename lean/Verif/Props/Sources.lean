import Verif.Lemmas.Sources
/-! Property C36: stale background results are never committed; file ids are stable and distinct. -/
namespace Verif.Sources
variable {p : Params}

theorem steps_inv {e e' : Engine p} {ops : List (Op p)} (h : Steps e ops e') (i : Inv e) :
    Inv e' ∧ e'.instanceId = e.instanceId ∧ (∀ q id, e.byPath q = some id → e'.byPath q = some id) ∧
    (∀ id q, e.byId id = some q → e'.byId id = some q) := by
  induction h with
  | nil => exact ⟨i, rfl, fun _ _ h => h, fun _ _ h => h⟩
  | cons hs _ ih =>
    obtain ⟨a, b, c, d⟩ := ih (inv_step i hs)
    obtain ⟨c', d'⟩ := step_ids i hs
    exact ⟨a, by rw [b, step_instance i hs], fun q id h => c q id (c' q id h), fun id q h => d id q (d' id q h)⟩

theorem steps_newer {e e' : Engine p} {ops : List (Op p)} (h : Steps e ops e') (i : Inv e) {id v : Nat} {f : SourceFile p}
    (hf : e.files id = some f) (hv : v < f.revision) : ∃ f', e'.files id = some f' ∧ v < f'.revision := by
  induction h generalizing f with
  | nil => exact ⟨f, hf, hv⟩
  | cons hs _ ih =>
    obtain ⟨-, f', hf', -, ⟨-, rfl⟩ | ⟨r, -, -, -, -, hlt⟩⟩ := step_file i hs hf
    · exact ih (inv_step i hs) hf' hv
    · exact ih (inv_step i hs) hf' (by have := i.rev _ _ hf; omega)

/-- A file's revision is unchanged exactly when nothing different was registered for it. -/
theorem steps_file {e e' : Engine p} {ops : List (Op p)} (h : Steps e ops e') (i : Inv e) {id : Nat} {f : SourceFile p}
    (hf : e.files id = some f) :
    ∃ f', e'.files id = some f' ∧
      (f'.revision = f.revision ↔ ∀ r ∈ registrations e ops, r.path = f.record.path → r = f.record) ∧
      (f'.revision = f.revision → f' = f) := by
  induction h generalizing f with
  | nil => exact ⟨f, hf, by simp [registrations], fun _ => rfl⟩
  | cons hs hss ih =>
    rename_i e0 f0 g0 op ops
    have i' := inv_step i hs
    obtain ⟨-, f', hf', hpath, ⟨hall, rfl⟩ | ⟨r, hr, hrp, hrne, -, hlt⟩⟩ := step_file i hs hf
    · obtain ⟨f2, hf2, hiff, heq⟩ := ih i' hf'
      refine ⟨f2, hf2, ?_, heq⟩
      rw [hiff]
      simp only [registrations, hs, List.mem_append, Option.mem_toList, Option.mem_def]
      constructor
      · rintro h r (hr | hr) hp
        · exact hall r hr hp
        · exact h r hr hp
      · intro h r hr hp
        exact h r (Or.inr hr) hp
    · have hrev := i.rev _ _ hf
      obtain ⟨f2, hf2, hgt⟩ := steps_newer hss i' hf' (v := f.revision) (by omega)
      refine ⟨f2, hf2, ⟨fun h => by omega, fun h => ?_⟩, fun h => by omega⟩
      exfalso
      exact hrne (h r (by simp [registrations, hr]) hrp)

/-! ### C36 -/

/-- A snapshot of a file stays valid exactly as long as nothing different is registered for that file (also not
temporarily).  Facts submitted with it are committed – for that file and no other – exactly in that case, and otherwise
refused without any effect. -/
theorem c36_commit_iff_unchanged {e e' : Engine p} (h : Reachable e) {raw : p.RawPath} {r₀ : Record p} {snap : Snapshot}
    (hcur : Current e raw r₀) (hsnap : snapshotForPath e raw = some snap) {ops : List (Op p)} (hs : Steps e ops e')
    (facts : p.Facts) :
    ((∀ r ∈ registrations e ops, r.path = p.norm raw → r = r₀) ∧
      ∃ e'', replaceIfSnapshot e' snap facts = .ok (true, e'') ∧ e'.byPath (p.norm raw) = some snap.fileId ∧
        (∀ id, e''.facts id = if id = snap.fileId then some facts else e'.facts id) ∧ Current e' raw r₀) ∨
    ((∃ r ∈ registrations e ops, r.path = p.norm raw ∧ r ≠ r₀) ∧ replaceIfSnapshot e' snap facts = .ok (false, e')) := by
  have i := reachable_inv h
  obtain ⟨id, f, hid, hf, rfl⟩ := hcur
  have hsn : snap = { engine := e.instanceId, fileId := id, revision := f.revision } := by
    unfold snapshotForPath at hsnap
    rw [hid] at hsnap
    simp only [hf, Option.some.injEq] at hsnap
    exact hsnap.symm
  have hpath : f.record.path = p.norm raw := by
    have a := i.known _ _ hf
    have b := i.byPath_byId _ _ hid
    rw [a] at b; exact Option.some.inj b
  obtain ⟨i', hinst, hids, -⟩ := steps_inv hs i
  obtain ⟨f', hf', hiff, heq⟩ := steps_file hs i hf
  rw [hpath] at hiff
  by_cases hall : ∀ r ∈ registrations e ops, r.path = p.norm raw → r = f.record
  · left
    have hrev := hiff.mpr hall
    have hff := heq hrev
    subst hff
    refine ⟨hall, { e' with facts := insert e'.facts id facts }, ?_, ?_, ?_, ⟨id, f', hids _ _ hid, hf', rfl⟩⟩
    · simp [replaceIfSnapshot, hsn, hinst, hf', replaceFacts]
    · rw [hsn]; exact hids _ _ hid
    · intro x
      rw [hsn]
      by_cases hx : x = id <;> simp [insert, hx]
  · right
    have hrev : f'.revision ≠ f.revision := fun hc => hall (hiff.mp hc)
    push Not at hall
    refine ⟨hall, ?_⟩
    simp [replaceIfSnapshot, hsn, hinst, hf', hrev]

/-- The same rule guards conditional registration: with the snapshot of a file as the condition, it takes effect exactly
when nothing different was registered for the file in between; then the new content is current and the returned snapshot
is the file's. -/
theorem c36_conditional_registration {e e' : Engine p} (h : Reachable e) {raw : p.RawPath} {r₀ : Record p} {snap : Snapshot}
    (hcur : Current e raw r₀) (hsnap : snapshotForPath e raw = some snap) {ops : List (Op p)} (hs : Steps e ops e')
    (content : p.Content) (kind : p.Kind) :
    ((∀ r ∈ registrations e ops, r.path = p.norm raw → r = r₀) ∧
      ∃ s e'', registerIfSnapshot e' raw content kind (some snap) = .ok (some s, e'') ∧
        Current e'' raw (mkRecord raw content kind none) ∧ snapshotForPath e'' raw = some s) ∨
    ((∃ r ∈ registrations e ops, r.path = p.norm raw ∧ r ≠ r₀) ∧
      registerIfSnapshot e' raw content kind (some snap) = .ok (none, e')) := by
  have i := reachable_inv h
  obtain ⟨id, f, hid, hf, rfl⟩ := hcur
  have hsn : snap = { engine := e.instanceId, fileId := id, revision := f.revision } := by
    unfold snapshotForPath at hsnap
    rw [hid] at hsnap
    simp only [hf, Option.some.injEq] at hsnap
    exact hsnap.symm
  have hpath : f.record.path = p.norm raw := by
    have a := i.known _ _ hf
    have b := i.byPath_byId _ _ hid
    rw [a] at b; exact Option.some.inj b
  obtain ⟨i', hinst, hids, -⟩ := steps_inv hs i
  obtain ⟨f', hf', hiff, heq⟩ := steps_file hs i hf
  rw [hpath] at hiff
  have hsnap' : snapshotForPath e' raw = some { engine := e.instanceId, fileId := id, revision := f'.revision } := by
    simp [snapshotForPath, hids _ _ hid, hf', hinst]
  by_cases hall : ∀ r ∈ registrations e ops, r.path = p.norm raw → r = f.record
  · left
    have hrev := hiff.mpr hall
    obtain ⟨i2, h1, h2, h3, ⟨g, hg, hgr, -⟩, -⟩ := registerIndexed_spec i' (mkRecord raw content kind none)
    refine ⟨hall, { engine := e'.instanceId, fileId := (registerIndexed e' (mkRecord raw content kind none)).1, revision := g.revision },
      (registerIndexed e' (mkRecord raw content kind none)).2, ?_, ⟨_, g, h1, hg, hgr⟩, ?_⟩
    · have hb : (decide (e.instanceId ≠ e'.instanceId)) = false := by simp [hinst]
      simp only [registerIfSnapshot, hsn, Option.any_some, hb, Bool.false_eq_true, if_false, hsnap', hrev, ne_eq, not_true,
        register, hg, h2]
    · simp only [snapshotForPath]
      have h1' : (registerIndexed e' (mkRecord raw content kind none)).2.byPath (p.norm raw) = some (registerIndexed e' (mkRecord raw content kind none)).1 := h1
      rw [h1']
      simp only [hg, h2]
  · right
    have hrev : f'.revision ≠ f.revision := fun hc => hall (hiff.mp hc)
    push Not at hall
    refine ⟨hall, ?_⟩
    simp [registerIfSnapshot, hsn, hsnap', hrev, hinst]

/-- A conditional registration made on the condition that the file is still unknown takes effect exactly when it is. -/
theorem c36_registration_if_absent {e : Engine p} (h : Reachable e) (raw : p.RawPath) (content : p.Content) (kind : p.Kind) :
    (snapshotForPath e raw = none →
      ∃ s e', registerIfSnapshot e raw content kind none = .ok (some s, e') ∧ Current e' raw (mkRecord raw content kind none)) ∧
    (snapshotForPath e raw ≠ none → registerIfSnapshot e raw content kind none = .ok (none, e)) := by
  constructor
  · intro hn
    obtain ⟨i2, h1, h2, h3, ⟨g, hg, hgr, -⟩, -⟩ := registerIndexed_spec (reachable_inv h) (mkRecord raw content kind none)
    refine ⟨?_, (registerIndexed e (mkRecord raw content kind none)).2, ?_, ⟨_, g, h1, hg, hgr⟩⟩
    · exact { engine := e.instanceId, fileId := (registerIndexed e (mkRecord raw content kind none)).1, revision := g.revision }
    · simp [registerIfSnapshot, hn, register, hg, h2]
  · intro hn
    simp [registerIfSnapshot, hn]

/-- Registering makes the given content current, and equal records mean equal non-ASCII content, and equal line index and
content hash for ASCII content. -/
theorem c36_registration_is_current {e : Engine p} (h : Reachable e) (raw : p.RawPath) (content : p.Content) (kind : p.Kind)
    (package : Option p.Package) :
    ∃ e', step e (.register raw content kind package) = .ok e' ∧ Current e' raw (mkRecord raw content kind package) ∧
      ∃ s, snapshotForPath e' raw = some s := by
  obtain ⟨i2, h1, h2, h3, ⟨g, hg, hgr, -⟩, -⟩ := registerIndexed_spec (reachable_inv h) (mkRecord raw content kind package)
  refine ⟨_, rfl, ⟨_, g, h1, hg, hgr⟩, ?_, ?_⟩
  · exact { engine := e.instanceId, fileId := (registerIndexed e (mkRecord raw content kind package)).1, revision := g.revision }
  · simp only [snapshotForPath, register]
    have h1' : (registerIndexed e (mkRecord raw content kind package)).2.byPath (p.norm raw) = some (registerIndexed e (mkRecord raw content kind package)).1 := h1
    rw [h1']
    simp only [hg, h2]

theorem c36_same_record_same_content {raw raw' : p.RawPath} {c c' : p.Content} {k k' : p.Kind} {g g' : Option p.Package}
    (h : mkRecord raw c k g = mkRecord raw' c' k' g') :
    p.norm raw = p.norm raw' ∧ k = k' ∧ g = g' ∧ (p.isAscii c = false → c = c') ∧ p.hash c = p.hash c' ∧ p.lines c = p.lines c' := by
  simp only [mkRecord, Record.mk.injEq] at h
  obtain ⟨h1, h2, h3, h4, h5, h6⟩ := h
  refine ⟨h1, h2, h6, ?_, h4, h3⟩
  intro ha
  rw [ha] at h5
  simp only [Bool.false_eq_true, if_false] at h5
  split at h5
  · cases h5
  · exact Option.some.inj h5

/-- File ids: equal paths (and only those) have equal ids, the id leads back to the path, and no later call changes either. -/
theorem c36_ids_stable_and_distinct {e e' : Engine p} (h : Reachable e) {ops : List (Op p)} (hs : Steps e ops e') :
    (∀ q q' id, e.byPath q = some id → e.byPath q' = some id → q = q') ∧
    (∀ q id, e.byPath q = some id ↔ e.byId id = some q) ∧
    (∀ q id, e.byPath q = some id → e'.byPath q = some id ∧ e'.byId id = some q) := by
  have i := reachable_inv h
  obtain ⟨i', -, h1, h2⟩ := steps_inv hs i
  refine ⟨?_, fun q id => ⟨i.byPath_byId q id, i.byId_byPath q id⟩, fun q id hq => ⟨h1 q id hq, h2 id q (i.byPath_byId q id hq)⟩⟩
  intro q q' id hq hq'
  have a := i.byPath_byId _ _ hq
  have b := i.byPath_byId _ _ hq'
  rw [a] at b; exact Option.some.inj b

/-- A snapshot of one engine is never accepted by a clone of it (the code panics instead). -/
theorem c36_clone_rejects_snapshots {e : Engine p} {raw : p.RawPath} {snap : Snapshot} (hs : snapshotForPath e raw = some snap)
    {fresh : Nat} (hne : fresh ≠ e.instanceId) {ops : List (Op p)} {e' : Engine p} (h : Reachable e)
    (hss : Steps (clone e fresh) ops e') (facts : p.Facts) :
    replaceIfSnapshot e' snap facts = .panic := by
  have hen : snap.engine = e.instanceId := by
    unfold snapshotForPath at hs
    split at hs
    · cases hs
    · split at hs <;> cases hs
      rfl
  have hi : e'.instanceId = fresh := (steps_inv hss (reachable_inv (.clone fresh h))).2.1
  have : snap.engine ≠ e'.instanceId := by rw [hen, hi]; exact fun hc => hne hc.symm
  simp [replaceIfSnapshot, this]

/-! Concrete case: contents are numbers; register 1 for file 7, take a snapshot, register 1 again (same), then 2 (different). -/
def demoParams : Params :=
  { RawPath := Nat, Path := Nat, Content := Nat, Lines := Unit, Kind := Unit, Package := Unit, Facts := Nat
    norm := id, hash := id, lines := fun _ => (), isAscii := fun _ => true }

example : ∃ e e' : Engine demoParams, ∃ snap, Reachable e ∧ Current e (7 : Nat) (mkRecord (p := demoParams) (7 : Nat) (1 : Nat) () none) ∧
    snapshotForPath e (7 : Nat) = some snap ∧ Steps e [.register (7 : Nat) (1 : Nat) () none] e' ∧
    (∃ r ∈ registrations e [.register (7 : Nat) (1 : Nat) () none, .register (7 : Nat) (2 : Nat) () none], r.contentHash = 2) := by
  refine ⟨(register (init 0) (7 : Nat) (1 : Nat) () none).2, _, _, .step (.register (7 : Nat) (1 : Nat) () none) (.init 0) rfl, ⟨_, _, rfl, rfl, rfl⟩, rfl,
    .cons rfl (.nil _), mkRecord (p := demoParams) (7 : Nat) (2 : Nat) () none, ?_, rfl⟩
  simp [registrations, stored, step]

end Verif.Sources
