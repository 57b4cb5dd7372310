import Verif.Lemmas.CacheLimits
import Mathlib.Data.List.Perm.Subperm
/-!
C72: the files of the persistent cache are kept within limits, the oldest go first, and how far several processes can exceed the
limits together.
-/
namespace Verif.CacheLimits

/-! ### What goes and what stays -/

/-- With all removals successful the loop counts exactly what is left, and takes no more than needed. -/
theorem sweep_ok (L : Limits) (es : List Entry) : ∃ gone rest, es = gone ++ rest ∧
    sweep L (fun _ => .ok) es es.length (size es) = (gone, .done rest.length (size rest)) ∧ Within L rest ∧
    ∀ pre a, gone = pre ++ [a] → ¬ Within L (a :: rest) := by
  induction es with
  | nil => exact ⟨[], [], rfl, rfl, ⟨Nat.zero_le _, Nat.zero_le _⟩, fun pre a h => absurd h (by simp)⟩
  | cons e es ih =>
    rw [sweep]
    by_cases hw : (e :: es).length ≤ L.maxEntries ∧ size (e :: es) ≤ L.maxBytes
    · rw [if_pos hw]
      exact ⟨[], e :: es, rfl, rfl, hw, fun pre a h => absurd h (by simp)⟩
    · rw [if_neg hw]
      obtain ⟨gone, rest, he, hs, hr, hl⟩ := ih
      refine ⟨e :: gone, rest, by rw [he]; rfl, ?_, hr, ?_⟩
      · dsimp only
        rw [if_pos (by rw [size_cons, List.length_cons]; omega)]
        have h1 : (e :: es).length - 1 = es.length := by simp
        have h2 : size (e :: es) - e.bytes = size es := by rw [size_cons]; omega
        rw [h1, h2, hs]
      · intro pre a h
        cases pre with
        | nil =>
          injection h with h1 h2
          subst h1; subst h2
          rw [List.nil_append] at he
          subst he
          exact hw
        | cons x pre =>
          injection h with h1 h2
          exact hl pre a h2

theorem remaining_eq {disk gone rest : List Entry} (hd : disk.Nodup) (h : disk.Perm (gone ++ rest)) : (remaining disk gone).Perm rest := by
  have hp : (remaining disk gone).Perm (remaining (gone ++ rest) gone) := h.filter _
  have hn := h.nodup_iff.mp hd
  have he : remaining (gone ++ rest) gone = rest := by
    rw [remaining, List.filter_append]
    have h1 : gone.filter (fun e => !gone.contains e) = [] := by
      rw [List.filter_eq_nil_iff]
      intro a ha
      simp [ha]
    have h2 : rest.filter (fun e => !gone.contains e) = rest := by
      rw [List.filter_eq_self]
      intro a ha
      have := List.disjoint_of_nodup_append hn
      simp only [Bool.not_eq_true', List.contains_eq_mem, decide_eq_false_iff_not]
      exact fun hg => this hg ha
    rw [h1, h2, List.nil_append]
  rw [he] at hp
  exact hp

theorem nodup_of_paths {disk : List Entry} (h : (disk.map Entry.path).Nodup) : disk.Nodup := List.Nodup.of_map _ h

theorem path_inj {disk : List Entry} (h : (disk.map Entry.path).Nodup) {a b : Entry} (ha : a ∈ disk) (hb : b ∈ disk) (hp : a.path = b.path) : a = b :=
  List.inj_on_of_nodup_map h ha hb hp

/-- A cleanup whose removals succeed evicts as it should: what stays keeps the limits, it is younger than what goes, nothing goes
without need, and the accounting says exactly what is left. -/
theorem c72_cleanup (L : Limits) {disk : List Entry} (hd : (disk.map Entry.path).Nodup) (hs : size disk ≤ top) :
    ∃ gone, cleanup L (fun _ => .ok) disk = some (gone, .done (remaining disk gone).length (size (remaining disk gone))) ∧
      Evicts L disk gone (remaining disk gone) := by
  have hp : (stableSort entryLe disk).Perm disk := stableSort_perm disk
  have hso : Sorted entryLe (stableSort entryLe disk) := stableSort_sorted entryLe_order disk
  obtain ⟨gone, rest, he, hw, hr, hl⟩ := sweep_ok L (stableSort entryLe disk)
  have hp' : disk.Perm (gone ++ rest) := by rw [← he]; exact hp.symm
  have hre := remaining_eq (nodup_of_paths hd) hp'
  have hpaths : ((gone ++ rest).map Entry.path).Nodup := (hp'.map _).nodup_iff.mp hd
  refine ⟨gone, ?_, ?_, ?_, ?_, ?_⟩
  · rw [cleanup, checkedSum_small (by omega)]
    dsimp only
    rw [Nat.zero_add, hre.length_eq, size_perm hre, ← hw, hp.length_eq, size_perm hp]
  · exact (hre.append_left gone).trans hp'.symm
  · exact ⟨by rw [hre.length_eq]; exact hr.1, by rw [size_perm hre]; exact hr.2⟩
  · intro a ha b hb
    have hb := hre.mem_iff.mp hb
    rw [he] at hso
    have hle := (List.pairwise_append.mp hso).2.2 a ha b hb
    refine entryLe_before hle ?_
    intro hpe
    have := path_inj hpaths (List.mem_append_left _ ha) (List.mem_append_right _ hb) hpe
    subst this
    exact List.disjoint_of_nodup_append (nodup_of_paths hpaths) ha hb
  · intro a ha hmax hin
    rcases List.eq_nil_or_concat gone with h0 | ⟨pre, x, hx⟩
    · rw [h0] at ha; exact absurd ha (by simp)
    · rw [List.concat_eq_append] at hx
      by_cases hax : a = x
      · subst hax
        have : Within L (a :: rest) := ⟨by have := hin.1; rw [List.length_cons] at *; rw [← hre.length_eq]; omega,
          by have := hin.2; rw [size_cons] at *; rw [← size_perm hre]; omega⟩
        exact hl pre a (by rw [hx]) this
      · have hxg : x ∈ gone := by rw [hx]; simp
        have h1 := hmax x hxg (fun h => hax h.symm)
        have hapre : a ∈ pre := by
          rw [hx] at ha
          simp at ha
          exact ha.resolve_right hax
        rw [he, hx] at hso
        have h2 := (List.pairwise_append.mp (List.pairwise_append.mp hso).1).2.2 a hapre x (by simp)
        have h3 := entryLe_before h2 (fun hpe => hax (path_inj hpaths (List.mem_append_left _ ha) (List.mem_append_left _ hxg) hpe))
        exact before_asymm h3 h1

theorem before_total {a b : Entry} (h : a.path ≠ b.path) : Before a b ∨ Before b a := by
  unfold Before
  omega

theorem before_trans {a b c : Entry} (h : Before a b) (g : Before b c) : Before a c := by
  unfold Before at *
  omega

/-- Some entry is the youngest. -/
theorem youngest {l : List Entry} (hn : (l.map Entry.path).Nodup) (h : l ≠ []) : ∃ y ∈ l, ∀ b ∈ l, b ≠ y → Before b y := by
  induction l with
  | nil => exact absurd rfl h
  | cons e l ih =>
    by_cases hl : l = []
    · subst hl
      refine ⟨e, by simp, fun b hb hne => ?_⟩
      simp at hb
      exact absurd hb hne
    · have hn' := List.nodup_cons.mp (by simpa using hn : (e.path :: l.map Entry.path).Nodup)
      obtain ⟨y, hy, hm⟩ := ih hn'.2 hl
      have hey : e.path ≠ y.path := fun he => hn'.1 (by rw [he]; exact List.mem_map_of_mem hy)
      rcases before_total hey with hb | hb
      · refine ⟨y, List.mem_cons_of_mem _ hy, fun b hbm hne => ?_⟩
        rcases List.mem_cons.mp hbm with rfl | hbm
        · exact hb
        · exact hm b hbm hne
      · refine ⟨e, by simp, fun b hbm hne => ?_⟩
        rcases List.mem_cons.mp hbm with rfl | hbm
        · exact absurd rfl hne
        · by_cases hby : b = y
          · subst hby; exact hb
          · exact before_trans (hm b hbm hby) hb

theorem size_sublist {a b : List Entry} (h : a.Sublist b) : size a ≤ size b := by
  induction h with
  | slnil => exact Nat.le_refl _
  | cons e _ ih => rw [size_cons]; omega
  | cons_cons e _ ih => rw [size_cons, size_cons]; omega

theorem within_subset {L : Limits} {a b : List Entry} (ha : a.Nodup) (h : a ⊆ b) (hw : Within L b) : Within L a := by
  obtain ⟨l, hp, hs⟩ := List.subperm_of_subset ha h
  exact ⟨by have := hs.length_le; have := hp.length_eq; have := hw.1; omega,
    by have := size_sublist hs; have := size_perm hp; have := hw.2; omega⟩

theorem evicts_subset {L : Limits} {disk g k g' k' : List Entry} (hd : (disk.map Entry.path).Nodup) (h : Evicts L disk g k) (h' : Evicts L disk g' k') :
    g' ⊆ g := by
  intro a ha'
  by_contra ha
  have hn := nodup_of_paths hd
  have hnk : (g ++ k).Nodup := h.split.nodup_iff.mpr hn
  have hnk' : (g' ++ k').Nodup := h'.split.nodup_iff.mpr hn
  have hak : a ∈ k := by
    have : a ∈ g ++ k := h.split.mem_iff.mpr (h'.split.mem_iff.mp (List.mem_append_left _ ha'))
    exact (List.mem_append.mp this).resolve_left ha
  have hsub : g ⊆ g' := by
    intro x hx
    by_contra hx'
    have hxk : x ∈ k' := by
      have : x ∈ g' ++ k' := h'.split.mem_iff.mpr (h.split.mem_iff.mp (List.mem_append_left _ hx))
      exact (List.mem_append.mp this).resolve_left hx'
    exact before_asymm (h.oldest x hx a hak) (h'.oldest a ha' x hxk)
  have hpg' : (g'.map Entry.path).Nodup := by
    have := (h'.split.map Entry.path).nodup_iff.mpr hd
    rw [List.map_append] at this
    exact this.of_append_left
  obtain ⟨y, hy, hmax⟩ := youngest hpg' (List.ne_nil_of_mem ha')
  have hyk : y ∈ k := by
    have hmem : y ∈ g ++ k := h.split.mem_iff.mpr (h'.split.mem_iff.mp (List.mem_append_left _ hy))
    rcases List.mem_append.mp hmem with hyg | hyk
    · have h1 := h.oldest y hyg a hak
      by_cases hay : a = y
      · subst hay; exact hak
      · exact absurd h1 (before_asymm (hmax a ha' hay))
    · exact hyk
  refine h'.least y hy hmax (within_subset ?_ ?_ h.within)
  · rw [List.nodup_cons]
    exact ⟨fun hk => List.disjoint_of_nodup_append hnk' hy hk, hnk'.of_append_right⟩
  · intro x hx
    rcases List.mem_cons.mp hx with rfl | hx
    · exact hyk
    · have hmem : x ∈ g ++ k := h.split.mem_iff.mpr (h'.split.mem_iff.mp (List.mem_append_right _ hx))
      rcases List.mem_append.mp hmem with hg | hk
      · exact absurd hx (fun hx => List.disjoint_of_nodup_append hnk' (hsub hg) hx)
      · exact hk

/-- There is only one right choice, so what goes does not depend on the order in which directories list their files. -/
theorem c72_unique {L : Limits} {disk disk' g k g' k' : List Entry} (hd : (disk.map Entry.path).Nodup) (hp : disk.Perm disk') (h : Evicts L disk g k)
    (h' : Evicts L disk' g' k') : g.Perm g' ∧ k.Perm k' := by
  have h' : Evicts L disk g' k' := ⟨h'.split.trans hp.symm, h'.within, h'.oldest, h'.least⟩
  have hn := nodup_of_paths hd
  have hnk : (g ++ k).Nodup := h.split.nodup_iff.mpr hn
  have hnk' : (g' ++ k').Nodup := h'.split.nodup_iff.mpr hn
  have hg : g.Perm g' := (List.perm_ext_iff_of_nodup hnk.of_append_left hnk'.of_append_left).mpr
    (fun x => ⟨fun hx => evicts_subset hd h' h hx, fun hx => evicts_subset hd h h' hx⟩)
  exact ⟨hg, (List.perm_append_left_iff g).mp ((h.split.trans h'.split.symm).trans (hg.symm.append_right k'))⟩

/-- The file that is younger than all others is not evicted if it alone keeps the limits: a product that was just published stays,
as long as the clock does not go back. -/
theorem c72_newest_stays {L : Limits} {disk gone kept : List Entry} {e : Entry} (h : Evicts L disk gone kept) (he : e ∈ disk) (hE : 1 ≤ L.maxEntries)
    (hB : e.bytes ≤ L.maxBytes) (hy : ∀ b ∈ disk, b ≠ e → Before b e) : e ∈ kept := by
  rcases List.mem_append.mp (h.split.mem_iff.mpr he) with hg | hk
  · exfalso
    have hk : kept = [] := by
      cases kept with
      | nil => rfl
      | cons b kept =>
        exfalso
        have h1 := h.oldest e hg b (by simp)
        have hbd : b ∈ disk := h.split.mem_iff.mp (List.mem_append_right _ (by simp))
        by_cases hbe : b = e
        · subst hbe
          exact before_asymm h1 h1
        · exact before_asymm h1 (hy b hbd hbe)
    refine h.least e hg (fun b hb hne => hy b (h.split.mem_iff.mp (List.mem_append_left _ hb)) hne) ?_
    rw [hk]
    exact ⟨by simpa using hE, by simpa [size] using hB⟩
  · exact hk

/-- Whatever the removals answer: a cleanup that ends leaves the limits kept, its arithmetic never underflows, and an error leaves
everything that is younger than what it removed. -/
theorem c72_cleanup_ends {L : Limits} {out : Entry → Removal} {disk gone : List Entry} {o : Outcome} (h : cleanup L out disk = some (gone, o)) :
    o ≠ .underflow ∧ (∀ c t, o = .done c t → Within L (remaining disk gone)) ∧ (∀ a ∈ gone, a ∈ disk) ∧
      ∀ a ∈ gone, ∀ b ∈ disk, b ∉ gone → a.path ≠ b.path → Before a b := by
  have hs := cleanup_cases h
  have hp : (stableSort entryLe disk).Perm disk := stableSort_perm disk
  have hso : Sorted entryLe (stableSort entryLe disk) := stableSort_sorted entryLe_order disk
  obtain ⟨rest, hr⟩ := sweep_prefix L out (stableSort entryLe disk) disk.length (size disk)
  rw [hs] at hr
  refine ⟨?_, ?_, ?_, ?_⟩
  · have := sweep_no_underflow L out (stableSort entryLe disk) disk.length (size disk) (Nat.le_of_eq hp.length_eq) (Nat.le_of_eq (size_perm hp))
    rw [hs] at this
    exact this
  · intro c t hc
    subst hc
    exact (cleanup_within h).1
  · intro a ha
    exact hp.mem_iff.mp (by rw [hr]; exact List.mem_append_left _ ha)
  · intro a ha b hb hg hne
    rw [hr] at hso
    have hbr : b ∈ rest := by
      have := hp.mem_iff.mpr hb
      rw [hr] at this
      exact (List.mem_append.mp this).resolve_left hg
    exact entryLe_before ((List.pairwise_append.mp hso).2.2 a ha b hbr) hne

/-! ### Several processes -/

theorem debts_le (L : Limits) (s : State) : debts L s ≤ rescan * s.procs.length + inflight s := by
  unfold debts inflight
  generalize s.procs = ps
  induction ps with
  | nil => simp
  | cons q ps ih =>
    have := due_le L q
    simp only [List.map_cons, List.sum_cons, List.length_cons]
    have e : debt L q = due L q + q.inflight := rfl
    rw [Nat.mul_succ]
    omega

theorem step_procs {L : Limits} {s s' : State} {ev : Event} (h : step L s ev = some s') : s'.procs.length = s.procs.length := by
  cases ev <;> rw [step] at h <;> (repeat' split at h) <;> cases h <;> simp [State.put]

theorem run_procs {L : Limits} {s s' : State} {evs : List Event} (h : run L s evs = some s') : s'.procs.length = s.procs.length := by
  induction evs generalizing s with
  | nil => rw [run] at h; injection h with h; subst h; rfl
  | cons ev evs ih =>
    rw [run] at h
    split at h
    · exact absurd h (by simp)
    · next s1 h1 => rw [ih h, step_procs h1]

/-- From a time when the limits are kept: however many processes and threads publish, and whatever happens to them, the number of
files exceeds its limit by at most 64 for each process, one for each publication that has not returned, and the losses; and the
bytes by the largest size of a file for each of these. -/
theorem c72_bound {L : Limits} (hL : L.Small) {s s' : State} {evs : List Event} (hw : Within L s.disk) (h : run L s evs = some s') :
    s'.disk.length ≤ L.maxEntries + (rescan * s.procs.length + inflight s' + losses L s evs) ∧
      size s'.disk ≤ L.maxBytes + entryMax * (rescan * s.procs.length + inflight s' + losses L s evs) := by
  have hb := run_bound hL (hw.bound (debts L s + 0)) h
  have hd := debts_le L s'
  rw [run_procs h] at hd
  exact hb.mono (Nat.le_refl _) (Nat.le_refl _) (by omega)

/-! ### One process -/

structure Solo (L : Limits) (s : State) (q : Proc) : Prop where
  procs : s.procs = [q]
  idle : q.acct.initialized = false → q.looking = 0 ∧ q.holding = 0 ∧ q.unrecorded = [] ∧ q.cleaning = []
  entries : s.disk.length ≤ L.maxEntries + q.unrecorded.length + q.cleaning.length
  bytes : size s.disk ≤ L.maxBytes + q.unrecorded.sum + q.cleaning.sum
  known : q.acct.initialized = true → q.acct.entries ≤ L.maxEntries → s.disk.length ≤ q.acct.entries + q.unrecorded.length
  knownBytes : q.acct.initialized = true → q.acct.bytes ≤ L.maxBytes → size s.disk ≤ q.acct.bytes + q.unrecorded.sum

theorem erase_sum {l : List Nat} {b : Nat} (h : b ∈ l) : (l.erase b).sum + b = l.sum := by
  have := (List.perm_cons_erase h).sum_nat
  simp at this
  omega

theorem solo_step {L : Limits} (hL : L.Small) {s s' : State} {q : Proc} {ev : Event} (hs : Solo L s q) (hc : Calm L s ev) (h : step L s ev = some s') :
    ∃ q', Solo L s' q' := by
  have filt : ∀ path : Nat, (s.disk.filter (fun e => e.path != path)).length ≤ s.disk.length ∧ size (s.disk.filter (fun e => e.path != path)) ≤ size s.disk :=
    fun path => ⟨List.length_filter_le _ _, size_filter_le _ _⟩
  have one : ∀ {p : Nat} {r : Proc}, s.procs[p]? = some r → p = 0 ∧ r = q := by
    intro p r hp
    rw [hs.procs] at hp
    cases p with
    | zero => simp at hp; exact ⟨rfl, hp.symm⟩
    | succ p => simp at hp
  have set0 : ∀ q' : Proc, s.procs.set 0 q' = [q'] := by intro q'; rw [hs.procs]; rfl
  obtain ⟨-, hidle, hen, hby, hkn, hkb⟩ := hs
  cases ev with
  | init p =>
    rw [step] at h
    split at h
    · exact absurd h (by simp)
    · next r hp =>
      obtain ⟨rfl, rfl⟩ := one hp
      split at h
      · exact absurd h (by simp)
      · split at h
        · exact absurd h (by simp)
        · next total ht =>
          injection h with h
          subst h
          have ht := checkedSum_some ht
          rw [Nat.zero_add] at ht
          exact ⟨_, set0 _, fun h => absurd h (by simp), hen, hby, fun _ _ => Nat.le_add_right _ _, fun _ _ => by
            show size s.disk ≤ total + _
            omega⟩
  | look p =>
    rw [step] at h
    split at h
    · exact absurd h (by simp)
    · next r hp =>
      obtain ⟨rfl, rfl⟩ := one hp
      split at h
      · next hi =>
        injection h with h
        subst h
        exact ⟨_, set0 _, fun h => absurd (hi.symm.trans h) (by simp), hen, hby, hkn, hkb⟩
      · exact absurd h (by simp)
  | leave p =>
    rw [step] at h
    split at h
    · exact absurd h (by simp)
    · next r hp =>
      obtain ⟨rfl, rfl⟩ := one hp
      split at h
      · next hl =>
        injection h with h
        subst h
        exact ⟨_, set0 _, fun h => absurd (hidle h).1 (by omega), hen, hby, hkn, hkb⟩
      · exact absurd h (by simp)
  | reserve p path =>
    rw [step] at h
    split at h
    · exact absurd h (by simp)
    · next r hp =>
      obtain ⟨rfl, rfl⟩ := one hp
      split at h
      · next hl =>
        injection h with h
        subst h
        have f := filt path
        exact ⟨_, set0 _, fun h => absurd (hidle h).1 (by omega), Nat.le_trans f.1 hen, Nat.le_trans f.2 hby,
          fun a b => Nat.le_trans f.1 (hkn a b), fun a b => Nat.le_trans f.2 (hkb a b)⟩
      · exact absurd h (by simp)
  | drop p =>
    rw [step] at h
    split at h
    · exact absurd h (by simp)
    · next r hp =>
      obtain ⟨rfl, rfl⟩ := one hp
      split at h
      · next hl =>
        injection h with h
        subst h
        exact ⟨_, set0 _, fun h => absurd (hidle h).2.1 (by omega), hen, hby, hkn, hkb⟩
      · exact absurd h (by simp)
  | publish p e =>
    rw [step] at h
    split at h
    · exact absurd h (by simp)
    · next r hp =>
      obtain ⟨rfl, rfl⟩ := one hp
      split at h
      · next hl =>
        injection h with h
        subst h
        have f := filt e.path
        refine ⟨_, set0 _, fun h => absurd (hidle h).2.1 (by omega), ?_, ?_, ?_, ?_⟩
        · simp only [List.length_cons]; omega
        · simp only [size_cons, List.sum_cons]; omega
        · intro a b
          have := hkn a b
          simp only [List.length_cons]; omega
        · intro a b
          have := hkb a b
          simp only [size_cons, List.sum_cons]; omega
      · exact absurd h (by simp)
  | record p b =>
    rw [step] at h
    split at h
    · exact absurd h (by simp)
    · next r hp =>
      obtain ⟨rfl, rfl⟩ := one hp
      split at h
      · next hm =>
        have he := erase_length hm
        have hsu := erase_sum hm
        have hi : r.acct.initialized = true := by
          cases hi : r.acct.initialized with
          | true => rfl
          | false => rw [(hidle hi).2.2.1] at hm; exact absurd hm (by simp)
        have hne : (r.acct.note b).initialized = false → False := fun h => by
          have : (r.acct.note b).initialized = r.acct.initialized := rfl
          rw [this, hi] at h
          exact absurd h (by simp)
        have h1 : (r.acct.note b).entries = saturate r.acct.entries 1 := rfl
        have h2 : (r.acct.note b).bytes = saturate r.acct.bytes b := rfl
        obtain ⟨l1, l2⟩ := hL
        have hk1 : (r.acct.note b).entries ≤ L.maxEntries → s.disk.length ≤ (r.acct.note b).entries + (r.unrecorded.erase b).length := by
          rw [h1]
          unfold saturate
          clear h1 h2 hne
          generalize top = T at *
          intro hle
          have := hkn hi (by omega)
          omega
        have hk2 : (r.acct.note b).bytes ≤ L.maxBytes → size s.disk ≤ (r.acct.note b).bytes + (r.unrecorded.erase b).sum := by
          rw [h2]
          unfold saturate
          clear h1 h2 hk1 hne
          generalize top = T at *
          intro hle
          have := hkb hi (by omega)
          omega
        split at h
        · injection h with h
          subst h
          refine ⟨_, set0 _, fun h => (hne h).elim, ?_, ?_, fun _ => hk1, fun _ => hk2⟩
          · simp only [List.length_cons, State.put]; omega
          · simp only [List.sum_cons, State.put]; omega
        · next ho =>
          have ho : (r.acct.note b).over L = false := by simpa using ho
          have hf := note_fits ⟨l1, l2⟩ ho
          injection h with h
          subst h
          refine ⟨_, set0 _, fun h => (hne h).elim, ?_, ?_, fun _ => hk1, fun _ => hk2⟩
          · have := hk1 (by omega)
            simp only [State.put]; omega
          · have := hk2 (by omega)
            simp only [State.put]; omega
      · exact absurd h (by simp)
  | clean p b out =>
    rw [step] at h
    split at h
    · exact absurd h (by simp)
    · next r hp =>
      obtain ⟨rfl, rfl⟩ := one hp
      split at h
      · split at h
        · exact absurd h (by simp)
        · next gone c t hcl =>
          injection h with h
          subst h
          obtain ⟨w, h1, h2⟩ := cleanup_within hcl
          refine ⟨_, set0 _, fun h => absurd h (by simp), ?_, ?_, ?_, ?_⟩
          · have := w.1; simp only; omega
          · have := w.2; simp only; omega
          · intro _ _; simp only; omega
          · intro _ _; simp only; omega
        · next gone o ho hcl =>
          exfalso
          have : loses L s (.clean 0 b out) = 0 := hc
          rw [loses, hcl] at this
          cases o with
          | done c t => exact ho c t rfl
          | failed => exact absurd this (by simp)
          | underflow => exact absurd this (by simp)
      · exact absurd h (by simp)
  | abandon p b => exact hc.elim
  | invalidate p path => exact hc.elim
  | clear p =>
    rw [step] at h
    split at h
    · exact absurd h (by simp)
    · next r hp =>
      obtain ⟨rfl, rfl⟩ := one hp
      split at h
      · injection h with h
        subst h
        exact ⟨_, set0 _, hidle, Nat.zero_le _, Nat.zero_le _, fun _ _ => Nat.zero_le _, fun _ _ => Nat.zero_le _⟩
      · exact absurd h (by simp)
  | reset p =>
    rw [step] at h
    split at h
    · exact absurd h (by simp)
    · next r hp =>
      obtain ⟨rfl, rfl⟩ := one hp
      split at h
      · injection h with h
        subst h
        have hd : s.disk = [] := hc
        refine ⟨_, set0 _, fun h => absurd h (by simp), hen, hby, fun _ _ => ?_, fun _ _ => ?_⟩
        · simp only [State.put, hd]; exact Nat.zero_le _
        · simp only [State.put, hd]; exact Nat.zero_le _
      · exact absurd h (by simp)
  | crash p temps => exact hc.elim
  | vanish path =>
    rw [step] at h
    injection h with h
    subst h
    have f := filt path
    have hpr : s.procs = [q] := by
      have := set0 q
      cases hps : s.procs with
      | nil => rw [hps] at this; exact absurd this (by simp)
      | cons a l => rw [hps] at this; simp at this; rw [this]; rw [(one (p := 0) (r := a) (by rw [hps]; rfl)).2]
    exact ⟨q, hpr, hidle, Nat.le_trans f.1 hen, Nat.le_trans f.2 hby, fun a b => Nat.le_trans f.1 (hkn a b), fun a b => Nat.le_trans f.2 (hkb a b)⟩

theorem solo_run {L : Limits} (hL : L.Small) {s s' : State} {q : Proc} {evs : List Event} (hs : Solo L s q) (hc : Calmly L s evs) (h : run L s evs = some s') :
    ∃ q', Solo L s' q' := by
  induction evs generalizing s q with
  | nil => rw [run] at h; injection h with h; subst h; exact ⟨q, hs⟩
  | cons ev evs ih =>
    rw [run] at h
    split at h
    · exact absurd h (by simp)
    · next s1 h1 =>
      obtain ⟨q1, hs1⟩ := solo_step hL hs hc.1 h1
      exact ih hs1 (hc.2 s1 h1) h

/-- A single process, with any number of threads, that starts within the limits stays within them but for the publications that
have not returned; so whenever none is under way the limits are kept. -/
theorem c72_single {L : Limits} (hL : L.Small) {disk : List Entry} {temps : List Nat} {s : State} {evs : List Event} (hw : Within L disk)
    (hc : Calmly L ⟨disk, temps, [.fresh]⟩ evs) (h : run L ⟨disk, temps, [.fresh]⟩ evs = some s) :
    s.disk.length ≤ L.maxEntries + inflight s ∧ size s.disk ≤ L.maxBytes + inflightBytes s := by
  have hs : Solo L ⟨disk, temps, [.fresh]⟩ .fresh :=
    ⟨rfl, fun _ => ⟨rfl, rfl, rfl, rfl⟩, Nat.le_trans hw.1 (by omega), Nat.le_trans hw.2 (by omega), fun h => absurd h (by simp [Proc.fresh, Accounting.fresh]),
      fun h => absurd h (by simp [Proc.fresh, Accounting.fresh])⟩
  obtain ⟨q, hq⟩ := solo_run hL hs hc h
  have h1 := hq.entries
  have h2 := hq.bytes
  unfold inflight inflightBytes
  rw [hq.procs]
  simp only [List.map_cons, List.map_nil, List.sum_cons, List.sum_nil, Proc.inflight]
  exact ⟨by omega, by omega⟩

/-! ### Going back within the limits -/

/-- Process `p`, `n` publications of which were recorded, will have to clean up. -/
def Late (L : Limits) (p n : Nat) (s : State) : Prop :=
  ∀ q, s.procs[p]? = some q → q.cleaning ≠ [] ∨
    (n < rescan ∧ (n ≤ q.acct.since ∨ (q.acct.initialized = true ∧ (L.maxEntries < q.acct.entries ∨ L.maxBytes < q.acct.bytes))))

theorem late_keep {L : Limits} {p n p' : Nat} {s : State} {r r' : Proc} {disk : List Entry} {temps : List Nat} (h : Late L p n s) (hp : s.procs[p']? = some r)
    (ha : p' = p → r'.acct = r.acct ∧ r'.cleaning = r.cleaning) : Late L p n ⟨disk, temps, s.procs.set p' r'⟩ := by
  intro q hq
  by_cases hpp : p' = p
  · subst hpp
    have hlt : p' < s.procs.length := by
      by_contra hge
      rw [List.getElem?_eq_none (by omega)] at hp
      exact absurd hp (by simp)
    have : q = r' := by
      have hq : (s.procs.set p' r')[p']? = some q := hq
      rw [List.getElem?_set_self hlt] at hq
      injection hq with hq
      exact hq.symm
    subst this
    rw [(ha rfl).1, (ha rfl).2]
    exact h r hp
  · have hq : (s.procs.set p' r')[p]? = some q := hq
    rw [List.getElem?_set_ne hpp] at hq
    exact h q hq

theorem late_set {L : Limits} {p n : Nat} {s : State} {r r' : Proc} {disk : List Entry} {temps : List Nat} (hp : s.procs[p]? = some r)
    (ha : r'.cleaning ≠ [] ∨
      (n < rescan ∧ (n ≤ r'.acct.since ∨ (r'.acct.initialized = true ∧ (L.maxEntries < r'.acct.entries ∨ L.maxBytes < r'.acct.bytes))))) :
    Late L p n ⟨disk, temps, s.procs.set p r'⟩ := by
  intro q hq
  have hlt : p < s.procs.length := by
    by_contra hge
    rw [List.getElem?_eq_none (by omega)] at hp
    exact absurd hp (by simp)
  have : q = r' := by
    have hq : (s.procs.set p r')[p]? = some q := hq
    rw [List.getElem?_set_self hlt] at hq
    injection hq with hq
    exact hq.symm
  subst this
  exact ha

theorem late_step {L : Limits} (hL : L.Small) {p n : Nat} {s s' : State} {ev : Event} (hl : Late L p n s) (hu : ¬ Undoes L p s ev) (h : step L s ev = some s') :
    Within L s'.disk ∨ Late L p (n + records p [ev]) s' := by
  cases ev with
  | init p' =>
    rw [step] at h
    split at h
    · exact absurd h (by simp)
    · next r hp =>
      split at h
      · exact absurd h (by simp)
      · split at h
        · exact absurd h (by simp)
        · next total ht =>
          injection h with h
          subst h
          have ht := checkedSum_some ht
          rw [Nat.zero_add] at ht
          by_cases hw : Within L s.disk
          · exact .inl hw
          · by_cases hpp : p' = p
            · subst hpp
              refine .inr (late_set hp ?_)
              rcases hl r hp with h1 | ⟨h1, -⟩
              · exact .inl h1
              · refine .inr ⟨h1, .inr ⟨rfl, ?_⟩⟩
                show L.maxEntries < s.disk.length ∨ L.maxBytes < total
                by_contra hn
                exact hw ⟨by omega, by omega⟩
            · exact .inr (late_keep hl hp (fun h => absurd h hpp))
  | look p' =>
    rw [step] at h
    split at h
    · exact absurd h (by simp)
    · next r hp =>
      split at h
      · injection h with h
        subst h
        exact .inr (late_keep hl hp (fun _ => ⟨rfl, rfl⟩))
      · exact absurd h (by simp)
  | leave p' =>
    rw [step] at h
    split at h
    · exact absurd h (by simp)
    · next r hp =>
      split at h
      · injection h with h
        subst h
        exact .inr (late_keep hl hp (fun _ => ⟨rfl, rfl⟩))
      · exact absurd h (by simp)
  | reserve p' path =>
    rw [step] at h
    split at h
    · exact absurd h (by simp)
    · next r hp =>
      split at h
      · injection h with h
        subst h
        exact .inr (late_keep hl hp (fun _ => ⟨rfl, rfl⟩))
      · exact absurd h (by simp)
  | drop p' =>
    rw [step] at h
    split at h
    · exact absurd h (by simp)
    · next r hp =>
      split at h
      · injection h with h
        subst h
        exact .inr (late_keep hl hp (fun _ => ⟨rfl, rfl⟩))
      · exact absurd h (by simp)
  | publish p' e =>
    rw [step] at h
    split at h
    · exact absurd h (by simp)
    · next r hp =>
      split at h
      · injection h with h
        subst h
        exact .inr (late_keep hl hp (fun _ => ⟨rfl, rfl⟩))
      · exact absurd h (by simp)
  | record p' b =>
    rw [step] at h
    split at h
    · exact absurd h (by simp)
    · next r hp =>
      split at h
      · split at h
        · injection h with h
          subst h
          by_cases hpp : p' = p
          · subst hpp
            exact .inr (late_set hp (.inl (by simp)))
          · refine .inr ?_
            have : records p [.record p' b] = 0 := by simp [records, hpp]
            rw [this, Nat.add_zero]
            exact late_keep hl hp (fun h => absurd h hpp)
        · next ho =>
          have ho : (r.acct.note b).over L = false := by simpa using ho
          injection h with h
          subst h
          by_cases hpp : p' = p
          · subst hpp
            have : records p' [.record p' b] = 1 := by simp [records]
            rw [this]
            refine .inr (late_set hp ?_)
            obtain ⟨g1, g2, g3, g4, g5, g6⟩ := note_fits hL ho
            rcases hl r hp with h1 | ⟨h1, h2 | ⟨-, h2⟩⟩
            · exact .inl h1
            · refine .inr ⟨by omega, .inl ?_⟩
              show n + 1 ≤ (r.acct.note b).since
              omega
            · omega
          · refine .inr ?_
            have : records p [.record p' b] = 0 := by simp [records, hpp]
            rw [this, Nat.add_zero]
            exact late_keep hl hp (fun h => absurd h hpp)
      · exact absurd h (by simp)
  | clean p' b out =>
    rw [step] at h
    split at h
    · exact absurd h (by simp)
    · next r hp =>
      split at h
      · split at h
        · exact absurd h (by simp)
        · next gone c t hcl =>
          injection h with h
          subst h
          exact .inl (cleanup_within hcl).1
        · next gone o ho hcl =>
          injection h with h
          subst h
          refine .inr (late_keep hl hp (fun hpp => ?_))
          exfalso
          refine hu ⟨hpp, ?_⟩
          rw [loses, hcl]
          cases o with
          | done c t => exact absurd rfl (ho c t)
          | failed => simp
          | underflow => simp
      · exact absurd h (by simp)
  | abandon p' b =>
    rw [step] at h
    split at h
    · exact absurd h (by simp)
    · next r hp =>
      split at h
      · injection h with h
        subst h
        exact .inr (late_keep hl hp (fun hpp => absurd hpp hu))
      · exact absurd h (by simp)
  | invalidate p' path =>
    rw [step] at h
    split at h
    · exact absurd h (by simp)
    · next r hp =>
      split at h
      · split at h
        · injection h with h
          subst h
          exact .inr (late_keep hl hp (fun hpp => absurd hpp hu))
        · injection h with h
          subst h
          exact .inr hl
      · exact absurd h (by simp)
  | clear p' =>
    rw [step] at h
    split at h
    · exact absurd h (by simp)
    · next r hp =>
      split at h
      · injection h with h
        subst h
        exact .inl ⟨Nat.zero_le _, Nat.zero_le _⟩
      · exact absurd h (by simp)
  | reset p' =>
    rw [step] at h
    split at h
    · exact absurd h (by simp)
    · next r hp =>
      split at h
      · injection h with h
        subst h
        exact .inr (late_keep hl hp (fun hpp => absurd hpp hu))
      · exact absurd h (by simp)
  | crash p' temps =>
    rw [step] at h
    split at h
    · exact absurd h (by simp)
    · next r hp =>
      split at h
      · injection h with h
        subst h
        exact .inr (late_keep hl hp (fun hpp => absurd hpp hu))
      · exact absurd h (by simp)
  | vanish path =>
    rw [step] at h
    injection h with h
    subst h
    exact .inr hl

theorem records_cons (p : Nat) (ev : Event) (evs : List Event) : records p (ev :: evs) = records p [ev] + records p evs := by
  cases ev <;> simp [records]

theorem late_run {L : Limits} (hL : L.Small) {p n : Nat} {s s' : State} {evs : List Event} (hl : Late L p n s) (hu : Undisturbed L p s evs)
    (h : run L s evs = some s') : SometimesWithin L s evs ∨ Late L p (n + records p evs) s' := by
  induction evs generalizing s n with
  | nil => rw [run] at h; injection h with h; subst h; exact .inr hl
  | cons ev evs ih =>
    rw [run] at h
    split at h
    · exact absurd h (by simp)
    · next s1 h1 =>
      rcases late_step hL hl hu.1 h1 with hw | hl1
      · exact .inl ⟨1, s1, by simp, by simp [run, h1], hw⟩
      · rcases ih hl1 (hu.2 s1 h1) h with ⟨m, t, hm, ht, hw⟩ | h2
        · exact .inl ⟨m + 1, t, by simpa using hm, by simp [run, h1, ht], hw⟩
        · rw [records_cons, ← Nat.add_assoc]
          exact .inr h2

/-- However far the limits are exceeded, and whatever other processes do: when an undisturbed process has recorded 64 publications
and has no cleanup left to do, the limits were kept at some time. -/
theorem c72_recovers {L : Limits} (hL : L.Small) {p : Nat} {s s' : State} {q : Proc} {evs : List Event} (hu : Undisturbed L p s evs)
    (hr : 64 ≤ records p evs) (h : run L s evs = some s') (hq : s'.procs[p]? = some q) (hc : q.cleaning = []) : SometimesWithin L s evs := by
  have h0 : Late L p 0 s := fun q _ => .inr ⟨by decide, .inl (Nat.zero_le _)⟩
  rcases late_run hL h0 hu h with h1 | h1
  · exact h1
  · exfalso
    rcases h1 q hq with h2 | ⟨h2, -⟩
    · exact h2 hc
    · have : rescan = 64 := rfl
      omega

/-! ### Examples and counterexamples -/

def e1 : Entry := ⟨1, 40, 10⟩
def e2 : Entry := ⟨2, 30, 20⟩
def e3 : Entry := ⟨3, 20, 30⟩

/-- Three files of 90 bytes, at most two of at most 60 bytes: the oldest goes. -/
theorem c72_example : cleanup ⟨2, 60⟩ (fun _ => .ok) [e3, e1, e2] = some ([e1], .done 2 50) ∧ Evicts ⟨2, 60⟩ [e3, e1, e2] [e1] [e3, e2] := by
  have hd : ([e3, e1, e2].map Entry.path).Nodup := by decide
  have hr : remaining [e3, e1, e2] [e1] = [e3, e2] := by decide
  have hc : cleanup ⟨2, 60⟩ (fun _ => .ok) [e3, e1, e2] = some ([e1], .done 2 50) := by decide
  refine ⟨hc, ?_⟩
  obtain ⟨gone, h1, h2⟩ := c72_cleanup ⟨2, 60⟩ hd (by decide)
  rw [hc] at h1
  injection h1 with h1
  injection h1 with h1 h3
  subst h1
  rw [hr] at h2
  exact h2

/-- A file that somebody else removes during the cleanup is not taken off the counts: the limits are kept without it, and one more
file is removed, although nothing had to go. -/
theorem c72_vanished_fails : ∃ (L : Limits) (disk : List Entry) (out : Entry → Removal) (gone : List Entry) (o : Outcome),
    cleanup L out disk = some (gone, o) ∧ (∃ a ∈ gone, out a = .ok) ∧ Within L (disk.filter (fun e => decide (out e ≠ .notFound))) :=
  ⟨⟨2, 100⟩, [e3, e1, e2], fun e => if e = e1 then .notFound else .ok, [e1, e2], .done 2 60, by decide, ⟨e2, by decide, by decide⟩,
    by decide, by decide⟩

/-- When the clock goes back the product that was just published is the one to go. -/
theorem c72_clock_fails : ∃ (L : Limits) (disk : List Entry) (new : Entry), new ∈ disk ∧ 1 ≤ L.maxEntries ∧ new.bytes ≤ L.maxBytes ∧
    ∃ o, cleanup L (fun _ => .ok) disk = some ([new], o) :=
  ⟨⟨2, 100⟩, [⟨9, 5, 5⟩, e2, e3], ⟨9, 5, 5⟩, by decide, by decide, by decide, .done 2 50, by decide⟩

/-- One publication from the lookup to the record, by process `p` at path `n`. -/
def publication (p n : Nat) : List Event := [.look p, .reserve p n, .publish p ⟨n, 1, n⟩, .record p 1]

/-- Two processes that each count only their own publications: the limits are exceeded although nothing is under way, and both
accountings say that they are kept. -/
theorem c72_two_processes_fails : ∃ (L : Limits) (evs : List Event) (s : State), L.Small ∧ run L ⟨[], [], [.fresh, .fresh]⟩ evs = some s ∧
    inflight s = 0 ∧ losses L ⟨[], [], [.fresh, .fresh]⟩ evs = 0 ∧ ¬ Within L s.disk ∧
    ∀ q ∈ s.procs, q.acct.initialized = true ∧ q.acct.entries ≤ L.maxEntries ∧ q.acct.bytes ≤ L.maxBytes :=
  ⟨⟨1, 100⟩, [.init 0, .init 1] ++ publication 0 1 ++ publication 1 2, _, ⟨by decide, by decide⟩, rfl, by decide, by decide, fun h => absurd h.1 (by decide), by decide⟩

/-- After `clear` unlocks, another thread publishes up to the limit, and then the accounting is set to zero: a single process exceeds
the limits with nothing under way. -/
theorem c72_clear_fails : ∃ (L : Limits) (evs : List Event) (s : State), L.Small ∧ run L ⟨[], [], [.fresh]⟩ evs = some s ∧ inflight s = 0 ∧
    ¬ Within L s.disk ∧ ∀ q ∈ s.procs, q.acct.initialized = true ∧ q.acct.entries ≤ L.maxEntries ∧ q.acct.bytes ≤ L.maxBytes :=
  ⟨⟨1, 100⟩, [.init 0, .clear 0] ++ publication 0 1 ++ [.reset 0] ++ publication 0 2, _, ⟨by decide, by decide⟩, rfl, by decide, fun h => absurd h.1 (by decide), by decide⟩

/-- Two lookups, the rejection of a compiled module, and the two publications. -/
def rejected (n : Nat) : List Event :=
  [.init 0, .look 0, .look 0, .invalidate 0 n, .reserve 0 (n + 1), .reserve 0 (n + 2), .publish 0 ⟨n + 1, 1, 0⟩, .publish 0 ⟨n + 2, 1, 0⟩, .record 0 1, .record 0 1]

theorem run_append (L : Limits) (s : State) (a b : List Event) : run L s (a ++ b) = (run L s a).bind (fun s' => run L s' b) := by
  induction a generalizing s with
  | nil => rfl
  | cons ev a ih =>
    rw [List.cons_append, run, run]
    cases step L s ev with
    | none => rfl
    | some s1 => exact ih s1

theorem filter_fresh {disk : List Entry} {n : Nat} (h : ∀ e ∈ disk, e.path ≠ n) : disk.filter (fun e => e.path != n) = disk := by
  rw [List.filter_eq_self]
  intro e he
  simpa using h e he

/-- What the rejections do to the cache of a process whose accounting is not initialised. -/
theorem rejected_run {disk : List Entry} {n : Nat} {a : Accounting} (hi : a.initialized = false) (hd : ∀ e ∈ disk, e.path < n ∧ e.bytes = 1) (ht : disk.length + 1 ≤ top) :
    run ⟨2, 100⟩ ⟨⟨n, 1, 0⟩ :: disk, [], [⟨a, 0, 0, [], [], 0⟩]⟩ (rejected n) =
      some ⟨⟨n + 2, 1, 0⟩ :: ⟨n + 1, 1, 0⟩ :: disk, [], [⟨⟨false, 2, 2, 2⟩, 0, 0, [], [], 0⟩]⟩ := by
  have hsz : size disk = disk.length := by
    clear ht
    induction disk with
    | nil => rfl
    | cons e l ih =>
      rw [size_cons, ih (fun x hx => hd x (List.mem_cons_of_mem _ hx)), (hd e (by simp)).2, List.length_cons]
      omega
  have hcs : checkedSum (⟨n, 1, 0⟩ :: disk) 0 = some (disk.length + 1) := by
    rw [checkedSum_small (by rw [size_cons]; dsimp only; omega), size_cons, hsz]
    dsimp only
    congr 1
    omega
  have f0 := filter_fresh (disk := disk) (n := n) (fun e he => by have := (hd e he).1; omega)
  have f1 := filter_fresh (disk := disk) (n := n + 1) (fun e he => by have := (hd e he).1; omega)
  have f2 := filter_fresh (disk := disk) (n := n + 2) (fun e he => by have := (hd e he).1; omega)
  have m1 : 1 ≤ entryMax := by decide
  have a1 : (Accounting.fresh.note 1) = ⟨false, 1, 1, 1⟩ := rfl
  have a2 : ((⟨false, 1, 1, 1⟩ : Accounting).note 1) = ⟨false, 2, 2, 2⟩ := rfl
  have o1 : Accounting.over ⟨2, 100⟩ ⟨false, 1, 1, 1⟩ = false := rfl
  have o2 : Accounting.over ⟨2, 100⟩ ⟨false, 2, 2, 2⟩ = false := rfl
  simp [rejected, run, step, State.put, free, hi, hcs, f0, f1, f2, m1, a1, a2, o1, o2]

/-- Rejecting a compiled module sets the accounting back so that publications under way are recorded without cleanup. When that
happens again and again the cache of a single process grows without limit: two more files, one less, and never a cleanup. -/
theorem c72_rejection_fails (k : Nat) (hk : k < top) : ∃ (evs : List Event) (s : State),
    run ⟨2, 100⟩ ⟨[⟨0, 1, 0⟩], [], [.fresh]⟩ evs = some s ∧ inflight s = 0 ∧ k < s.disk.length := by
  suffices h : ∀ k, k < top → ∃ (evs : List Event) (n : Nat) (disk : List Entry) (a : Accounting), a.initialized = false ∧
      (∀ e ∈ disk, e.path < n ∧ e.bytes = 1) ∧ disk.length = k ∧ run ⟨2, 100⟩ ⟨[⟨0, 1, 0⟩], [], [.fresh]⟩ evs = some ⟨⟨n, 1, 0⟩ :: disk, [], [⟨a, 0, 0, [], [], 0⟩]⟩ by
    obtain ⟨evs, n, disk, a, -, -, hl, hr⟩ := h k hk
    exact ⟨evs, _, hr, rfl, by simp [hl]⟩
  intro k
  induction k with
  | zero => exact fun _ => ⟨[], 0, [], .fresh, rfl, by simp, rfl, rfl⟩
  | succ k ih =>
    intro hk
    obtain ⟨evs, n, disk, a, hi, hd, hl, hr⟩ := ih (by omega)
    refine ⟨evs ++ rejected n, n + 2, ⟨n + 1, 1, 0⟩ :: disk, ⟨false, 2, 2, 2⟩, rfl, ?_, by simp [hl], ?_⟩
    · intro e he
      rcases List.mem_cons.mp he with rfl | he
      · exact ⟨by simp, rfl⟩
      · exact ⟨by have := (hd e he).1; omega, (hd e he).2⟩
    · rw [run_append, hr]
      exact rejected_run hi hd (by omega)

/-- A reservation held for longer than the cleanup of another publication waits keeps the limits exceeded with nothing under way. -/
theorem c72_timeout_fails : ∃ (L : Limits) (evs : List Event) (s : State), L.Small ∧ run L ⟨[], [], [.fresh]⟩ evs = some s ∧ inflight s = 0 ∧ ¬ Within L s.disk :=
  ⟨⟨1, 100⟩, [.init 0, .look 0, .reserve 0 9] ++ publication 0 1 ++ publication 0 2 ++ [.abandon 0 1], _, ⟨by decide, by decide⟩, rfl, by decide,
    fun h => absurd h.1 (by decide)⟩

/-- The temporary files of processes that end while publishing are not counted and no event but `clear` removes them. -/
theorem c72_temporaries {L : Limits} {s s' : State} {ev : Event} (h : step L s ev = some s') (hc : ∀ p, ev ≠ .clear p) : s.temps.Sublist s'.temps := by
  cases ev <;> rw [step] at h <;> (repeat' split at h) <;> cases h <;>
    first | exact absurd rfl (hc _) | simp [State.put]

/-- After `clear` nothing is left, no entry and no temporary file. -/
theorem c72_clear {L : Limits} {s s' : State} {p : Nat} (h : step L s (.clear p) = some s') : s'.disk = [] ∧ s'.temps = [] := by
  rw [step] at h
  (repeat' split at h) <;> cases h
  exact ⟨rfl, rfl⟩

end Verif.CacheLimits
