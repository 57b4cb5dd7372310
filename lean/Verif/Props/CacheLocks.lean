import Verif.Model.CacheLocks
/-!
C44: one producer per cached product across processes.
-/
namespace Verif.CacheLocks

/-! ### which locks a call believes it holds -/

def Actor.hasShared : Actor → Bool
  | .haveShared _ | .wantKey _ _ | .checking _ _ | .removing _ _ | .reserved _ _ | .leaving _ _ | .left | .summarizing => true
  | _ => false

def Actor.hasExcl : Actor → Bool
  | .excl _ | .invWant _ _ | .invHold _ _ => true
  | _ => false

/-- The key and inode of the key lock file the call has open. -/
def Actor.opened : Actor → Option (Nat × Nat)
  | .wantKey k i | .checking k i | .removing k i | .reserved k i | .leaving k i | .invWant k i | .invHold k i => some (k, i)
  | _ => none

/-- The key and inode of the key lock the call holds. -/
def Actor.owns : Actor → Option (Nat × Nat)
  | .checking k i | .removing k i | .reserved k i | .leaving k i | .invHold k i => some (k, i)
  | _ => none

/-- The inode of the key lock the call holds. -/
def Actor.inode : Actor → Option Nat
  | .checking _ i | .removing _ i | .reserved _ i | .leaving _ i | .invHold _ i => some i
  | _ => none

structure Inv (s : State) : Prop where
  sh : ∀ t, s.shared t = (s.actor t).hasShared
  ex : ∀ t, s.excl = some t ↔ (s.actor t).hasExcl = true
  own : ∀ t k i, (s.actor t).owns = some (k, i) → s.holder i = some t
  held : ∀ t i, s.holder i = some t → (s.actor t).inode = some i
  apart : ∀ t u, s.excl = some t → s.shared u = false
  cur : ∀ t k i, (s.actor t).opened = some (k, i) → s.keyFile k = some i
  fresh : ∀ k i, s.keyFile k = some i → i < s.next
  distinct : ∀ k k' i, s.keyFile k = some i → s.keyFile k' = some i → k = k'
  prod : ∀ t k i, s.actor t = .reserved k i ∨ s.actor t = .removing k i → s.product k ≠ .valid

theorem owns_opened {a : Actor} {k i : Nat} (h : a.owns = some (k, i)) : a.opened = some (k, i) := by
  cases a <;> simp_all [Actor.owns, Actor.opened]

theorem inode_owns {a : Actor} {i : Nat} (h : a.inode = some i) : ∃ k, a.owns = some (k, i) := by
  cases a <;> simp_all [Actor.owns, Actor.inode]

theorem opened_locked {a : Actor} {k i : Nat} (h : a.opened = some (k, i)) : a.hasShared = true ∨ a.hasExcl = true := by
  cases a <;> simp_all [Actor.opened, Actor.hasShared, Actor.hasExcl]

theorem inv_init {s : State} (h : Init s) : Inv s := by
  refine ⟨?_, ?_, ?_, ?_, ?_, ?_, h.fresh, h.distinct, ?_⟩
  · intro t; rw [h.actor, h.shared]; rfl
  · intro t; rw [h.actor, h.excl]; simp [Actor.hasExcl]
  · intro t k i ho; rw [h.actor] at ho; cases ho
  · intro t i ho; rw [h.holder] at ho; cases ho
  · intro t u ho; rw [h.excl] at ho; cases ho
  · intro t k i ho; rw [h.actor] at ho; cases ho
  · intro t k i ho; rw [h.actor] at ho; rcases ho with ho | ho <;> cases ho

theorem inv_release {s : State} (h : Inv s) (gone : Nat → Bool) : Inv (s.releaseAll gone) := by
  obtain ⟨sh, ex, own, held, apart, cur, fresh, distinct, prod⟩ := h
  have actor : ∀ t, (s.releaseAll gone).actor t = if gone t = true then .idle else s.actor t := fun t => rfl
  have shared : ∀ t, (s.releaseAll gone).shared t = if gone t = true then false else s.shared t := fun t => rfl
  have excl : ∀ t, (s.releaseAll gone).excl = some t ↔ s.excl = some t ∧ gone t = false := by
    intro t
    unfold State.releaseAll
    cases s.excl <;> grind
  have holder : ∀ i t, (s.releaseAll gone).holder i = some t ↔ s.holder i = some t ∧ gone t = false := by
    intro i t
    unfold State.releaseAll
    cases e : s.holder i <;> grind
  refine ⟨?_, ?_, ?_, ?_, ?_, ?_, fresh, distinct, ?_⟩
  · intro t; rw [actor, shared]; split
    · rfl
    · exact sh t
  · intro t; rw [actor, excl, ex]; cases hg : gone t <;> simp [Actor.hasExcl]
  · intro t k i ht; rw [actor] at ht; rw [holder]; cases hg : gone t with
    | true => rw [hg] at ht; cases ht
    | false => rw [hg] at ht; exact ⟨own t k i ht, rfl⟩
  · intro t i ht; rw [holder] at ht; rw [actor, ht.2]; exact held t i ht.1
  · intro t u ht; rw [excl] at ht; rw [shared]; split
    · rfl
    · exact apart t u ht.1
  · intro t k i ht; rw [actor] at ht; cases hg : gone t with
    | true => rw [hg] at ht; cases ht
    | false => rw [hg] at ht; exact cur t k i ht
  · intro t k i ht; rw [actor] at ht; cases hg : gone t with
    | true => rw [hg] at ht; rcases ht with ht | ht <;> cases ht
    | false => rw [hg] at ht; exact prod t k i ht

set_option maxHeartbeats 2000000 in
theorem inv_step {s s' : State} (h : Inv s) (hs : Step s s') : Inv s' := by
  obtain ⟨sh, ex, own, held, apart, cur, fresh, distinct, prod⟩ := h
  cases hs with
  | abort t => exact inv_release ⟨sh, ex, own, held, apart, cur, fresh, distinct, prod⟩ _
  | crash gone => exact inv_release ⟨sh, ex, own, held, apart, cur, fresh, distinct, prod⟩ _
  | publish t k i ha =>
    have alone : ∀ u j, (s.actor u).owns = some (k, j) → u = t := by
      intro u j hu
      have ht : (s.actor t).owns = some (k, i) := by rw [ha]; rfl
      have e1 := cur u k j (owns_opened hu)
      rw [cur t k i (owns_opened ht)] at e1
      cases e1
      have e2 := own u k i hu
      rw [own t k i ht] at e2
      exact (Option.some.inj e2).symm
    refine ⟨?_, ?_, ?_, ?_, ?_, ?_, fresh, distinct, ?_⟩
    iterate 6 grind [set, Actor.hasShared, Actor.hasExcl, Actor.opened, Actor.owns, Actor.inode]
    intro u k' j hu
    by_cases e : u = t
    · simp [set, e] at hu
    · simp only [set, e, if_false] at hu ⊢
      by_cases ek : k' = k
      · subst ek
        exact absurd (alone u j (by rcases hu with hu | hu <;> rw [hu] <;> rfl)) e
      · simp only [ek, if_false]
        exact prod u k' j hu
  | _ =>
    have locked := fun t k i => @opened_locked (s.actor t) k i
    have opens := fun t k i => @owns_opened (s.actor t) k i
    constructor <;> grind [set, Actor.hasShared, Actor.hasExcl, Actor.opened, Actor.owns, Actor.inode]

theorem inv_reachable {s0 s : State} (h0 : Init s0) (h : Reachable s0 s) : Inv s := by
  induction h with
  | start => exact inv_init h0
  | step _ hs ih => exact inv_step ih hs

/-! ### the properties -/

/-- At any moment at most one call holds a reservation for an identity (or is about to decide on one, or is still leaving). -/
theorem c44_one_owner {s0 s : State} (h0 : Init s0) (h : Reachable s0 s) {t u k i j : Nat} (ht : (s.actor t).owns = some (k, i))
    (hu : (s.actor u).owns = some (k, j)) : t = u := by
  have hi := inv_reachable h0 h
  have e1 := hi.cur t k i (owns_opened ht)
  have e2 := hi.cur u k j (owns_opened hu)
  rw [e1] at e2
  cases e2
  have e3 := hi.own t k i ht
  rw [hi.own u k i hu] at e3
  exact (Option.some.inj e3).symm

theorem c44_one_reservation {s0 s : State} (h0 : Init s0) (h : Reachable s0 s) {t u k i j : Nat} (ht : s.actor t = .reserved k i)
    (hu : s.actor u = .reserved k j) : t = u ∧ i = j := by
  have e : t = u := c44_one_owner h0 h (k := k) (i := i) (j := j) (by rw [ht]; rfl) (by rw [hu]; rfl)
  subst e
  rw [ht] at hu
  cases hu
  exact ⟨rfl, rfl⟩

/-- Nobody clears, evicts, invalidates or scans while a reservation is held, and there is never more than one such call. -/
theorem c44_no_maintenance {s0 s : State} (h0 : Init s0) (h : Reachable s0 s) {t u : Nat} (ht : (s.actor t).hasShared = true) :
    (s.actor u).hasExcl = false := by
  have hi := inv_reachable h0 h
  cases hu : (s.actor u).hasExcl with
  | false => rfl
  | true =>
    have := hi.apart u t ((hi.ex u).mpr hu)
    rw [hi.sh, ht] at this
    cases this

theorem c44_one_maintainer {s0 s : State} (h0 : Init s0) (h : Reachable s0 s) {t u : Nat} (ht : (s.actor t).hasExcl = true)
    (hu : (s.actor u).hasExcl = true) : t = u := by
  have hi := inv_reachable h0 h
  have e := (hi.ex t).mpr ht
  rw [(hi.ex u).mpr hu] at e
  exact (Option.some.inj e).symm

/-- As long as a reservation is held there is no valid product under its identity: it was not there when the reservation was granted
and nobody else can publish it. -/
theorem c44_no_valid_product {s0 s : State} (h0 : Init s0) (h : Reachable s0 s) {t k i : Nat} (ht : s.actor t = .reserved k i) :
    s.product k ≠ .valid :=
  (inv_reachable h0 h).prod t k i (.inl ht)

/-- Removing a corrupt product never removes a valid one that was published meanwhile. -/
theorem c44_removes_only_corrupt {s0 s : State} (h0 : Init s0) (h : Reachable s0 s) {t k i : Nat} (ht : s.actor t = .removing k i) :
    s.product k ≠ .valid :=
  (inv_reachable h0 h).prod t k i (.inr ht)

/-- The lock file a call holds is the one every other call would open: `clear` cannot have replaced it. -/
theorem c44_lock_file_current {s0 s : State} (h0 : Init s0) (h : Reachable s0 s) {t k i : Nat} (ht : (s.actor t).owns = some (k, i)) :
    s.keyFile k = some i :=
  (inv_reachable h0 h).cur t k i (owns_opened ht)

/-- A valid product only disappears while a maintenance call removes it or because it is damaged from outside: between the
publication and that moment no reservation is granted, so it is produced once. -/
theorem c44_produced_once {s0 s s' : State} (h0 : Init s0) (h : Reachable s0 s) (hs : Step s s') {k : Nat}
    (hd : s'.product k = .valid) : ∀ t i, s'.actor t ≠ .reserved k i := by
  intro t i ht
  exact c44_no_valid_product h0 (.step h hs) ht hd

theorem c44_valid_kept {s0 s s' : State} (h0 : Init s0) (h : Reachable s0 s) (hs : Step s s') {k : Nat} (hv : s.product k = .valid)
    (hn : s'.product k ≠ .valid) : (∃ t, (s.actor t).hasExcl = true) ∨ ∃ d, d ≠ Disk.valid ∧ s' = { s with product := set s.product k d } := by
  have hp := (inv_reachable h0 h).prod
  cases hs with
  | remove t k' i ha =>
    exfalso
    have := hp t k' i (.inr ha)
    by_cases e : k = k'
    · subst e; exact this hv
    · exact hn (by simp [set, e, hv])
  | publish t k' i ha =>
    exfalso
    by_cases e : k = k'
    · exact hn (by simp [set, e])
    · exact hn (by simp [set, e, hv])
  | evict t k' ha => left; exact ⟨t, by rcases ha with ha | ha <;> rw [ha] <;> rfl⟩
  | invRemove t k' i ha => left; exact ⟨t, by rw [ha]; rfl⟩
  | damage k' d hne =>
    right
    by_cases e : k = k'
    · subst e; exact ⟨d, hne, rfl⟩
    · exact absurd (show set s.product k' d k = .valid by simp [set, e, hv]) hn
  | _ => exact absurd hv hn

/-! ### waiting -/

/-- A call that polls a lock. -/
def Actor.waiting : Actor → Bool
  | .wantShared _ | .wantKey _ _ | .wantSummary | .wantExcl _ | .invWant _ _ => true
  | _ => false

/-- The lock cannot be granted now. -/
def Blocked (s : State) (t : Nat) : Prop :=
  match s.actor t with
  | .wantShared _ | .wantSummary => s.excl ≠ none
  | .wantExcl _ => s.excl ≠ none ∨ ∃ u, s.shared u = true
  | .wantKey _ i | .invWant _ i => s.holder i ≠ none
  | _ => False

/-- No circular waiting: whenever a call is blocked, some call holds a lock and is not waiting for any. -/
theorem c44_no_deadlock {s0 s : State} (h0 : Init s0) (h : Reachable s0 s) {t : Nat} (hb : Blocked s t) :
    ∃ u, ((s.actor u).hasShared = true ∨ (s.actor u).hasExcl = true) ∧ ¬ Blocked s u := by
  have hi := inv_reachable h0 h
  -- a holder of a key lock is never blocked
  have key : ∀ i u, s.holder i = some u → ∃ u, ((s.actor u).hasShared = true ∨ (s.actor u).hasExcl = true) ∧ ¬ Blocked s u := by
    intro i u hu
    obtain ⟨k, ho⟩ := inode_owns <| hi.held u i hu
    refine ⟨u, opened_locked (owns_opened ho), ?_⟩
    unfold Blocked
    cases ha : s.actor u <;> simp_all [Actor.owns]
  have keyed : ∀ i, s.holder i ≠ none → ∃ u, ((s.actor u).hasShared = true ∨ (s.actor u).hasExcl = true) ∧ ¬ Blocked s u := by
    intro i hn
    obtain ⟨u, hu⟩ := Option.ne_none_iff_exists'.mp hn
    exact key i u hu
  have exclusive : s.excl ≠ none → ∃ u, ((s.actor u).hasShared = true ∨ (s.actor u).hasExcl = true) ∧ ¬ Blocked s u := by
    intro hn
    obtain ⟨u, hu⟩ := Option.ne_none_iff_exists'.mp hn
    have hx := (hi.ex u).mp hu
    by_cases hbu : Blocked s u
    · unfold Blocked at hbu
      cases ha : s.actor u with
      | invWant k i => rw [ha] at hbu; exact keyed i hbu
      | excl j => rw [ha] at hbu; exact absurd hbu (by simp)
      | invHold k i => rw [ha] at hbu; exact absurd hbu (by simp)
      | _ => rw [ha] at hx; cases hx
    · exact ⟨u, .inr hx, hbu⟩
  have some_shared : (∃ u, s.shared u = true) → ∃ u, ((s.actor u).hasShared = true ∨ (s.actor u).hasExcl = true) ∧ ¬ Blocked s u := by
    rintro ⟨u, hu⟩
    rw [hi.sh] at hu
    by_cases hbu : Blocked s u
    · unfold Blocked at hbu
      cases ha : s.actor u with
      | wantKey k i => rw [ha] at hbu; exact keyed i hbu
      | _ => rw [ha] at hbu hu; first | exact hbu.elim | exact absurd hu (by simp [Actor.hasShared])
    · exact ⟨u, .inl hu, hbu⟩
  unfold Blocked at hb
  cases ha : s.actor t with
  | wantShared k => rw [ha] at hb; exact exclusive hb
  | wantSummary => rw [ha] at hb; exact exclusive hb
  | wantExcl j =>
    rw [ha] at hb
    rcases hb with hb | hb
    · exact exclusive hb
    · exact some_shared hb
  | wantKey k i => rw [ha] at hb; exact keyed i hb
  | invWant k i => rw [ha] at hb; exact keyed i hb
  | _ => rw [ha] at hb; exact absurd hb (by simp)

/-- Invalidating a module never waits for its key: the exclusive maintenance lock already excludes every reservation. -/
theorem c44_invalidate_never_blocked {s0 s : State} (h0 : Init s0) (h : Reachable s0 s) {t k i : Nat} (ht : s.actor t = .invWant k i) :
    s.holder i = none := by
  have hi := inv_reachable h0 h
  cases hh : s.holder i with
  | none => rfl
  | some u =>
    exfalso
    obtain ⟨k', ho⟩ := inode_owns <| hi.held u i hh
    rcases opened_locked (owns_opened ho) with hs | hs
    · have := c44_no_maintenance h0 h (u := t) hs
      rw [ht] at this
      cases this
    · have e := c44_one_maintainer h0 h (t := t) (u := u) (by rw [ht]; rfl) hs
      subst e
      rw [ht] at ho
      cases ho

/-! ### example -/

def exStart : State where
  actor _ := .idle
  shared _ := false
  excl := none
  holder _ := none
  keyFile _ := none
  next := 0
  product _ := .missing

/-- Two processes ask for product 5; one gets the reservation and publishes, the other waits for the key and then hits. -/
theorem c44_example : ∃ s, Reachable exStart s ∧ Init exStart ∧ s.actor 0 = .reserved 5 0 ∧ s.actor 1 = .wantKey 5 0 ∧ s.holder 0 = some 0 ∧
    Blocked s 1 ∧ ∃ s', Reachable exStart s' ∧ s'.product 5 = .valid ∧ s'.actor 0 = .idle ∧ s'.actor 1 = .leaving 5 0 := by
  have r1 := Reachable.step (.start (s0 := exStart)) (.lookup 0 5 rfl)
  have r2 := Reachable.step r1 (.lookup 1 5 rfl)
  have r3 := Reachable.step r2 (.acquireShared 0 5 rfl rfl)
  have r4 := Reachable.step r3 (.createKey 0 5 rfl rfl)
  have r5 := Reachable.step r4 (.acquireKey 0 5 0 rfl rfl)
  have r6 := Reachable.step r5 (.acquireShared 1 5 rfl rfl)
  have r7 := Reachable.step r6 (.openKey 1 5 0 rfl rfl)
  have r8 := Reachable.step r7 (.miss 0 5 0 rfl rfl)
  have r9 := Reachable.step r8 (.publish 0 5 0 rfl)
  have r10 := Reachable.step r9 (.unlockKey 0 5 0 rfl)
  have r11 := Reachable.step r10 (.unlockShared 0 (.inl rfl))
  have r12 := Reachable.step r11 (.acquireKey 1 5 0 rfl rfl)
  have r13 := Reachable.step r12 (.hit 1 5 0 rfl rfl)
  refine ⟨_, r8, ⟨fun _ => rfl, fun _ => rfl, rfl, fun _ => rfl, fun _ _ h => (by cases h), fun _ _ _ h => (by cases h)⟩, rfl, rfl, rfl, ?_, _, r13, rfl, rfl, rfl⟩
  show (some 0 : Option Nat) ≠ none
  simp

end Verif.CacheLocks
