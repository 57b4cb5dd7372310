import Verif.Spec.DocSync
/-!
C74: open documents are in step with the editor.
-/
namespace Verif.DocSync

/-! ### Texts and versions -/

def State.view (s : State) : Option (Content × Nat) := s.docs.map (fun d => (d.content, d.version))

/-- What the editor has after a list of notifications. -/
def sends : List Notif → Option (Content × Nat) → Option (Option (Content × Nat))
  | [], v => some v
  | n :: ns, v =>
    match sendable v n with
    | none => none
    | some v' => sends ns v'

theorem sends_append (a b : List Notif) (v : Option (Content × Nat)) :
    sends (a ++ b) v = match sends a v with | none => none | some v' => sends b v' := by
  induction a generalizing v with
  | nil => rfl
  | cons n a ih =>
    rw [List.cons_append, sends, sends]
    cases sendable v n with
    | none => rfl
    | some v' => exact ih v'

def State.pending (s : State) : List Notif := (match s.running with | some (.start n) => [n] | _ => []) ++ s.queue ++ s.inbox

theorem pending_eq {s : State} (h : ∀ n, s.running ≠ some (.start n)) : s.pending = s.queue ++ s.inbox := by
  unfold State.pending
  split
  · next n hn => exact absurd hn (h n)
  · rfl

def Fits (view : Option (Content × Nat)) (p : Proc) : Prop :=
  ∃ v, view = some (p.content, v) ∧ (∀ v', p.pc = .facts v' ∨ p.pc = .insert v' → v' = v)

structure Inv (s : State) : Prop where
  client : sends s.pending s.view = some s.client
  run : ∀ p, s.running = some (.proc p) → Fits s.view p
  free : ∀ p, Free.refresh p ∈ s.free → Fits s.view p

def wview (w : World) : Option (Content × Nat) := w.docs.map (fun d => (d.content, d.version))

/-- A processing of the right text does not change the text, and stays one of the right text. -/
theorem proc_view {broken : Content → Bool} {p : Proc} {w : World} (h : Fits (wview w) p) :
    wview (procStep broken p w).2 = wview w ∧ ∀ p', (procStep broken p w).1 = some p' → Fits (wview w) p' := by
  obtain ⟨v, hv, hp⟩ := h
  obtain ⟨d, hd, hc, hver⟩ : ∃ d, w.docs = some d ∧ d.content = p.content ∧ d.version = v := by
    unfold wview at hv
    cases hd : w.docs with
    | none => rw [hd] at hv; exact absurd hv (by simp)
    | some d =>
      rw [hd] at hv
      simp at hv
      exact ⟨d, rfl, hv.1, hv.2⟩
  unfold procStep
  cases hpc : p.pc with
  | check =>
    dsimp only
    rw [hd]
    dsimp only
    split
    · exact ⟨by simp [wview, hd], fun p' h => by cases h⟩
    · refine ⟨rfl, fun p' h => ?_⟩
      injection h with h; subst h
      exact ⟨v, hv, fun v' h => by simp at h⟩
  | register =>
    refine ⟨rfl, fun p' h => ?_⟩
    injection h with h; subst h
    exact ⟨v, hv, fun v' h => by simp at h⟩
  | version =>
    refine ⟨rfl, fun p' h => ?_⟩
    injection h with h; subst h
    refine ⟨v, hv, fun v' h => ?_⟩
    simp [hd] at h
    omega
  | facts v0 =>
    have h0 := hp v0 (.inl hpc)
    dsimp only
    split
    · exact ⟨rfl, fun p' h => by cases h⟩
    · refine ⟨rfl, fun p' h => ?_⟩
      injection h with h; subst h
      refine ⟨v, hv, fun v' h => ?_⟩
      simp at h
      omega
  | insert v0 =>
    have h0 := hp v0 (.inr hpc)
    refine ⟨?_, fun p' h => ?_⟩
    · rw [hv, ← h0]; rfl
    · injection h with h; subst h
      exact ⟨v, hv, fun v' h => by simp at h⟩
  | mark =>
    refine ⟨?_, fun p' h => by cases h⟩
    show Option.map _ (w.docs.map _) = wview w
    unfold wview
    rw [hd]; rfl

theorem store_view (docs : Option Doc) (c : Content) (v : Nat) : (store docs c v).content = c ∧ (store docs c v).version = v := by
  unfold store
  split <;> exact ⟨rfl, rfl⟩

/-- The first step of a handler makes of the text what the notification says. -/
theorem start_view {n : Notif} {s : State} {v : Option (Content × Nat)} (h : sendable s.view n = some v) : (startStep n s).view = v ∧
    (∀ p, (startStep n s).running = some (.proc p) → Fits v p) ∧ (∀ m, (startStep n s).running ≠ some (.start m)) ∧
    (startStep n s).queue = s.queue ∧ (startStep n s).inbox = s.inbox ∧ (startStep n s).client = s.client ∧ (startStep n s).free = s.free := by
  cases n with
  | opened c ver =>
    have hv : v = some (c, ver) := by
      simp only [sendable] at h
      split at h
      · injection h with h; exact h.symm
      · cases h
    obtain ⟨s1, s2⟩ := store_view s.docs c ver
    unfold startStep
    dsimp only
    split
    · refine ⟨?_, by simp, by simp, rfl, rfl, rfl, rfl⟩
      rw [hv]; simp [State.view, s1, s2]
    · refine ⟨?_, fun p hp => ?_, by simp, rfl, rfl, rfl, rfl⟩
      · rw [hv]; simp [State.view, s1, s2]
      · injection hp with hp; injection hp with hp; subst hp
        exact ⟨ver, hv, fun v' h => by simp at h⟩
  | changed c ver =>
    have hv : v = some (c, ver) := by
      simp only [sendable] at h
      split at h
      · split at h
        · injection h with h; exact h.symm
        · cases h
      · cases h
    obtain ⟨s1, s2⟩ := store_view s.docs c ver
    unfold startStep
    dsimp only
    refine ⟨?_, fun p hp => ?_, by simp, rfl, rfl, rfl, rfl⟩
    · rw [hv]; simp [State.view, s1, s2]
    · injection hp with hp; injection hp with hp; subst hp
      exact ⟨ver, hv, fun v' h => by simp at h⟩
  | saved =>
    have hv : v = s.view := by
      simp only [sendable] at h
      split at h
      · cases h
      · injection h with h; exact h.symm
    subst hv
    unfold startStep
    dsimp only
    split
    · exact ⟨rfl, by simp, by simp, rfl, rfl, rfl, rfl⟩
    · next d hd =>
      refine ⟨rfl, fun p hp => ?_, by simp, rfl, rfl, rfl, rfl⟩
      injection hp with hp; injection hp with hp; subst hp
      exact ⟨d.version, by simp [State.view, hd], fun v' h => by simp at h⟩
  | closed =>
    have hv : v = none := by
      simp only [sendable] at h
      split at h
      · cases h
      · injection h with h; exact h.symm
    subst hv
    exact ⟨rfl, by simp [startStep], by simp [startStep], rfl, rfl, rfl, rfl⟩

theorem clear_eq (s : State) : s.clear.view = s.view ∧ s.clear.pending = s.pending ∧ s.clear.running = s.running ∧ s.clear.client = s.client ∧
    s.clear.free = s.free ∧ s.clear.docs = s.docs := by
  unfold State.clear
  split <;> exact ⟨rfl, rfl, rfl, rfl, rfl, rfl⟩

theorem inv_step {broken : Content → Bool} {s s' : State} {a : Action} (h : Inv s) (ho : Ordered s a) (hs : step broken a s = some s') : Inv s' := by
  unfold step at hs
  split at hs
  · -- send
    next n =>
    split at hs
    · cases hs
    · next c hc =>
      injection hs with hs; subst hs
      refine ⟨?_, h.run, h.free⟩
      have : State.pending { s with client := c, inbox := s.inbox ++ [n] } = s.pending ++ [n] := by
        unfold State.pending; simp
      rw [this, sends_append]
      show (match sends s.pending s.view with | none => none | some v' => sends [n] v') = some c
      rw [h.client]
      dsimp only
      rw [sends, hc]; rfl
  · -- poll
    next i =>
    have hi : i = 0 := ho
    subst hi
    split at hs
    · cases hs
    · next n hn =>
      injection hs with hs; subst hs
      refine ⟨?_, h.run, h.free⟩
      have : State.pending { s with inbox := s.inbox.eraseIdx 0, queue := s.queue ++ [n] } = s.pending := by
        unfold State.pending
        cases hib : s.inbox with
        | nil => rw [hib] at hn; cases hn
        | cons m ib =>
          rw [hib] at hn
          simp at hn
          subst hn
          simp
      rw [this]
      exact h.client
  · -- acquire
    split at hs
    · next hr hq =>
      injection hs with hs; subst hs
      refine ⟨?_, fun p hp => by simp at hp, h.free⟩
      have := h.client
      unfold State.pending at this
      rw [hr, hq] at this
      show sends ([_] ++ _ ++ _) s.view = _
      simpa using this
    · cases hs
  · -- handler
    split at hs
    · cases hs
    · next n hr =>
      injection hs with hs; subst hs
      have hc := h.client
      have hpend : s.pending = n :: (s.queue ++ s.inbox) := by unfold State.pending; rw [hr]; simp
      rw [hpend, sends] at hc
      split at hc
      · cases hc
      · next v hv =>
        obtain ⟨h1, h2, h3, h4, h5, h6, h7⟩ := start_view hv
        refine ⟨?_, fun p hp => h1 ▸ h2 p hp, ?_⟩
        · have : (startStep n s).pending = s.queue ++ s.inbox := by
            unfold State.pending
            rw [h4, h5]
            split
            · next m hm => exact absurd hm (h3 m)
            · simp
          rw [this, h1, h6]
          exact hc
        · intro p hp
          rw [h7] at hp
          by_cases hn : n = .saved
          · subst hn
            have : v = s.view := by
              simp only [sendable] at hv
              split at hv
              · cases hv
              · injection hv with hv; exact hv.symm
            rw [h1, this]
            exact h.free p hp
          · exact absurd hp (ho n hr hn p)
    · next p hr =>
      injection hs with hs; subst hs
      obtain ⟨h1, h2⟩ := proc_view (broken := broken) (w := s.world) (h.run p hr)
      refine ⟨?_, ?_, fun q hq => ?_⟩
      · have hc := h.client
        have : s.pending = s.queue ++ s.inbox := by unfold State.pending; rw [hr]; simp
        rw [this] at hc
        rw [pending_eq]
        · exact (congrArg (sends (s.queue ++ s.inbox)) h1).trans hc
        · intro n hn
          dsimp only at hn
          injection hn with hn
          split at hn <;> cases hn
      · intro q hq
        dsimp only at hq
        injection hq with hq
        split at hq
        · next p' hp' =>
          injection hq with hq
          subst hq
          have := h2 p' hp'
          rw [← h1] at this
          exact this
        · cases hq
      · have : Fits (wview s.world) q := h.free q hq
        rw [← h1] at this
        exact this
    · next hr =>
      injection hs with hs; subst hs
      refine ⟨?_, fun p hp => by simp at hp, h.free⟩
      have hc := h.client
      unfold State.pending at hc ⊢
      rw [hr] at hc
      exact hc
  · -- fail
    split at hs
    · next p hr =>
      split at hs
      · injection hs with hs; subst hs
        refine ⟨?_, fun p hp => by simp at hp, h.free⟩
        have hc := h.client
        unfold State.pending at hc ⊢
        rw [hr] at hc
        exact hc
      · cases hs
    · cases hs
  · -- refresh
    split at hs
    · cases hs
    · next d hd =>
      injection hs with hs; subst hs
      refine ⟨h.client, h.run, fun p hp => ?_⟩
      rcases List.mem_append.mp hp with hp | hp
      · exact h.free p hp
      · simp at hp
        subst hp
        exact ⟨d.version, by simp [State.view, hd], fun v' h => by simp at h⟩
  · -- watch
    split at hs
    · injection hs with hs; subst hs
      refine ⟨h.client, h.run, fun p hp => ?_⟩
      rcases List.mem_append.mp hp with hp | hp
      · exact h.free p hp
      · simp at hp
    · injection hs with hs; subst hs; exact h
  · -- deleted
    split at hs
    · injection hs with hs; subst hs
      obtain ⟨h1, h2, h3, h4, h5, -⟩ := clear_eq s
      exact ⟨by rw [h1, h2, h4]; exact h.client, by rw [h1, h3]; exact h.run, by rw [h1, h5]; exact h.free⟩
    · injection hs with hs; subst hs; exact h
  · -- free
    next i =>
    split at hs
    · cases hs
    · next p hp =>
      injection hs with hs; subst hs
      have hmem := List.mem_of_getElem? hp
      obtain ⟨h1, h2⟩ := proc_view (broken := broken) (w := s.world) (h.free p hmem)
      refine ⟨(congrArg (sends s.pending) h1).trans h.client, fun q hq => ?_, fun q hq => ?_⟩
      · have : Fits (wview s.world) q := h.run q hq
        rw [← h1] at this
        exact this
      · have : Fits (wview s.world) q := by
          dsimp only at hq
          split at hq
          · next p' hp' =>
            rcases List.mem_or_eq_of_mem_set hq with hq | hq
            · exact h.free q hq
            · injection hq with hq
              subst hq
              exact h2 q hp'
          · exact h.free q (List.mem_of_mem_eraseIdx hq)
        rw [← h1] at this
        exact this
    · next hp =>
      split at hs
      · injection hs with hs; subst hs
        refine ⟨h.client, h.run, fun q hq => ?_⟩
        rcases List.mem_or_eq_of_mem_set hq with hq | hq
        · exact h.free q hq
        · cases hq
      · injection hs with hs; subst hs
        obtain ⟨h1, h2, h3, h4, h5, -⟩ := clear_eq s
        refine ⟨?_, ?_, fun q hq => ?_⟩
        · show sends s.clear.pending s.clear.view = some s.clear.client
          rw [h1, h2, h4]; exact h.client
        · show ∀ p, s.clear.running = some (.proc p) → Fits s.clear.view p
          rw [h1, h3]; exact h.run
        · show Fits s.clear.view q
          rw [h1]; exact h.free q (List.mem_of_mem_eraseIdx hq)
    · injection hs with hs; subst hs
      refine ⟨h.client, h.run, fun q hq => ?_⟩
      rcases List.mem_or_eq_of_mem_set hq with hq | hq
      · exact h.free q hq
      · cases hq
    · injection hs with hs; subst hs
      exact ⟨h.client, h.run, fun q hq => h.free q (List.mem_of_mem_eraseIdx hq)⟩
  · -- freeFail
    split at hs
    · split at hs
      · injection hs with hs; subst hs
        exact ⟨h.client, h.run, fun q hq => h.free q (List.mem_of_mem_eraseIdx hq)⟩
      · cases hs
    · injection hs with hs; subst hs
      obtain ⟨h1, h2, h3, h4, h5, -⟩ := clear_eq s
      refine ⟨?_, ?_, fun q hq => ?_⟩
      · show sends s.clear.pending s.clear.view = some s.clear.client
        rw [h1, h2, h4]; exact h.client
      · show ∀ p, s.clear.running = some (.proc p) → Fits s.clear.view p
        rw [h1, h3]; exact h.run
      · show Fits s.clear.view q
        rw [h1]; exact h.free q (List.mem_of_mem_eraseIdx hq)
    · cases hs
  · -- write
    injection hs with hs; subst hs
    exact ⟨h.client, h.run, h.free⟩

theorem inv_reach {broken : Content → Bool} {ok : State → Action → Prop} (hok : ∀ s a, ok s a → Ordered s a) {s : State} (h : Reach broken ok s) : Inv s := by
  induction h with
  | init i d => exact ⟨rfl, fun p h => (by cases h), fun p h => (by cases h)⟩
  | step a _ ha hs ih => exact inv_step ih (hok _ _ ha) hs

theorem sameText_of_inv {s : State} (h : Inv s) (hi : Idle s) : SameText s := by
  obtain ⟨h1, h2, h3⟩ := hi
  have hc := h.client
  unfold State.pending at hc
  rw [h1, h2, h3] at hc
  simp [sends] at hc
  unfold SameText
  rw [← hc]
  unfold State.view
  cases hd : s.docs with
  | none => rfl
  | some d => exact ⟨d, rfl, rfl, rfl⟩

/-- Whenever nothing that the editor has sent is left to do, the server has the editor's text and version; whatever fails, and whatever
happens on disk. -/
theorem c74_text {broken : Content → Bool} {s : State} (h : Reach broken Ordered s) (hi : Idle s) : SameText s :=
  sameText_of_inv (inv_reach (fun _ _ h => h) h) hi

/-! ### Facts -/

def Pc.late : Pc → Prop
  | .insert _ => True
  | .mark => True
  | _ => False

structure Sound (s : State) : Prop where
  source : ∀ d, s.docs = some d → s.source = some d.content
  refreshes : ∀ d, s.docs = some d → ∀ f ∈ s.free, ∃ p, f = .refresh p
  quiet : ∀ d, s.docs = some d → (∀ p, s.running ≠ some (.proc p)) → s.facts = some d.content
  late : ∀ d, s.docs = some d → ∀ p, s.running = some (.proc p) → p.pc.late → s.facts = some d.content
  freeLate : ∀ d, s.docs = some d → ∀ p, Free.refresh p ∈ s.free → p.pc.late → s.facts = some d.content
  marked : ∀ d, s.docs = some d → d.indexed = some d.version → s.facts = some d.content
  indexed : ∀ d i, s.docs = some d → d.indexed = some i → i ≤ d.version
  one : s.docs = none → s.free.length ≤ 1
  closed : s.docs = none → (∀ c, Free.collected c ∉ s.free) → s.source = s.facts
  collected : ∀ c, Free.collected c ∈ s.free → s.source = some c

/-- What a step of a processing of the right text does. -/
theorem proc_effect (broken : Content → Bool) {p : Proc} {w : World} {d : Doc} (hd : w.docs = some d) (hc : p.content = d.content)
    (hv : ∀ v, p.pc = .insert v → v = d.version) (hs : w.source = some d.content) (hm : d.indexed = some d.version → w.facts = some d.content)
    (hl : p.pc.late → w.facts = some d.content) (hi : ∀ i, d.indexed = some i → i ≤ d.version) :
    ∃ d', (procStep broken p w).2.docs = some d' ∧ d'.content = d.content ∧ d'.version = d.version ∧ (procStep broken p w).2.source = some d.content ∧
      (w.facts = some d.content → (procStep broken p w).2.facts = some d.content) ∧
      (d'.indexed = some d'.version → (procStep broken p w).2.facts = some d.content) ∧ (∀ i, d'.indexed = some i → i ≤ d'.version) ∧
      ((procStep broken p w).1 = none → (procStep broken p w).2.facts = some d.content) ∧
      (∀ p', (procStep broken p w).1 = some p' → p'.pc.late → (procStep broken p w).2.facts = some d.content) := by
  unfold procStep
  cases hpc : p.pc with
  | check =>
    dsimp only
    rw [hd]
    dsimp only
    split
    · next h => exact ⟨d, rfl, rfl, rfl, by rw [hc], id, hm, hi, fun _ => hm h, fun p' h => (by cases h)⟩
    · refine ⟨d, hd, rfl, rfl, hs, id, hm, hi, fun h => (by cases h), fun p' h hl => ?_⟩
      injection h with h; subst h; exact hl.elim
  | register =>
    refine ⟨d, hd, rfl, rfl, by rw [hc], id, hm, hi, fun h => (by cases h), fun p' h hl => ?_⟩
    injection h with h; subst h; exact hl.elim
  | version =>
    refine ⟨d, hd, rfl, rfl, hs, id, hm, hi, fun h => (by cases h), fun p' h hl => ?_⟩
    injection h with h; subst h; exact hl.elim
  | facts v =>
    dsimp only
    split
    · exact ⟨d, hd, rfl, rfl, hs, fun _ => by rw [hc], fun _ => by rw [hc], hi, fun _ => by rw [hc], fun p' h => (by cases h)⟩
    · exact ⟨d, hd, rfl, rfl, hs, fun _ => by rw [hc], fun _ => by rw [hc], hi, fun h => (by cases h), fun p' h hl => by rw [hc]⟩
  | insert v =>
    have hf := hl (by rw [hpc]; trivial)
    exact ⟨⟨p.content, v, none⟩, rfl, hc, hv v hpc, hs, id, fun _ => hf, fun i h => (by cases h), fun h => (by cases h), fun p' h hl => hf⟩
  | mark =>
    have hf := hl (by rw [hpc]; trivial)
    refine ⟨{ d with indexed := some d.version }, by simp [hd], rfl, rfl, hs, id, fun _ => hf, fun i h => ?_, fun _ => hf, fun p' h => (by cases h)⟩
    simp at h
    simp only
    omega

theorem view_some {s : State} {x : Content × Nat} (h : s.view = some x) : ∃ d, s.docs = some d ∧ d.content = x.1 ∧ d.version = x.2 := by
  unfold State.view at h
  cases hd : s.docs with
  | none => rw [hd] at h; cases h
  | some d =>
    rw [hd] at h
    simp at h
    exact ⟨d, rfl, by rw [← h], by rw [← h]⟩

theorem calm_ordered {s : State} {a : Action} (h : Calm s a) : Ordered s a := by
  cases a with
  | poll i => exact h
  | handler => exact fun n hn hs p hp => by rw [h n hn hs] at hp; cases hp
  | _ => trivial

theorem length_one {l : List Free} {x : Free} {i : Nat} (h : l.length ≤ 1) (hx : l[i]? = some x) : l = [x] ∧ i = 0 := by
  match l, h with
  | [], _ => simp at hx
  | [y], _ =>
    cases i with
    | zero => simp at hx; exact ⟨by rw [hx], rfl⟩
    | succ i => simp at hx
  | _ :: _ :: _, h => simp at h

theorem clear_source (s : State) : s.source = s.facts → s.clear.source = s.clear.facts := by
  intro h
  unfold State.clear
  split
  · exact h
  · rfl

theorem sound_step {broken : Content → Bool} {s s' : State} {a : Action} (hi : Inv s) (h : Sound s) (hk : Calm s a) (hs : step broken a s = some s') : Sound s' := by
  unfold step at hs
  split at hs
  · -- send
    split at hs
    · cases hs
    · injection hs with hs; subst hs
      exact ⟨h.1, h.2, h.3, h.4, h.5, h.6, h.7, h.8, h.9, h.10⟩
  · -- poll
    split at hs
    · cases hs
    · injection hs with hs; subst hs
      exact ⟨h.1, h.2, h.3, h.4, h.5, h.6, h.7, h.8, h.9, h.10⟩
  · -- acquire
    split at hs
    · next hr hq =>
      injection hs with hs; subst hs
      exact ⟨h.1, h.2, fun d hd _ => h.3 d hd (by rw [hr]; simp), fun d hd p hp => by simp at hp, h.5, h.6, h.7, h.8, h.9, h.10⟩
    · cases hs
  · -- handler
    split at hs
    · cases hs
    · next n hr =>
      injection hs with hs; subst hs
      have hquiet : ∀ p, s.running ≠ some (.proc p) := by rw [hr]; simp
      have hc := hi.client
      have hpend : s.pending = n :: (s.queue ++ s.inbox) := by unfold State.pending; rw [hr]; simp
      rw [hpend, sends] at hc
      split at hc
      · cases hc
      · next v hv =>
        cases n with
        | opened c ver =>
          have hfree : s.free = [] := hk _ hr (by simp)
          have hnone : s.docs = none := by
            simp only [sendable] at hv
            split at hv
            · next hn =>
              unfold State.view at hn
              cases hd : s.docs with
              | none => rfl
              | some d => rw [hd] at hn; cases hn
            · cases hv
          have hsf := h.closed hnone (by rw [hfree]; simp)
          unfold startStep
          dsimp only
          split
          · next hsk =>
            have hf : s.facts = some c := by rw [← hsf]; exact hsk.1
            refine ⟨fun d hd => ?_, fun d hd f hf => ?_, fun d hd _ => ?_, fun d hd p hp => by simp at hp, fun d hd p hp => ?_, fun d hd _ => ?_, fun d i hd hi => ?_, fun hd => by simp at hd, fun hd => by simp at hd, fun c' hc' => ?_⟩
            · simp at hd; subst hd; simp [(store_view s.docs c ver).1]
            · rw [hfree] at hf; cases hf
            · simp at hd; subst hd; simp [(store_view s.docs c ver).1, hf]
            · rw [hfree] at hp; cases hp
            · simp at hd; subst hd; simp [(store_view s.docs c ver).1, hf]
            · simp at hd; subst hd
              simp at hi
              simp only [(store_view s.docs c ver).2]
              omega
            · rw [hfree] at hc'; cases hc'
          · refine ⟨fun d hd => ?_, fun d hd f hf => ?_, fun d hd hq => absurd rfl (hq _), fun d hd p hp hl => ?_, fun d hd p hp => ?_, fun d hd hm => ?_, fun d i hd hi => ?_, fun hd => by simp at hd, fun hd => by simp at hd, fun c' hc' => ?_⟩
            · simp at hd; subst hd; simp [(store_view s.docs c ver).1]
            · rw [hfree] at hf; cases hf
            · injection hp with hp; injection hp with hp; subst hp; exact hl.elim
            · rw [hfree] at hp; cases hp
            · simp at hd; subst hd; simp [store, hnone] at hm
            · simp at hd; subst hd; simp [store, hnone] at hi
            · rw [hfree] at hc'; cases hc'
        | changed c ver =>
          have hfree : s.free = [] := hk _ hr (by simp)
          obtain ⟨d0, hd0, hlt⟩ : ∃ d0, s.docs = some d0 ∧ d0.version < ver := by
            simp only [sendable] at hv
            split at hv
            · next c0 v0 hn =>
              obtain ⟨d, hd, h1, h2⟩ := view_some hn
              split at hv
              · next hlt => exact ⟨d, hd, by simp only at h2; omega⟩
              · cases hv
            · cases hv
          have hst : store s.docs c ver = ⟨c, ver, d0.indexed⟩ := by rw [hd0]; rfl
          unfold startStep
          dsimp only
          rw [hst]
          refine ⟨fun d hd => ?_, fun d hd f hf => ?_, fun d hd hq => absurd rfl (hq _), fun d hd p hp hl => ?_, fun d hd p hp => ?_, fun d hd hm => ?_, fun d i hd hi => ?_, fun hd => by simp at hd, fun hd => by simp at hd, fun c' hc' => ?_⟩
          · simp at hd; subst hd; rfl
          · rw [hfree] at hf; cases hf
          · injection hp with hp; injection hp with hp; subst hp; exact hl.elim
          · rw [hfree] at hp; cases hp
          · simp at hd; subst hd
            have := h.indexed d0 ver hd0 hm
            omega
          · simp at hd; subst hd
            have := h.indexed d0 i hd0 hi
            simp only
            omega
          · rw [hfree] at hc'; cases hc'
        | saved =>
          unfold startStep
          dsimp only
          split
          · next hn => exact ⟨h.1, h.2, fun d hd _ => h.3 d hd hquiet, fun d hd p hp => by simp at hp, h.5, h.6, h.7, h.8, h.9, h.10⟩
          · next d0 hd0 =>
            refine ⟨h.1, h.2, fun d hd hq => h.3 d hd hquiet, fun d hd p hp hl => h.3 d hd hquiet, h.5, h.6, h.7, h.8, h.9, h.10⟩
        | closed =>
          have hfree : s.free = [] := hk _ hr (by simp)
          have hsf : s.source = s.facts := by
            cases hd : s.docs with
            | none => exact h.closed hd (by rw [hfree]; simp)
            | some d => rw [h.source d hd, h.quiet d hd hquiet]
          exact ⟨fun d hd => by simp [startStep] at hd, fun d hd => by simp [startStep] at hd, fun d hd => by simp [startStep] at hd, fun d hd => by simp [startStep] at hd, fun d hd => by simp [startStep] at hd, fun d hd => by simp [startStep] at hd, fun d i hd => by simp [startStep] at hd, fun _ => by simp [startStep, hfree], fun _ _ => hsf, fun c hc => by simp [startStep, hfree] at hc⟩
    · next p hr =>
      injection hs with hs; subst hs
      obtain ⟨v, hv, hver⟩ := hi.run p hr
      obtain ⟨d, hd, hc, hdv⟩ := view_some hv
      dsimp only at hc hdv
      obtain ⟨d', e1, e2, e3, e4, e5, e6, e7, e8, e9⟩ := proc_effect broken (w := s.world) hd hc.symm (fun x hx => by rw [hdv]; exact hver x (.inr hx)) (h.source d hd) (h.marked d hd) (h.late d hd p hr) (fun i => h.indexed d i hd)
      refine ⟨fun x hx => ?_, fun x hx f hf => h.refreshes d hd f hf, fun x hx hq => ?_, fun x hx q hq hl => ?_, fun x hx q hq hl => ?_, fun x hx hm => ?_, fun x i hx hxi => ?_, fun hx => ?_, fun hx => ?_, fun c hc => ?_⟩
      · cases e1.symm.trans hx; rw [e2]; exact e4
      · cases e1.symm.trans hx
        rw [e2]
        apply e8
        cases ho : (procStep broken p s.world).1 with
        | none => rfl
        | some p' => exact absurd (by simp [ho]) (hq p')
      · cases e1.symm.trans hx
        rw [e2]
        dsimp only at hq
        injection hq with hq
        split at hq
        · next p' hp' => injection hq with hq; subst hq; exact e9 _ hp' hl
        · cases hq
      · cases e1.symm.trans hx
        rw [e2]
        exact e5 (h.freeLate d hd q hq hl)
      · cases e1.symm.trans hx; rw [e2]; exact e6 hm
      · cases e1.symm.trans hx; exact e7 i hxi
      · cases e1.symm.trans hx
      · cases e1.symm.trans hx
      · obtain ⟨q, hq⟩ := h.refreshes d hd _ hc
        cases hq
    · next hr =>
      injection hs with hs; subst hs
      exact ⟨h.1, h.2, fun d hd _ => h.3 d hd (by rw [hr]; simp), fun d hd p hp => by simp at hp, h.5, h.6, h.7, h.8, h.9, h.10⟩
  · exact hk.elim
  · -- refresh
    split at hs
    · cases hs
    · next d hd =>
      injection hs with hs; subst hs
      refine ⟨h.1, fun x hx f hf => ?_, h.3, h.4, fun x hx q hq hl => ?_, h.6, h.7, fun hx => (by rw [hd] at hx; cases hx), fun hx => (by rw [hd] at hx; cases hx), fun c hc => ?_⟩
      · rcases List.mem_append.mp hf with hf | hf
        · exact h.refreshes d hd f hf
        · simp at hf; exact ⟨_, hf⟩
      · rcases List.mem_append.mp hq with hq | hq
        · exact h.freeLate x hx q hq hl
        · simp at hq; subst hq; exact hl.elim
      · rcases List.mem_append.mp hc with hc | hc
        · exact h.collected c hc
        · simp at hc
  · -- watch
    split at hs
    · next hd =>
      injection hs with hs; subst hs
      have hfree : s.free = [] := hk hd
      refine ⟨h.1, fun x hx => (by rw [hd] at hx; cases hx), h.3, h.4, fun x hx => (by rw [hd] at hx; cases hx), h.6, h.7, fun _ => by simp [hfree], fun _ _ => h.closed hd (by rw [hfree]; simp), fun c hc => by simp [hfree] at hc⟩
    · injection hs with hs; subst hs; exact h
  · -- deleted
    split at hs
    · next hd =>
      injection hs with hs; subst hs
      have hfree : s.free = [] := hk hd
      obtain ⟨h1, h2, h3, h4, h5, h6⟩ := clear_eq s
      refine ⟨fun x hx => ?_, fun x hx => ?_, fun x hx => ?_, fun x hx => ?_, fun x hx => ?_, fun x hx => ?_, fun x i hx => ?_, fun _ => ?_, fun _ _ => clear_source s (h.closed hd (by rw [hfree]; simp)), fun c hc => ?_⟩
      all_goals first
        | (rw [h6, hd] at hx; cases hx)
        | (rw [h5, hfree]; simp)
        | (rw [h5, hfree] at hc; cases hc)
    · injection hs with hs; subst hs; exact h
  · -- free
    next i =>
    split at hs
    · cases hs
    · next p hp =>
      injection hs with hs; subst hs
      have hmem := List.mem_of_getElem? hp
      obtain ⟨v, hv, hver⟩ := hi.free p hmem
      obtain ⟨d, hd, hc, hdv⟩ := view_some hv
      dsimp only at hc hdv
      obtain ⟨d', e1, e2, e3, e4, e5, e6, e7, e8, e9⟩ := proc_effect broken (w := s.world) hd hc.symm (fun x hx => by rw [hdv]; exact hver x (.inr hx)) (h.source d hd) (h.marked d hd) (h.freeLate d hd p hmem) (fun i => h.indexed d i hd)
      have hfr : ∀ f, f ∈ (match (procStep broken p s.world).1 with | some p' => s.free.set i (.refresh p') | none => s.free.eraseIdx i) →
          f ∈ s.free ∨ ∃ p', (procStep broken p s.world).1 = some p' ∧ f = .refresh p' := by
        intro f hf
        split at hf
        · next p' hp' =>
          rcases List.mem_or_eq_of_mem_set hf with hf | hf
          · exact .inl hf
          · exact .inr ⟨p', hp', hf⟩
        · exact .inl (List.mem_of_mem_eraseIdx hf)
      refine ⟨fun x hx => ?_, fun x hx f hf => ?_, fun x hx hq => ?_, fun x hx q hq hl => ?_, fun x hx q hq hl => ?_, fun x hx hm => ?_, fun x i hx hxi => ?_, fun hx => ?_, fun hx => ?_, fun c hc => ?_⟩
      · cases e1.symm.trans hx; rw [e2]; exact e4
      · rcases hfr f hf with hf | ⟨p', -, hf⟩
        · exact h.refreshes d hd f hf
        · exact ⟨p', hf⟩
      · cases e1.symm.trans hx; rw [e2]; exact e5 (h.quiet d hd hq)
      · cases e1.symm.trans hx; rw [e2]; exact e5 (h.late d hd q hq hl)
      · cases e1.symm.trans hx
        rw [e2]
        rcases hfr _ hq with hq | ⟨p', hp', hq⟩
        · exact e5 (h.freeLate d hd q hq hl)
        · injection hq with hq; subst hq; exact e9 _ hp' hl
      · cases e1.symm.trans hx; rw [e2]; exact e6 hm
      · cases e1.symm.trans hx; exact e7 i hxi
      · cases e1.symm.trans hx
      · cases e1.symm.trans hx
      · rcases hfr _ hc with hc | ⟨p', -, hc⟩
        · obtain ⟨q, hq⟩ := h.refreshes d hd _ hc
          cases hq
        · cases hc
    · next hp =>
      have hmem := List.mem_of_getElem? hp
      have hd : s.docs = none := by
        cases hd : s.docs with
        | none => rfl
        | some d => obtain ⟨q, hq⟩ := h.refreshes d hd _ hmem; cases hq
      obtain ⟨hfree, rfl⟩ := length_one (h.one hd) hp
      have hsf := h.closed hd (by rw [hfree]; simp)
      split at hs
      · injection hs with hs; subst hs
        rw [hfree]
        refine ⟨fun x hx => ?_, fun x hx => ?_, fun x hx => ?_, fun x hx => ?_, fun x hx => ?_, fun x hx => ?_, fun x i hx => ?_, fun _ => by simp, fun _ _ => hsf, fun c hc => by simp at hc⟩
        all_goals (dsimp only at hx; rw [hd] at hx; cases hx)
      · injection hs with hs; subst hs
        rw [hfree]
        obtain ⟨h1, h2, h3, h4, h5, h6⟩ := clear_eq s
        refine ⟨fun x hx => ?_, fun x hx => ?_, fun x hx => ?_, fun x hx => ?_, fun x hx => ?_, fun x hx => ?_, fun x i hx => ?_, fun _ => by simp, fun _ _ => clear_source s hsf, fun c hc => by simp at hc⟩
        all_goals (dsimp only at hx; rw [h6, hd] at hx; cases hx)
    · next c0 hp =>
      have hmem := List.mem_of_getElem? hp
      have hd : s.docs = none := by
        cases hd : s.docs with
        | none => rfl
        | some d => obtain ⟨q, hq⟩ := h.refreshes d hd _ hmem; cases hq
      obtain ⟨hfree, rfl⟩ := length_one (h.one hd) hp
      injection hs with hs; subst hs
      rw [hfree]
      refine ⟨fun x hx => ?_, fun x hx => ?_, fun x hx => ?_, fun x hx => ?_, fun x hx => ?_, fun x hx => ?_, fun x i hx => ?_, fun _ => by simp, fun _ hn => absurd (by simp) (hn c0), fun c hc => ?_⟩
      case refine_8 => simp at hc; rw [hc]
      all_goals (dsimp only at hx; rw [hd] at hx; cases hx)
    · next c0 hp =>
      have hmem := List.mem_of_getElem? hp
      have hd : s.docs = none := by
        cases hd : s.docs with
        | none => rfl
        | some d => obtain ⟨q, hq⟩ := h.refreshes d hd _ hmem; cases hq
      obtain ⟨hfree, rfl⟩ := length_one (h.one hd) hp
      have hso := h.collected c0 hmem
      injection hs with hs; subst hs
      rw [hfree]
      refine ⟨fun x hx => ?_, fun x hx => ?_, fun x hx => ?_, fun x hx => ?_, fun x hx => ?_, fun x hx => ?_, fun x i hx => ?_, fun _ => by simp, fun _ _ => hso, fun c hc => by simp at hc⟩
      all_goals (dsimp only at hx; rw [hd] at hx; cases hx)
  · -- freeFail
    next i =>
    split at hs
    · next p hp =>
      split at hs
      · injection hs with hs; subst hs
        have hmem := List.mem_of_getElem? hp
        obtain ⟨v, hv, hver⟩ := hi.free p hmem
        obtain ⟨d, hd, hc, hdv⟩ := view_some hv
        exact ⟨h.1, fun x hx f hf => h.2 x hx f (List.mem_of_mem_eraseIdx hf), h.3, h.4, fun x hx q hq => h.5 x hx q (List.mem_of_mem_eraseIdx hq), h.6, h.7, fun hx => (by rw [hd] at hx; cases hx), fun hx => (by rw [hd] at hx; cases hx), fun c hc => h.10 c (List.mem_of_mem_eraseIdx hc)⟩
      · cases hs
    · next hp =>
      have hmem := List.mem_of_getElem? hp
      have hd : s.docs = none := by
        cases hd : s.docs with
        | none => rfl
        | some d => obtain ⟨q, hq⟩ := h.refreshes d hd _ hmem; cases hq
      obtain ⟨hfree, rfl⟩ := length_one (h.one hd) hp
      have hsf := h.closed hd (by rw [hfree]; simp)
      injection hs with hs; subst hs
      rw [hfree]
      obtain ⟨h1, h2, h3, h4, h5, h6⟩ := clear_eq s
      refine ⟨fun x hx => ?_, fun x hx => ?_, fun x hx => ?_, fun x hx => ?_, fun x hx => ?_, fun x hx => ?_, fun x i hx => ?_, fun _ => by simp, fun _ _ => clear_source s hsf, fun c hc => by simp at hc⟩
      all_goals (dsimp only at hx; rw [h6, hd] at hx; cases hx)
    · cases hs
  · -- write
    injection hs with hs; subst hs
    exact ⟨h.1, h.2, h.3, h.4, h.5, h.6, h.7, h.8, h.9, h.10⟩

theorem sound_reach {broken : Content → Bool} {ok : State → Action → Prop} (hok : ∀ s a, ok s a → Calm s a) {s : State} (h : Reach broken ok s) : Inv s ∧ Sound s := by
  induction h with
  | init i d =>
    exact ⟨⟨rfl, fun p h => (by cases h), fun p h => (by cases h)⟩, ⟨fun d h => (by cases h), fun d h => (by cases h), fun d h => (by cases h), fun d h => (by cases h), fun d h => (by cases h), fun d h => (by cases h), fun d i h => (by cases h), fun _ => by simp, fun _ _ => rfl, fun c h => (by cases h)⟩⟩
  | step a _ ha hs ih => exact ⟨inv_step ih.1 (calm_ordered (hok _ _ ha)) hs, sound_step ih.1 ih.2 (hok _ _ ha) hs⟩

/-- And the engine's source and facts are those of the editor's text. -/
theorem c74_facts {broken : Content → Bool} {s : State} (h : Reach broken Calm s) (hi : Idle s) {c : Content} {v : Nat} (hc : s.client = some (c, v)) :
    s.source = some c ∧ s.facts = some c := by
  obtain ⟨h1, h2⟩ := sound_reach (fun _ _ h => h) h
  have := sameText_of_inv h1 hi
  unfold SameText at this
  rw [hc] at this
  obtain ⟨d, hd, rfl, rfl⟩ := this
  exact ⟨h2.source d hd, h2.quiet d hd (by rw [hi.2.2]; simp)⟩

/-- Of a closed document the facts are those of the engine's source, when no change on disk is being looked at. -/
theorem c74_closed {broken : Content → Bool} {s : State} (h : Reach broken Calm s) (hi : Idle s) (hf : s.free = []) (hc : s.client = none) :
    s.docs = none ∧ s.source = s.facts := by
  obtain ⟨h1, h2⟩ := sound_reach (fun _ _ h => h) h
  have := sameText_of_inv h1 hi
  unfold SameText at this
  rw [hc] at this
  exact ⟨this, h2.closed this (by rw [hf]; simp)⟩

/-! ### Progress -/

def Pc.rank : Pc → Nat
  | .check => 7
  | .register => 6
  | .version => 5
  | .facts _ => 4
  | .insert _ => 3
  | .mark => 2

def Run.rank : Option Run → Nat
  | none => 0
  | some (.start _) => 8
  | some (.proc p) => p.pc.rank
  | some .done => 1

def State.rank (s : State) : Nat := 10 * s.inbox.length + 9 * s.queue.length + Run.rank s.running

theorem proc_rank {broken : Content → Bool} {p p' : Proc} {w : World} (h : (procStep broken p w).1 = some p') : p'.pc.rank < p.pc.rank := by
  unfold procStep at h
  cases hpc : p.pc with
  | check =>
    rw [hpc] at h
    dsimp only at h
    split at h
    · split at h
      · cases h
      · injection h with h; subst h; simp [Pc.rank]
    · injection h with h; subst h; simp [Pc.rank]
  | facts v =>
    rw [hpc] at h
    dsimp only at h
    split at h
    · cases h
    · injection h with h; subst h; simp [Pc.rank]
  | mark => rw [hpc] at h; cases h
  | register => rw [hpc] at h; injection h with h; subst h; simp [Pc.rank]
  | version => rw [hpc] at h; injection h with h; subst h; simp [Pc.rank]
  | insert v => rw [hpc] at h; injection h with h; subst h; simp [Pc.rank]

theorem rank_pos (p : Pc) : 2 ≤ p.rank := by cases p <;> simp [Pc.rank]

theorem start_rank (n : Notif) (s : State) :
    (startStep n s).inbox = s.inbox ∧ (startStep n s).queue = s.queue ∧ Run.rank (startStep n s).running < 8 := by
  cases n with
  | opened c v => simp only [startStep]; split <;> simp [Run.rank, Pc.rank]
  | changed c v => simp [startStep, Run.rank, Pc.rank]
  | saved => simp only [startStep]; split <;> simp [Run.rank, Pc.rank]
  | closed => simp [startStep, Run.rank]

theorem rank_step {broken : Content → Bool} {s s' : State} {a : Action} (ha : Server a) (hs : step broken a s = some s') : s'.rank + 1 ≤ s.rank := by
  rcases ha with ⟨i, rfl⟩ | rfl | rfl
  · simp only [step] at hs
    split at hs
    · cases hs
    · next n hn =>
      injection hs with hs; subst hs
      obtain ⟨hl, -⟩ := List.getElem?_eq_some_iff.mp hn
      simp only [State.rank, List.length_append, List.length_singleton, List.length_eraseIdx, hl, if_true]
      omega
  · simp only [step] at hs
    split at hs
    · next n q hr hq =>
      injection hs with hs; subst hs
      simp only [State.rank, hr, hq, List.length_cons, Run.rank]
      omega
    · cases hs
  · simp only [step] at hs
    split at hs
    · cases hs
    · next n hr =>
      injection hs with hs; subst hs
      obtain ⟨h1, h2, h3⟩ := start_rank n s
      simp only [State.rank, h1, h2, hr, Run.rank] at *
      omega
    · next p hr =>
      injection hs with hs; subst hs
      cases ho : (procStep broken p s.world).1 with
      | none =>
        have := rank_pos p.pc
        simp only [State.rank, State.set, hr, Run.rank]
        omega
      | some p' =>
        have := proc_rank ho
        simp only [State.rank, State.set, hr, Run.rank]
        omega
    · next hr =>
      injection hs with hs; subst hs
      simp only [State.rank, hr, Run.rank]
      omega

theorem rank_le (s : State) : s.rank ≤ 10 * (s.inbox.length + s.queue.length + 1) := by
  have : Run.rank s.running ≤ 8 := by
    unfold Run.rank
    split
    · omega
    · omega
    · next p _ => cases p.pc <;> simp [Pc.rank]
    · omega
  unfold State.rank
  omega

/-- Whatever the server does for what has come: it ends after at most ten steps for each notification, and where it can do nothing more,
nothing is left to do. -/
theorem c74_ends {broken : Content → Bool} {s s' : State} {as : List Action} (h : ∀ a ∈ as, Server a) (hs : steps broken as s = some s') :
    as.length ≤ 10 * (s.inbox.length + s.queue.length + 1) ∧ ((∀ a, Server a → step broken a s' = none) → Idle s') := by
  constructor
  · refine Nat.le_trans ?_ (rank_le s)
    induction as generalizing s with
    | nil => simp
    | cons a as ih =>
      rw [steps] at hs
      split at hs
      · cases hs
      · next s1 h1 =>
        have := rank_step (h a (by simp)) h1
        have := ih (fun b hb => h b (by simp [hb])) hs
        simp only [List.length_cons]
        omega
  · intro hn
    have hr : s'.running = none := by
      have := hn .handler (.inr (.inr rfl))
      simp only [step] at this
      split at this
      · next h => exact h
      all_goals cases this
    refine ⟨?_, ?_, hr⟩
    · have := hn (.poll 0) (.inl ⟨0, rfl⟩)
      simp only [step] at this
      split at this
      · next h => simpa using h
      · cases this
    · have := hn .acquire (.inr (.inl rfl))
      simp only [step, hr] at this
      cases hq : s'.queue with
      | nil => rfl
      | cons n q => rw [hq] at this; cases this

/-- What has been sent is done: there is an execution to a state in which nothing is left to do, and there the document is in step. -/
theorem c74_settles {broken : Content → Bool} {s : State} (h : Reach broken Calm s) (hf : s.free = []) :
    ∃ as s', (∀ a ∈ as, Server a) ∧ steps broken as s = some s' ∧ Reach broken Calm s' ∧ Idle s' ∧ s'.client = s.client := by
  generalize hk : s.rank = k
  induction k using Nat.strongRecOn generalizing s with
  | _ k ih =>
    have key : ∀ a s1, Server a → Calm s a → step broken a s = some s1 → s1.free = [] → s1.client = s.client →
        ∃ as s', (∀ a ∈ as, Server a) ∧ steps broken as s = some s' ∧ Reach broken Calm s' ∧ Idle s' ∧ s'.client = s.client := by
      intro a s1 ha hc h1 hf1 hcl
      have := rank_step ha h1
      obtain ⟨as, s', h2, h3, h4, h5, h6⟩ := ih s1.rank (by omega) (.step a h hc h1) hf1 rfl
      refine ⟨a :: as, s', fun b hb => ?_, ?_, h4, h5, h6.trans hcl⟩
      · rcases List.mem_cons.mp hb with rfl | hb
        · exact ha
        · exact h2 b hb
      · rw [steps, h1]
        exact h3
    cases hr : s.running with
    | some r =>
      have hs : ∃ s1, step broken .handler s = some s1 ∧ s1.free = [] ∧ s1.client = s.client := by
        simp only [step, hr]
        cases r with
        | start n =>
          refine ⟨_, rfl, ?_⟩
          cases n <;> simp only [startStep] <;> try split
          all_goals first | exact ⟨hf, rfl⟩ | exact ⟨hf, trivial⟩
        | proc p => exact ⟨_, rfl, hf, rfl⟩
        | done => exact ⟨_, rfl, hf, rfl⟩
      obtain ⟨s1, h1, h2, h3⟩ := hs
      exact key .handler s1 (.inr (.inr rfl)) (fun _ _ _ => hf) h1 h2 h3
    | none =>
      cases hq : s.queue with
      | cons n q => exact key .acquire { s with running := some (.start n), queue := q } (.inr (.inl rfl)) trivial (by simp only [step, hr, hq]) hf rfl
      | nil =>
        cases hi : s.inbox with
        | cons n i => exact key (.poll 0) { s with inbox := s.inbox.eraseIdx 0, queue := s.queue ++ [n] } (.inl ⟨0, rfl⟩) rfl (by simp [step, hi]) hf rfl
        | nil => exact ⟨[], s, fun a ha => (by cases ha), rfl, h, ⟨hi, hq, hr⟩, rfl⟩

/-! ### Locks -/

structure Locks.Ok (l : Locks) : Prop where
  held : ∀ h ∈ l.held, h ∈ l.table
  uniq : ∀ e ∈ l.table, ∀ e' ∈ l.table, (e.1 = e'.1 ↔ e.2 = e'.2)
  fresh : ∀ e ∈ l.table, e.2 < l.next

theorem locks_ok {l : Locks} (h : InUse l) : l.Ok := by
  induction h with
  | init => exact ⟨fun h hh => (by cases hh), fun e he => (by cases he), fun e he => (by cases he)⟩
  | @get l u _ ih =>
    have hheld : ∀ h ∈ l.held, h ∈ l.table.filter (fun e => l.held.any (fun h => h.2 == e.2)) := by
      intro h hh
      refine List.mem_filter.mpr ⟨ih.held h hh, ?_⟩
      simp only [List.any_eq_true]
      exact ⟨h, hh, by simp⟩
    unfold Locks.get
    dsimp only
    split
    · next e he =>
      have hm := List.mem_of_find?_eq_some he
      have hu : e.1 = u := by simpa using List.find?_some he
      refine ⟨fun h hh => ?_, fun a ha b hb => ih.uniq a (List.mem_filter.mp ha).1 b (List.mem_filter.mp hb).1, fun a ha => ih.fresh a (List.mem_filter.mp ha).1⟩
      rcases List.mem_cons.mp hh with rfl | hh
      · rw [← hu]; exact hm
      · exact hheld h hh
    · next hn =>
      have hno : ∀ a ∈ l.table.filter (fun e => l.held.any (fun h => h.2 == e.2)), a.1 ≠ u ∧ a.2 ≠ l.next := by
        intro a ha
        have h1 := List.find?_eq_none.mp hn a ha
        have h2 := ih.fresh a (List.mem_filter.mp ha).1
        exact ⟨by simpa using h1, by omega⟩
      refine ⟨fun h hh => ?_, fun a ha b hb => ?_, fun a ha => ?_⟩
      · rcases List.mem_cons.mp hh with rfl | hh
        · simp
        · exact List.mem_cons_of_mem _ (hheld h hh)
      · rcases List.mem_cons.mp ha with rfl | ha <;> rcases List.mem_cons.mp hb with rfl | hb
        · simp
        · obtain ⟨h1, h2⟩ := hno b hb
          exact ⟨fun h => absurd h.symm h1, fun h => absurd h.symm h2⟩
        · obtain ⟨h1, h2⟩ := hno a ha
          exact ⟨fun h => absurd h h1, fun h => absurd h h2⟩
        · exact ih.uniq a (List.mem_filter.mp ha).1 b (List.mem_filter.mp hb).1
      · rcases List.mem_cons.mp ha with rfl | ha
        · simp
        · have := ih.fresh a (List.mem_filter.mp ha).1
          dsimp only
          omega
  | drop i _ ih => exact ⟨fun h hh => ih.held h (List.mem_of_mem_eraseIdx hh), ih.uniq, ih.fresh⟩

/-- Handlers of one document wait for one lock, handlers of different documents for different ones, also though locks that nobody
holds are forgotten. -/
theorem c74_lock {l : Locks} (h : InUse l) {a b : Nat × Nat} (ha : a ∈ l.held) (hb : b ∈ l.held) : a.1 = b.1 ↔ a.2 = b.2 :=
  (locks_ok h).uniq a ((locks_ok h).held a ha) b ((locks_ok h).held b hb)

/-! ### Saving -/

structure Saves (s : State) : Prop where
  free : ∀ p, Free.refresh p ∉ s.free
  done : ∀ d, s.docs = some d → (∀ p, s.running ≠ some (.proc p)) → d.indexed = some d.version
  full : ∀ p, s.running = some (.proc p) → p.full = true → p.pc = .check ∧ ∃ d, s.docs = some d ∧ d.indexed = some d.version
  zero : s.resolves = 0

theorem saves_step {broken : Content → Bool} (hb : ∀ c, broken c = false) {s s' : State} {a : Action} (h : Saves s) (hk : Alone s a) (hs : step broken a s = some s') : Saves s' := by
  unfold step at hs
  split at hs
  · split at hs
    · cases hs
    · injection hs with hs; subst hs; exact ⟨h.1, h.2, h.3, h.4⟩
  · split at hs
    · cases hs
    · injection hs with hs; subst hs; exact ⟨h.1, h.2, h.3, h.4⟩
  · split at hs
    · next hr hq =>
      injection hs with hs; subst hs
      exact ⟨h.1, fun d hd _ => h.2 d hd (by rw [hr]; simp), fun p hp => by simp at hp, h.4⟩
    · cases hs
  · split at hs
    · cases hs
    · next n hr =>
      injection hs with hs; subst hs
      have hquiet : ∀ p, s.running ≠ some (.proc p) := by rw [hr]; simp
      cases n with
      | opened c v =>
        simp only [startStep]
        split
        · exact ⟨h.1, fun d hd _ => by simp at hd; subst hd; simp [store]; split <;> rfl, fun p hp => by simp at hp, h.4⟩
        · exact ⟨h.1, fun d hd hq => absurd rfl (hq _), fun p hp hf => by (injection hp with hp; injection hp with hp; subst hp; cases hf), h.4⟩
      | changed c v => exact ⟨h.1, fun d hd hq => absurd rfl (hq _), fun p hp hf => by (injection hp with hp; injection hp with hp; subst hp; cases hf), h.4⟩
      | saved =>
        simp only [startStep]
        split
        · exact ⟨h.1, fun d hd _ => h.2 d hd hquiet, fun p hp => by simp at hp, h.4⟩
        · next d0 hd0 =>
          refine ⟨h.1, fun d hd hq => absurd rfl (hq _), fun p hp _ => ?_, h.4⟩
          injection hp with hp; injection hp with hp; subst hp
          exact ⟨rfl, d0, hd0, h.2 d0 hd0 hquiet⟩
      | closed => exact ⟨h.1, fun d hd => by simp [startStep] at hd, fun p hp => by simp [startStep] at hp, h.4⟩
    · next p hr =>
      injection hs with hs; subst hs
      unfold procStep
      cases hpc : p.pc with
      | check =>
        dsimp only
        cases hd : s.world.docs with
        | none =>
          refine ⟨h.1, fun d hd hq => absurd rfl (hq _), fun q hq hf => ?_, h.4⟩
          dsimp only at hq
          injection hq with hq; injection hq with hq; subst hq
          obtain ⟨-, d, h2, -⟩ := h.3 p hr hf
          exact absurd (hd.symm.trans h2) (by simp)
        | some d =>
          dsimp only
          split
          · next hx =>
            refine ⟨h.1, fun d' hd' _ => ?_, fun p hp => by simp at hp, h.4⟩
            have hd'' : some d = some d' := hd'
            cases hd''
            exact hx
          · next hx =>
            refine ⟨h.1, fun d hd hq => absurd rfl (hq _), fun q hq hf => ?_, h.4⟩
            dsimp only at hq
            injection hq with hq; injection hq with hq; subst hq
            obtain ⟨-, d', h2, h3⟩ := h.3 p hr hf
            cases hd.symm.trans h2
            exact absurd h3 hx
      | register =>
        refine ⟨h.1, fun d hd hq => absurd rfl (hq _), fun q hq hf => ?_, h.4⟩
        dsimp only at hq
        injection hq with hq; injection hq with hq; subst hq
        have := (h.3 p hr hf).1; rw [hpc] at this; cases this
      | version =>
        refine ⟨h.1, fun d hd hq => absurd rfl (hq _), fun q hq hf => ?_, h.4⟩
        dsimp only at hq
        injection hq with hq; injection hq with hq; subst hq
        have := (h.3 p hr hf).1; rw [hpc] at this; cases this
      | facts v =>
        dsimp only
        rw [hb]
        have hff : p.full = false := by
          cases hf : p.full with
          | false => rfl
          | true => have := (h.3 p hr hf).1; rw [hpc] at this; cases this
        refine ⟨h.1, fun d hd hq => absurd rfl (hq _), fun q hq hf => ?_, ?_⟩
        · simp at hq; subst hq
          rw [hff] at hf; cases hf
        · simp [State.set, hff, State.world, h.4]
      | insert v =>
        refine ⟨h.1, fun d hd hq => absurd rfl (hq _), fun q hq hf => ?_, h.4⟩
        dsimp only at hq
        injection hq with hq; injection hq with hq; subst hq
        have := (h.3 p hr hf).1; rw [hpc] at this; cases this
      | mark =>
        refine ⟨h.1, fun d hd _ => ?_, fun p hp => by simp at hp, h.4⟩
        simp [State.set, State.world] at hd
        obtain ⟨d0, -, rfl⟩ := hd
        rfl
    · next hr =>
      injection hs with hs; subst hs
      exact ⟨h.1, fun d hd _ => h.2 d hd (by rw [hr]; simp), fun p hp => by simp at hp, h.4⟩
  · exact hk.1.elim
  · exact absurd rfl hk.2
  · split at hs
    · injection hs with hs; subst hs
      refine ⟨fun p hp => ?_, h.2, h.3, h.4⟩
      rcases List.mem_append.mp hp with hp | hp
      · exact h.1 p hp
      · simp at hp
    · injection hs with hs; subst hs; exact h
  · split at hs
    · injection hs with hs; subst hs
      unfold State.clear
      split
      · exact h
      · exact ⟨h.1, h.2, h.3, h.4⟩
    · injection hs with hs; subst hs; exact h
  · next i =>
    split at hs
    · cases hs
    · next p hp => exact absurd (List.mem_of_getElem? hp) (h.1 p)
    · split at hs
      · injection hs with hs; subst hs
        refine ⟨fun p hp => ?_, h.2, h.3, h.4⟩
        rcases List.mem_or_eq_of_mem_set hp with hp | hp
        · exact h.1 p hp
        · cases hp
      · injection hs with hs; subst hs
        unfold State.clear
        split <;> exact ⟨fun p hp => h.1 p (List.mem_of_mem_eraseIdx hp), h.2, h.3, h.4⟩
    · injection hs with hs; subst hs
      refine ⟨fun p hp => ?_, h.2, h.3, h.4⟩
      rcases List.mem_or_eq_of_mem_set hp with hp | hp
      · exact h.1 p hp
      · cases hp
    · injection hs with hs; subst hs
      exact ⟨fun p hp => h.1 p (List.mem_of_mem_eraseIdx hp), h.2, h.3, h.4⟩
  · next i =>
    split at hs
    · next p hp => exact absurd (List.mem_of_getElem? hp) (h.1 p)
    · injection hs with hs; subst hs
      unfold State.clear
      split <;> exact ⟨fun p hp => h.1 p (List.mem_of_mem_eraseIdx hp), h.2, h.3, h.4⟩
    · cases hs
  · injection hs with hs; subst hs; exact ⟨h.1, h.2, h.3, h.4⟩

/-- "On save: do full indexing with unresolved tracking" (L569) never happens: the text that is saved has been processed when it was
opened or changed, so its version is marked as indexed, and the processing of a save is skipped. Unless another document's handler has
processed it meanwhile, or it has more than ten syntax errors, references of the whole project are never resolved again. -/
theorem c74_save_resolves_fails {broken : Content → Bool} (hb : ∀ c, broken c = false) {s : State} (h : Reach broken Alone s) : s.resolves = 0 := by
  suffices Saves s from this.zero
  induction h with
  | init i d => exact ⟨fun p h => (by cases h), fun d h => (by cases h), fun p h => (by cases h), rfl⟩
  | step a _ ha hs ih => exact saves_step hb ih ha hs

/-! ### Counterexamples -/

def fresh (c : Option Content) : State := ⟨[], [], none, none, c, c, c, [], 0, none⟩

/-- A notification is sent and handled, in `k` steps of its handler. -/
def handle (n : Notif) (k : Nat) : List Action := [.send n, .poll 0, .acquire] ++ List.replicate k .handler

def fine : Content → Bool := fun _ => false

/-- Opening, changing, saving and closing, with the file written on saving. -/
theorem c74_example :
    steps fine (handle (.opened 1 1) 2 ++ handle (.changed 2 2) 8 ++ [.write (some 2)] ++ handle .saved 3) (fresh (some 1))
      = some ⟨[], [], none, some ⟨2, 2, some 2⟩, some 2, some 2, some 2, [], 0, some (2, 2)⟩ := by decide

/-- A handler of another document took the text, and processes it after the next change: the old text is stored with the new version,
and taken to be indexed. The editor has text 3, the server answers for text 2 until the next change. -/
theorem c74_refresh_stale_fails :
    steps fine (handle (.opened 2 1) 8 ++ [.refresh] ++ handle (.changed 3 2) 8 ++ List.replicate 5 (.free 0) ++ handle .saved 3) (fresh (some 1))
      = some ⟨[], [], none, some ⟨2, 2, some 2⟩, some 2, some 2, some 1, [], 0, some (3, 2)⟩ := by decide

/-- Or after it was closed: the document is in the server's table again, nobody removes it, and changes on disk are ignored. -/
theorem c74_refresh_closed_fails :
    steps fine (handle (.opened 2 1) 8 ++ [.refresh] ++ handle .closed 2 ++ List.replicate 5 (.free 0) ++ [.write (some 4), .watch]) (fresh (some 1))
      = some ⟨[], [], none, some ⟨2, 0, some 0⟩, some 2, some 2, some 4, [], 0, none⟩ := by decide

/-- If it is opened again at version 0, its text is taken to be indexed though its facts are those of the older text. -/
theorem c74_refresh_reopened_fails :
    steps fine (handle (.opened 2 1) 8 ++ [.refresh] ++ handle .closed 2 ++ List.replicate 5 (.free 0) ++ handle (.opened 4 0) 3) (fresh (some 1))
      = some ⟨[], [], none, some ⟨4, 0, some 0⟩, some 4, some 2, some 1, [], 0, some (4, 0)⟩ := by decide

/-- A change on disk was noticed before the document was opened, and its text is processed after that: the facts are those of the disk,
not those of the editor. -/
theorem c74_watch_stale_fails :
    steps fine ([.write (some 2), .watch, .free 0] ++ handle (.opened 3 1) 8 ++ List.replicate 2 (.free 0) ++ handle .saved 3) (fresh (some 1))
      = some ⟨[], [], none, some ⟨3, 1, some 1⟩, some 3, some 2, some 2, [], 0, some (3, 1)⟩ := by decide

/-- The texts of changes are stored without a look at their versions: the order in which handlers are run is all that keeps them in order. -/
theorem c74_order_fails :
    steps fine (handle (.opened 1 1) 2 ++ [.send (.changed 2 2), .send (.changed 3 3), .poll 1, .poll 0, .acquire] ++ List.replicate 8 .handler ++ [.acquire] ++ List.replicate 8 .handler)
        (fresh (some 1))
      = some ⟨[], [], none, some ⟨2, 2, some 2⟩, some 2, some 2, some 1, [], 0, some (3, 3)⟩ := by decide

/-- A document that is closed without being saved keeps the facts of its unsaved text. -/
theorem c74_discard_fails :
    steps fine (handle (.opened 1 1) 2 ++ handle (.changed 2 2) 8 ++ handle .closed 2) (fresh (some 1))
      = some ⟨[], [], none, none, some 2, some 2, some 1, [], 0, none⟩ := by decide

/-- If a processing fails, its text is nevertheless taken to be the indexed one, when it is saved, closed and opened again. -/
theorem c74_failed_fails :
    steps fine (handle (.opened 1 1) 2 ++ [.send (.changed 2 2), .poll 0, .acquire, .handler, .fail, .handler, .write (some 2)] ++ handle .closed 2 ++ handle (.opened 2 1) 2 ++
        handle .saved 3) (fresh (some 1))
      = some ⟨[], [], none, some ⟨2, 1, some 1⟩, some 2, some 1, some 2, [], 0, some (2, 1)⟩ := by decide

end Verif.DocSync
