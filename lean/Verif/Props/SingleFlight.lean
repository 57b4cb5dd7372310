import Verif.Lemmas.SingleFlight
/-! C07, C08, C09: the single-flight caches. -/
namespace Verif.SingleFlight

variable {K V E : Type}

/-! ### Vocabulary of the statements -/

/-- The computation a call is bound to. -/
def boundTo : Phase V E → Option Nat
  | .counted | .abandoned => none
  | .owner f | .producing f | .waiting f | .armed f _ | .asleep f _ | .done f _ => some f

/-- The call has ended. -/
def ended : Phase V E → Prop
  | .done _ _ | .abandoned => True
  | _ => False

/-- The value a computation has made available. -/
def valueAt (s : State K V E) (f : Nat) : Option V :=
  match s.flights[f]? with
  | some { cell := some (.ok v), .. } => some v
  | _ => none

/-- The values the cache retains. -/
def retained (s : State K V E) : List V := s.entries.filterMap (fun e => valueAt s e.flight)

/-! ### How one step changes flights and callers -/

theorem step_flight [DecidableEq K] {cfg : Config K V E} {s s' : State K V E} (h : Inv cfg s) (hs : Step cfg s s') {f : Nat} {fl : Flight K V E}
    (hf : s.flights[f]? = some fl) : ∃ fl', s'.flights[f]? = some fl' ∧ fl'.key = fl.key ∧ fl'.generation = fl.generation ∧
      (∀ r, fl.returned = some r → fl'.returned = some r) ∧ (∀ r, fl.cell = some r → fl'.cell = some r) ∧ (fl.stage = .processed → fl' = fl) := by
  have key : ∀ (g : Nat) (gl : Flight K V E) (u : Flight K V E → Flight K V E), s.flights[g]? = some gl → (u gl).key = gl.key → (u gl).generation = gl.generation →
      (∀ r, gl.returned = some r → (u gl).returned = some r) → (∀ r, gl.cell = some r → (u gl).cell = some r) → gl.stage ≠ .processed →
      ∃ fl', (s.flights.modify g u)[f]? = some fl' ∧ fl'.key = fl.key ∧ fl'.generation = fl.generation ∧
      (∀ r, fl.returned = some r → fl'.returned = some r) ∧ (∀ r, fl.cell = some r → fl'.cell = some r) ∧ (fl.stage = .processed → fl' = fl) := by
    intro g gl u hg hk hgen hret hcell hpr
    by_cases hfg : g = f
    · subst hfg
      rw [hf] at hg; cases hg
      exact ⟨u fl, getElem?_modify_eq u hf, hk, hgen, hret, hcell, fun h => absurd h hpr⟩
    · exact ⟨fl, by rw [getElem?_modify_ne u hfg]; exact hf, rfl, rfl, fun _ h => h, fun _ h => h, fun _ => rfl⟩
  have same : ∃ fl', s.flights[f]? = some fl' ∧ fl'.key = fl.key ∧ fl'.generation = fl.generation ∧
      (∀ r, fl.returned = some r → fl'.returned = some r) ∧ (∀ r, fl.cell = some r → fl'.cell = some r) ∧ (fl.stage = .processed → fl' = fl) :=
    ⟨fl, hf, rfl, rfl, fun _ h => h, fun _ h => h, fun _ => rfl⟩
  cases hs with
  | call key => exact same
  | found => exact same
  | miss =>
    refine ⟨fl, ?_, rfl, rfl, fun _ h => h, fun _ h => h, fun _ => rfl⟩
    show (s.flights ++ [_])[f]? = _
    rw [List.getElem?_append_left (List.getElem?_eq_some_iff.mp hf).1]; exact hf
  | start c key' g hc =>
    obtain ⟨gl, hg, -, hst⟩ := h.callers c _ hc
    exact key g gl _ hg rfl rfl (fun _ h => h) (fun _ h => h) (by rw [hst]; simp)
  | finish g gl r hg hst hr =>
    have hok := (h.flights g gl hg).2.2
    rw [hst] at hok
    exact key g gl _ hg rfl rfl (fun r' hr' => by rw [hok.1] at hr'; cases hr') (fun _ h => h) (by rw [hst]; simp)
  | count g gl hg hst => exact key g gl _ hg rfl rfl (fun _ h => h) (fun _ h => h) (by rw [hst]; simp)
  | removeFailed g gl _ _ hg hst _ => exact key g gl _ hg rfl rfl (fun _ h => h) (fun _ h => h) (by rw [hst]; simp)
  | completeAsync g gl _ hg hst ha =>
    exact key g gl _ hg rfl rfl (fun _ h => h) (fun r' hr' => by rw [ha] at hr'; cases hr') (by rw [hst]; simp)
  | notify g gl hg hst => exact key g gl _ hg rfl rfl (fun _ h => h) (fun _ h => h) (by rw [hst]; simp)
  | completeBlocking g gl _ hg hst ha =>
    exact key g gl _ hg rfl rfl (fun _ h => h) (fun r' hr' => by rw [ha] at hr'; cases hr') (by rw [hst]; split <;> simp)
  | cleanupFailed g gl _ _ hg hst _ => exact key g gl _ hg rfl rfl (fun _ h => h) (fun _ h => h) (by rw [hst]; simp)
  | cleanupNothing g gl hg hst _ => exact key g gl _ hg rfl rfl (fun _ h => h) (fun _ h => h) (by rw [hst]; simp)
  | evictStart g gl _ hg hst _ _ => exact key g gl _ hg rfl rfl (fun _ h => h) (fun _ h => h) (by rw [hst]; simp)
  | evictStop g gl _ _ _ _ _ hg hst _ _ _ => exact key g gl _ hg rfl rfl (fun _ h => h) (fun _ h => h) (by rw [hst]; simp)
  | evictOne => exact same
  | resume => exact same
  | arm => exact same
  | check => exact same
  | wake => exact same
  | abandon => exact same

/-- How the phase of one call may change in a step. -/
def PhaseChange (s : State K V E) (p p' : Phase V E) : Prop :=
  p' = p ∨
  (p = .counted ∧ ∃ f, boundTo p' = some f ∧ ((∃ e ∈ s.entries, e.flight = f) ∨ f = s.flights.length)) ∨
  (∃ f, boundTo p = some f ∧ (∀ r, p ≠ .done f r) ∧ (boundTo p' = some f ∨ p' = .abandoned))

theorem step_caller [DecidableEq K] {cfg : Config K V E} {s s' : State K V E} (hs : Step cfg s s') {i : Nat} {c : Caller K V E}
    (hc : s.callers[i]? = some c) : ∃ c', s'.callers[i]? = some c' ∧ c'.key = c.key ∧ PhaseChange s c.phase c'.phase := by
  have same : ∃ c', s.callers[i]? = some c' ∧ c'.key = c.key ∧ PhaseChange s c.phase c'.phase := ⟨c, hc, rfl, Or.inl rfl⟩
  have key : ∀ (j : Nat) (x : Caller K V E) (p : Phase V E), s.callers[j]? = some x → PhaseChange s x.phase p →
      ∃ c', (s.callers.modify j (fun x => { x with phase := p }))[i]? = some c' ∧ c'.key = c.key ∧ PhaseChange s c.phase c'.phase := by
    intro j x p hx hp
    by_cases hij : j = i
    · subst hij
      rw [hc] at hx; cases hx
      exact ⟨_, getElem?_modify_eq _ hc, rfl, hp⟩
    · exact ⟨c, by rw [getElem?_modify_ne _ hij]; exact hc, rfl, Or.inl rfl⟩
  cases hs with
  | call key' =>
    refine ⟨c, ?_, rfl, Or.inl rfl⟩
    show (s.callers ++ [_])[i]? = _
    rw [List.getElem?_append_left (List.getElem?_eq_some_iff.mp hc).1]; exact hc
  | found j key' e fl _ hj he hf =>
    exact key j _ _ hj (Or.inr (Or.inl ⟨rfl, e.flight, rfl, Or.inl ⟨e, List.mem_of_find?_eq_some he, rfl⟩⟩))
  | miss j key' _ hj he => exact key j _ _ hj (Or.inr (Or.inl ⟨rfl, s.flights.length, rfl, Or.inr rfl⟩))
  | start j key' f hj =>
    refine key j _ _ hj (Or.inr (Or.inr ⟨f, rfl, by simp, Or.inl ?_⟩))
    cases cfg.mode <;> rfl
  | finish => exact same
  | count => exact same
  | removeFailed => exact same
  | completeAsync => exact same
  | notify => exact same
  | completeBlocking => exact same
  | cleanupFailed => exact same
  | cleanupNothing => exact same
  | evictStart => exact same
  | evictStop => exact same
  | evictOne => exact same
  | resume j key' f fl hj hf hst =>
    refine key j _ _ hj (Or.inr (Or.inr ⟨f, rfl, by simp, Or.inl ?_⟩))
    split <;> rfl
  | arm j key' f fl hj hf => exact key j _ _ hj (Or.inr (Or.inr ⟨f, rfl, by simp, Or.inl rfl⟩))
  | check j key' f seen fl hj hf =>
    refine key j _ _ hj (Or.inr (Or.inr ⟨f, rfl, by simp, Or.inl ?_⟩))
    split <;> rfl
  | wake j key' f fl hj hf hn => exact key j _ _ hj (Or.inr (Or.inr ⟨f, rfl, by simp, Or.inl rfl⟩))
  | abandon j key' f seen hm hj =>
    rcases hj with hj | hj | hj <;> exact key j _ _ hj (Or.inr (Or.inr ⟨f, rfl, by simp, Or.inr rfl⟩))

theorem steps_reachable [DecidableEq K] {cfg : Config K V E} {s s' : State K V E} (h : Reachable cfg s) (hs : Steps cfg s s') : Reachable cfg s' := by
  induction hs with
  | refl => exact h
  | tail _ hstep ih => exact Reachable.step ih hstep

theorem steps_flight [DecidableEq K] {cfg : Config K V E} {s s' : State K V E} (h : Reachable cfg s) (hs : Steps cfg s s') {f : Nat} {fl : Flight K V E}
    (hf : s.flights[f]? = some fl) : ∃ fl', s'.flights[f]? = some fl' ∧ fl'.key = fl.key ∧ fl'.generation = fl.generation ∧
      (∀ r, fl.returned = some r → fl'.returned = some r) ∧ (∀ r, fl.cell = some r → fl'.cell = some r) ∧ (fl.stage = .processed → fl' = fl) := by
  induction hs with
  | refl => exact ⟨fl, hf, rfl, rfl, fun _ h => h, fun _ h => h, fun _ => rfl⟩
  | tail hpre hstep ih =>
    obtain ⟨x, hx, k1, g1, r1, c1, p1⟩ := ih
    obtain ⟨y, hy, k2, g2, r2, c2, p2⟩ := step_flight (reachable_inv (steps_reachable h hpre)) hstep hx
    refine ⟨y, hy, by rw [k2, k1], by rw [g2, g1], fun r hr => r2 r (r1 r hr), fun r hr => c2 r (c1 r hr), ?_⟩
    intro hp
    have := p1 hp
    subst this
    exact p2 hp

theorem cell_returned {cfg : Config K V E} {s : State K V E} (h : Inv cfg s) {f : Nat} {fl : Flight K V E} (hf : s.flights[f]? = some fl)
    {r : Res V E} (hr : fl.cell = some r) : fl.returned = some r := by
  have := (h.flights f fl hf).2.2
  revert this
  cases hst : fl.stage <;> simp only
  · rintro ⟨-, h, -⟩; rw [h] at hr; cases hr
  · rintro ⟨-, h, -⟩; rw [h] at hr; cases hr
  · rintro ⟨-, h, -⟩; rw [h] at hr; cases hr
  · rintro ⟨-, h, -⟩; rw [h] at hr; cases hr
  · rintro ⟨-, -, -, h, -⟩; rw [h] at hr; cases hr
  · rintro ⟨-, -, h, -⟩; rw [← h]; exact hr
  · rintro ⟨-, h, -⟩; rw [← h]; exact hr
  · rintro ⟨-, h, -⟩; rw [← h]; exact hr
  · rintro ⟨-, h, -⟩; rw [← h]; exact hr

/-! ### C07 -/

/-- At most one producer per key has not returned. -/
theorem c07_one_producer [DecidableEq K] {cfg : Config K V E} {s : State K V E} (h : Reachable cfg s) {f g : Nat} {fl gl : Flight K V E}
    (hf : s.flights[f]? = some fl) (hg : s.flights[g]? = some gl) (hk : fl.key = gl.key) (hfr : fl.returned = none) (hgr : gl.returned = none) :
    f = g := by
  have hi := reachable_inv h
  have hin : ∀ (j : Nat) (y : Flight K V E), s.flights[j]? = some y → y.returned = none → InMap s j y := by
    intro j y hy hn
    have := (hi.flights j y hy).2.2
    revert this
    cases y.stage <;> simp only <;> rw [hn]
    · exact fun h => h.2.2.2
    · exact fun h => h.2.2.2
    · exact fun h => h.2.2.2
    · exact fun h => h.2.2.2
    all_goals simp
  have := entry_unique hi (hin f fl hf hfr) (hin g gl hg hgr) hk
  simpa using congrArg Entry.flight this

/-- A finished call returned what the producer of a computation for its own key returned. -/
theorem c07_result [DecidableEq K] {cfg : Config K V E} {s : State K V E} (h : Reachable cfg s) {i f : Nat} {c : Caller K V E} {r : Res V E}
    (hc : s.callers[i]? = some c) (hp : c.phase = .done f r) :
    ∃ fl, s.flights[f]? = some fl ∧ fl.key = c.key ∧ fl.returned = some r := by
  have hi := reachable_inv h
  have := hi.callers i c hc
  unfold CallerOk at this
  rw [hp] at this
  obtain ⟨fl, hf, hk, hr⟩ := this
  exact ⟨fl, hf, hk, cell_returned hi hf hr⟩

/-- A call that joined (or started) computation `f` keeps it, and what it returns is what that computation produced. -/
theorem c07_joined [DecidableEq K] {cfg : Config K V E} {s s' : State K V E} (h : Reachable cfg s) (hs : Steps cfg s s') {i f : Nat} {c : Caller K V E}
    (hc : s.callers[i]? = some c) (hb : boundTo c.phase = some f) :
    ∃ c', s'.callers[i]? = some c' ∧ c'.key = c.key ∧ (c'.phase = .abandoned ∨ boundTo c'.phase = some f) ∧
      ∀ g r, c'.phase = .done g r → ∃ fl, s'.flights[f]? = some fl ∧ fl.key = c.key ∧ fl.returned = some r := by
  have main : ∃ c', s'.callers[i]? = some c' ∧ c'.key = c.key ∧ (c'.phase = .abandoned ∨ boundTo c'.phase = some f) := by
    induction hs with
    | refl => exact ⟨c, hc, rfl, Or.inr hb⟩
    | tail _ hstep ih =>
      obtain ⟨x, hx, hk, hor⟩ := ih
      obtain ⟨y, hy, hk', hch⟩ := step_caller hstep hx
      refine ⟨y, hy, by rw [hk', hk], ?_⟩
      rcases hch with heq | ⟨hcount, -⟩ | ⟨g, hg, -, hg'⟩
      · rw [heq]; exact hor
      · rw [hcount] at hor; rcases hor with h | h <;> cases h
      · rcases hor with hor | hor
        · rw [hor] at hg; cases hg
        · rw [hor] at hg; cases hg
          rcases hg' with h | h
          · exact Or.inr h
          · exact Or.inl h
  obtain ⟨c', hc', hk, hor⟩ := main
  refine ⟨c', hc', hk, hor, ?_⟩
  intro g r hp
  obtain ⟨fl, hf, hk2, hr⟩ := c07_result (steps_reachable h hs) hc' hp
  rcases hor with hor | hor
  · rw [hor] at hp; cases hp
  · rw [hp] at hor
    cases hor
    exact ⟨fl, hf, by rw [hk2, hk], hr⟩

/-- What a producer returned is never overwritten, and a completed cell never changes. -/
theorem c07_completed_once [DecidableEq K] {cfg : Config K V E} {s s' : State K V E} (h : Reachable cfg s) (hs : Steps cfg s s') {f : Nat}
    {fl : Flight K V E} (hf : s.flights[f]? = some fl) : ∃ fl', s'.flights[f]? = some fl' ∧ fl'.key = fl.key ∧
      (∀ r, fl.returned = some r → fl'.returned = some r) ∧ (∀ r, fl.cell = some r → fl'.cell = some r) := by
  obtain ⟨fl', h1, h2, -, h3, h4, -⟩ := steps_flight h hs hf
  exact ⟨fl', h1, h2, h3, h4⟩

/-- The "completed twice" assertions never fire. -/
theorem c07_never_panics [DecidableEq K] {cfg : Config K V E} {s : State K V E} (h : Reachable cfg s) : ¬ Panics cfg s := by
  rintro ⟨f, fl, hf, hcell, hst⟩
  have := ((reachable_inv h).flights f fl hf).2.2
  cases hm : cfg.mode <;> rw [hm] at hst <;> dsimp only at hst
  · rw [hst] at this; exact hcell this.2.1
  · split at hst <;> rw [hst] at this
    · exact hcell this.2.1
    · exact hcell this.2.2.2.1

/-- No lost wake-up: a sleeping call whose computation has completed can be woken at once, or the completer is about to notify it. -/
theorem c07_no_lost_wakeup [DecidableEq K] {cfg : Config K V E} {s : State K V E} (h : Reachable cfg s) {i f : Nat} {c : Caller K V E} {seen : Bool}
    {fl : Flight K V E} (hc : s.callers[i]? = some c) (hp : c.phase = .asleep f seen) (hf : s.flights[f]? = some fl) (hcell : fl.cell ≠ none) :
    Step cfg s (s.caller i (.waiting f)) ∨ (fl.stage = .set ∧ Step cfg s (s.flight f (fun fl => { fl with stage := .notified, notified := true }))) := by
  have hi := reachable_inv h
  have hco := hi.callers i c hc
  unfold CallerOk at hco
  rw [hp] at hco
  obtain ⟨fl', hf', -, hseen⟩ := hco
  rw [hf] at hf'; cases hf'
  have hfo := (hi.flights f fl hf).2.2
  have hwake : fl.notified = true → Step cfg s (s.caller i (.waiting f)) := by
    intro hn
    refine Step.wake i c.key f fl ?_ hf hn
    rw [hc, ← hseen, ← hp]
  revert hfo
  cases hst : fl.stage <;> simp only
  · exact fun h => absurd h.2.1 hcell
  · exact fun h => absurd h.2.1 hcell
  · exact fun h => absurd h.2.1 hcell
  · exact fun h => absurd h.2.1 hcell
  · exact fun h => absurd h.2.2.2.1 hcell
  · exact fun _ => Or.inr ⟨trivial, Step.notify f fl hf hst⟩
  · exact fun h => Or.inl (hwake h.2.2.1)
  · exact fun h => Or.inl (hwake h.2.2.1)
  · exact fun h => Or.inl (hwake h.2.2.1)

/-! #### Liveness -/

theorem okAt_step [DecidableEq K] {cfg : Config K V E} {s s' : State K V E} (h : Inv cfg s) (hs : Step cfg s s') {f : Nat} (hok : okAt s f = true) :
    okAt s' f = true := by
  unfold okAt at hok
  split at hok
  · rename_i fl hf
    obtain ⟨fl', hf', -, -, -, hc, -⟩ := step_flight h hs hf
    unfold okAt
    rw [hf']
    cases hcell : fl.cell with
    | none => rw [hcell] at hok; cases hok
    | some r => rw [hcell] at hok; dsimp only; rw [hc r hcell]; exact hok
  · cases hok

/-- What an eviction iteration started from is still completed. -/
theorem base_ok [DecidableEq K] {cfg : Config K V E} {s : State K V E} (h : Reachable cfg s) : ∀ f ∈ s.base, okAt s f = true := by
  induction h with
  | init => intro f hf; simp [init] at hf
  | step hr hs ih =>
    rename_i s s'
    have hi := reachable_inv hr
    have old : ∀ f ∈ s.base, okAt s' f = true := fun f hf => okAt_step hi hs (ih f hf)
    have new : ∀ (es : List (Entry K)), ∀ f ∈ completed { s with entries := es }, okAt s' f = true := by
      intro es f hf
      obtain ⟨e, he, rfl⟩ := List.mem_map.mp hf
      exact okAt_step hi hs (List.mem_filter.mp he).2
    cases hs with
    | evictStart => exact new s.entries
    | evictOne f fl me mw c w o e => exact new (s.entries.filter (fun x => x.key ≠ e.key))
    | _ => exact old

/-- A created computation has a call that is about to start it. -/
theorem created_owner [DecidableEq K] {cfg : Config K V E} {s : State K V E} (h : Reachable cfg s) : ∀ (f : Nat) (fl : Flight K V E),
    s.flights[f]? = some fl → fl.stage = .created → ∃ (i : Nat) (c : Caller K V E), s.callers[i]? = some c ∧ c.phase = .owner f := by
  induction h with
  | init => intro f fl hf; simp [init] at hf
  | step hr hs ih =>
    rename_i s s'
    have hi := reachable_inv hr
    -- a step of another caller does not matter
    have keep : ∀ (j : Nat) (x : Caller K V E) (p : Phase V E), s.callers[j]? = some x → ∀ f, x.phase ≠ .owner f →
        (∃ (i : Nat) (c : Caller K V E), s.callers[i]? = some c ∧ c.phase = .owner f) →
        ∃ (i : Nat) (c : Caller K V E), (s.callers.modify j (fun x => { x with phase := p }))[i]? = some c ∧ c.phase = .owner f := by
      rintro j x p hx f hne ⟨i, c, hc, hp⟩
      refine ⟨i, c, ?_, hp⟩
      rw [getElem?_modify_ne]
      · exact hc
      · rintro rfl
        rw [hx] at hc; cases hc
        exact hne hp
    have other : ∀ (g : Nat) (u : Flight K V E → Flight K V E), (∀ x, (u x).stage ≠ .created) → ∀ (f : Nat) (fl : Flight K V E),
        (s.flights.modify g u)[f]? = some fl → fl.stage = .created → f ≠ g ∧ ∃ (i : Nat) (c : Caller K V E), s.callers[i]? = some c ∧ c.phase = .owner f := by
      intro g u hu f fl hf hst
      rcases getElem?_modify_some hf with ⟨rfl, x, hx, rfl⟩ | ⟨hne, hx⟩
      · exact absurd hst (hu x)
      · exact ⟨fun h => hne h.symm, ih f fl hx hst⟩
    intro f fl hf hst
    cases hs with
    | call key =>
      obtain ⟨i, c, hc, hp⟩ := ih f fl hf hst
      refine ⟨i, c, ?_, hp⟩
      show (s.callers ++ [_])[i]? = _
      rw [List.getElem?_append_left (List.getElem?_eq_some_iff.mp hc).1]; exact hc
    | found j key' e gl _ hj he hg => exact keep j _ _ hj f (by simp) (ih f fl hf hst)
    | miss j key' _ hj he =>
      by_cases hlt : f < s.flights.length
      · refine keep j _ _ hj f (by simp) (ih f fl ?_ hst)
        change (s.flights ++ [_])[f]? = some fl at hf
        rw [List.getElem?_append_left hlt] at hf
        exact hf
      · have : f = s.flights.length := by
          have := (List.getElem?_eq_some_iff.mp hf).1
          simp at this; omega
        subst this
        exact ⟨j, _, getElem?_modify_eq _ hj, rfl⟩
    | start j key' g hj =>
      obtain ⟨hne, hex⟩ := other g _ (by intro x; simp) f fl hf hst
      exact keep j _ _ hj f (by simp; exact fun h => hne h.symm) hex
    | finish g => exact (other g _ (by intro x; simp) f fl hf hst).2
    | count g => exact (other g _ (by intro x; simp) f fl hf hst).2
    | removeFailed g => exact (other g _ (by intro x; simp) f fl hf hst).2
    | completeAsync g => exact (other g _ (by intro x; simp) f fl hf hst).2
    | notify g => exact (other g _ (by intro x; simp) f fl hf hst).2
    | completeBlocking g => exact (other g _ (by intro x; simp) f fl hf hst).2
    | cleanupFailed g => exact (other g _ (by intro x; simp) f fl hf hst).2
    | cleanupNothing g => exact (other g _ (by intro x; simp) f fl hf hst).2
    | evictStart g => exact (other g _ (by intro x; simp) f fl hf hst).2
    | evictStop g => exact (other g _ (by intro x; simp) f fl hf hst).2
    | evictOne => exact ih f fl hf hst
    | resume j key' g gl hj hg _ => exact keep j _ _ hj f (by simp) (ih f fl hf hst)
    | arm j key' g gl hj hg => exact keep j _ _ hj f (by simp) (ih f fl hf hst)
    | check j key' g seen gl hj hg => exact keep j _ _ hj f (by simp) (ih f fl hf hst)
    | wake j key' g gl hj hg hn => exact keep j _ _ hj f (by simp) (ih f fl hf hst)
    | abandon j key' g seen hm hj =>
      rcases hj with hj | hj | hj <;> exact keep j _ _ hj f (by simp) (ih f fl hf hst)

/-- A step that is neither a new call nor the dropping of one. -/
def Work [DecidableEq K] (cfg : Config K V E) (s s' : State K V E) : Prop :=
  Step cfg s s' ∧ s'.lookups = s.lookups ∧ ∀ (i : Nat) (c : Caller K V E), s'.callers[i]? = some c → c.phase = .abandoned → s.callers[i]? = some c

theorem work_caller [DecidableEq K] {cfg : Config K V E} {s s' : State K V E} {j : Nat} {p : Phase V E} (hp : p ≠ .abandoned) (hs : Step cfg s s')
    (hl : s'.lookups = s.lookups) (hc : s'.callers = s.callers.modify j (fun x => { x with phase := p })) : Work cfg s s' := by
  refine ⟨hs, hl, ?_⟩
  intro i c hci hab
  rw [hc] at hci
  rcases getElem?_modify_some hci with ⟨rfl, x, hx, rfl⟩ | ⟨hne, hx⟩
  · exact absurd hab hp
  · exact hx

theorem work_same [DecidableEq K] {cfg : Config K V E} {s s' : State K V E} (hs : Step cfg s s') (hl : s'.lookups = s.lookups)
    (hc : s'.callers = s.callers) : Work cfg s s' := ⟨hs, hl, fun i c hci _ => by rw [hc] at hci; exact hci⟩

theorem lock_progress [DecidableEq K] {cfg : Config K V E} {s : State K V E} (h : Reachable cfg s) {g : Nat} (hl : s.lock = some g) :
    ∃ s', Work cfg s s' := by
  have hi := reachable_inv h
  obtain ⟨hlim, gl, hg⟩ := hi.lockValid g hl
  have hst := (hi.flights g gl hg).2.1.mp hl
  cases hcl : cfg.limits with
  | none => exact absurd hcl hlim
  | some p =>
    obtain ⟨me, mw⟩ := p
    have hscan : Scan s (okAt s) := ⟨base_ok h, fun _ _ h => h⟩
    cases hch : evictChoice cfg s me mw (okAt s) (okAt s) (okAt s) with
    | none => exact ⟨_, work_same (Step.evictStop g gl me mw _ _ _ hg hst hcl ⟨hscan, hscan, hscan⟩ hch) rfl rfl⟩
    | some e => exact ⟨_, work_same (Step.evictOne g gl me mw _ _ _ e hg hst hcl ⟨hscan, hscan, hscan⟩ hch) rfl rfl⟩

theorem flight_progress [DecidableEq K] {cfg : Config K V E} {s : State K V E} (h : Reachable cfg s) (hl : s.lock = none) {f : Nat} {fl : Flight K V E}
    (hf : s.flights[f]? = some fl) (h1 : fl.stage ≠ .created) (h2 : fl.stage ≠ .running) (h3 : fl.stage ≠ .processed) : ∃ s', Work cfg s s' := by
  have hi := reachable_inv h
  obtain ⟨-, hlk, hfo⟩ := hi.flights f fl hf
  cases hst : fl.stage with
  | created => exact absurd hst h1
  | running => exact absurd hst h2
  | processed => exact absurd hst h3
  | returned => exact ⟨_, work_same (Step.count f fl hf hst) rfl rfl⟩
  | counted =>
    rw [hst] at hfo
    cases hm : cfg.mode with
    | async => exact ⟨_, work_same (Step.completeAsync f fl hm hf hst hfo.2.1) rfl rfl⟩
    | blocking =>
      cases hok : isOk fl.returned with
      | true => exact ⟨_, work_same (Step.completeBlocking f fl hm hf (by rw [hst, hok]; rfl) hfo.2.1) rfl rfl⟩
      | false => exact ⟨_, work_same (Step.removeFailed f fl hl hm hf hst hok) rfl rfl⟩
  | removed =>
    rw [hst] at hfo
    exact ⟨_, work_same (Step.completeBlocking f fl hfo.1 hf (by rw [hst, hfo.2.2.1]; rfl) hfo.2.2.2.1) rfl rfl⟩
  | set => exact ⟨_, work_same (Step.notify f fl hf hst) rfl rfl⟩
  | evicting => rw [hl] at hlk; exact absurd (hlk.mpr hst) (by simp)
  | notified =>
    cases hm : cfg.mode with
    | async =>
      cases hok : isOk fl.cell with
      | false => exact ⟨_, work_same (Step.cleanupFailed f fl hl hm hf hst hok) rfl rfl⟩
      | true =>
        by_cases hlim : cfg.limits = none
        · exact ⟨_, work_same (Step.cleanupNothing f fl hf hst (Or.inl ⟨hm, hok, hlim⟩)) rfl rfl⟩
        · exact ⟨_, work_same (Step.evictStart f fl hl hf hst hlim (Or.inl ⟨hm, hok⟩)) rfl rfl⟩
    | blocking =>
      by_cases hlim : cfg.limits = none
      · exact ⟨_, work_same (Step.cleanupNothing f fl hf hst (Or.inr ⟨hm, Or.inr hlim⟩)) rfl rfl⟩
      · by_cases hp : fl.cell = some .panicked
        · exact ⟨_, work_same (Step.cleanupNothing f fl hf hst (Or.inr ⟨hm, Or.inl hp⟩)) rfl rfl⟩
        · exact ⟨_, work_same (Step.evictStart f fl hl hf hst hlim (Or.inr ⟨hm, hp⟩)) rfl rfl⟩

/-- No deadlock: while a call has not ended, the cache can do something, unless it waits for a producer to return. -/
theorem c07_no_deadlock [DecidableEq K] {cfg : Config K V E} {s : State K V E} (h : Reachable cfg s) {i : Nat} {c : Caller K V E}
    (hc : s.callers[i]? = some c) (hne : ¬ ended c.phase)
    (hrun : ∀ (f : Nat) (fl : Flight K V E), s.flights[f]? = some fl → fl.stage ≠ .running) : ∃ s', Work cfg s s' := by
  have hi := reachable_inv h
  cases hl : s.lock with
  | some g => exact lock_progress h hl
  | none =>
    have start : ∀ (j : Nat) (x : Caller K V E) (f : Nat), s.callers[j]? = some x → x.phase = .owner f → ∃ s', Work cfg s s' := by
      intro j x f hx hp
      have : s.callers[j]? = some { key := x.key, phase := .owner f } := by rw [hx, ← hp]
      refine ⟨_, work_caller ?_ (Step.start j x.key f this) rfl rfl⟩
      cases cfg.mode <;> simp
    have hco := hi.callers i c hc
    obtain ⟨key, ph⟩ := c
    unfold CallerOk at hco
    cases ph with
    | done => exact absurd trivial hne
    | abandoned => exact absurd trivial hne
    | counted =>
      cases he : s.entries.find? (fun e => e.key = key) with
      | none => exact ⟨_, work_caller (by simp) (Step.miss i key hl hc he) rfl rfl⟩
      | some e =>
        obtain ⟨fl, hf, -⟩ := hi.entries e (List.mem_of_find?_eq_some he)
        exact ⟨_, work_caller (by simp) (Step.found i key e fl hl hc he hf) rfl rfl⟩
    | owner f => exact start i _ f hc rfl
    | producing f =>
      obtain ⟨fl, hf, -, hcr, -⟩ := hco
      by_cases hp : fl.stage = .processed
      · refine ⟨_, work_caller ?_ (Step.resume i key f fl hc hf hp) rfl rfl⟩
        split <;> simp
      · exact flight_progress h hl hf hcr (hrun f fl hf) hp
    | waiting f =>
      obtain ⟨fl, hf, -⟩ := hco
      exact ⟨_, work_caller (by simp) (Step.arm i key f fl hc hf) rfl rfl⟩
    | armed f seen =>
      obtain ⟨fl, hf, -⟩ := hco
      refine ⟨_, work_caller ?_ (Step.check i key f seen fl hc hf) rfl rfl⟩
      split <;> simp
    | asleep f seen =>
      obtain ⟨fl, hf, -, -⟩ := hco
      by_cases hcell : fl.cell = none
      · by_cases hcr : fl.stage = .created
        · obtain ⟨j, x, hx, hp⟩ := created_owner h f fl hf hcr
          exact start j x f hx hp
        · refine flight_progress h hl hf hcr (hrun f fl hf) ?_
          intro hp
          have := (hi.flights f fl hf).2.2
          rw [hp] at this
          exact this.1 (by rw [← this.2.1, hcell])
      · rcases c07_no_lost_wakeup h hc rfl hf hcell with hw | ⟨-, hw⟩
        · exact ⟨_, work_caller (by simp) hw rfl rfl⟩
        · exact ⟨_, work_same hw rfl rfl⟩

/-- Has the flight notified its waiters? -/
def notifiedAt (s : State K V E) (f : Nat) : Bool := match s.flights[f]? with | some fl => fl.notified | none => false

/-- How much one call can still do. -/
def callWork (s : State K V E) (c : Caller K V E) : Nat :=
  match c.phase with
  | .counted => 20
  | .owner _ => 8
  | .producing _ => 7
  | .waiting f => if notifiedAt s f then 3 else 6
  | .armed f _ => if notifiedAt s f then 2 else 5
  | .asleep _ _ => 4
  | .done _ _ | .abandoned => 0

/-- How much the completion code of one computation can still do. -/
def flightWork (fl : Flight K V E) : Nat :=
  match fl.stage with
  | .created => 9 | .running => 8 | .returned => 7 | .counted => 6 | .removed => 5 | .set => 5 | .notified => 4 | .evicting => 3 | .processed => 0

/-- How much the cache can still do without another call. -/
def work (s : State K V E) : Nat := (s.callers.map (callWork s)).sum + (s.flights.map flightWork).sum + s.entries.length

theorem sum_map_le {α : Type} {l : List α} {a b : α → Nat} (h : ∀ x ∈ l, a x ≤ b x) : (l.map a).sum ≤ (l.map b).sum := by
  induction l with
  | nil => simp
  | cons x l ih =>
    simp only [List.map_cons, List.sum_cons]
    have := h x (by simp)
    have := ih (fun y hy => h y (by simp [hy]))
    omega

theorem sum_modify {α : Type} {l : List α} {i : Nat} {x : α} (a : α → Nat) (g : α → α) (h : l[i]? = some x) :
    ((l.modify i g).map a).sum + a x = (l.map a).sum + a (g x) := by
  induction l generalizing i with
  | nil => simp at h
  | cons y l ih =>
    cases i with
    | zero =>
      simp at h
      subst h
      simp only [List.modify_zero_cons, List.map_cons, List.sum_cons]
      omega
    | succ i =>
      simp at h
      simp only [List.modify_succ_cons, List.map_cons, List.sum_cons]
      have := ih h
      omega

theorem callWork_mono {s s' : State K V E} (h : ∀ f, notifiedAt s f = true → notifiedAt s' f = true) (c : Caller K V E) : callWork s' c ≤ callWork s c := by
  unfold callWork
  cases c.phase with
  | waiting f =>
    dsimp only
    cases hn : notifiedAt s f with
    | true => rw [h f hn]; exact Nat.le_refl _
    | false => cases notifiedAt s' f <;> simp
  | armed f seen =>
    dsimp only
    cases hn : notifiedAt s f with
    | true => rw [h f hn]; exact Nat.le_refl _
    | false => cases notifiedAt s' f <;> simp
  | _ => exact Nat.le_refl _

/-- A step of one computation uses up work. -/
theorem work_flight {s s' : State K V E} {f : Nat} {fl : Flight K V E} (u : Flight K V E → Flight K V E) (hf : s.flights[f]? = some fl)
    (hn : fl.notified = true → (u fl).notified = true) (hw : flightWork (u fl) < flightWork fl)
    (h1 : s'.flights = s.flights.modify f u) (h2 : s'.callers = s.callers) (h3 : s'.entries.length ≤ s.entries.length) : work s' < work s := by
  have hmono : ∀ j, notifiedAt s j = true → notifiedAt s' j = true := by
    intro j hj
    unfold notifiedAt at hj ⊢
    rw [h1]
    by_cases hjf : f = j
    · subst hjf
      rw [getElem?_modify_eq u hf]
      rw [hf] at hj
      exact hn hj
    · rw [getElem?_modify_ne u hjf]; exact hj
  have a1 : (s'.callers.map (callWork s')).sum ≤ (s.callers.map (callWork s)).sum := by
    rw [h2]; exact sum_map_le (fun c _ => callWork_mono hmono c)
  have a2 := sum_modify flightWork u hf
  unfold work
  rw [h1]
  omega

/-- A step of one call uses up work. -/
theorem work_call {s s' : State K V E} {i : Nat} {c : Caller K V E} (p : Phase V E) (hc : s.callers[i]? = some c)
    (hw : callWork s { c with phase := p } < callWork s c) (h1 : s'.flights = s.flights)
    (h2 : s'.callers = s.callers.modify i (fun x => { x with phase := p })) (h3 : s'.entries = s.entries) : work s' < work s := by
  have a1 : ∀ x, callWork s' x = callWork s x := by intro x; unfold callWork notifiedAt; rw [h1]
  have a2 := sum_modify (callWork s) (fun x => { x with phase := p }) hc
  unfold work
  rw [h1, h2, h3, List.map_congr_left (fun x _ => a1 x)]
  omega

/-- Termination: every step but a new call uses up work; a new call brings at most 20. -/
theorem c07_work_decreases [DecidableEq K] {cfg : Config K V E} {s s' : State K V E} (h : Reachable cfg s) (hs : Step cfg s s') :
    (s'.lookups = s.lookups ∧ work s' < work s) ∨ (s'.lookups = s.lookups + 1 ∧ work s' = work s + 20) := by
  have hi := reachable_inv h
  cases hs with
  | call key =>
    refine Or.inr ⟨rfl, ?_⟩
    unfold work
    show ((s.callers ++ [_]).map (callWork s)).sum + _ + _ = _
    simp only [List.map_append, List.sum_append, List.map_cons, List.map_nil, List.sum_cons, List.sum_nil]
    simp only [callWork]
    omega
  | found j key' e gl _ hj he hg =>
    refine Or.inl ⟨rfl, work_call _ hj ?_ rfl rfl rfl⟩
    simp only [callWork]; split <;> omega
  | miss j key' _ hj he =>
    refine Or.inl ⟨rfl, ?_⟩
    have a1 : ∀ (s' : State K V E) (x : Flight K V E), s'.flights = s.flights ++ [x] → ∀ c, callWork s' c ≤ callWork s c := by
      intro s' x hs' c
      apply callWork_mono
      intro f hf
      unfold notifiedAt at hf ⊢
      cases hx : s.flights[f]? with
      | none => rw [hx] at hf; cases hf
      | some y =>
        rw [hx] at hf
        rw [hs', List.getElem?_append_left (List.getElem?_eq_some_iff.mp hx).1, hx]
        exact hf
    have a2 := sum_modify (callWork s) (fun x : Caller K V E => { x with phase := .owner s.flights.length }) hj
    have a3 := sum_map_le (l := s.callers.modify j (fun x : Caller K V E => { x with phase := .owner s.flights.length }))
      (fun c _ => a1 { s.caller j (.owner s.flights.length) with
          misses := s.misses + 1
          nextGeneration := s.nextGeneration + 1
          flights := s.flights ++ [{ key := key', generation := s.nextGeneration + 1, stage := .created, returned := none, cell := none, notified := false }]
          entries := s.entries ++ [{ key := key', flight := s.flights.length, generation := s.nextGeneration + 1 }] } _ rfl c)
    unfold work
    simp only [callWork] at a2
    simp only [State.caller] at a3 ⊢
    simp only [List.map_append, List.sum_append, List.map_cons, List.map_nil, List.sum_cons, List.sum_nil, flightWork, List.length_append,
      List.length_cons, List.length_nil]
    have a4 : (s.callers.map (callWork s)).sum = (s.callers.map (fun c => callWork s c)).sum := rfl
    simp only [callWork] at a3 a4 ⊢
    omega
  | start j key' g hj =>
    refine Or.inl ⟨rfl, ?_⟩
    obtain ⟨gl, hg, -, hst⟩ := hi.callers j _ hj
    have h1 : work (s.caller j (match cfg.mode with | .async => .waiting g | .blocking => .producing g)) < work s := by
      refine work_call _ hj ?_ rfl rfl rfl
      cases cfg.mode
      · simp only [callWork]; split <;> omega
      · simp only [callWork]; omega
    refine Nat.lt_trans ?_ h1
    refine work_flight (s := s.caller j _) (fun fl => { fl with stage := .running }) hg (fun h => h) ?_ rfl rfl (Nat.le_refl _)
    simp [flightWork, hst]
  | finish g gl r hg hst _ =>
    exact Or.inl ⟨rfl, work_flight _ hg (fun h => h) (by simp [flightWork, hst]) rfl rfl (Nat.le_refl _)⟩
  | count g gl hg hst =>
    exact Or.inl ⟨rfl, work_flight _ hg (fun h => h) (by simp [flightWork, hst]) rfl rfl (Nat.le_refl _)⟩
  | removeFailed g gl _ _ hg hst _ =>
    exact Or.inl ⟨rfl, work_flight _ hg (fun h => h) (by simp [flightWork, hst]) rfl rfl (removeIfOwned_sublist _ _ _).length_le⟩
  | completeAsync g gl _ hg hst _ =>
    exact Or.inl ⟨rfl, work_flight _ hg (fun h => h) (by simp [flightWork, hst]) rfl rfl (Nat.le_refl _)⟩
  | notify g gl hg hst =>
    exact Or.inl ⟨rfl, work_flight _ hg (fun _ => rfl) (by simp [flightWork, hst]) rfl rfl (Nat.le_refl _)⟩
  | completeBlocking g gl _ hg hst _ =>
    refine Or.inl ⟨rfl, work_flight _ hg (fun _ => rfl) ?_ rfl rfl (Nat.le_refl _)⟩
    split at hst <;> simp [flightWork, hst]
  | cleanupFailed g gl _ _ hg hst _ =>
    exact Or.inl ⟨rfl, work_flight _ hg (fun h => h) (by simp [flightWork, hst]) rfl rfl (removeIfOwned_sublist _ _ _).length_le⟩
  | cleanupNothing g gl hg hst _ =>
    exact Or.inl ⟨rfl, work_flight _ hg (fun h => h) (by simp [flightWork, hst]) rfl rfl (Nat.le_refl _)⟩
  | evictStart g gl _ hg hst _ _ =>
    exact Or.inl ⟨rfl, work_flight _ hg (fun h => h) (by simp [flightWork, hst]) rfl rfl (Nat.le_refl _)⟩
  | evictStop g gl _ _ _ _ _ hg hst _ _ _ =>
    exact Or.inl ⟨rfl, work_flight _ hg (fun h => h) (by simp [flightWork, hst]) rfl rfl (Nat.le_refl _)⟩
  | evictOne g gl me mw cnt wgt old e hg hst _ _ hch =>
    refine Or.inl ⟨rfl, ?_⟩
    have he := (evictChoice_mem hch).1
    have : (s.entries.filter (fun x => x.key ≠ e.key)).length < s.entries.length := by
      apply List.length_filter_lt_length_iff_exists.mpr
      exact ⟨e, he, by simp⟩
    unfold work
    dsimp only
    have a1 : ∀ (es : List (Entry K)) (n : Nat) (b : List Nat) (c : Caller K V E), callWork { s with entries := es, evictions := n, base := b } c = callWork s c := fun _ _ _ _ => rfl
    rw [List.map_congr_left (fun c _ => a1 _ _ _ c)]
    omega
  | resume j key' f fl hj hf hst =>
    refine Or.inl ⟨rfl, work_call _ hj ?_ rfl rfl rfl⟩
    have hfo := (hi.flights f fl hf).2.2
    rw [hst] at hfo
    split
    · simp only [callWork]; omega
    · simp only [callWork]; split <;> omega
  | arm j key' f fl hj hf =>
    refine Or.inl ⟨rfl, work_call _ hj ?_ rfl rfl rfl⟩
    simp only [callWork]; split <;> omega
  | check j key' f seen fl hj hf =>
    refine Or.inl ⟨rfl, work_call _ hj ?_ rfl rfl rfl⟩
    split
    · simp only [callWork]; split <;> omega
    · rename_i hcell
      have hn : notifiedAt s f = false := by
        unfold notifiedAt
        rw [hf]
        have hfo := (hi.flights f fl hf).2.2
        revert hfo
        dsimp only
        cases fl.stage <;> simp only
        · exact fun h => h.2.2.1
        · exact fun h => h.2.2.1
        · exact fun h => h.2.2.1
        · exact fun h => h.2.2.1
        · exact fun h => h.2.2.2.2.1
        · exact fun h => h.2.2.2
        · exact fun h => absurd (by rw [← h.2.1, hcell]) h.1
        · exact fun h => absurd (by rw [← h.2.1, hcell]) h.1
        · exact fun h => absurd (by rw [← h.2.1, hcell]) h.1
      simp [callWork, hn]
  | wake j key' f fl hj hf hn =>
    refine Or.inl ⟨rfl, work_call _ hj ?_ rfl rfl rfl⟩
    have : notifiedAt s f = true := by unfold notifiedAt; rw [hf]; exact hn
    simp [callWork, this]
  | abandon j key' f seen hm hj =>
    rcases hj with hj | hj | hj <;> refine Or.inl ⟨rfl, work_call _ hj ?_ rfl rfl rfl⟩
    · simp only [callWork]; split <;> omega
    · simp only [callWork]; omega
    · simp only [callWork]; split <;> omega

/-- `n` steps. -/
inductive StepsN [DecidableEq K] (cfg : Config K V E) : Nat → State K V E → State K V E → Prop where
  | zero (s) : StepsN cfg 0 s s
  | succ {n s s' s''} : StepsN cfg n s s' → Step cfg s' s'' → StepsN cfg (n + 1) s s''

/-- An execution in which `d` calls start takes at most `work s + 21 d` steps: with finitely many calls nothing runs forever. -/
theorem c07_terminates [DecidableEq K] {cfg : Config K V E} {n : Nat} {s s' : State K V E} (h : Reachable cfg s) (hs : StepsN cfg n s s') :
    s.lookups ≤ s'.lookups ∧ n + work s' ≤ work s + 21 * (s'.lookups - s.lookups) := by
  have main : Reachable cfg s' ∧ s.lookups ≤ s'.lookups ∧ n + work s' ≤ work s + 21 * (s'.lookups - s.lookups) := by
    induction hs with
    | zero => exact ⟨h, Nat.le_refl _, by omega⟩
    | succ _ hstep ih =>
      obtain ⟨hr, hle, hw⟩ := ih h
      refine ⟨Reachable.step hr hstep, ?_⟩
      rcases c07_work_decreases hr hstep with ⟨h1, h2⟩ | ⟨h1, h2⟩ <;> constructor <;> omega
  exact main.2

/-! ### C08 -/

theorem okAt_valueAt (s : State K V E) (f : Nat) : okAt s f = (valueAt s f).isSome := by
  unfold okAt valueAt
  cases s.flights[f]? with
  | none => rfl
  | some fl =>
    obtain ⟨k, g, st, ret, cell, n⟩ := fl
    cases cell with
    | none => rfl
    | some r => cases r <;> rfl

theorem weightAt_valueAt (cfg : Config K V E) (s : State K V E) (f : Nat) : weightAt cfg s f = ((valueAt s f).map cfg.weight).getD 0 := by
  unfold weightAt valueAt
  cases s.flights[f]? with
  | none => rfl
  | some fl =>
    obtain ⟨k, g, st, ret, cell, n⟩ := fl
    cases cell with
    | none => rfl
    | some r => cases r <;> rfl

theorem filterMap_length {α β : Type} (l : List α) (a : α → Option β) : (l.filterMap a).length = (l.filter (fun x => (a x).isSome)).length := by
  induction l with
  | nil => rfl
  | cons x l ih =>
    rw [List.filterMap_cons, List.filter_cons]
    cases a x <;> simp [ih]

theorem filterMap_sum {α β : Type} (l : List α) (a : α → Option β) (w : β → Nat) :
    ((l.filterMap a).map w).sum = ((l.filter (fun x => (a x).isSome)).map (fun x => ((a x).map w).getD 0)).sum := by
  induction l with
  | nil => rfl
  | cons x l ih =>
    rw [List.filterMap_cons, List.filter_cons]
    cases h : a x <;> simp [ih, h]

theorem retained_length (s : State K V E) : (retained s).length = (s.entries.filter (fun e => okAt s e.flight)).length := by
  unfold retained
  rw [filterMap_length]
  simp only [okAt_valueAt]

theorem retained_weight (cfg : Config K V E) (s : State K V E) :
    ((retained s).map cfg.weight).sum = ((s.entries.filter (fun e => okAt s e.flight)).map (fun e => weightAt cfg s e.flight)).sum := by
  unfold retained
  rw [filterMap_sum]
  simp only [okAt_valueAt, weightAt_valueAt]

/-- Once every successful completion has been processed, what is retained is within the limits. -/
theorem c08_within_limits [DecidableEq K] {cfg : Config K V E} {s : State K V E} (h : Reachable cfg s) {maxEntries maxWeight : Nat}
    (hl : cfg.limits = some (maxEntries, maxWeight))
    (hquiet : ∀ (f : Nat) (fl : Flight K V E) (v : V), s.flights[f]? = some fl → fl.cell = some (.ok v) → fl.stage = .processed) :
    (retained s).length ≤ maxEntries ∧ ((retained s).map cfg.weight).sum ≤ maxWeight := by
  have hq : Quiet s := by
    intro f fl hf hok
    cases hc : fl.cell with
    | none => rw [hc] at hok; cases hok
    | some r =>
      cases r with
      | ok v => exact hquiet f fl v hf hc
      | err e => rw [hc] at hok; cases hok
      | panicked => rw [hc] at hok; cases hok
  obtain ⟨h1, h2⟩ := (reachable_inv h).limits hq maxEntries maxWeight hl
  exact ⟨by rw [retained_length]; exact h1, by rw [retained_weight]; exact h2⟩

/-- An ephemeral cache (no entries allowed) retains nothing. -/
theorem c08_ephemeral [DecidableEq K] {cfg : Config K V E} {s : State K V E} (h : Reachable cfg s) {maxWeight : Nat}
    (hl : cfg.limits = some (0, maxWeight))
    (hquiet : ∀ (f : Nat) (fl : Flight K V E) (v : V), s.flights[f]? = some fl → fl.cell = some (.ok v) → fl.stage = .processed) :
    retained s = [] := by
  have := (c08_within_limits h hl hquiet).1
  exact List.length_eq_zero_iff.mp (by omega)

/-- What leaves the map: a failed computation, or the oldest completed one while a limit is exceeded.  Computations are numbered in
order of creation; `s.base` are those completed when the eviction iteration began. -/
theorem c08_removed [DecidableEq K] {cfg : Config K V E} {s s' : State K V E} (h : Reachable cfg s) (hs : Step cfg s s') {e : Entry K}
    (he : e ∈ s.entries) (he' : e ∉ s'.entries) :
    (s'.evictions = s.evictions ∧ ∃ fl r, s.flights[e.flight]? = some fl ∧ fl.returned = some r ∧ r.isOk = false) ∨
    (s'.evictions = s.evictions + 1 ∧ (∃ fl v, s.flights[e.flight]? = some fl ∧ fl.cell = some (.ok v)) ∧
      (∀ e' ∈ s.entries, e'.flight ∈ s.base → e.flight ≤ e'.flight) ∧ (∀ x ∈ s.entries, x ≠ e → x ∈ s'.entries) ∧
      ∃ maxEntries maxWeight, cfg.limits = some (maxEntries, maxWeight) ∧
        (maxEntries < (retained s).length ∨ maxWeight < ((retained s).map cfg.weight).sum)) := by
  have hi := reachable_inv h
  have failed : ∀ (g : Nat) (gl : Flight K V E), s.flights[g]? = some gl → gl.returned ≠ none → isOk gl.returned = false → e.flight = g →
      ∃ fl r, s.flights[e.flight]? = some fl ∧ fl.returned = some r ∧ r.isOk = false := by
    rintro g gl hg hne hok rfl
    cases hr : gl.returned with
    | none => exact absurd hr hne
    | some r => exact ⟨gl, r, hg, hr, by rw [hr] at hok; exact hok⟩
  cases hs with
  | miss => exact absurd (List.mem_append_left _ he) he'
  | removeFailed g gl _ _ hg hst hr =>
    refine Or.inl ⟨rfl, failed g gl hg ?_ hr ?_⟩
    · have := (hi.flights g gl hg).2.2; rw [hst] at this; exact this.1
    · by_contra hne
      exact he' ((mem_removeIfOwned hi hg e).mpr ⟨he, hne⟩)
  | cleanupFailed g gl _ _ hg hst hr =>
    have hfo := (hi.flights g gl hg).2.2
    rw [hst] at hfo
    refine Or.inl ⟨rfl, failed g gl hg hfo.1 (by rw [← hfo.2.1]; exact hr) ?_⟩
    by_contra hne
    exact he' ((mem_removeIfOwned hi hg e).mpr ⟨he, hne⟩)
  | evictOne g gl me mw cnt wgt old x hg hst hlim hscan hch =>
    have hx := evictChoice_mem hch
    have hk : e.key = x.key := by
      by_contra hne
      exact he' (List.mem_filter.mpr ⟨he, by simpa using hne⟩)
    have hex : e = x := entry_unique hi he hx.1 hk
    subst hex
    have hgen : ∀ y ∈ s.entries, y.generation = y.flight + 1 := by
      intro y hy
      obtain ⟨yl, hyl, -, hg⟩ := hi.entries y hy
      rw [← hg, (hi.flights _ _ hyl).1]
    refine Or.inr ⟨rfl, ?_, ?_, ?_, me, mw, hlim, ?_⟩
    · have hok := hscan.2.2.2 e he hx.2
      unfold okAt at hok
      split at hok
      · rename_i fl hf
        cases hc : fl.cell with
        | none => rw [hc] at hok; cases hok
        | some r =>
          cases r with
          | ok v => exact ⟨fl, v, hf, hc⟩
          | err e => rw [hc] at hok; cases hok
          | panicked => rw [hc] at hok; cases hok
      · cases hok
    · intro y hy hb
      unfold evictChoice at hch
      split at hch
      · cases hch
      · have := minBy_le (lt := fun a b : Entry K => decide (a.generation < b.generation)) (by simp) (by simp; intros; omega)
          (by simp; intros; omega) hch y (List.mem_filter.mpr ⟨hy, hscan.2.2.1 _ hb⟩)
        simp at this
        rw [hgen e he, hgen y hy] at this
        omega
    · intro y hy hne
      refine List.mem_filter.mpr ⟨hy, ?_⟩
      simp only [ne_eq, decide_eq_true_eq]
      exact fun hk => hne (entry_unique hi hy he hk)
    · unfold evictChoice at hch
      split at hch
      · cases hch
      · rename_i hnot
        have hsub : ∀ seen, Scan s seen → (s.entries.filter (fun e => seen e.flight)).Sublist (s.entries.filter (fun e => okAt s e.flight)) := by
          intro seen hsc
          have : s.entries.filter (fun e => seen e.flight) = (s.entries.filter (fun e => okAt s e.flight)).filter (fun e => seen e.flight) := by
            rw [List.filter_filter]
            apply List.filter_congr
            intro y hy
            cases hse : seen y.flight with
            | false => simp
            | true => simp [hsc.2 y hy hse]
          rw [this]
          exact List.filter_sublist
        rw [retained_length, retained_weight]
        have l1 := (hsub cnt hscan.1).length_le
        have l2 := Inv.sum_le (hsub wgt hscan.2.1) (fun e => weightAt cfg s e.flight)
        by_cases hA : (s.entries.filter (fun e => cnt e.flight)).length ≤ me
        · by_cases hB : ((s.entries.filter (fun e => wgt e.flight)).map (fun e => weightAt cfg s e.flight)).sum ≤ mw
          · exact absurd ⟨hA, hB⟩ hnot
          · exact Or.inr (by omega)
        · exact Or.inl (by omega)
  | _ => exact absurd he he'

/-! ### C09 -/

/-- Nobody who has not yet looked up the map when a failure has been processed gets that failure. -/
theorem c09_failure_not_served [DecidableEq K] {cfg : Config K V E} {s s' : State K V E} (h : Reachable cfg s) (hs : Steps cfg s s') {f : Nat}
    {fl : Flight K V E} {r : Res V E} (hf : s.flights[f]? = some fl) (hst : fl.stage = .processed) (hr : fl.returned = some r) (hfail : r.isOk = false)
    {i : Nat} {c : Caller K V E} (hc : s.callers[i]? = some c) (hcount : c.phase = .counted) :
    (∀ e ∈ s'.entries, e.flight ≠ f) ∧ ∃ c', s'.callers[i]? = some c' ∧ boundTo c'.phase ≠ some f := by
  have gone : ∀ (t : State K V E), Reachable cfg t → t.flights[f]? = some fl → ∀ e ∈ t.entries, e.flight ≠ f := by
    intro t ht hft
    have := ((reachable_inv ht).flights f fl hft).2.2
    rw [hst] at this
    exact this.2.2.2 (by rw [this.2.1, hr]; exact hfail)
  have main : s'.flights[f]? = some fl ∧ ∃ c', s'.callers[i]? = some c' ∧ boundTo c'.phase ≠ some f := by
    induction hs with
    | refl => exact ⟨hf, c, hc, by rw [hcount]; simp [boundTo]⟩
    | tail hpre hstep ih =>
      obtain ⟨hft, x, hx, hbx⟩ := ih
      have hrt := steps_reachable h hpre
      obtain ⟨fl', hfl', -, -, -, -, hp⟩ := step_flight (reachable_inv hrt) hstep hft
      rw [hp hst] at hfl'
      refine ⟨hfl', ?_⟩
      obtain ⟨y, hy, -, hch⟩ := step_caller hstep hx
      refine ⟨y, hy, ?_⟩
      rcases hch with heq | ⟨-, g, hg, hor⟩ | ⟨g, hg, -, hg'⟩
      · rw [heq]; exact hbx
      · rw [hg]
        rintro hgf
        cases hgf
        rcases hor with ⟨e, he, hef⟩ | hlen
        · exact gone _ hrt hft e he hef
        · have := (List.getElem?_eq_some_iff.mp hft).1
          omega
      · rcases hg' with h | h
        · rw [h, ← hg]; exact hbx
        · rw [h]; simp [boundTo]
  exact ⟨gone s' (steps_reachable h hs) main.1, main.2⟩

/-- A lookup that finds no entry for its key starts a computation of its own. -/
theorem c09_fresh_producer [DecidableEq K] {cfg : Config K V E} {s s' : State K V E} (hs : Step cfg s s') {i : Nat} {c c' : Caller K V E}
    (hc : s.callers[i]? = some c) (hcount : c.phase = .counted) (hnone : ∀ e ∈ s.entries, e.key ≠ c.key) (hc' : s'.callers[i]? = some c') :
    c' = c ∨ (c'.phase = .owner s.flights.length ∧ s'.flights.length = s.flights.length + 1 ∧ s'.misses = s.misses + 1) := by
  have same : s'.callers[i]? = s.callers[i]? → c' = c := by
    intro h; rw [h, hc] at hc'; cases hc'; rfl
  have key : ∀ (j : Nat) (x : Caller K V E) (p : Phase V E), s.callers[j]? = some x → x.phase ≠ .counted →
      s'.callers = s.callers.modify j (fun x => { x with phase := p }) → c' = c := by
    intro j x p hx hne hmod
    apply same
    rw [hmod, getElem?_modify_ne]
    rintro rfl
    rw [hc] at hx; cases hx
    exact hne hcount
  cases hs with
  | call =>
    refine Or.inl (same ?_)
    show (s.callers ++ [_])[i]? = _
    rw [List.getElem?_append_left (List.getElem?_eq_some_iff.mp hc).1]
  | found j key' e gl _ hj he hg =>
    by_cases hij : j = i
    · subst hij
      rw [hc] at hj; cases hj
      exact absurd (by simpa using List.find?_some he) (hnone e (List.mem_of_find?_eq_some he))
    · refine Or.inl (same ?_)
      exact getElem?_modify_ne _ hij
  | miss j key' _ hj he =>
    by_cases hij : j = i
    · subst hij
      change (s.callers.modify j _)[j]? = _ at hc'
      rw [getElem?_modify_eq _ hj] at hc'
      cases hc'
      exact Or.inr ⟨rfl, by simp, rfl⟩
    · refine Or.inl (same ?_)
      exact getElem?_modify_ne _ hij
  | start j key' g hj => exact Or.inl (key j _ _ hj (by simp) rfl)
  | resume j key' f fl hj hf hst => exact Or.inl (key j _ _ hj (by simp) rfl)
  | arm j key' f fl hj hf => exact Or.inl (key j _ _ hj (by simp) rfl)
  | check j key' f seen fl hj hf => exact Or.inl (key j _ _ hj (by simp) rfl)
  | wake j key' f fl hj hf hn => exact Or.inl (key j _ _ hj (by simp) rfl)
  | abandon j key' f seen hm hj =>
    rcases hj with hj | hj | hj <;> exact Or.inl (key j _ _ hj (by simp) rfl)
  | _ => exact Or.inl (same rfl)

/-- The statistics: every lookup that passed the map lock is a hit, a join or a miss; every miss is one computation; producers are the
computations that started, failures those that returned an error and were counted. -/
theorem c09_counters [DecidableEq K] {cfg : Config K V E} {s : State K V E} (h : Reachable cfg s) :
    s.lookups = s.hits + s.joined + s.misses + s.callers.countP (fun c => match c.phase with | .counted => true | _ => false) ∧
    s.misses = s.flights.length ∧
    s.producers + s.flights.countP (fun fl => decide (fl.stage = .created)) = s.misses ∧
    s.failures ≤ s.producers := by
  have hi := reachable_inv h
  refine ⟨hi.lookups, hi.misses, ?_, ?_⟩
  · rw [hi.producers, hi.misses]
    have := List.length_eq_countP_add_countP notCreated (l := s.flights)
    rw [this]
    congr 1
    apply List.countP_congr
    intro x _
    simp [notCreated]
  · rw [hi.failures, hi.producers]
    apply List.countP_mono_left
    intro x _ hx
    unfold failureCounted at hx
    unfold notCreated
    cases hst : x.stage <;> simp_all

/-! ### Concrete runs -/

private def sampleCfg : Config Nat Nat Nat := { mode := .async, limits := some (1, 100), weight := fun v => v }

/-- Two calls for key 1: the second joins, sleeps, is woken and both get the one result. -/
example : ∃ s : State Nat Nat Nat, Reachable sampleCfg s ∧ (s.callers.map (·.phase)) = [.done 0 (.ok 5), .done 0 (.ok 5)] ∧
    s.producers = 1 ∧ s.joined = 1 ∧ retained s = [5] := by
  have r := Reachable.init (cfg := sampleCfg)
  have r := r.step (.call 1)
  have r := r.step (.miss 0 1 rfl rfl rfl)
  have r := r.step (.start 0 1 0 rfl)
  have r := r.step (.call 1)
  have r := r.step (.found 1 1 ⟨1, 0, 1⟩ ⟨1, 1, .running, none, none, false⟩ rfl rfl rfl rfl)
  have r := r.step (.arm 1 1 0 _ rfl rfl)
  have r := r.step (.check 1 1 0 false _ rfl rfl)
  have r := r.step (.finish 0 _ (.ok 5) rfl rfl (by simp))
  have r := r.step (.count 0 _ rfl rfl)
  have r := r.step (.completeAsync 0 _ rfl rfl rfl rfl)
  have r := r.step (.notify 0 _ rfl rfl)
  have r := r.step (.wake 1 1 0 _ rfl rfl rfl)
  have r := r.step (.arm 1 1 0 _ rfl rfl)
  have r := r.step (.check 1 1 0 true _ rfl rfl)
  have r := r.step (.arm 0 1 0 _ rfl rfl)
  have r := r.step (.check 0 1 0 true _ rfl rfl)
  exact ⟨_, r, rfl, rfl, rfl, rfl⟩

/-- Two keys under a limit of one entry: completing the second evicts the first. -/
example : ∃ s : State Nat Nat Nat, Reachable sampleCfg s ∧ s.evictions = 1 ∧ retained s = [6] ∧ s.misses = 2 ∧ s.failures = 0 := by
  have r := Reachable.init (cfg := sampleCfg)
  have r := r.step (.call 1)
  have r := r.step (.miss 0 1 rfl rfl rfl)
  have r := r.step (.start 0 1 0 rfl)
  have r := r.step (.call 2)
  have r := r.step (.miss 1 2 rfl rfl rfl)
  have r := r.step (.start 1 2 1 rfl)
  have r := r.step (.finish 1 _ (.ok 6) rfl rfl (by simp))
  have r := r.step (.finish 0 _ (.ok 5) rfl rfl (by simp))
  have r := r.step (.count 0 _ rfl rfl)
  have r := r.step (.count 1 _ rfl rfl)
  have r := r.step (.completeAsync 0 _ rfl rfl rfl rfl)
  have r := r.step (.completeAsync 1 _ rfl rfl rfl rfl)
  have r := r.step (.notify 0 _ rfl rfl)
  have r := r.step (.notify 1 _ rfl rfl)
  have r := r.step (.evictStart 1 _ rfl rfl rfl (by simp [sampleCfg]) (Or.inl ⟨rfl, rfl⟩))
  have r := r.step (.evictOne 1 _ 1 100 (fun _ => true) (fun _ => true) (fun _ => true) ⟨1, 0, 1⟩ rfl rfl rfl
    ⟨⟨by simp, by decide⟩, ⟨by simp, by decide⟩, ⟨by simp, by decide⟩⟩ rfl)
  have r := r.step (.evictStop 1 _ 1 100 (fun _ => true) (fun _ => true) (fun _ => true) rfl rfl rfl
    ⟨⟨by simp, by decide⟩, ⟨by simp, by decide⟩, ⟨by simp, by decide⟩⟩ rfl)
  exact ⟨_, r, rfl, rfl, rfl, rfl⟩

/-- A failed computation leaves the map and the next call computes again. -/
example : ∃ s : State Nat Nat Nat, Reachable sampleCfg s ∧ s.misses = 2 ∧ s.failures = 1 ∧
    (s.callers.map (·.phase)) = [.waiting 0, .owner 1] := by
  have r := Reachable.init (cfg := sampleCfg)
  have r := r.step (.call 1)
  have r := r.step (.miss 0 1 rfl rfl rfl)
  have r := r.step (.start 0 1 0 rfl)
  have r := r.step (.finish 0 _ (.err 9) rfl rfl (by simp))
  have r := r.step (.count 0 _ rfl rfl)
  have r := r.step (.completeAsync 0 _ rfl rfl rfl rfl)
  have r := r.step (.notify 0 _ rfl rfl)
  have r := r.step (.cleanupFailed 0 _ rfl rfl rfl rfl rfl)
  have r := r.step (.call 1)
  have r := r.step (.miss 1 1 rfl rfl rfl)
  exact ⟨_, r, rfl, rfl, rfl⟩

end Verif.SingleFlight
