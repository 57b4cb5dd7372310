import Verif.Lemmas.FlowTypes
/-!
What code leaves alone, and that code which the control flow analysis calls diverging does not end with a value.
-/
namespace Verif.FlowTypes
open Verif.Types

variable {W : World}

/-! ### what code leaves alone -/

/-- Only variables in `X` change, only sites in `S` are read, `return` needs `r`, `break` and `next` need `j`. -/
def Tame (X S : List Nat) (r j : Bool) (a : Beh W) : Prop :=
  ∀ σ t o σ', a σ t o σ' → (∀ x, x ∉ X → σ' x = σ x) ∧ (∀ p ∈ t, p.1 ∈ S) ∧ (∀ v, o = .ret v → r = true) ∧
    (o = .brk ∨ o = .nxt → j = true)

theorem tame_mono {X S X' S' : List Nat} {r j r' j' : Bool} {a : Beh W} (h : Tame X S r j a) (hX : X ⊆ X') (hS : S ⊆ S')
    (hr : r = true → r' = true) (hj : j = true → j' = true) : Tame X' S' r' j' a := by
  intro σ t o σ' ha
  obtain ⟨h1, h2, h3, h4⟩ := h σ t o σ' ha
  exact ⟨fun x hx => h1 x (fun h => hx (hX h)), fun p hp => hS (h2 p hp), fun v e => hr (h3 v e), fun e => hj (h4 e)⟩

variable {X S : List Nat} {r j : Bool}

theorem tame_some {P : W.V → Prop} : Tame X S r j (Some' P) := by
  intro σ t o σ' h
  cases h <;> simp

theorem tame_now_val {v : W.V} : Tame X S r j (Now (.val v)) := by
  intro σ t o σ' h
  cases h; simp

theorem tame_now_raised : Tame (W := W) X S r j (Now .raised) := by
  intro σ t o σ' h
  cases h; simp

theorem tame_bind {a : Beh W} {k : W.V → Beh W} (ha : Tame X S r j a) (hk : ∀ v, Tame X S r j (k v)) : Tame X S r j (Bind a k) := by
  intro σ t o σ' h
  cases h with
  | leaves h _ => exact ha _ _ _ _ h
  | next h h' =>
    obtain ⟨a1, a2, -, -⟩ := ha _ _ _ _ h
    obtain ⟨k1, k2, k3, k4⟩ := hk _ _ _ _ _ h'
    refine ⟨fun x hx => by rw [k1 x hx, a1 x hx], ?_, k3, k4⟩
    intro p hp
    rcases List.mem_append.mp hp with hp | hp
    · exact a2 p hp
    · exact k2 p hp

theorem tame_cond {v : W.V} {a b : Beh W} (ha : Tame X S r j a) (hb : Tame X S r j b) : Tame X S r j (Cond v a b) := by
  intro σ t o σ' h
  cases h with
  | yes _ h => exact ha _ _ _ _ h
  | no _ h => exact hb _ _ _ _ h

theorem tame_either {a b : Beh W} (ha : Tame X S r j a) (hb : Tame X S r j b) : Tame X S r j (Either a b) := by
  intro σ t o σ' h
  cases h with
  | left h => exact ha _ _ _ _ h
  | right h => exact hb _ _ _ _ h

theorem tame_store {x : Nat} {v : W.V} (hx : x ∈ X) : Tame X S r j (StoreB x v) := by
  intro σ t o σ' h
  cases h
  refine ⟨?_, by simp, by simp, by simp⟩
  intro y hy
  simp only [Store.set]
  split
  · next e => subst e; exact absurd hx hy
  · rfl

theorem tame_read {x i : Nat} (hi : i ∈ S) : Tame (W := W) X S r j (ReadB x i) := by
  intro σ t o σ' h
  cases h <;> simp [hi]

theorem tame_rescue {a b : Beh W} {e : W.V → Beh W} (ha : Tame X S r j a) (hb : Tame X S r j b) (he : ∀ v, Tame X S r j (e v)) :
    Tame X S r j (Rescue a b e) := by
  intro σ t o σ' h
  cases h with
  | leaves h _ _ => exact ha _ _ _ _ h
  | normal h h' =>
    obtain ⟨a1, a2, -, -⟩ := ha _ _ _ _ h
    obtain ⟨k1, k2, k3, k4⟩ := he _ _ _ _ _ h'
    refine ⟨fun x hx => by rw [k1 x hx, a1 x hx], ?_, k3, k4⟩
    intro p hp
    rcases List.mem_append.mp hp with hp | hp
    · exact a2 p hp
    · exact k2 p hp
  | handled h h' =>
    obtain ⟨a1, a2, -, -⟩ := ha _ _ _ _ h
    obtain ⟨k1, k2, k3, k4⟩ := hb _ _ _ _ h'
    refine ⟨fun x hx => by rw [k1 x hx, a1 x hx], ?_, k3, k4⟩
    intro p hp
    rcases List.mem_append.mp hp with hp | hp
    · exact a2 p hp
    · exact k2 p hp

theorem tame_ensure {a b : Beh W} (ha : Tame X S r j a) (hb : Tame X S r j b) : Tame X S r j (Ensure a b) := by
  intro σ t o σ' h
  cases h with
  | normal h h' =>
    obtain ⟨a1, a2, a3, a4⟩ := ha _ _ _ _ h
    obtain ⟨k1, k2, -, -⟩ := hb _ _ _ _ h'
    refine ⟨fun x hx => by rw [k1 x hx, a1 x hx], ?_, a3, a4⟩
    intro p hp
    rcases List.mem_append.mp hp with hp | hp
    · exact a2 p hp
    · exact k2 p hp
  | leaves h h' _ =>
    obtain ⟨a1, a2, -, -⟩ := ha _ _ _ _ h
    obtain ⟨k1, k2, k3, k4⟩ := hb _ _ _ _ h'
    refine ⟨fun x hx => by rw [k1 x hx, a1 x hx], ?_, k3, k4⟩
    intro p hp
    rcases List.mem_append.mp hp with hp | hp
    · exact a2 p hp
    · exact k2 p hp

theorem tame_loop {w : Bool} {c b : Beh W} {j' : Bool} (hc : Tame X S r j c) (hb : Tame X S r j' b) : Tame X S r j (LoopB w c b) := by
  intro σ t o σ' h
  induction h with
  | done h _ =>
    obtain ⟨a1, a2, -, -⟩ := hc _ _ _ _ h
    exact ⟨a1, a2, by simp, by simp⟩
  | condBreak h =>
    obtain ⟨a1, a2, -, -⟩ := hc _ _ _ _ h
    exact ⟨a1, a2, by simp, by simp⟩
  | condLeaves h _ _ => exact hc _ _ _ _ h
  | again h _ h' _ _ ih =>
    obtain ⟨a1, a2, -, -⟩ := hc _ _ _ _ h
    obtain ⟨k1, k2, -, -⟩ := hb _ _ _ _ h'
    obtain ⟨i1, i2, i3, i4⟩ := ih
    refine ⟨fun x hx => by rw [i1 x hx, k1 x hx, a1 x hx], ?_, i3, i4⟩
    intro p hp
    simp only [List.mem_append] at hp
    rcases hp with (hp | hp) | hp
    · exact a2 p hp
    · exact k2 p hp
    · exact i2 p hp
  | «break» h _ h' =>
    obtain ⟨a1, a2, -, -⟩ := hc _ _ _ _ h
    obtain ⟨k1, k2, -, -⟩ := hb _ _ _ _ h'
    refine ⟨fun x hx => by rw [k1 x hx, a1 x hx], ?_, by simp, by simp⟩
    intro p hp
    rcases List.mem_append.mp hp with hp | hp
    · exact a2 p hp
    · exact k2 p hp
  | leaves h _ h' _ h1 h2 =>
    obtain ⟨a1, a2, -, -⟩ := hc _ _ _ _ h
    obtain ⟨k1, k2, k3, k4⟩ := hb _ _ _ _ h'
    refine ⟨fun x hx => by rw [k1 x hx, a1 x hx], ?_, k3, fun e => (e.elim h2 h1).elim⟩
    intro p hp
    rcases List.mem_append.mp hp with hp | hp
    · exact a2 p hp
    · exact k2 p hp

/-- Side goals of `tame_mono`. -/
macro "sub" : tactic => `(tactic| first
  | (intro _ h; simp only [written, writtenC, sites, sitesC, List.mem_append, List.mem_cons]; tauto)
  | (intro h; simp only [returns, returnsC, jumps, jumpsC, h, Bool.true_or, Bool.or_true]))

mutual
theorem run_tame : ∀ e : Expr, Tame (W := W) (written e) (sites e) (returns e) (jumps e) (run W e)
  | .lit _ => tame_some
  | .read _ _ => tame_read (by simp [sites])
  | .write _ e => tame_bind (tame_mono (run_tame e) (by sub) (by sub) (by sub) (by sub)) (fun _ => tame_store (by simp [written]))
  | .const _ => tame_some
  | .self => tame_some
  | .call0 r _ => tame_bind (tame_mono (run_tame r) (by sub) (by sub) (by sub) (by sub)) (fun _ => tame_some)
  | .call r _ a => tame_bind (tame_mono (run_tame r) (by sub) (by sub) (by sub) (by sub))
      (fun _ => tame_bind (tame_mono (run_tame a) (by sub) (by sub) (by sub) (by sub)) (fun _ => tame_some))
  | .seq a b => tame_bind (tame_mono (run_tame a) (by sub) (by sub) (by sub) (by sub))
      (fun _ => tame_mono (run_tame b) (by sub) (by sub) (by sub) (by sub))
  | .paren e => tame_mono (run_tame e) (by sub) (by sub) (by sub) (by sub)
  | .ifE c t e => tame_bind (tame_mono (run_tame c) (by sub) (by sub) (by sub) (by sub))
      (fun _ => tame_cond (tame_mono (run_tame t) (by sub) (by sub) (by sub) (by sub))
        (tame_mono (run_tame e) (by sub) (by sub) (by sub) (by sub)))
  | .unlessE c t e => tame_bind (tame_mono (run_tame c) (by sub) (by sub) (by sub) (by sub))
      (fun _ => tame_cond (tame_mono (run_tame e) (by sub) (by sub) (by sub) (by sub))
        (tame_mono (run_tame t) (by sub) (by sub) (by sub) (by sub)))
  | .caseE s ws e => tame_bind (tame_mono (run_tame s) (by sub) (by sub) (by sub) (by sub))
      (fun _ => runClauses_tame ws _ _ _ _ _ (by sub) (by sub) (by sub) (by sub)
        (tame_mono (run_tame e) (by sub) (by sub) (by sub) (by sub)))
  | .loopE _ c b => tame_loop (j' := jumps b) (tame_mono (run_tame c) (by sub) (by sub) (by sub) (by sub))
      (tame_mono (run_tame b) (by sub) (by sub) (by sub) (fun h => h))
  | .andE a b => tame_bind (tame_mono (run_tame a) (by sub) (by sub) (by sub) (by sub))
      (fun _ => tame_cond (tame_mono (run_tame b) (by sub) (by sub) (by sub) (by sub)) tame_now_val)
  | .orE a b => tame_bind (tame_mono (run_tame a) (by sub) (by sub) (by sub) (by sub))
      (fun _ => tame_cond tame_now_val (tame_mono (run_tame b) (by sub) (by sub) (by sub) (by sub)))
  | .beginE b rs n => tame_ensure (tame_rescue (tame_mono (run_tame b) (by sub) (by sub) (by sub) (by sub))
      (runClauses_tame rs _ _ _ _ _ (by sub) (by sub) (by sub) (by sub) tame_now_raised) (fun _ => tame_now_val))
      (tame_mono (run_tame n) (by sub) (by sub) (by sub) (by sub))
  | .beginElse b rs e n => tame_ensure (tame_rescue (tame_mono (run_tame b) (by sub) (by sub) (by sub) (by sub))
      (runClauses_tame rs _ _ _ _ _ (by sub) (by sub) (by sub) (by sub) tame_now_raised)
      (fun _ => tame_mono (run_tame e) (by sub) (by sub) (by sub) (by sub)))
      (tame_mono (run_tame n) (by sub) (by sub) (by sub) (by sub))
  | .rescueMod a b => tame_rescue (tame_mono (run_tame a) (by sub) (by sub) (by sub) (by sub))
      (tame_either (tame_mono (run_tame b) (by sub) (by sub) (by sub) (by sub)) tame_now_raised) (fun _ => tame_now_val)
  | .ret e => tame_bind (tame_mono (run_tame e) (by sub) (by sub) (fun _ => rfl) (by sub)) (fun _ => by
      intro σ t o σ' h
      cases h
      simp [returns])
  | .brk => by intro σ t o σ' h; cases h; simp [jumps]
  | .nxt => by intro σ t o σ' h; cases h; simp [jumps]
  | .opWrite _ e => tame_either tame_some (tame_bind (tame_mono (run_tame e) (by sub) (by sub) (by sub) (by sub))
      (fun _ => tame_bind tame_some (fun _ => tame_store (by simp [written]))))
  | .other e => tame_bind (tame_mono (run_tame e) (by sub) (by sub) (by sub) (by sub)) (fun _ => tame_some)
theorem runClauses_tame : ∀ (ws : Clauses) (last : Beh W) (X S : List Nat) (r j : Bool), writtenC ws ⊆ X → sitesC ws ⊆ S →
    (returnsC ws = true → r = true) → (jumpsC ws = true → j = true) → Tame X S r j last → Tame X S r j (runClauses W ws last)
  | .nil, _, _, _, _, _, _, _, _, _, h => h
  | .cons c b l, last, X, S, r, j, hX, hS, hr, hj, h => by
    refine tame_bind (tame_mono (run_tame c) ?_ ?_ ?_ ?_) (fun _ => tame_either (tame_mono (run_tame b) ?_ ?_ ?_ ?_)
      (runClauses_tame l last X S r j ?_ ?_ ?_ ?_ h))
    all_goals first
      | (intro x hx; apply hX; simp only [writtenC, List.mem_append]; tauto)
      | (intro x hx; apply hS; simp only [sitesC, List.mem_append]; tauto)
      | (intro hh; apply hr; simp [returnsC, hh])
      | (intro hh; apply hj; simp [jumpsC, hh])
end

theorem run_unwritten {e : Expr} {σ σ' : Store W} {t : List (Nat × W.V)} {o : Out W.V} (h : run W e σ t o σ') {x : Nat}
    (hx : x ∉ written e) : σ' x = σ x := (run_tame e σ t o σ' h).1 x hx

theorem run_inert {e : Expr} (hi : inert e = true) {σ σ' : Store W} {t : List (Nat × W.V)} {o : Out W.V} (h : run W e σ t o σ') :
    σ' = σ ∧ ∀ v, o ≠ .ret v := by
  simp only [inert, Bool.and_eq_true, List.isEmpty_iff, Bool.not_eq_true'] at hi
  obtain ⟨h1, -, h3, -⟩ := run_tame e σ t o σ' h
  refine ⟨funext fun x => h1 x (by simp [hi.1]), fun v e => ?_⟩
  have := h3 v e
  simp [hi.2] at this

/-! ### diverging code gives no value -/

/-- The code never ends with a value. -/
def NoVal (a : Beh W) : Prop := ∀ σ t o σ', a σ t o σ' → ¬ o.isVal

theorem noVal_bind_left {a : Beh W} {k : W.V → Beh W} (h : NoVal a) : NoVal (Bind a k) := by
  intro σ t o σ' hb
  cases hb with
  | leaves _ h' => exact h'
  | next h' _ => exact absurd trivial (h _ _ _ _ h')

theorem noVal_bind {a : Beh W} {k : W.V → Beh W} (h : ∀ v, NoVal (k v)) : NoVal (Bind a k) := by
  intro σ t o σ' hb
  cases hb with
  | leaves _ h' => exact h'
  | next _ h' => exact h _ _ _ _ _ h'

theorem noVal_cond {v : W.V} {a b : Beh W} (ha : NoVal a) (hb : NoVal b) : NoVal (Cond v a b) := by
  intro σ t o σ' h
  cases h with
  | yes _ h => exact ha _ _ _ _ h
  | no _ h => exact hb _ _ _ _ h

theorem noVal_either {a b : Beh W} (ha : NoVal a) (hb : NoVal b) : NoVal (Either a b) := by
  intro σ t o σ' h
  cases h with
  | left h => exact ha _ _ _ _ h
  | right h => exact hb _ _ _ _ h

theorem noVal_ensure_left {a b : Beh W} (ha : NoVal a) : NoVal (Ensure a b) := by
  intro σ t o σ' h
  cases h with
  | normal h _ => exact ha _ _ _ _ h
  | leaves _ _ h => exact h

theorem noVal_ensure_right {a b : Beh W} (hb : NoVal b) : NoVal (Ensure a b) := by
  intro σ t o σ' h
  cases h with
  | normal _ h => exact absurd trivial (hb _ _ _ _ h)
  | leaves _ _ h => exact h

theorem noVal_rescue {a r : Beh W} {e : W.V → Beh W} (hn : NoVal a ∨ ∀ v, NoVal (e v)) (hr : NoVal r) : NoVal (Rescue a r e) := by
  intro σ t o σ' h
  cases h with
  | normal h h' =>
    rcases hn with hn | hn
    · exact absurd trivial (hn _ _ _ _ h)
    · exact hn _ _ _ _ _ h'
  | handled _ h => exact hr _ _ _ _ h
  | leaves _ h _ => exact h

theorem noVal_now {o : Out W.V} (h : ¬ o.isVal) : NoVal (Now o) := by
  intro σ t o' σ' hn
  cases hn
  exact h

theorem join_diverges {a b : ControlFlow.Reach} : (ControlFlow.join a b).isDiverges = true ↔ a.isDiverges = true ∧ b.isDiverges = true := by
  cases a <;> cases b <;> simp [ControlFlow.join, ControlFlow.Reach.isDiverges]

theorem happy_diverges {a b : ControlFlow.Reach} : (ControlFlow.happy a b).isDiverges = true ↔ a.isDiverges = true ∨ b.isDiverges = true := by
  cases a <;> simp [ControlFlow.happy, ControlFlow.Reach.isDiverges]

theorem ensured_diverges {a b : ControlFlow.Reach} : (ControlFlow.ensured a b).isDiverges = true ↔ a.isDiverges = true ∨ b.isDiverges = true := by
  cases a <;> simp [ControlFlow.ensured, ControlFlow.Reach.isDiverges]

/-- Kernel's methods that never return. -/
def kernel : List String := ["raise", "fail", "throw", "exit", "exit!", "abort"]

theorem call_diverges {r : Option ControlFlow.Node} {m : String} {args : List ControlFlow.Node}
    (h : (ControlFlow.analyze (.call r m args none)).isDiverges = true) :
    m ∈ kernel ∧ (r = none ∨ ∃ c, r = some (.const c) ∧ c ∈ ["Process", "Kernel"]) := by
  simp only [ControlFlow.analyze] at h
  by_cases ht : ControlFlow.isTerminatingCall r m = true
  · unfold ControlFlow.isTerminatingCall at ht
    split at ht
    · exact ⟨by simpa [ControlFlow.kernelTerminators, kernel] using ht, .inl rfl⟩
    · simp only [Bool.and_eq_true, Bool.or_eq_true, beq_iff_eq] at ht
      exact ⟨by simpa [ControlFlow.kernelTerminators, kernel] using ht.2, .inr ⟨_, rfl, by simpa using ht.1⟩⟩
    · cases ht
  · simp only [ht, Bool.false_eq_true, if_false] at h
    have : ControlFlow.isDivergingLoop r m none = false := by
      unfold ControlFlow.isDivergingLoop
      split
      · rfl
      · split <;> rfl
    simp [this, ControlFlow.Reach.isDiverges] at h

/-- A call that the analysis calls diverging does not return: what the receiver can be. -/
theorem recv_never {r : Expr} {m : String} {n : Option ControlFlow.Node} (hm : m ∈ kernel)
    (hn : n = none ∧ r = .self ∨ (n = some (toNode r)))
    (hr : n = none ∨ ∃ c, n = some (.const c) ∧ c ∈ ["Process", "Kernel"]) {σ σ₁ : Store W} {t : List (Nat × W.V)} {v w : W.V} {a : Option W.V}
    (h : run W r σ t (.val v) σ₁) : ¬ W.send v m a w := by
  have self : r = .self → ¬ W.send v m a w := by
    rintro rfl
    cases h with
    | val e => subst e; exact W.never m a w hm
  rcases hn with ⟨rfl, e⟩ | rfl
  · exact self e
  · rcases hr with hr | ⟨c, e, hc⟩
    · cases hr
    · injection e with e
      cases r with
      | const c' =>
        simp only [toNode, ControlFlow.Node.const.injEq] at e
        subst e
        cases h with
        | val e => subst e; exact W.never_module _ m a w hc hm
      | call0 r' m' => cases r' <;> simp [toNode] at e
      | call r' m' a' => cases r' <;> simp [toNode] at e
      | _ => simp [toNode] at e

theorem toNode_call0 (r : Expr) (m : String) : ∃ n, toNode (.call0 r m) = .call n m [] none ∧ (n = none ∧ r = .self ∨ n = some (toNode r)) := by
  cases r with
  | self => exact ⟨none, rfl, .inl ⟨rfl, rfl⟩⟩
  | _ => exact ⟨_, rfl, .inr rfl⟩

theorem toNode_call (r : Expr) (m : String) (a : Expr) :
    ∃ n, toNode (.call r m a) = .call n m [toNode a] none ∧ (n = none ∧ r = .self ∨ n = some (toNode r)) := by
  cases r with
  | self => exact ⟨none, rfl, .inl ⟨rfl, rfl⟩⟩
  | _ => exact ⟨_, rfl, .inr rfl⟩

theorem rescued_diverges {a : ControlFlow.Reach} {b : Option ControlFlow.Reach} : (ControlFlow.rescued a b).isDiverges = true ↔
    a.isDiverges = true ∧ ∀ x, b = some x → x.isDiverges = true := by
  cases b <;> simp [ControlFlow.rescued, join_diverges]

mutual
theorem run_diverges : ∀ e : Expr, diverges e = true → NoVal (run W e)
  | .lit _, h => by simp [diverges, toNode, ControlFlow.diverges, ControlFlow.analyze, ControlFlow.Reach.isDiverges] at h
  | .read _ _, h => by simp [diverges, toNode, ControlFlow.diverges, ControlFlow.analyze, ControlFlow.Reach.isDiverges] at h
  | .write _ _, h => by simp [diverges, toNode, ControlFlow.diverges, ControlFlow.analyze, ControlFlow.Reach.isDiverges] at h
  | .const _, h => by simp [diverges, toNode, ControlFlow.diverges, ControlFlow.analyze, ControlFlow.Reach.isDiverges] at h
  | .self, h => by simp [diverges, toNode, ControlFlow.diverges, ControlFlow.analyze, ControlFlow.Reach.isDiverges] at h
  | .call0 r m, h => by
    obtain ⟨n, e, hn⟩ := toNode_call0 r m
    rw [diverges, e] at h
    obtain ⟨hm, hr⟩ := call_diverges h
    intro σ t o σ' hb
    cases hb with
    | leaves _ h' => exact h'
    | next h' hk =>
      cases hk with
      | raise => exact fun h => h
      | val hs => exact absurd hs (recv_never hm hn hr h')
  | .call r m a, h => by
    obtain ⟨n, e, hn⟩ := toNode_call r m a
    rw [diverges, e] at h
    obtain ⟨hm, hr⟩ := call_diverges h
    intro σ t o σ' hb
    cases hb with
    | leaves _ h' => exact h'
    | next h' hk =>
      cases hk with
      | leaves _ h' => exact h'
      | next _ hk =>
        cases hk with
        | raise => exact fun h => h
        | val hs => exact absurd hs (recv_never hm hn hr h')
  | .seq a b, h => noVal_bind (fun _ => run_diverges b (by
      simpa [diverges, toNode, ControlFlow.diverges, ControlFlow.analyze, ControlFlow.analyzeStatements] using h))
  | .paren _, h => by simp [diverges, toNode, ControlFlow.diverges, ControlFlow.analyze, ControlFlow.Reach.isDiverges] at h
  | .ifE c t e, h => by
    simp only [diverges, toNode, ControlFlow.diverges, ControlFlow.analyze, ControlFlow.analyzeStatements, join_diverges] at h
    exact noVal_bind (fun _ => noVal_cond (run_diverges t h.1) (run_diverges e h.2))
  | .unlessE c t e, h => by
    simp only [diverges, toNode, ControlFlow.diverges, ControlFlow.analyze, ControlFlow.analyzeStatements, join_diverges] at h
    exact noVal_bind (fun _ => noVal_cond (run_diverges e h.2) (run_diverges t h.1))
  | .caseE s ws e, h => by
    simp only [diverges, toNode, ControlFlow.diverges, ControlFlow.analyze, ControlFlow.analyzeStatements, ControlFlow.joinCase,
      join_diverges] at h
    exact noVal_bind (fun _ => runClauses_diverges ws _ (run_diverges e h.2) h.1)
  | .loopE _ _ _, h => by simp [diverges, toNode, ControlFlow.diverges, ControlFlow.analyze, ControlFlow.Reach.isDiverges] at h
  | .andE _ _, h => by simp [diverges, toNode, ControlFlow.diverges, ControlFlow.analyze, ControlFlow.Reach.isDiverges] at h
  | .orE _ _, h => by simp [diverges, toNode, ControlFlow.diverges, ControlFlow.analyze, ControlFlow.Reach.isDiverges] at h
  | .beginE b rs n, h => by
    simp only [diverges, toNode, ControlFlow.diverges, ControlFlow.analyze, ControlFlow.analyzeStatements, ensured_diverges,
      rescued_diverges, happy_diverges] at h
    rcases h with h | ⟨h, hr⟩
    · exact noVal_ensure_right (run_diverges n h)
    · refine noVal_ensure_left (noVal_rescue (.inl (run_diverges b ?_)) (runRescues_diverges rs hr))
      rcases h with h | h
      · exact h
      · cases h
  | .beginElse b rs e n, h => by
    simp only [diverges, toNode, ControlFlow.diverges, ControlFlow.analyze, ControlFlow.analyzeStatements, ensured_diverges,
      rescued_diverges, happy_diverges] at h
    rcases h with h | ⟨h, hr⟩
    · exact noVal_ensure_right (run_diverges n h)
    · refine noVal_ensure_left (noVal_rescue ?_ (runRescues_diverges rs hr))
      rcases h with h | h
      · exact .inl (run_diverges b h)
      · exact .inr (fun _ => run_diverges e h)
  | .rescueMod _ _, h => by simp [diverges, toNode, ControlFlow.diverges, ControlFlow.analyze, ControlFlow.Reach.isDiverges] at h
  | .ret e, _ => noVal_bind (fun _ => noVal_now (fun h => h))
  | .brk, _ => noVal_now (fun h => h)
  | .nxt, _ => noVal_now (fun h => h)
  | .opWrite _ _, h => by simp [diverges, toNode, ControlFlow.diverges, ControlFlow.analyze, ControlFlow.Reach.isDiverges] at h
  | .other _, h => by simp [diverges, toNode, ControlFlow.diverges, ControlFlow.analyze, ControlFlow.Reach.isDiverges] at h
theorem runClauses_diverges : ∀ (ws : Clauses) (last : Beh W), NoVal last →
    (ControlFlow.analyzeClauses (toClauses ws)).isDiverges = true → NoVal (runClauses W ws last)
  | .nil, _, hl, _ => hl
  | .cons c b l, last, hl, h => by
    simp only [toClauses, ControlFlow.analyzeClauses, ControlFlow.analyzeStatements, join_diverges] at h
    exact noVal_bind (fun _ => noVal_either (run_diverges b h.1) (runClauses_diverges l last hl h.2))
theorem runRescues_diverges : ∀ (ws : Clauses), (∀ x, ControlFlow.analyzeRescues (toClauses ws) = some x → x.isDiverges = true) →
    NoVal (runClauses W ws (Now .raised))
  | .nil, _ => noVal_now (fun h => h)
  | .cons c b l, h => by
    have := h _ rfl
    simp only [ControlFlow.analyzeStatements, rescued_diverges] at this
    exact noVal_bind (fun _ => noVal_either (run_diverges b this.1) (runRescues_diverges l this.2))
end

end Verif.FlowTypes
