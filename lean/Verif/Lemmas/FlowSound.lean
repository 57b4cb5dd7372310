import Verif.Lemmas.FlowStatic
/-!
The induction behind the soundness of the tracked types.
-/
namespace Verif.FlowTypes
open Verif.Types

variable {W : World}

/-! ### what has to hold along the way -/

/-- Every value that the first environment allows is allowed by the second. -/
def Within (W : World) (a b : Env) : Prop := ∀ x v, DescOpt W (a x) v → DescOpt W (b x) v

/-- Every value that one of the first types describes is described by one of the others. -/
def RetsWithin (W : World) (a b : List Ty) : Prop := ∀ t ∈ a, ∀ v, Desc W.toWorld t v → ∃ u ∈ b, Desc W.toWorld u v

mutual
/-- What tracking code from an environment requires; the first argument says whether the type of the value matters. -/
def Ok (W : World) (K : Know) (v : Bool) (d : Nat) : Expr → Env → Prop
  | .lit _, _ => True
  | .read _ _, _ => True
  | .write _ e, E => Ok W K true d e E
  | .const _, _ => True
  | .self, _ => True
  | .call0 r m, E => (isExpr r = true → Ok W K true d r E) ∧ (isExpr r = false → inert r = true) ∧ NewOk W r m
  | .call r m a, E => (isExpr r = true → Ok W K true d r E) ∧ (isExpr r = false → inert r = true) ∧ NewOk W r m ∧ inert a = true
  | .seq a b, E => Ok W K false d a E ∧ Ok W K v d b (track K d a E).env
  | .paren e, E => Ok W K v d e E
  | .ifE c t e, E => Ok W K false d c E ∧ Ok W K v d t (track K d c E).env ∧ Ok W K v d e (track K d c E).env ∧ Branching W c true t e
  | .unlessE c t e, E =>
    Ok W K false d c E ∧ Ok W K v d t (track K d c E).env ∧ Ok W K v d e (track K d c E).env ∧ Branching W c false t e
  | .caseE s ws e, E => Ok W K false d s E ∧ OkC W K v d ws (track K d s E).env ∧ Ok W K v d e (track K d s E).env
  | .loopE w c b, E => v = false ∧ jumps c = false ∧ jumps b = false ∧ Ok W K false d c E ∧
      Ok W K false d c (track K d (.loopE w c b) E).env ∧ Ok W K false (d + 1) b (track K d (.loopE w c b) E).env ∧
      Within W (track K d c (track K d (.loopE w c b) E).env).env (track K d (.loopE w c b) E).env ∧
      Within W (track K (d + 1) b (track K d (.loopE w c b) E).env).env (track K d (.loopE w c b) E).env ∧
      RetsWithin W (track K d c (track K d (.loopE w c b) E).env).rets (track K d (.loopE w c b) E).rets ∧
      RetsWithin W (track K (d + 1) b (track K d (.loopE w c b) E).env).rets (track K d (.loopE w c b) E).rets
  | .andE l r, E => Ok W K true d l E ∧ Ok W K v d r (track K d l E).env ∧ Sharp W (track K d l E).ty
  | .orE l r, E => Ok W K true d l E ∧ Ok W K v d r (track K d l E).env ∧ Sharp W (track K d l E).ty
  | .beginE b rs n, E => Ok W K v d b E ∧ (rs = .nil ∨ protectable b = true) ∧ OkC W K v d rs (rescueEnv E (track K d b E).obs) ∧
      returns n = false ∧
      Ok W K false d n (beginRes E (track K d b E) (diverges b) (trackClauses K d rs (rescueEnv E (track K d b E).obs))).env
  | .beginElse b rs e n, E => Ok W K v d b E ∧ Ok W K v d e (track K d b E).env ∧ (rs = .nil ∨ protectable b = true) ∧
      OkC W K v d rs (rescueEnv E (track K d b E).obs) ∧ returns n = false ∧
      Ok W K false d n (beginRes E (andThen (track K d b E) (track K d e (track K d b E).env)) (diverges b || diverges e)
          (trackClauses K d rs (rescueEnv E (track K d b E).obs))).env
  | .rescueMod e r, E => Ok W K v d e E ∧ protectable e = true ∧ Ok W K v d r (rescueEnv E (track K d e E).obs)
  | .ret e, E => (isExpr e = true → Ok W K true d e E) ∧ (isExpr e = false → inert e = true)
  | .brk, _ => True
  | .nxt, _ => True
  | .opWrite _ _, _ => False
  | .other e, _ => inert e = true
def OkC (W : World) (K : Know) (v : Bool) (d : Nat) : Clauses → Env → Prop
  | .nil, _ => True
  | .cons c b l, E => inert c = true ∧ Ok W K v d b E ∧ OkC W K v d l E
end

/-! ### what is shown -/

/-- A run that ended like this is as the tracker says; the last part is claimed for protected code. -/
structure Good (W : World) (v : Bool) (p : Prop) (r : Res) (σ : Store W) (o : Out W.V) (σ' : Store W) : Prop where
  val : ∀ w, o = .val w → (v = true → Desc W.toWorld r.ty w) ∧ Agrees W r.env σ'
  ret : ∀ w, o = .ret w → ∃ t ∈ r.rets, Desc W.toWorld t w
  cov : p → ∃ ob, (∀ q ∈ ob, q ∈ r.obs) ∧ Covered W ob σ σ'

/-- The same for clauses. -/
structure GoodC (W : World) (v : Bool) (p : Prop) (r : Branches) (σ : Store W) (o : Out W.V) (σ' : Store W) : Prop where
  val : ∀ w, o = .val w → ∃ b ∈ r.list, b.2.2 = false ∧ (v = true → Desc W.toWorld b.2.1 w) ∧ Agrees W b.1 σ'
  ret : ∀ w, o = .ret w → ∃ t ∈ r.rets, Desc W.toWorld t w
  cov : p → ∃ ob, (∀ q ∈ ob, q ∈ r.obs) ∧ Covered W ob σ σ'

variable {K : Know} {v : Bool} {p : Prop} {σ σ₁ σ₂ σ' : Store W} {o : Out W.V} {E : Env}

theorem Good.weaken {r : Res} {p' : Prop} (h : Good W v p r σ o σ') (hp : p' → p) : Good W v p' r σ o σ' :=
  ⟨h.val, h.ret, fun h' => h.cov (hp h')⟩

theorem good_of_mem {r r' : Res} (h : Good W v p r σ o σ') (hv : ¬ o.isVal) (hr : ∀ t ∈ r.rets, t ∈ r'.rets)
    (ho : ∀ q ∈ r.obs, q ∈ r'.obs) {v' : Bool} : Good W v' p r' σ o σ' := by
  refine ⟨?_, ?_, ?_⟩
  · rintro w rfl; exact absurd trivial hv
  · intro w e
    obtain ⟨t, ht, hd⟩ := h.ret w e
    exact ⟨t, hr t ht, hd⟩
  · intro hp
    obtain ⟨ob, h1, h2⟩ := h.cov hp
    exact ⟨ob, fun q hq => ho q (h1 q hq), h2⟩

/-- Nothing has changed, and the code ends with an exception or a jump. -/
theorem good_stop {r : Res} (hv : ¬ o.isVal) (hr : ∀ w, o ≠ .ret w) : Good W v p r σ o σ :=
  ⟨by rintro w rfl; exact absurd trivial hv, fun w e => absurd e (hr w), fun _ => ⟨[], by simp, covered_refl⟩⟩

theorem cov_trans {o₁ o₂ obs : List (Nat × Ty)} (h₁ : ∃ ob, (∀ q ∈ ob, q ∈ o₁) ∧ Covered W ob σ σ₁)
    (h₂ : ∃ ob, (∀ q ∈ ob, q ∈ o₂) ∧ Covered W ob σ₁ σ') (s₁ : ∀ q ∈ o₁, q ∈ obs) (s₂ : ∀ q ∈ o₂, q ∈ obs) :
    ∃ ob, (∀ q ∈ ob, q ∈ obs) ∧ Covered W ob σ σ' := by
  obtain ⟨a, ha, hca⟩ := h₁
  obtain ⟨b, hb, hcb⟩ := h₂
  refine ⟨a ++ b, ?_, covered_trans hca hcb⟩
  intro q hq
  rcases List.mem_append.mp hq with hq | hq
  · exact s₁ q (ha q hq)
  · exact s₂ q (hb q hq)

theorem covered_set {x : Nat} {t : Ty} {w : W.V} (h : Desc W.toWorld t w) : Covered W [(x, t)] σ (σ.set x w) := by
  intro y
  by_cases hy : y = x
  · subst hy
    exact .inr ⟨t, by simp, by simpa [Store.set] using h⟩
  · exact .inl ⟨by simp [hy], by simp [Store.set, hy]⟩

theorem not_val_ret {o : Out W.V} (h : ¬ o.isVal) (w : W.V) : o ≠ .val w := by
  rintro rfl; exact h trivial

/-! ### conditions -/

theorem narrow_agrees {c : Expr} {b : Bool} {x : Nat} (h : Telling W c b x) : ∀ {σ σ₁ : Store W} {t : List (Nat × W.V)} {w : W.V},
    run W c σ t (.val w) σ₁ → (W.truthy w ↔ b = true) → σ' x = σ₁ x → Agrees W E σ' → Agrees W (narrow E c b) σ' := by
  have isa : ∀ (c : String) (b : Bool) (x : Nat) (w : W.V) (m : String), (m = "is_a?" ∨ m = "kind_of?" ∨ m = "instance_of?") →
      (b = true → W.inst (nameOf c) (σ' x)) → (b = false → ¬ W.inst (nameOf c) (σ' x)) →
      Agrees W E σ' → ∀ i, Agrees W (narrow E (.call (.read x i) m (.const c)) b) σ' := by
    intro c b x w m hm hy hn hA i
    simp only [narrow, hm, if_true]
    cases b with
    | true => exact agrees_set_env hA (hy rfl)
    | false =>
      simp only [Bool.false_eq_true, if_false]
      have := hA x
      split
      · next t e =>
        rw [e] at this
        exact agrees_set_env hA (desc_subtract this (hn rfl))
      · exact hA
  have call : ∀ {x i : Nat} {m : String} {c : String} {σ σ₁ : Store W} {t : List (Nat × W.V)} {w : W.V},
      run W (.call (.read x i) m (.const c)) σ t (.val w) σ₁ → W.send (σ₁ x) m (some (W.const c)) w := by
    intro x i m c σ σ₁ t w hr
    cases hr with
    | leaves _ h => exact absurd trivial h
    | next h1 h2 =>
      cases h1
      cases h2 with
      | leaves _ h => exact absurd trivial h
      | next h3 h4 =>
        cases h3 with
        | val e =>
          subst e
          cases h4 with
          | val hs => exact hs
  induction h with
  | @nil x i b =>
    intro σ σ₁ t w hr hw hx hA
    have hs : W.send (σ₁ x) "nil?" none w := by
      cases hr with
      | leaves _ h => exact absurd trivial h
      | next h1 h2 =>
        cases h1
        cases h2 with
        | val hs => exact hs
    have := W.send_nil _ _ hs
    simp only [narrow]
    cases b with
    | true =>
      refine agrees_set_env hA ?_
      rw [hx]
      exact desc_nilTy.mpr (this.mp (hw.mpr rfl))
    | false =>
      simp only [Bool.false_eq_true, if_false]
      have hn : σ' x ≠ W.nil := by
        rw [hx]
        intro e
        have := hw.mp (this.mpr e)
        cases this
      have ha := hA x
      split
      · next t e =>
        rw [e] at ha
        exact agrees_set_env hA (desc_removeNil ha hn)
      · exact hA
  | @isA x i c b ht =>
    intro σ σ₁ t w hr hw hx hA
    have := W.send_isA _ _ _ ht (call hr)
    refine isa c b x w "is_a?" (.inl rfl) ?_ ?_ hA i
    · rintro rfl; rw [hx]; exact this.mp (hw.mpr rfl)
    · rintro rfl; rw [hx]; intro h; have := hw.mp (this.mpr h); cases this
  | @kindOf x i c b ht =>
    intro σ σ₁ t w hr hw hx hA
    have := W.send_kindOf _ _ _ ht (call hr)
    refine isa c b x w "kind_of?" (.inr (.inl rfl)) ?_ ?_ hA i
    · rintro rfl; rw [hx]; exact this.mp (hw.mpr rfl)
    · rintro rfl; rw [hx]; intro h; have := hw.mp (this.mpr h); cases this
  | @instanceOf x i c ht =>
    intro σ σ₁ t w hr hw hx hA
    have := W.send_instanceOf _ _ _ ht (call hr) (hw.mpr rfl)
    refine isa c true x w "instance_of?" (.inr (.inr rfl)) (fun _ => by rw [hx]; exact this) (fun h => by cases h) hA i
  | @not p b x h ih =>
    intro σ σ₁ t w hr hw hx hA
    cases hr with
    | leaves _ h => exact absurd trivial h
    | next h1 h2 =>
      cases h2 with
      | val hs =>
        have := W.send_not _ _ hs
        simp only [narrow]
        refine ih h1 ?_ hx hA
        cases b with
        | true => simp only [Bool.not_true, Bool.false_eq_true, iff_false]; exact this.mp (hw.mpr rfl)
        | false =>
          simp only [Bool.not_false, iff_true]
          by_contra hc
          have := hw.mp (this.mpr hc)
          cases this

theorem tested_agrees {c branch : Expr} {b : Bool} (h : Tested W c b branch) {t t' : List (Nat × W.V)} {w : W.V}
    (hc : run W c σ t (.val w) σ₁) (hw : W.truthy w ↔ b = true) (hb : run W branch σ₁ t' o σ') (hA : Agrees W E σ') :
    Agrees W (narrow E c b) σ' := by
  rcases h with h | ⟨x, h, hx⟩
  · rw [narrow_none h]; exact hA
  · exact narrow_agrees h hc hw (run_unwritten hb hx) hA

/-! ### truthiness -/

theorem falsy_desc {t : Ty} {w : W.V} (h : isFalsy t = true) (hd : Desc W.toWorld t w) : ¬ W.truthy w := by
  cases t with
  | cls n =>
    simp only [isFalsy, Bool.or_eq_true, beq_iff_eq] at h
    rcases h with rfl | rfl
    · exact W.false_falsy _ hd
    · rw [(W.nil_inst _).mp hd]; exact W.nil_falsy
  | _ => simp [isFalsy] at h

theorem sharp_alt {t u : Ty} {w : W.V} (hs : Sharp W t) (ht : t ≠ .unknown) (hu : AltOf t u) (hf : isFalsy u = false)
    (hd : Desc W.toWorld u w) : W.truthy w := by
  rcases hs with h | h
  · exact absurd h ht
  · rcases h u hu with rfl | rfl | h
    · simp [isFalsy, nilTy] at hf
    · simp [isFalsy] at hf
    · exact h w hd

theorem truthiness_truthy {t : Ty} {w : W.V} (hs : Sharp W t) (h : truthiness t = .truthy) (hd : Desc W.toWorld t w) : W.truthy w := by
  cases t with
  | unknown => simp [truthiness] at h
  | union ts =>
    simp only [truthiness] at h
    split at h
    · next h1 h2 =>
      obtain ⟨u, hu, hd⟩ := descAny_iff.mp hd
      have : isFalsy u = false := by
        rw [List.any_eq_false] at h2
        simpa using h2 u hu
      exact sharp_alt hs (by simp) (.member hu) this hd
    · cases h
    · cases h
  | _ =>
    simp only [truthiness] at h
    split at h
    · cases h
    · next hf => exact sharp_alt hs (by simp) (.self (by simp)) (by simpa using hf) hd

theorem truthiness_falsy {t : Ty} {w : W.V} (h : truthiness t = .falsy) (hd : Desc W.toWorld t w) : ¬ W.truthy w := by
  cases t with
  | unknown => simp [truthiness] at h
  | union ts =>
    simp only [truthiness] at h
    split at h
    · cases h
    · next h1 h2 =>
      obtain ⟨u, hu, hd⟩ := descAny_iff.mp hd
      have : isFalsy u = true := by
        rw [List.any_eq_false] at h1
        simpa using h1 u hu
      exact falsy_desc this hd
    · cases h
  | _ =>
    simp only [truthiness] at h
    split at h
    · next hf => exact falsy_desc hf hd
    · cases h

theorem shortCircuit_right {b : Bool} {l r : Ty} {w : W.V} (h : Desc W.toWorld r w) : Desc W.toWorld (shortCircuit b l r) w := by
  unfold shortCircuit
  split
  · exact desc_union_of_mem (t := r) (by simp) h
  · simp [Desc]

theorem shortCircuit_left {b : Bool} {l r : Ty} {w : W.V} (hs : Sharp W l) (h : Desc W.toWorld l w) (hw : ¬ (W.truthy w ↔ b = true)) :
    Desc W.toWorld (shortCircuit b l r) w := by
  cases l with
  | union ts =>
    obtain ⟨u, hu, hd⟩ := descAny_iff.mp h
    refine desc_union_of_mem (t := u) ?_ hd
    simp only [List.mem_append, List.mem_filter, List.mem_singleton]
    refine .inl ⟨hu, ?_⟩
    cases b with
    | true =>
      simp only [if_true]
      by_contra hf
      exact hw (by simpa using sharp_alt hs (by simp) (.member hu) (by simpa using hf) hd)
    | false =>
      simp only [Bool.false_eq_true, if_false]
      by_contra hf
      refine hw ?_
      have := falsy_desc (by simpa using hf) hd
      simp [this]
  | _ => simp [shortCircuit, Desc]

/-- The right operand has run. -/
theorem short_taken {b : Bool} {l r : Res} {w₁ : W.V} (hs : Sharp W l.ty) (hl : Good W true p l σ (.val w₁) σ₁)
    (hw : W.truthy w₁ ↔ b = true) (hr : Good W v p r σ₁ o σ') : Good W v p (shortRes b l r) σ o σ' := by
  obtain ⟨hd, hA⟩ := hl.val _ rfl
  have hd := hd rfl
  have all : Good W v p (andThen l r) σ o σ' := by
    refine ⟨hr.val, ?_, ?_⟩
    · intro w e
      obtain ⟨t, ht, hd⟩ := hr.ret w e
      exact ⟨t, List.mem_append_right _ ht, hd⟩
    · intro hp
      exact cov_trans (hl.cov hp) (hr.cov hp) (fun q hq => List.mem_append_left _ hq) (fun q hq => List.mem_append_right _ hq)
  unfold shortRes
  split
  · exact all
  · exact all
  · next h => exact absurd (hw.mp (truthiness_truthy hs h hd)) (by simp)
  · next h => exact absurd (hw.mpr rfl) (truthiness_falsy h hd)
  · refine ⟨?_, all.ret, all.cov⟩
    intro w e
    obtain ⟨h1, h2⟩ := hr.val w e
    exact ⟨fun hv => shortCircuit_right (h1 hv), agrees_merge (.inr h2)⟩

/-- The right operand has not run. -/
theorem short_skipped {b : Bool} {l r : Res} {w₁ : W.V} (hs : Sharp W l.ty) (hl : Good W true p l σ (.val w₁) σ')
    (hw : ¬ (W.truthy w₁ ↔ b = true)) : Good W v p (shortRes b l r) σ (.val w₁) σ' := by
  obtain ⟨hd, hA⟩ := hl.val _ rfl
  have hd := hd rfl
  unfold shortRes
  split
  · next h => exact absurd (by simpa using truthiness_truthy hs h hd) hw
  · next h => exact absurd (by simpa using truthiness_falsy h hd) hw
  · exact ⟨fun w e => ⟨fun _ => (hl.val w e).1 rfl, (hl.val w e).2⟩, hl.ret, hl.cov⟩
  · exact ⟨fun w e => ⟨fun _ => (hl.val w e).1 rfl, (hl.val w e).2⟩, hl.ret, hl.cov⟩
  · refine ⟨?_, ?_, ?_⟩
    · intro w e
      injection e with e
      subst e
      exact ⟨fun _ => shortCircuit_left hs hd hw, agrees_merge (.inl hA)⟩
    · intro w e; cases e
    · intro hp
      obtain ⟨ob, h1, h2⟩ := hl.cov hp
      exact ⟨ob, fun q hq => List.mem_append_left _ (h1 q hq), h2⟩

theorem short_left {b : Bool} {l r : Res} (hl : Good W true p l σ o σ') (hv : ¬ o.isVal) : Good W v p (shortRes b l r) σ o σ' := by
  refine good_of_mem hl hv ?_ ?_
  all_goals
    intro q hq
    unfold shortRes
    split
    · exact List.mem_append_left _ hq
    · exact List.mem_append_left _ hq
    · exact hq
    · exact hq
    · exact List.mem_append_left _ hq

/-! ### branches -/

theorem branch_cond {c : Expr} {b d₁ d₂ : Bool} {q r₁ r₂ : Res} (hq : Good W false p q σ o σ') (hv : ¬ o.isVal) :
    Good W v p (branchRes c b d₁ d₂ q r₁ r₂) σ o σ' :=
  good_of_mem hq hv (fun _ h => List.mem_append_left _ (List.mem_append_left _ h)) (fun _ h => List.mem_append_left _ (List.mem_append_left _ h))

theorem branch_first {c : Expr} {b d₁ d₂ : Bool} {q r₁ r₂ : Res} {w₁ : W.V} (hq : Good W false p q σ (.val w₁) σ₁)
    (h : Good W v p r₁ σ₁ o σ') (hd : d₁ = true → ¬ o.isVal)
    (hn : d₁ = false → d₂ = true → Agrees W r₁.env σ' → Agrees W (narrow r₁.env c b) σ') :
    Good W v p (branchRes c b d₁ d₂ q r₁ r₂) σ o σ' := by
  refine ⟨?_, ?_, ?_⟩
  · intro w e
    obtain ⟨h1, h2⟩ := h.val w e
    have hd₁ : d₁ = false := by
      cases d₁ with
      | false => rfl
      | true => subst e; exact absurd trivial (hd rfl)
    refine ⟨fun hv => desc_joinTypes (b := (r₁.ty, d₁)) (by simp) hd₁ (h1 hv), ?_⟩
    simp only [branchRes, branchEnv, hd₁]
    cases hd₂ : d₂ with
    | true => exact hn hd₁ hd₂ h2
    | false => exact agrees_merge (.inl h2)
  · intro w e
    obtain ⟨t, ht, hd⟩ := h.ret w e
    exact ⟨t, List.mem_append_left _ (List.mem_append_right _ ht), hd⟩
  · intro hp
    exact cov_trans (hq.cov hp) (h.cov hp) (fun _ h => List.mem_append_left _ (List.mem_append_left _ h))
      (fun _ h => List.mem_append_left _ (List.mem_append_right _ h))

theorem branch_second {c : Expr} {b d₁ d₂ : Bool} {q r₁ r₂ : Res} {w₁ : W.V} (hq : Good W false p q σ (.val w₁) σ₁)
    (h : Good W v p r₂ σ₁ o σ') (hd : d₂ = true → ¬ o.isVal)
    (hn : d₁ = true → d₂ = false → Agrees W r₂.env σ' → Agrees W (narrow r₂.env c (!b)) σ') :
    Good W v p (branchRes c b d₁ d₂ q r₁ r₂) σ o σ' := by
  refine ⟨?_, ?_, ?_⟩
  · intro w e
    obtain ⟨h1, h2⟩ := h.val w e
    have hd₂ : d₂ = false := by
      cases d₂ with
      | false => rfl
      | true => subst e; exact absurd trivial (hd rfl)
    refine ⟨fun hv => desc_joinTypes (b := (r₂.ty, d₂)) (by simp) hd₂ (h1 hv), ?_⟩
    simp only [branchRes, branchEnv, hd₂]
    cases hd₁ : d₁ with
    | true => exact hn hd₁ hd₂ h2
    | false => exact agrees_merge (.inr h2)
  · intro w e
    obtain ⟨t, ht, hd⟩ := h.ret w e
    exact ⟨t, List.mem_append_right _ ht, hd⟩
  · intro hp
    exact cov_trans (hq.cov hp) (h.cov hp) (fun _ h => List.mem_append_left _ (List.mem_append_left _ h))
      (fun _ h => List.mem_append_right _ h)

/-! ### `case` -/

theorem case_subject {before : Env} {q last : Res} {bs : Branches} {d : Bool} (hq : Good W false p q σ o σ') (hv : ¬ o.isVal) :
    Good W v p (caseRes before q bs last d) σ o σ' :=
  good_of_mem hq hv (fun _ h => List.mem_append_left _ (List.mem_append_left _ h)) (fun _ h => List.mem_append_left _ (List.mem_append_left _ h))

theorem case_clause {before : Env} {q last : Res} {bs : Branches} {d : Bool} {w₁ : W.V} (hq : Good W false p q σ (.val w₁) σ₁)
    (h : GoodC W v p bs σ₁ o σ') : Good W v p (caseRes before q bs last d) σ o σ' := by
  refine ⟨?_, ?_, ?_⟩
  · intro w e
    obtain ⟨b, hb, hd, h1, h2⟩ := h.val w e
    exact ⟨fun hv => desc_joinTypes (b := b.2) (List.mem_map.mpr ⟨b, List.mem_append_left _ hb, rfl⟩) hd (h1 hv),
      agrees_join (List.mem_append_left _ hb) hd h2⟩
  · intro w e
    obtain ⟨t, ht, hd⟩ := h.ret w e
    exact ⟨t, List.mem_append_left _ (List.mem_append_right _ ht), hd⟩
  · intro hp
    exact cov_trans (hq.cov hp) (h.cov hp) (fun _ h => List.mem_append_left _ (List.mem_append_left _ h))
      (fun _ h => List.mem_append_left _ (List.mem_append_right _ h))

theorem case_else {before : Env} {q last : Res} {bs : Branches} {d : Bool} {w₁ : W.V} (hq : Good W false p q σ (.val w₁) σ₁)
    (h : Good W v p last σ₁ o σ') (hd : d = true → ¬ o.isVal) : Good W v p (caseRes before q bs last d) σ o σ' := by
  refine ⟨?_, ?_, ?_⟩
  · intro w e
    obtain ⟨h1, h2⟩ := h.val w e
    have hd' : d = false := by
      cases d with
      | false => rfl
      | true => subst e; exact absurd trivial (hd rfl)
    have hm : (last.env, last.ty, d) ∈ bs.list ++ [(last.env, last.ty, d)] := by simp
    exact ⟨fun hv => desc_joinTypes (b := (last.ty, d)) (List.mem_map.mpr ⟨_, hm, rfl⟩) hd' (h1 hv), agrees_join hm hd' h2⟩
  · intro w e
    obtain ⟨t, ht, hd⟩ := h.ret w e
    exact ⟨t, List.mem_append_right _ ht, hd⟩
  · intro hp
    exact cov_trans (hq.cov hp) (h.cov hp) (fun _ h => List.mem_append_left _ (List.mem_append_left _ h))
      (fun _ h => List.mem_append_right _ h)

theorem case_stop {before : Env} {q last : Res} {bs : Branches} {d : Bool} {w₁ : W.V} (hq : Good W false p q σ (.val w₁) σ')
    (hv : ¬ o.isVal) (hr : ∀ w, o ≠ .ret w) : Good W v p (caseRes before q bs last d) σ o σ' := by
  refine ⟨fun w e => absurd e (not_val_ret hv w), fun w e => absurd e (hr w), ?_⟩
  intro hp
  obtain ⟨ob, h1, h2⟩ := hq.cov hp
  exact ⟨ob, fun q hq => List.mem_append_left _ (List.mem_append_left _ (h1 q hq)), h2⟩

/-! ### `begin` -/

theorem begin_normal {n : Res} {bs : Branches} {d : Bool} (h : Good W v p n σ o σ') (hd : d = true → ¬ o.isVal) :
    Good W v p (beginRes E n d bs) σ o σ' := by
  refine ⟨?_, ?_, ?_⟩
  · intro w e
    obtain ⟨h1, h2⟩ := h.val w e
    have hd' : d = false := by
      cases d with
      | false => rfl
      | true => subst e; exact absurd trivial (hd rfl)
    exact ⟨fun hv => desc_joinTypes (b := (n.ty, d)) (by simp) hd' (h1 hv),
      agrees_join (b := (n.env, n.ty, d)) (.head _) hd' h2⟩
  · intro w e
    obtain ⟨t, ht, hd⟩ := h.ret w e
    exact ⟨t, List.mem_append_left _ ht, hd⟩
  · intro hp
    obtain ⟨ob, h1, h2⟩ := h.cov hp
    exact ⟨ob, fun q hq => List.mem_append_left _ (h1 q hq), h2⟩

theorem begin_handled {n : Res} {bs : Branches} {d : Bool} (hc : p → ∃ ob, (∀ q ∈ ob, q ∈ n.obs) ∧ Covered W ob σ σ₁)
    (h : GoodC W v p bs σ₁ o σ') : Good W v p (beginRes E n d bs) σ o σ' := by
  refine ⟨?_, ?_, ?_⟩
  · intro w e
    obtain ⟨b, hb, hd, h1, h2⟩ := h.val w e
    exact ⟨fun hv => desc_joinTypes (b := b.2) (List.mem_map.mpr ⟨b, .tail _ hb, rfl⟩) hd (h1 hv), agrees_join (.tail _ hb) hd h2⟩
  · intro w e
    obtain ⟨t, ht, hd⟩ := h.ret w e
    exact ⟨t, List.mem_append_right _ ht, hd⟩
  · intro hp
    exact cov_trans (hc hp) (h.cov hp) (fun _ h => List.mem_append_left _ h) (fun _ h => List.mem_append_right _ h)

theorem begin_stop {n : Res} {bs : Branches} {d : Bool} (hc : p → ∃ ob, (∀ q ∈ ob, q ∈ n.obs) ∧ Covered W ob σ σ')
    (hv : ¬ o.isVal) (hr : ∀ w, o ≠ .ret w) : Good W v p (beginRes E n d bs) σ o σ' := by
  refine ⟨fun w e => absurd e (not_val_ret hv w), fun w e => absurd e (hr w), ?_⟩
  intro hp
  obtain ⟨ob, h1, h2⟩ := hc hp
  exact ⟨ob, fun q hq => List.mem_append_left _ (h1 q hq), h2⟩

theorem run_same {e : Expr} (hw : written e = []) {t : List (Nat × W.V)} (h : run W e σ t o σ') : σ' = σ := by
  funext x
  exact run_unwritten h (by simp [hw])

theorem ensure_good {a n : Res} {ne : Expr} {A : Beh W} (hret : returns ne = false) (hp : p → written ne = [])
    (ha : ∀ t o σ₁, A σ t o σ₁ → Good W v p a σ o σ₁)
    (hn : ∀ σ₁ t o σ', Agrees W a.env σ₁ → run W ne σ₁ t o σ' → Good W false (protectable ne = true) n σ₁ o σ') {t : List (Nat × W.V)}
    (h : Ensure A (run W ne) σ t o σ') : Good W v p (withEnsure a n) σ o σ' := by
  cases h with
  | normal h1 h2 =>
    have g := ha _ _ _ h1
    refine ⟨?_, ?_, ?_⟩
    · intro w e
      obtain ⟨g1, g2⟩ := g.val w e
      exact ⟨g1, ((hn _ _ _ _ g2 h2).val _ rfl).2⟩
    · intro w e
      obtain ⟨t, ht, hd⟩ := g.ret w e
      exact ⟨t, List.mem_append_left _ ht, hd⟩
    · intro h
      obtain ⟨ob, g1, g2⟩ := g.cov h
      rw [run_same (hp h) h2]
      exact ⟨ob, fun q hq => List.mem_append_left _ (g1 q hq), g2⟩
  | leaves h1 h2 hv =>
    have g := ha _ _ _ h1
    refine ⟨fun w e => absurd e (not_val_ret hv w), ?_, ?_⟩
    · intro w e
      have := (run_tame ne _ _ _ _ h2).2.2.1 w e
      rw [hret] at this
      cases this
    · intro h
      obtain ⟨ob, g1, g2⟩ := g.cov h
      rw [run_same (hp h) h2]
      exact ⟨ob, fun q hq => List.mem_append_left _ (g1 q hq), g2⟩

/-! ### calls -/

theorem recv_good {r : Expr} {R : Res} (hok : isExpr r = true → Good W true p R σ o σ') (hin : isExpr r = false → inert r = true)
    (hA : Agrees W E σ) {t : List (Nat × W.V)} (h : run W r σ t o σ') : Good W true p (inferOf r E R) σ o σ' := by
  unfold inferOf
  split
  · next he => exact hok he
  · next he =>
    obtain ⟨rfl, h2⟩ := run_inert (hin (by simpa using he)) h
    exact ⟨fun w _ => ⟨fun _ => by simp [Desc], hA⟩, fun w e => absurd e (h2 w), fun _ => ⟨[], by simp, covered_refl⟩⟩

theorem callRes_cases (K : Know) (r : Expr) (m : String) (E : Env) (R : Res) :
    (∃ c, r = .const c ∧ m = "new" ∧ callRes K r m E R = ⟨.cls (nameOf c), E, [], [], []⟩) ∨
    callRes K r m E R = { R with ty := callTy K R.ty m } := by
  unfold callRes
  split
  · next c => exact .inl ⟨c, rfl, rfl, rfl⟩
  · exact .inr rfl

theorem call_leave {r : Expr} {m : String} {d : Nat} (g : Good W true p (inferOf r E (track K d r E)) σ o σ') (hv : ¬ o.isVal) :
    Good W v p (callRes K r m E (inferOf r E (track K d r E))) σ o σ' := by
  rcases callRes_cases K r m E (inferOf r E (track K d r E)) with ⟨c, rfl, rfl, e⟩ | e
  · rw [e]; exact good_of_mem g hv (by exact fun _ h => h) (by exact fun _ h => h)
  · rw [e]; exact good_of_mem g hv (by exact fun _ h => h) (by exact fun _ h => h)

theorem call_stop {r : Expr} {m : String} {d : Nat} {w₁ : W.V} (g : Good W true p (inferOf r E (track K d r E)) σ (.val w₁) σ')
    (hv : ¬ o.isVal) (hr : ∀ w, o ≠ .ret w) : Good W v p (callRes K r m E (inferOf r E (track K d r E))) σ o σ' := by
  refine ⟨fun w e => absurd e (not_val_ret hv w), fun w e => absurd e (hr w), ?_⟩
  intro hp
  rcases callRes_cases K r m E (inferOf r E (track K d r E)) with ⟨c, rfl, rfl, e⟩ | e
  · rw [e]; exact g.cov hp
  · rw [e]; exact g.cov hp

theorem call_done (hK : Right W K) {r : Expr} {m : String} {d : Nat} {w₁ w : W.V} {a : Option W.V} {t : List (Nat × W.V)}
    (hnew : NewOk W r m) (hr : run W r σ t (.val w₁) σ') (g : Good W true p (inferOf r E (track K d r E)) σ (.val w₁) σ')
    (hs : W.send w₁ m a w) : Good W v p (callRes K r m E (inferOf r E (track K d r E))) σ (.val w) σ' := by
  obtain ⟨h1, h2⟩ := g.val _ rfl
  rcases callRes_cases K r m E (inferOf r E (track K d r E)) with ⟨c, rfl, rfl, e⟩ | e
  · rw [e]
    refine ⟨?_, (fun w e => by cases e), g.cov⟩
    intro w' e
    injection e with e
    subst e
    refine ⟨fun _ => ?_, h2⟩
    cases hr with
    | val e => subst e; exact W.send_new _ _ _ (hnew c rfl rfl) hs
  · rw [e]
    refine ⟨?_, (fun w e => by cases e), g.cov⟩
    intro w' e
    injection e with e
    subst e
    exact ⟨fun _ => desc_callTy hK (h1 rfl) hs, h2⟩

theorem clause_here {b : Res} {bs : Branches} {d : Bool} (h : Good W v p b σ o σ') (hd : d = true → ¬ o.isVal) :
    GoodC W v p ⟨(b.env, b.ty, d) :: bs.list, b.obs ++ bs.obs, b.rets ++ bs.rets, b.reads ++ bs.reads⟩ σ o σ' := by
  refine ⟨?_, ?_, ?_⟩
  · intro w e
    have hd' : d = false := by
      cases d with
      | false => rfl
      | true => subst e; exact absurd trivial (hd rfl)
    obtain ⟨h1, h2⟩ := h.val w e
    exact ⟨_, .head _, hd', h1, h2⟩
  · intro w e
    obtain ⟨t, ht, hd⟩ := h.ret w e
    exact ⟨t, List.mem_append_left _ ht, hd⟩
  · intro hp
    obtain ⟨ob, h1, h2⟩ := h.cov hp
    exact ⟨ob, fun q hq => List.mem_append_left _ (h1 q hq), h2⟩

theorem clause_later {b : Res} {bs : Branches} {d : Bool} {p' : Prop} (h : GoodC W v p bs σ o σ') (hp : p' → p) :
    GoodC W v p' ⟨(b.env, b.ty, d) :: bs.list, b.obs ++ bs.obs, b.rets ++ bs.rets, b.reads ++ bs.reads⟩ σ o σ' := by
  refine ⟨?_, ?_, ?_⟩
  · intro w e
    obtain ⟨x, h1, h2⟩ := h.val w e
    exact ⟨x, .tail _ h1, h2⟩
  · intro w e
    obtain ⟨t, ht, hd⟩ := h.ret w e
    exact ⟨t, List.mem_append_right _ ht, hd⟩
  · intro hp'
    obtain ⟨ob, h1, h2⟩ := h.cov (hp hp')
    exact ⟨ob, fun q hq => List.mem_append_right _ (h1 q hq), h2⟩

theorem GoodC.weaken {bs : Branches} {p' : Prop} (h : GoodC W v p bs σ o σ') (hp : p' → p) : GoodC W v p' bs σ o σ' :=
  ⟨h.val, h.ret, fun h' => h.cov (hp h')⟩

/-! ### loops -/

theorem loop_good {C B : Beh W} {w : Bool} {R : Res} {P : Store W → Prop}
    (hc : ∀ σ t o σ', P σ → C σ t o σ' → (∀ u, o = .val u → Agrees W R.env σ') ∧ (∀ u, o = .ret u → ∃ t ∈ R.rets, Desc W.toWorld t u) ∧ o ≠ .brk)
    (hb : ∀ σ t o σ', Agrees W R.env σ → B σ t o σ' →
      (∀ u, o = .val u → P σ') ∧ (∀ u, o = .ret u → ∃ t ∈ R.rets, Desc W.toWorld t u) ∧ o ≠ .brk ∧ o ≠ .nxt)
    {t : List (Nat × W.V)} (h : LoopB w C B σ t o σ') (hP : P σ) :
    (∀ u, o = .val u → Agrees W R.env σ') ∧ (∀ u, o = .ret u → ∃ t ∈ R.rets, Desc W.toWorld t u) := by
  induction h with
  | done h1 _ => exact ⟨fun _ _ => (hc _ _ _ _ hP h1).1 _ rfl, fun _ e => by cases e⟩
  | condBreak h1 => exact absurd rfl (hc _ _ _ _ hP h1).2.2
  | condLeaves h1 hv _ => exact ⟨(hc _ _ _ _ hP h1).1, (hc _ _ _ _ hP h1).2.1⟩
  | @again _ _ _ _ _ o₂ _ _ _ _ h1 _ h2 hv h3 ih =>
    have a := (hc _ _ _ _ hP h1).1 _ rfl
    have b := hb _ _ _ _ a h2
    refine ih ?_
    rcases hv with hv | rfl
    · cases o₂ with
      | val u => exact b.1 u rfl
      | _ => exact absurd hv (fun h => h)
    · exact absurd rfl b.2.2.2
  | «break» h1 _ h2 =>
    have a := (hc _ _ _ _ hP h1).1 _ rfl
    exact absurd rfl (hb _ _ _ _ a h2).2.2.1
  | leaves h1 _ h2 hv _ _ =>
    have a := (hc _ _ _ _ hP h1).1 _ rfl
    exact ⟨fun u e => absurd e (not_val_ret hv u), (hb _ _ _ _ a h2).2.1⟩

/-! ### the induction -/

mutual
theorem sound (hK : Right W K) : ∀ (e : Expr) (v : Bool) (d : Nat) (E : Env), Ok W K v d e E →
    ∀ (σ : Store W) (t : List (Nat × W.V)) (o : Out W.V) (σ' : Store W), Agrees W E σ → run W e σ t o σ' →
      Good W v (protectable e = true) (track K d e E) σ o σ'
  | .lit t, v, d, E, _, σ, _, o, σ', hA, h => by
    cases h with
    | raise => exact good_stop (fun h => h) (by simp)
    | val h =>
      refine ⟨?_, (fun w e => by cases e), fun _ => ⟨[], by simp, covered_refl⟩⟩
      intro w e; injection e with e; subst e
      exact ⟨fun _ => h, hA⟩
  | .read x i, v, d, E, _, σ, _, o, σ', hA, h => by
    cases h with
    | raise => exact good_stop (fun h => h) (by simp)
    | val =>
      refine ⟨?_, (fun w e => by cases e), fun _ => ⟨[], by simp, covered_refl⟩⟩
      intro w e; injection e with e; subst e
      refine ⟨fun _ => ?_, hA⟩
      have := hA x
      simp only [track]
      cases e : E x with
      | none => simp [Desc]
      | some t => rw [e] at this; exact this
  | .write x e, v, d, E, ok, σ, _, o, σ', hA, h => by
    simp only [Ok] at ok
    cases h with
    | leaves h hv =>
      have g := sound hK e true d E ok _ _ _ _ hA h
      exact good_of_mem (v := true) g hv (by exact fun _ h => h) (by exact fun _ h => List.mem_append_left _ (.tail _ h))
    | next h1 h2 =>
      have g := sound hK e true d E ok _ _ _ _ hA h1
      obtain ⟨g1, g2⟩ := g.val _ rfl
      cases h2 with
      | val =>
        refine ⟨?_, (fun w e => by cases e), ?_⟩
        · intro w e; injection e with e; subst e
          exact ⟨fun _ => g1 rfl, agrees_set g2 (g1 rfl)⟩
        · intro hp
          exact cov_trans (g.cov hp) ⟨_, fun _ h => h, covered_set (x := x) (g1 rfl)⟩
            (fun _ h => List.mem_append_left _ (.tail _ h)) (fun _ h => List.mem_append_right _ h)
  | .const c, v, d, E, _, σ, _, o, σ', hA, h => by
    cases h with
    | raise => exact good_stop (fun h => h) (by simp)
    | val h =>
      subst h
      refine ⟨?_, (fun w e => by cases e), fun _ => ⟨[], by simp, covered_refl⟩⟩
      intro w e; injection e with e; subst e
      exact ⟨fun _ => hK.const c, hA⟩
  | .self, v, d, E, _, σ, _, o, σ', hA, h => by
    cases h with
    | raise => exact good_stop (fun h => h) (by simp)
    | val h =>
      subst h
      refine ⟨?_, (fun w e => by cases e), fun _ => ⟨[], by simp, covered_refl⟩⟩
      intro w e; injection e with e; subst e
      exact ⟨fun _ => hK.self, hA⟩
  | .call0 r m, v, d, E, ok, σ, _, o, σ', hA, h => by
    simp only [Ok] at ok
    obtain ⟨ok1, ok2, ok3⟩ := ok
    have hrec : ∀ t o σ', run W r σ t o σ' → Good W true (protectable r = true) (inferOf r E (track K d r E)) σ o σ' :=
      fun t o σ' h => recv_good (fun hr => sound hK r true d E (ok1 hr) _ _ _ _ hA h) ok2 hA h
    cases h with
    | leaves h hv => exact call_leave (hrec _ _ _ h) hv
    | next h1 h2 =>
      cases h2 with
      | raise => exact call_stop (hrec _ _ _ h1) (fun h => h) (by simp)
      | val hs => exact call_done hK ok3 h1 (hrec _ _ _ h1) hs
  | .call r m a, v, d, E, ok, σ, _, o, σ', hA, h => by
    simp only [Ok] at ok
    obtain ⟨ok1, ok2, ok3, ok4⟩ := ok
    have hrec : ∀ t o σ', run W r σ t o σ' → Good W true (protectable r = true) (inferOf r E (track K d r E)) σ o σ' :=
      fun t o σ' h => recv_good (fun hr => sound hK r true d E (ok1 hr) _ _ _ _ hA h) ok2 hA h
    cases h with
    | leaves h hv => exact call_leave (hrec _ _ _ h) hv
    | next h1 h2 =>
      cases h2 with
      | leaves h3 hv =>
        obtain ⟨rfl, hr⟩ := run_inert ok4 h3
        exact call_stop (hrec _ _ _ h1) hv hr
      | next h3 h4 =>
        obtain ⟨rfl, hr⟩ := run_inert ok4 h3
        cases h4 with
        | raise => exact call_stop (hrec _ _ _ h1) (fun h => h) (by simp)
        | val hs => exact call_done hK ok3 h1 (hrec _ _ _ h1) hs
  | .seq a b, v, d, E, ok, σ, _, o, σ', hA, h => by
    simp only [Ok] at ok
    have hp : protectable (.seq a b) = true → protectable a = true ∧ protectable b = true := by simp [protectable]
    cases h with
    | leaves h hv =>
      exact good_of_mem ((sound hK a false d E ok.1 _ _ _ _ hA h).weaken (fun h => (hp h).1)) hv (by exact fun _ h => List.mem_append_left _ h) (by exact fun _ h => List.mem_append_left _ h)
    | next h1 h2 =>
      have g := sound hK a false d E ok.1 _ _ _ _ hA h1
      have g' := sound hK b v d _ ok.2 _ _ _ _ (g.val _ rfl).2 h2
      refine ⟨g'.val, ?_, ?_⟩
      · intro w e
        obtain ⟨t, ht, hd⟩ := g'.ret w e
        exact ⟨t, List.mem_append_right _ ht, hd⟩
      · intro h
        exact cov_trans (g.cov (hp h).1) (g'.cov (hp h).2) (fun _ h => List.mem_append_left _ h) (fun _ h => List.mem_append_right _ h)
  | .paren e, v, d, E, ok, σ, t, o, σ', hA, h => sound hK e v d E ok σ t o σ' hA h
  | .ifE c a b, v, d, E, ok, σ, _, o, σ', hA, h => by
    simp only [Ok] at ok
    obtain ⟨ok1, ok2, ok3, ok4, ok5⟩ := ok
    have hp : protectable (.ifE c a b) = true → protectable c = true ∧ protectable a = true ∧ protectable b = true := by
      simp only [protectable, Bool.and_eq_true]; exact fun h => ⟨h.1.1.1, h.1.1.2, h.1.2⟩
    cases h with
    | leaves h hv => exact branch_cond ((sound hK c false d E ok1 _ _ _ _ hA h).weaken (fun h => (hp h).1)) hv
    | next h1 h2 =>
      have g := sound hK c false d E ok1 _ _ _ _ hA h1
      have hA' := (g.val _ rfl).2
      cases h2 with
      | yes hw h2 =>
        refine branch_first (g.weaken (fun h => (hp h).1)) ((sound hK a v d _ ok2 _ _ _ _ hA' h2).weaken (fun h => (hp h).2.1))
          (fun hd => run_diverges a hd _ _ _ _ h2) ?_
        intro d1 d2 hAg
        exact tested_agrees (ok5 d1 d2) h1 (by simpa using hw) h2 hAg
      | no hw h2 =>
        refine branch_second (g.weaken (fun h => (hp h).1)) ((sound hK b v d _ ok3 _ _ _ _ hA' h2).weaken (fun h => (hp h).2.2))
          (fun hd => run_diverges b hd _ _ _ _ h2) ?_
        intro d1 d2 hAg
        exact tested_agrees (ok4 d1 d2) h1 (by simpa using hw) h2 hAg
  | .unlessE c a b, v, d, E, ok, σ, _, o, σ', hA, h => by
    simp only [Ok] at ok
    obtain ⟨ok1, ok2, ok3, ok4, ok5⟩ := ok
    have hp : protectable (.unlessE c a b) = true → protectable c = true ∧ protectable a = true ∧ protectable b = true := by
      simp only [protectable, Bool.and_eq_true]; exact fun h => ⟨h.1.1.1, h.1.1.2, h.1.2⟩
    cases h with
    | leaves h hv => exact branch_cond ((sound hK c false d E ok1 _ _ _ _ hA h).weaken (fun h => (hp h).1)) hv
    | next h1 h2 =>
      have g := sound hK c false d E ok1 _ _ _ _ hA h1
      have hA' := (g.val _ rfl).2
      cases h2 with
      | no hw h2 =>
        refine branch_first (g.weaken (fun h => (hp h).1)) ((sound hK a v d _ ok2 _ _ _ _ hA' h2).weaken (fun h => (hp h).2.1))
          (fun hd => run_diverges a hd _ _ _ _ h2) ?_
        intro d1 d2 hAg
        exact tested_agrees (ok5 d1 d2) h1 (by simpa using hw) h2 hAg
      | yes hw h2 =>
        refine branch_second (g.weaken (fun h => (hp h).1)) ((sound hK b v d _ ok3 _ _ _ _ hA' h2).weaken (fun h => (hp h).2.2))
          (fun hd => run_diverges b hd _ _ _ _ h2) ?_
        intro d1 d2 hAg
        exact tested_agrees (ok4 d1 d2) h1 (by simpa using hw) h2 hAg
  | .caseE s ws l, v, d, E, ok, σ, _, o, σ', hA, h => by
    simp only [Ok] at ok
    obtain ⟨ok1, ok2, ok3⟩ := ok
    have hp : protectable (.caseE s ws l) = true → protectable s = true ∧ protectableC ws = true ∧ protectable l = true := by
      simp only [protectable, Bool.and_eq_true]; exact fun h => ⟨h.1.1, h.1.2, h.2⟩
    cases h with
    | leaves h hv => exact case_subject ((sound hK s false d E ok1 _ _ _ _ hA h).weaken (fun h => (hp h).1)) hv
    | next h1 h2 =>
      have g := (sound hK s false d E ok1 _ _ _ _ hA h1).weaken (fun h => (hp h).1)
      have hA' := (g.val _ rfl).2
      rcases soundC hK ws v d _ ok2 (run W l) _ _ _ _ hA' h2 with h | ⟨t, h⟩ | ⟨rfl, hv, hr⟩
      · exact case_clause g (h.weaken (fun h => (hp h).2.1))
      · exact case_else g ((sound hK l v d _ ok3 _ _ _ _ hA' h).weaken (fun h => (hp h).2.2)) (fun hd => run_diverges l hd _ _ _ _ h)
      · exact case_stop g hv hr
  | .loopE w c b, v, d, E, ok, σ, t, o, σ', hA, h => by
    simp only [Ok] at ok
    obtain ⟨rfl, jc, jb, ok1, ok2, ok3, wc, wb, rc, rb⟩ := ok
    have hc : ∀ σ t o σ', (Agrees W E σ ∨ Agrees W (track K d (.loopE w c b) E).env σ) → run W c σ t o σ' →
        (∀ u, o = .val u → Agrees W (track K d (.loopE w c b) E).env σ') ∧
        (∀ u, o = .ret u → ∃ t ∈ (track K d (.loopE w c b) E).rets, Desc W.toWorld t u) ∧ o ≠ .brk := by
      intro σ t o σ' hP h
      have hj : o ≠ .brk := by
        intro e
        have := (run_tame c _ _ _ _ h).2.2.2 (.inl e)
        rw [jc] at this
        cases this
      rcases hP with hP | hP
      · have g := sound hK c false d E ok1 _ _ _ _ hP h
        refine ⟨fun u e => agrees_merge (.inl (g.val u e).2), ?_, hj⟩
        intro u e
        obtain ⟨t, ht, hd⟩ := g.ret u e
        exact ⟨t, List.mem_append_left _ ht, hd⟩
      · have g := sound hK c false d _ ok2 _ _ _ _ hP h
        refine ⟨fun u e x => wc x _ ((g.val u e).2 x), ?_, hj⟩
        intro u e
        obtain ⟨t, ht, hd⟩ := g.ret u e
        exact rc t ht u hd
    have hb : ∀ σ t o σ', Agrees W (track K d (.loopE w c b) E).env σ → run W b σ t o σ' →
        (∀ u, o = .val u → Agrees W E σ' ∨ Agrees W (track K d (.loopE w c b) E).env σ') ∧
        (∀ u, o = .ret u → ∃ t ∈ (track K d (.loopE w c b) E).rets, Desc W.toWorld t u) ∧ o ≠ .brk ∧ o ≠ .nxt := by
      intro σ t o σ' hP h
      have hj : ¬ (o = .brk ∨ o = .nxt) := by
        intro e
        have := (run_tame b _ _ _ _ h).2.2.2 e
        rw [jb] at this
        cases this
      have g := sound hK b false (d + 1) _ ok3 _ _ _ _ hP h
      refine ⟨fun u e => .inr (fun x => wb x _ ((g.val u e).2 x)), ?_, fun e => hj (.inl e), fun e => hj (.inr e)⟩
      intro u e
      obtain ⟨t, ht, hd⟩ := g.ret u e
      exact rb t ht u hd
    have := loop_good hc hb h (.inl hA)
    exact ⟨fun u e => ⟨(fun h => by cases h), this.1 u e⟩, this.2, fun h => by simp [protectable] at h⟩
  | .andE l r, v, d, E, ok, σ, _, o, σ', hA, h => by
    simp only [Ok] at ok
    obtain ⟨ok1, ok2, ok3⟩ := ok
    have hp : protectable (.andE l r) = true → protectable l = true ∧ protectable r = true := by simp [protectable]
    cases h with
    | leaves h hv => exact short_left ((sound hK l true d E ok1 _ _ _ _ hA h).weaken (fun h => (hp h).1)) hv
    | next h1 h2 =>
      have g := (sound hK l true d E ok1 _ _ _ _ hA h1).weaken (fun h => (hp h).1)
      cases h2 with
      | yes hw h2 =>
        exact short_taken ok3 g (by simpa using hw) ((sound hK r v d _ ok2 _ _ _ _ (g.val _ rfl).2 h2).weaken (fun h => (hp h).2))
      | no hw h2 =>
        cases h2
        exact short_skipped ok3 g (by simpa using hw)
  | .orE l r, v, d, E, ok, σ, _, o, σ', hA, h => by
    simp only [Ok] at ok
    obtain ⟨ok1, ok2, ok3⟩ := ok
    have hp : protectable (.orE l r) = true → protectable l = true ∧ protectable r = true := by simp [protectable]
    cases h with
    | leaves h hv => exact short_left ((sound hK l true d E ok1 _ _ _ _ hA h).weaken (fun h => (hp h).1)) hv
    | next h1 h2 =>
      have g := (sound hK l true d E ok1 _ _ _ _ hA h1).weaken (fun h => (hp h).1)
      cases h2 with
      | no hw h2 =>
        exact short_taken ok3 g (by simpa using hw) ((sound hK r v d _ ok2 _ _ _ _ (g.val _ rfl).2 h2).weaken (fun h => (hp h).2))
      | yes hw h2 =>
        cases h2
        exact short_skipped ok3 g (by simpa using hw)
  | .beginE b rs n, v, d, E, ok, σ, _, o, σ', hA, h => by
    simp only [Ok] at ok
    obtain ⟨ok1, okp, ok2, okr, ok3⟩ := ok
    have hp : protectable (.beginE b rs n) = true → protectable b = true ∧ protectableC rs = true ∧ written n = [] := by
      simp only [protectable, Bool.and_eq_true, List.isEmpty_iff]; exact fun h => ⟨h.1.1.1, h.1.1.2, h.1.2⟩
    refine ensure_good okr (fun h => (hp h).2.2) ?_ (fun σ₁ t o σ' hA h => sound hK n false d _ ok3 σ₁ t o σ' hA h) h
    intro t o σ₁ h
    cases h with
    | normal h1 h2 =>
      have g := (sound hK b v d E ok1 _ _ _ _ hA h1).weaken (fun h => (hp h).1)
      cases h2
      exact begin_normal g (fun hd => run_diverges b hd _ _ _ _ h1)
    | handled h1 h2 =>
      have g := sound hK b v d E ok1 _ _ _ _ hA h1
      rcases okp with rfl | hb
      · cases h2
        exact begin_stop (fun h => g.cov (hp h).1) (fun h => h) (by simp)
      · obtain ⟨ob, g1, g2⟩ := g.cov hb
        have hA' := agrees_rescueEnv hA (covered_mono (track_static K b hb d E).obs hA g1 g2)
        rcases soundC hK rs v d _ ok2 (Now .raised) _ _ _ _ hA' h2 with h | ⟨t, h⟩ | ⟨rfl, hv, hr⟩
        · exact begin_handled (fun h => g.cov (hp h).1) (h.weaken (fun h => (hp h).2.1))
        · cases h
          exact begin_stop (fun h => g.cov (hp h).1) (fun h => h) (by simp)
        · exact begin_stop (fun h => g.cov (hp h).1) hv hr
    | leaves h hv _ =>
      have g := (sound hK b v d E ok1 _ _ _ _ hA h).weaken (fun h => (hp h).1)
      exact begin_normal g (fun _ => hv)
  | .beginElse b rs l n, v, d, E, ok, σ, _, o, σ', hA, h => by
    simp only [Ok] at ok
    obtain ⟨ok1, okl, okp, ok2, okr, ok3⟩ := ok
    have hp : protectable (.beginElse b rs l n) = true →
        protectable b = true ∧ protectableC rs = true ∧ protectable l = true ∧ written n = [] := by
      simp only [protectable, Bool.and_eq_true, List.isEmpty_iff]; exact fun h => ⟨h.1.1.1.1, h.1.1.1.2, h.1.1.2, h.1.2⟩
    refine ensure_good okr (fun h => (hp h).2.2.2) ?_ (fun σ₁ t o σ' hA h => sound hK n false d _ ok3 σ₁ t o σ' hA h) h
    intro t o σ₁ h
    cases h with
    | normal h1 h2 =>
      have g := (sound hK b v d E ok1 _ _ _ _ hA h1)
      have g' := (sound hK l v d _ okl _ _ _ _ (g.val _ rfl).2 h2)
      refine begin_normal ⟨g'.val, ?_, ?_⟩ ?_
      · intro w e
        obtain ⟨t, ht, hd⟩ := g'.ret w e
        exact ⟨t, List.mem_append_right _ ht, hd⟩
      · intro h
        exact cov_trans (g.cov (hp h).1) (g'.cov (hp h).2.2.1) (fun _ h => List.mem_append_left _ h) (fun _ h => List.mem_append_right _ h)
      · intro hd
        simp only [Bool.or_eq_true] at hd
        rcases hd with hd | hd
        · exact absurd trivial (run_diverges b hd _ _ _ _ h1)
        · exact run_diverges l hd _ _ _ _ h2
    | @handled _ σm _ _ _ h1 h2 =>
      have g := sound hK b v d E ok1 _ _ _ _ hA h1
      have gc : protectable (.beginElse b rs l n) = true →
          ∃ ob, (∀ q ∈ ob, q ∈ (andThen (track K d b E) (track K d l (track K d b E).env)).obs) ∧ Covered W ob σ σm := by
        intro h
        obtain ⟨ob, g1, g2⟩ := g.cov (hp h).1
        exact ⟨ob, fun q hq => List.mem_append_left _ (g1 q hq), g2⟩
      rcases okp with rfl | hb
      · cases h2
        exact begin_stop gc (fun h => h) (by simp)
      · obtain ⟨ob, g1, g2⟩ := g.cov hb
        have hA' := agrees_rescueEnv hA (covered_mono (track_static K b hb d E).obs hA g1 g2)
        rcases soundC hK rs v d _ ok2 (Now .raised) _ _ _ _ hA' h2 with h | ⟨t, h⟩ | ⟨rfl, hv, hr⟩
        · exact begin_handled gc (h.weaken (fun h => (hp h).2.1))
        · cases h
          exact begin_stop gc (fun h => h) (by simp)
        · exact begin_stop gc hv hr
    | leaves h hv _ =>
      have g := (sound hK b v d E ok1 _ _ _ _ hA h).weaken (fun h => (hp h).1)
      exact begin_normal (good_of_mem g hv (by exact fun _ h => List.mem_append_left _ h) (by exact fun _ h => List.mem_append_left _ h)) (fun _ => hv)
  | .rescueMod e r, v, d, E, ok, σ, _, o, σ', hA, h => by
    simp only [Ok] at ok
    obtain ⟨ok1, hb, ok2⟩ := ok
    have hp : protectable (.rescueMod e r) = true → protectable e = true ∧ protectable r = true := by simp [protectable]
    cases h with
    | normal h1 h2 =>
      have g := sound hK e v d E ok1 _ _ _ _ hA h1
      cases h2
      refine ⟨?_, (fun w e => by cases e), ?_⟩
      · intro w e'
        obtain ⟨g1, g2⟩ := g.val w e'
        have hd : diverges e = false := by
          by_contra hd
          exact absurd trivial (run_diverges e (by simpa using hd) _ _ _ _ h1)
        exact ⟨fun hv => desc_joinTypes (b := (_, diverges e)) (.head _) hd (g1 hv), agrees_merge (.inl g2)⟩
      · intro h
        obtain ⟨ob, g1, g2⟩ := g.cov (hp h).1
        exact ⟨ob, fun q hq => List.mem_append_left _ (g1 q hq), g2⟩
    | handled h1 h2 =>
      have g := sound hK e v d E ok1 _ _ _ _ hA h1
      obtain ⟨ob, g1, g2⟩ := g.cov hb
      have hA' := agrees_rescueEnv hA (covered_mono (track_static K e hb d E).obs hA g1 g2)
      cases h2 with
      | left h2 =>
        have g' := sound hK r v d _ ok2 _ _ _ _ hA' h2
        refine ⟨?_, ?_, ?_⟩
        · intro w e'
          obtain ⟨g1, g2⟩ := g'.val w e'
          have hd : diverges r = false := by
            by_contra hd
            have := run_diverges r (by simpa using hd) _ _ _ _ h2
            subst e'
            exact this trivial
          exact ⟨fun hv => desc_joinTypes (b := (_, diverges r)) (.tail _ (.head _)) hd (g1 hv), agrees_merge (.inr g2)⟩
        · intro w e
          obtain ⟨t, ht, hd⟩ := g'.ret w e
          exact ⟨t, List.mem_append_right _ ht, hd⟩
        · intro h
          exact cov_trans ⟨ob, g1, g2⟩ (g'.cov (hp h).2) (fun _ h => List.mem_append_left _ h) (fun _ h => List.mem_append_right _ h)
      | right h2 =>
        cases h2
        refine ⟨(fun w e => by cases e), (fun w e => by cases e), fun _ => ⟨ob, fun q hq => List.mem_append_left _ (g1 q hq), g2⟩⟩
    | leaves h hv _ =>
      exact good_of_mem ((sound hK e v d E ok1 _ _ _ _ hA h).weaken (fun h => (hp h).1)) hv (by exact fun _ h => List.mem_append_left _ h) (by exact fun _ h => List.mem_append_left _ h)
  | .ret e, v, d, E, ok, σ, _, o, σ', hA, h => by
    simp only [Ok] at ok
    obtain ⟨ok1, ok2⟩ := ok
    have hrec : ∀ t o σ', run W e σ t o σ' → Good W true (protectable e = true) (inferOf e E (track K d e E)) σ o σ' :=
      fun t o σ' h => recv_good (fun hr => sound hK e true d E (ok1 hr) _ _ _ _ hA h) ok2 hA h
    cases h with
    | leaves h hv => exact good_of_mem (hrec _ _ _ h) hv (by exact fun _ h => List.mem_append_left _ h) (by exact fun _ h => h)
    | next h1 h2 =>
      have g := hrec _ _ _ h1
      cases h2
      refine ⟨(fun w e => by cases e), ?_, g.cov⟩
      intro w e'
      injection e' with e'
      subst e'
      exact ⟨_, List.mem_append_right _ (.head _), (g.val _ rfl).1 rfl⟩
  | .brk, v, d, E, _, σ, _, o, σ', hA, h => by
    cases h; exact good_stop (fun h => h) (by simp)
  | .nxt, v, d, E, _, σ, _, o, σ', hA, h => by
    cases h; exact good_stop (fun h => h) (by simp)
  | .opWrite x e, v, d, E, ok, _, _, _, _, _, _ => by simp [Ok] at ok
  | .other e, v, d, E, ok, σ, _, o, σ', hA, h => by
    simp only [Ok] at ok
    cases h with
    | leaves h hv =>
      obtain ⟨rfl, hr⟩ := run_inert ok h
      exact good_stop hv hr
    | next h1 h2 =>
      obtain ⟨rfl, hr⟩ := run_inert ok h1
      cases h2 with
      | raise => exact good_stop (fun h => h) (by simp)
      | val _ => exact ⟨fun w e => ⟨fun _ => by simp [track, Desc], hA⟩, (fun w e => by cases e), fun _ => ⟨[], by simp, covered_refl⟩⟩
theorem soundC (hK : Right W K) : ∀ (ws : Clauses) (v : Bool) (d : Nat) (E : Env), OkC W K v d ws E →
    ∀ (last : Beh W) (σ : Store W) (t : List (Nat × W.V)) (o : Out W.V) (σ' : Store W), Agrees W E σ → runClauses W ws last σ t o σ' →
      GoodC W v (protectableC ws = true) (trackClauses K d ws E) σ o σ' ∨ (∃ t', last σ t' o σ') ∨
      (σ' = σ ∧ ¬ o.isVal ∧ ∀ w, o ≠ .ret w)
  | .nil, v, d, E, _, last, σ, t, o, σ', _, h => .inr (.inl ⟨t, h⟩)
  | .cons c b l, v, d, E, ok, last, σ, _, o, σ', hA, h => by
    simp only [OkC] at ok
    obtain ⟨okc, okb, okl⟩ := ok
    have hp : protectableC (.cons c b l) = true → protectable b = true ∧ protectableC l = true := by simp [protectableC]
    cases h with
    | leaves h hv =>
      obtain ⟨rfl, hr⟩ := run_inert okc h
      exact .inr (.inr ⟨rfl, hv, hr⟩)
    | next h1 h2 =>
      obtain ⟨rfl, hr⟩ := run_inert okc h1
      cases h2 with
      | left h2 =>
        exact .inl (clause_here ((sound hK b v d E okb _ _ _ _ hA h2).weaken (fun h => (hp h).1)) (fun hd => run_diverges b hd _ _ _ _ h2))
      | right h2 =>
        rcases soundC hK l v d E okl last _ _ _ _ hA h2 with h | h | h
        · exact .inl (clause_later h (fun h => (hp h).2))
        · exact .inr (.inl h)
        · exact .inr (.inr h)
end

end Verif.FlowTypes
