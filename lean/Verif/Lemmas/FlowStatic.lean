import Verif.Lemmas.FlowRun
/-!
What the observations of a protected piece of code say about the variables before it.
-/
namespace Verif.FlowTypes
open Verif.Types

variable {W : World}

/-- Each variable is unobserved, or one of the observations describes every value it may have before. -/
def StaticObs (W : World) (E : Env) (obs : List (Nat × Ty)) : Prop :=
  ∀ x, (∀ t, (x, t) ∉ obs) ∨ ∃ t, (x, t) ∈ obs ∧ ∀ v, DescOpt W (E x) v → Desc W.toWorld t v

/-- Moreover the unobserved variables keep their types. -/
def Static (W : World) (E : Env) (obs : List (Nat × Ty)) (E' : Env) : Prop :=
  ∀ x, ((∀ t, (x, t) ∉ obs) ∧ E' x = E x) ∨ ∃ t, (x, t) ∈ obs ∧ ∀ v, DescOpt W (E x) v → Desc W.toWorld t v

theorem Static.obs {E E' : Env} {obs : List (Nat × Ty)} (h : Static W E obs E') : StaticObs W E obs := by
  intro x
  rcases h x with h | h
  · exact .inl h.1
  · exact .inr h

theorem static_refl {E : Env} : Static W E [] E := fun _ => .inl ⟨by simp, rfl⟩

theorem static_trans {E E₁ E₂ : Env} {o₁ o₂ : List (Nat × Ty)} (h₁ : Static W E o₁ E₁) (h₂ : Static W E₁ o₂ E₂) :
    Static W E (o₁ ++ o₂) E₂ := by
  intro x
  rcases h₁ x with ⟨n₁, e₁⟩ | ⟨t, ht, hd⟩
  · rcases h₂ x with ⟨n₂, e₂⟩ | ⟨t, ht, hd⟩
    · refine .inl ⟨fun t h => ?_, by rw [e₂, e₁]⟩
      rcases List.mem_append.mp h with h | h
      · exact n₁ t h
      · exact n₂ t h
    · exact .inr ⟨t, List.mem_append_right _ ht, by rw [← e₁]; exact hd⟩
  · exact .inr ⟨t, List.mem_append_left _ ht, hd⟩

/-- A join of two continuations. -/
theorem static_both {E E₁ E₂ E₃ : Env} {o₁ o₂ : List (Nat × Ty)} (h₁ : Static W E o₁ E₁) (h₂ : Static W E o₂ E₂)
    (h : ∀ x, E₁ x = E x → E₂ x = E x → E₃ x = E x) : Static W E (o₁ ++ o₂) E₃ := by
  intro x
  rcases h₁ x with ⟨n₁, e₁⟩ | ⟨t, ht, hd⟩
  · rcases h₂ x with ⟨n₂, e₂⟩ | ⟨t, ht, hd⟩
    · refine .inl ⟨fun t h => ?_, h x e₁ e₂⟩
      rcases List.mem_append.mp h with h | h
      · exact n₁ t h
      · exact n₂ t h
    · exact .inr ⟨t, List.mem_append_right _ ht, hd⟩
  · exact .inr ⟨t, List.mem_append_left _ ht, hd⟩

theorem merge_same {a b : Env} {x : Nat} {o : Option Ty} (ha : a x = o) (hb : b x = o) : merge a b x = o := by
  unfold merge
  rw [ha, hb]
  cases o <;> simp

theorem foldl_same {x : Nat} {o : Option Ty} {l : List Env} : ∀ {e : Env}, e x = o → (∀ a ∈ l, a x = o) → l.foldl merge e x = o := by
  induction l with
  | nil => intro e he _; exact he
  | cons b l ih => intro e he hl; exact ih (merge_same he (hl b (.head _))) (fun a ha => hl a (.tail _ ha))

theorem joinEnvs_same {before : Env} {bs : List (Env × Ty × Bool)} {x : Nat} (h : ∀ b ∈ bs, b.1 x = before x) :
    joinEnvs before bs x = before x := by
  unfold joinEnvs
  have hm : ∀ a ∈ (bs.filter (fun b => !b.2.2)).map Prod.fst, a x = before x := by
    intro a ha
    obtain ⟨b, hb, rfl⟩ := List.mem_map.mp ha
    exact h b (List.mem_filter.mp hb).1
  generalize (bs.filter (fun b => !b.2.2)).map Prod.fst = l at hm ⊢
  cases l with
  | nil => rfl
  | cons e l => exact foldl_same (hm e (.head _)) (fun a ha => hm a (.tail _ ha))

/-- The clauses of `case` and `rescue`. -/
def StaticC (W : World) (E : Env) (b : Branches) : Prop :=
  ∀ x, ((∀ t, (x, t) ∉ b.obs) ∧ ∀ a ∈ b.list, a.1 x = E x) ∨ ∃ t, (x, t) ∈ b.obs ∧ ∀ v, DescOpt W (E x) v → Desc W.toWorld t v

theorem narrow_none : ∀ {c : Expr}, tests c = none → ∀ {E : Env} {b : Bool}, narrow E c b = E := by
  intro c
  fun_induction tests c with
  | case1 p ih => intro h E b; simp only [narrow]; exact ih h
  | case2 x i => intro h; cases h
  | case3 x i m c hm => intro h; simp at h
  | case4 x i m c hm => intro _ E b; simp [narrow, hm]
  | case5 c h1 h2 h3 =>
    intro _ E b
    unfold narrow
    split
    · next p => exact absurd rfl (h1 p)
    · next x i => exact absurd rfl (h2 x i)
    · next x i m c => exact absurd rfl (h3 x i m c)
    · rfl

theorem observed_none {obs : List (Nat × Ty)} {x : Nat} (h : ∀ t, (x, t) ∉ obs) : observed obs x = none := by
  have : obsOf obs x = [] := by
    cases e : obsOf obs x with
    | nil => rfl
    | cons t l => exact absurd (mem_obsOf.mp (e ▸ List.mem_cons_self)) (h t)
  unfold obsOf at this
  unfold observed
  rw [this]

theorem rescueEnv_none {E : Env} {obs : List (Nat × Ty)} {x : Nat} (h : ∀ t, (x, t) ∉ obs) : rescueEnv E obs x = E x := by
  unfold rescueEnv
  rw [observed_none h]

/-- What is observed in the rescue clauses, seen from before the protected body. -/
theorem static_rescue {E E₁ : Env} {o₁ : List (Nat × Ty)} {bs : Branches} {E₂ : Env} (h₁ : Static W E o₁ E₁)
    (h₂ : StaticC W (rescueEnv E o₁) bs) (h : ∀ x, E₁ x = E x → (∀ a ∈ bs.list, a.1 x = E x) → E₂ x = E x) :
    Static W E (o₁ ++ bs.obs) E₂ := by
  intro x
  rcases h₁ x with ⟨n₁, e₁⟩ | ⟨t, ht, hd⟩
  · have er : rescueEnv E o₁ x = E x := rescueEnv_none n₁
    rcases h₂ x with ⟨n₂, e₂⟩ | ⟨t, ht, hd⟩
    · refine .inl ⟨fun t h => ?_, h x e₁ (fun a ha => by rw [e₂ a ha, er])⟩
      rcases List.mem_append.mp h with h | h
      · exact n₁ t h
      · exact n₂ t h
    · exact .inr ⟨t, List.mem_append_right _ ht, by rw [← er]; exact hd⟩
  · exact .inr ⟨t, List.mem_append_left _ ht, hd⟩

theorem static_inferOf {e : Expr} {E : Env} {r : Res} (h : Static W E r.obs r.env) : Static W E (inferOf e E r).obs (inferOf e E r).env := by
  unfold inferOf
  split
  · exact h
  · exact static_refl

theorem static_callRes {K : Know} {recv : Expr} {m : String} {E : Env} {r : Res} (h : Static W E r.obs r.env) :
    Static W E (callRes K recv m E r).obs (callRes K recv m E r).env := by
  unfold callRes
  split
  · exact static_refl
  · exact h

theorem static_branch {E : Env} {c : Expr} {b d₁ d₂ : Bool} {p r₁ r₂ : Res} (hp : Static W E p.obs p.env)
    (h₁ : Static W p.env r₁.obs r₁.env) (h₂ : Static W p.env r₂.obs r₂.env) (hc : ((tests c).isNone || d₁ == d₂) = true) :
    Static W E (branchRes c b d₁ d₂ p r₁ r₂).obs (branchRes c b d₁ d₂ p r₁ r₂).env := by
  simp only [branchRes, List.append_assoc]
  refine static_trans hp (static_both h₁ h₂ ?_)
  intro x e₁ e₂
  simp only [Bool.or_eq_true, Option.isNone_iff_eq_none, beq_iff_eq] at hc
  unfold branchEnv
  split
  · rfl
  · rcases hc with hc | hc
    · rw [narrow_none hc]; exact e₂
    · cases hc
  · rcases hc with hc | hc
    · rw [narrow_none hc]; exact e₁
    · cases hc
  · exact merge_same e₁ e₂

theorem static_short {E : Env} {b : Bool} {l r : Res} (hl : Static W E l.obs l.env) (hr : Static W l.env r.obs r.env) :
    Static W E (shortRes b l r).obs (shortRes b l r).env := by
  unfold shortRes
  split
  · exact static_trans hl hr
  · exact static_trans hl hr
  · exact hl
  · exact hl
  · simp only
    refine static_trans hl ?_
    intro x
    rcases hr x with ⟨n, e⟩ | h
    · exact .inl ⟨n, merge_same rfl e⟩
    · exact .inr h

theorem static_begin {E : Env} {o : List (Nat × Ty)} {r : Res} {d : Bool} {bs : Branches}
    (hs : Static W E r.obs r.env) (ho : ∀ p ∈ o, p ∈ r.obs) (hb : StaticC W (rescueEnv E o) bs) :
    Static W E (beginRes E r d bs).obs (beginRes E r d bs).env := by
  intro x
  simp only [beginRes]
  rcases hs x with ⟨n, e⟩ | ⟨t, ht, hd⟩
  · have er : rescueEnv E o x = E x := rescueEnv_none (fun t ht => n t (ho _ ht))
    rcases hb x with ⟨n₂, e₂⟩ | ⟨t, ht, hd⟩
    · refine .inl ⟨fun t h => ?_, joinEnvs_same ?_⟩
      · rcases List.mem_append.mp h with h | h
        · exact n t h
        · exact n₂ t h
      · intro a ha
        simp only [List.mem_cons] at ha
        rcases ha with rfl | ha
        · exact e
        · rw [e₂ a ha, er]
    · exact .inr ⟨t, List.mem_append_right _ ht, by rw [← er]; exact hd⟩
  · exact .inr ⟨t, List.mem_append_left _ ht, hd⟩

mutual
theorem track_static (K : Know) : ∀ (e : Expr), protectable e = true → ∀ (d : Nat) (E : Env),
    Static W E (track K d e E).obs (track K d e E).env
  | .lit _, _, _, _ => static_refl
  | .read _ _, _, _, _ => static_refl
  | .write x e, h, d, E => by
    have ih := track_static K e (by simpa [protectable] using h) d E
    intro y
    simp only [track, writeRes]
    by_cases hy : y = x
    · subst hy
      refine .inr ⟨(E y).getD nilTy, by simp, ?_⟩
      intro v hv
      cases e : E y with
      | none => rw [e] at hv; rw [show v = W.nil from hv]; exact desc_nil
      | some t => rw [e] at hv; exact hv
    · rcases ih y with ⟨n, e⟩ | ⟨t, ht, hd⟩
      · refine .inl ⟨?_, by simp [Env.set, hy, e]⟩
        intro t ht
        simp only [List.cons_append, List.mem_cons, Prod.mk.injEq, hy, false_and, List.mem_append, List.not_mem_nil, or_false, false_or] at ht
        exact n t ht
      · exact .inr ⟨t, by simp [ht], hd⟩
  | .const _, _, _, _ => static_refl
  | .self, _, _, _ => static_refl
  | .call0 r m, h, d, E => static_callRes (static_inferOf (track_static K r (by simpa [protectable] using h) d E))
  | .call r m a, h, d, E => static_callRes (static_inferOf (track_static K r (by simpa [protectable] using h) d E))
  | .seq a b, h, d, E => by
    simp only [protectable, Bool.and_eq_true] at h
    exact static_trans (track_static K a h.1 d E) (track_static K b h.2 d _)
  | .paren e, h, d, E => track_static K e (by simpa [protectable] using h) d E
  | .ifE c t e, h, d, E => by
    simp only [protectable, Bool.and_eq_true] at h
    exact static_branch (track_static K c h.1.1.1 d E) (track_static K t h.1.1.2 d _) (track_static K e h.1.2 d _) h.2
  | .unlessE c t e, h, d, E => by
    simp only [protectable, Bool.and_eq_true] at h
    exact static_branch (track_static K c h.1.1.1 d E) (track_static K t h.1.1.2 d _) (track_static K e h.1.2 d _) h.2
  | .caseE s ws e, h, d, E => by
    simp only [protectable, Bool.and_eq_true] at h
    have hs := track_static K s h.1.1 d E
    have hw := trackClauses_static K ws h.1.2 d (track K d s E).env
    have he := track_static K e h.2 d (track K d s E).env
    simp only [track, caseRes, List.append_assoc]
    refine static_trans hs ?_
    intro x
    rcases hw x with ⟨n₁, e₁⟩ | ⟨t, ht, hd⟩
    · rcases he x with ⟨n₂, e₂⟩ | ⟨t, ht, hd⟩
      · refine .inl ⟨fun t h => ?_, joinEnvs_same ?_⟩
        · rcases List.mem_append.mp h with h | h
          · exact n₁ t h
          · exact n₂ t h
        · intro a ha
          rcases List.mem_append.mp ha with ha | ha
          · exact e₁ a ha
          · simp only [List.mem_singleton] at ha
            subst ha
            exact e₂
      · exact .inr ⟨t, List.mem_append_right _ ht, hd⟩
    · exact .inr ⟨t, List.mem_append_left _ ht, hd⟩
  | .loopE _ _ _, h, _, _ => by simp [protectable] at h
  | .andE a b, h, d, E => by
    simp only [protectable, Bool.and_eq_true] at h
    exact static_short (track_static K a h.1 d E) (track_static K b h.2 d _)
  | .orE a b, h, d, E => by
    simp only [protectable, Bool.and_eq_true] at h
    exact static_short (track_static K a h.1 d E) (track_static K b h.2 d _)
  | .beginE b rs n, h, d, E => by
    simp only [protectable, Bool.and_eq_true] at h
    have hb := track_static K b h.1.1.1 d E
    have hr := trackClauses_static K rs h.1.1.2 d (rescueEnv E (track K d b E).obs)
    have hn := fun E' => track_static K n h.2 d E'
    simp only [track, withEnsure]
    exact static_trans (static_begin hb (fun p hp => hp) hr) (hn _)
  | .beginElse b rs e n, h, d, E => by
    simp only [protectable, Bool.and_eq_true] at h
    have hb := track_static K b h.1.1.1.1 d E
    have hr := trackClauses_static K rs h.1.1.1.2 d (rescueEnv E (track K d b E).obs)
    have he := track_static K e h.1.1.2 d (track K d b E).env
    have hn := fun E' => track_static K n h.2 d E'
    have hs := static_trans hb he
    simp only [track, withEnsure]
    exact static_trans (static_begin hs (fun p hp => List.mem_append_left _ hp) hr) (hn _)
  | .rescueMod a b, h, d, E => by
    simp only [protectable, Bool.and_eq_true] at h
    have ha := track_static K a h.1 d E
    have hb := track_static K b h.2 d (rescueEnv E (track K d a E).obs)
    simp only [track, rescueModRes]
    intro x
    rcases ha x with ⟨n₁, e₁⟩ | ⟨t, ht, hd⟩
    · have er : rescueEnv E (track K d a E).obs x = E x := rescueEnv_none n₁
      rcases hb x with ⟨n₂, e₂⟩ | ⟨t, ht, hd⟩
      · refine .inl ⟨fun t h => ?_, merge_same e₁ (by rw [e₂, er])⟩
        rcases List.mem_append.mp h with h | h
        · exact n₁ t h
        · exact n₂ t h
      · exact .inr ⟨t, List.mem_append_right _ ht, by rw [← er]; exact hd⟩
    · exact .inr ⟨t, List.mem_append_left _ ht, hd⟩
  | .ret e, h, d, E => static_inferOf (track_static K e (by simpa [protectable] using h) d E)
  | .brk, _, _, _ => static_refl
  | .nxt, _, _, _ => static_refl
  | .opWrite _ _, _, _, _ => static_refl
  | .other _, _, _, _ => static_refl
theorem trackClauses_static (K : Know) : ∀ (ws : Clauses), protectableC ws = true → ∀ (d : Nat) (E : Env),
    StaticC W E (trackClauses K d ws E)
  | .nil, _, _, _ => fun _ => .inl ⟨by simp [trackClauses], by simp [trackClauses]⟩
  | .cons c b l, h, d, E => by
    simp only [protectableC, Bool.and_eq_true] at h
    have hb := track_static K b h.1 d E
    have hl := trackClauses_static K l h.2 d E
    intro x
    simp only [trackClauses]
    rcases hb x with ⟨n₁, e₁⟩ | ⟨t, ht, hd⟩
    · rcases hl x with ⟨n₂, e₂⟩ | ⟨t, ht, hd⟩
      · refine .inl ⟨fun t h => ?_, ?_⟩
        · rcases List.mem_append.mp h with h | h
          · exact n₁ t h
          · exact n₂ t h
        · intro a ha
          simp only [List.mem_cons] at ha
          rcases ha with rfl | ha
          · exact e₁
          · exact e₂ a ha
      · exact .inr ⟨t, List.mem_append_right _ ht, hd⟩
    · exact .inr ⟨t, List.mem_append_left _ ht, hd⟩
end

/-! ### coverage -/

theorem covered_mono {E : Env} {o o' : List (Nat × Ty)} {σ σ' : Store W} (hs : StaticObs W E o') (hA : Agrees W E σ)
    (hsub : ∀ p ∈ o, p ∈ o') (h : Covered W o σ σ') : Covered W o' σ σ' := by
  intro x
  rcases h x with ⟨n, e⟩ | ⟨t, ht, hd⟩
  · rcases hs x with hn | ⟨t, ht, hd⟩
    · exact .inl ⟨hn, e⟩
    · exact .inr ⟨t, ht, by rw [e]; exact hd _ (hA x)⟩
  · exact .inr ⟨t, hsub _ ht, hd⟩

theorem covered_refl {σ : Store W} : Covered W [] σ σ := fun _ => .inl ⟨by simp, rfl⟩

theorem covered_trans {o₁ o₂ : List (Nat × Ty)} {σ σ₁ σ₂ : Store W} (h₁ : Covered W o₁ σ σ₁) (h₂ : Covered W o₂ σ₁ σ₂) :
    Covered W (o₁ ++ o₂) σ σ₂ := by
  intro x
  rcases h₂ x with ⟨n, e⟩ | ⟨t, ht, hd⟩
  · rcases h₁ x with ⟨n', e'⟩ | ⟨t, ht, hd⟩
    · refine .inl ⟨fun t h => ?_, by rw [e, e']⟩
      rcases List.mem_append.mp h with h | h
      · exact n' t h
      · exact n t h
    · exact .inr ⟨t, List.mem_append_left _ ht, by rw [e]; exact hd⟩
  · exact .inr ⟨t, List.mem_append_right _ ht, hd⟩

/-! ### what is observed is assigned -/

theorem obs_inferOf {e : Expr} {E : Env} {r : Res} {p : Nat × Ty} (h : p ∈ (inferOf e E r).obs) : p ∈ r.obs := by
  unfold inferOf at h
  split at h
  · exact h
  · cases h

theorem obs_call {K : Know} {recv : Expr} {m : String} {E : Env} {r : Res} {p : Nat × Ty}
    (h : p ∈ (callRes K recv m E (inferOf recv E r)).obs) : p ∈ r.obs := by
  unfold callRes at h
  split at h
  · cases h
  · exact obs_inferOf h

theorem obs_short {b : Bool} {l r : Res} {p : Nat × Ty} (h : p ∈ (shortRes b l r).obs) : p ∈ l.obs ∨ p ∈ r.obs := by
  unfold shortRes at h
  split at h
  · exact List.mem_append.mp h
  · exact List.mem_append.mp h
  · exact .inl h
  · exact .inl h
  · exact List.mem_append.mp h

mutual
theorem obs_written (K : Know) : ∀ (e : Expr) (d : Nat) (E : Env), ∀ p ∈ (track K d e E).obs, p.1 ∈ written e
  | .lit _, _, _ => by simp [track]
  | .read _ _, _, _ => by simp [track]
  | .write x e, d, E => by
    intro p hp
    simp only [track, writeRes, List.cons_append, List.mem_cons, List.mem_append, List.not_mem_nil, or_false] at hp
    simp only [written, List.mem_cons]
    rcases hp with rfl | hp | rfl
    · exact .inl rfl
    · exact .inr (obs_written K e d E p hp)
    · exact .inl rfl
  | .const _, _, _ => by simp [track]
  | .self, _, _ => by simp [track]
  | .call0 r m, d, E => by
    intro p hp
    exact obs_written K r d E p (obs_call hp)
  | .call r m a, d, E => by
    intro p hp
    exact List.mem_append_left _ (obs_written K r d E p (obs_call hp))
  | .seq a b, d, E => by
    intro p hp
    simp only [track, andThen, List.mem_append] at hp
    simp only [written, List.mem_append]
    exact hp.imp (obs_written K a d _ p) (obs_written K b d _ p)
  | .paren e, d, E => obs_written K e d E
  | .ifE c t e, d, E => by
    intro p hp
    simp only [track, branchRes, List.mem_append] at hp
    simp only [written, List.mem_append]
    exact hp.imp (Or.imp (obs_written K c d _ p) (obs_written K t d _ p)) (obs_written K e d _ p)
  | .unlessE c t e, d, E => by
    intro p hp
    simp only [track, branchRes, List.mem_append] at hp
    simp only [written, List.mem_append]
    exact hp.imp (Or.imp (obs_written K c d _ p) (obs_written K t d _ p)) (obs_written K e d _ p)
  | .caseE s ws e, d, E => by
    intro p hp
    simp only [track, caseRes, List.mem_append] at hp
    simp only [written, List.mem_append]
    exact hp.imp (Or.imp (obs_written K s d _ p) (obs_writtenC K ws d _ p)) (obs_written K e d _ p)
  | .loopE _ c b, d, E => by
    intro p hp
    simp only [track, loopRes, List.mem_append] at hp
    simp only [written, List.mem_append]
    refine hp.imp (obs_written K c d _ p) (fun hp => ?_)
    have ih := obs_written K b (d + 1)
    have : ∀ (n : Nat) (r : Res), (∀ p ∈ r.obs, p.1 ∈ written b) →
        ∀ p ∈ (repeatTrack (track K (d + 1) b) n r).obs, p.1 ∈ written b := by
      intro n
      induction n with
      | zero => intro r h; exact h
      | succ n ihn =>
        intro r h
        refine ihn _ ?_
        intro p hp
        rcases List.mem_append.mp hp with hp | hp
        · exact h p hp
        · exact ih _ p hp
    exact this _ _ (by simp) p hp
  | .andE a b, d, E => by
    intro p hp
    simp only [written, List.mem_append]
    exact (obs_short hp).imp (obs_written K a d _ p) (obs_written K b d _ p)
  | .orE a b, d, E => by
    intro p hp
    simp only [written, List.mem_append]
    exact (obs_short hp).imp (obs_written K a d _ p) (obs_written K b d _ p)
  | .beginE b rs n, d, E => by
    intro p hp
    simp only [track, withEnsure, beginRes, List.mem_append] at hp
    simp only [written, List.mem_append]
    exact hp.imp (Or.imp (obs_written K b d _ p) (obs_writtenC K rs d _ p)) (obs_written K n d _ p)
  | .beginElse b rs e n, d, E => by
    intro p hp
    simp only [track, withEnsure, beginRes, andThen, List.mem_append] at hp
    simp only [written, List.mem_append]
    rcases hp with ((hp | hp) | hp) | hp
    · exact .inl (.inl (.inl (obs_written K b d _ p hp)))
    · exact .inl (.inr (obs_written K e d _ p hp))
    · exact .inl (.inl (.inr (obs_writtenC K rs d _ p hp)))
    · exact .inr (obs_written K n d _ p hp)
  | .rescueMod a b, d, E => by
    intro p hp
    simp only [track, rescueModRes, List.mem_append] at hp
    simp only [written, List.mem_append]
    exact hp.imp (obs_written K a d _ p) (obs_written K b d _ p)
  | .ret e, d, E => by
    intro p hp
    exact obs_written K e d E p (obs_inferOf hp)
  | .brk, _, _ => by simp [track]
  | .nxt, _, _ => by simp [track]
  | .opWrite _ _, _, _ => by simp [track]
  | .other _, _, _ => by simp [track]
theorem obs_writtenC (K : Know) : ∀ (ws : Clauses) (d : Nat) (E : Env), ∀ p ∈ (trackClauses K d ws E).obs, p.1 ∈ writtenC ws
  | .nil, _, _ => by simp [trackClauses]
  | .cons c b l, d, E => by
    intro p hp
    simp only [trackClauses, List.mem_append] at hp
    simp only [writtenC, List.mem_append]
    exact hp.elim (fun h => .inl (.inr (obs_written K b d _ p h))) (fun h => .inr (obs_writtenC K l d _ p h))
end

end Verif.FlowTypes
