import Verif.Spec.FlowTypes
import Verif.Props.Subtype
import Mathlib.Tactic.Tauto
/-!
Lemmas about types, environments and the interpreter.
-/
namespace Verif.FlowTypes
open Verif.Types

variable {W : World}

/-! ### types -/

theorem desc_flatten {l : List Ty} {v : W.V} : DescAny W.toWorld (flatten l) v ↔ DescAny W.toWorld l v := by
  rw [descAny_iff, desc_alts]
  simp [mem_flatten]

theorem desc_union {l : List Ty} {v : W.V} (h : DescAny W.toWorld l v) : Desc W.toWorld (mkUnion l) v := by
  rw [mkUnion_eq]
  rw [← desc_flatten] at h
  rcases finish_cases (flatten l) with ⟨e, -⟩ | ⟨-, -, t, e, ht⟩ | ⟨-, -, -, e⟩
  · rw [e]; simp [Desc]
  · rw [e]
    obtain ⟨x, hx, hd⟩ := descAny_iff.mp h
    rw [(ht x).mp hx] at hd
    exact hd
  · rw [e]
    obtain ⟨x, hx, hd⟩ := descAny_iff.mp h
    exact descAny_iff.mpr ⟨x, mem_canon.mpr hx, hd⟩

theorem desc_union_of_mem {l : List Ty} {t : Ty} {v : W.V} (ht : t ∈ l) (h : Desc W.toWorld t v) : Desc W.toWorld (mkUnion l) v :=
  desc_union (descAny_iff.mpr ⟨t, ht, h⟩)

theorem desc_nil : Desc W.toWorld nilTy W.nil := (W.nil_inst _).mpr rfl

theorem desc_nilTy {v : W.V} : Desc W.toWorld nilTy v ↔ v = W.nil := W.nil_inst v

theorem desc_removeNil {t : Ty} {v : W.V} (h : Desc W.toWorld t v) (hv : v ≠ W.nil) : Desc W.toWorld (removeNil t) v := by
  cases t with
  | union ts =>
    obtain ⟨u, hu, hd⟩ := descAny_iff.mp h
    refine desc_union_of_mem (t := u) ?_ hd
    simp only [List.mem_filter, decide_eq_true_eq]
    refine ⟨hu, ?_⟩
    rintro rfl
    exact hv (desc_nilTy.mp hd)
  | cls n =>
    simp only [removeNil]
    split
    · simp [Desc]
    · exact h
  | _ => simpa [removeNil, nilTy] using h

theorem desc_subtract {t u : Ty} {v : W.V} (h : Desc W.toWorld t v) (hv : ¬ Desc W.toWorld u v) : Desc W.toWorld (subtract t u) v := by
  rcases simple_or_union t with hs | ⟨ts, rfl⟩
  · have : subtract t u = if t = u then .unknown else t := by
      cases t with
      | union ts => exact absurd rfl (hs ts)
      | _ => rfl
    rw [this]
    split
    · simp [Desc]
    · exact h
  · obtain ⟨x, hx, hd⟩ := descAny_iff.mp h
    refine desc_union_of_mem (t := x) ?_ hd
    simp only [List.mem_filter, decide_eq_true_eq]
    refine ⟨hx, ?_⟩
    rintro rfl
    exact hv hd

theorem proven_go : ∀ (l : List (Option Ty)) (acc : List Ty) (t : Ty), unionFromProven.go l acc = some t →
    ∃ ts, l = ts.map some ∧ t = mkUnion (acc ++ ts) := by
  intro l
  induction l with
  | nil =>
    intro acc t h
    simp only [unionFromProven.go] at h
    split at h
    · cases h
    · injection h with h
      exact ⟨[], rfl, by simp [h]⟩
  | cons a l ih =>
    intro acc t h
    cases a with
    | none => simp [unionFromProven.go] at h
    | some u =>
      simp only [unionFromProven.go] at h
      split at h
      · cases h
      · obtain ⟨ts, e, e'⟩ := ih _ _ h
        exact ⟨u :: ts, by simp [e], by simp [e']⟩

theorem desc_callTy {K : Know} (hK : Right W K) {t : Ty} {m : String} {v w : W.V} {a : Option W.V} (h : Desc W.toWorld t v)
    (hs : W.send v m a w) : Desc W.toWorld (callTy K t m) w := by
  have single : ∀ u : Ty, Desc W.toWorld u v → Desc W.toWorld ((K.resolve u m).getD .unknown) w := by
    intro u hu
    cases e : K.resolve u m with
    | none => simp [Desc]
    | some r => exact hK.resolve u m r v a w e hu hs
  cases t with
  | unknown => simp [callTy, Desc]
  | union ts =>
    simp only [callTy]
    cases e : unionFromProven (ts.map (fun t => K.resolve t m)) with
    | none => simp [Desc]
    | some r =>
      obtain ⟨us, e1, rfl⟩ := proven_go _ _ _ e
      obtain ⟨u, hu, hd⟩ := descAny_iff.mp h
      have : K.resolve u m ∈ us.map some := by rw [← e1]; exact List.mem_map.mpr ⟨u, hu, rfl⟩
      obtain ⟨r, hr, er⟩ := List.mem_map.mp this
      exact desc_union_of_mem (t := r) (by simpa using hr) (hK.resolve u m r v a w er.symm hd hs)
  | _ => exact single _ h

/-! ### environments -/

theorem agrees_set {E : Env} {σ : Store W} {x : Nat} {t : Ty} {v : W.V} (h : Agrees W E σ) (hv : Desc W.toWorld t v) :
    Agrees W (E.set x t) (σ.set x v) := by
  intro y
  simp only [Env.set, Store.set]
  split
  · exact hv
  · exact h y

theorem agrees_set_env {E : Env} {σ : Store W} {x : Nat} {t : Ty} (h : Agrees W E σ) (hv : Desc W.toWorld t (σ x)) :
    Agrees W (E.set x t) σ := by
  intro y
  simp only [Env.set]
  split
  · next e => rw [e]; exact hv
  · exact h y

theorem descOpt_merge {a b : Env} {x : Nat} {v : W.V} (h : DescOpt W (a x) v ∨ DescOpt W (b x) v) : DescOpt W (merge a b x) v := by
  unfold merge
  cases ha : a x with
  | none =>
    cases hb : b x with
    | none => simpa [ha, hb] using h
    | some u =>
      rw [ha, hb] at h
      rcases h with h | h
      · exact desc_union_of_mem (t := nilTy) (by simp) (by rw [show v = W.nil from h]; exact desc_nil)
      · exact desc_union_of_mem (t := u) (by simp) h
  | some t =>
    cases hb : b x with
    | none =>
      rw [ha, hb] at h
      rcases h with h | h
      · exact desc_union_of_mem (t := t) (by simp) h
      · exact desc_union_of_mem (t := nilTy) (by simp) (by rw [show v = W.nil from h]; exact desc_nil)
    | some u =>
      rw [ha, hb] at h
      simp only
      split
      · next e => subst e; exact h.elim id id
      · rcases h with h | h
        · exact desc_union_of_mem (t := t) (by simp) h
        · exact desc_union_of_mem (t := u) (by simp) h

theorem agrees_merge {a b : Env} {σ : Store W} (h : Agrees W a σ ∨ Agrees W b σ) : Agrees W (merge a b) σ := by
  intro x
  apply descOpt_merge
  rcases h with h | h
  · exact .inl (h x)
  · exact .inr (h x)

theorem agrees_foldl {l : List Env} : ∀ {e : Env} {σ : Store W}, (∃ a ∈ e :: l, Agrees W a σ) → Agrees W (l.foldl merge e) σ := by
  induction l with
  | nil => rintro e σ ⟨a, ha, h⟩; simp only [List.mem_singleton] at ha; subst ha; exact h
  | cons b l ih =>
    rintro e σ ⟨a, ha, h⟩
    simp only [List.foldl_cons]
    apply ih
    simp only [List.mem_cons] at ha
    rcases ha with rfl | rfl | ha
    · exact ⟨_, .head _, agrees_merge (.inl h)⟩
    · exact ⟨_, .head _, agrees_merge (.inr h)⟩
    · exact ⟨a, .tail _ ha, h⟩

theorem agrees_join {before : Env} {bs : List (Env × Ty × Bool)} {σ : Store W} {b : Env × Ty × Bool} (hb : b ∈ bs)
    (hd : b.2.2 = false) (h : Agrees W b.1 σ) : Agrees W (joinEnvs before bs) σ := by
  unfold joinEnvs
  have hm : b.1 ∈ (bs.filter (fun b => !b.2.2)).map Prod.fst := by
    refine List.mem_map.mpr ⟨b, ?_, rfl⟩
    simp [hb, hd]
  split
  · next e => rw [e] at hm; cases hm
  · next e l he => rw [he] at hm; exact agrees_foldl ⟨_, hm, h⟩

theorem desc_joinTypes {bs : List (Ty × Bool)} {v : W.V} {b : Ty × Bool} (hb : b ∈ bs) (hd : b.2 = false)
    (h : Desc W.toWorld b.1 v) : Desc W.toWorld (joinTypes bs) v := by
  simp only [joinTypes]
  split
  · simp [Desc]
  · refine desc_union_of_mem (t := b.1) (List.mem_map.mpr ⟨b, ?_, rfl⟩) h
    simp [hb, hd]

/-- The types observed for `x`. -/
def obsOf (obs : List (Nat × Ty)) (x : Nat) : List Ty := (obs.filter (fun o => o.1 == x)).map Prod.snd

theorem mem_obsOf {obs : List (Nat × Ty)} {x : Nat} {t : Ty} : t ∈ obsOf obs x ↔ (x, t) ∈ obs := by
  simp only [obsOf, List.mem_map, List.mem_filter, beq_iff_eq]
  constructor
  · rintro ⟨⟨y, u⟩, ⟨h, rfl⟩, rfl⟩; exact h
  · intro h; exact ⟨(x, t), ⟨h, rfl⟩, rfl⟩

theorem desc_foldl_union {l : List Ty} : ∀ {t : Ty} {v : W.V}, (∃ u ∈ t :: l, Desc W.toWorld u v) →
    Desc W.toWorld (l.foldl (fun a b => mkUnion [a, b]) t) v := by
  induction l with
  | nil => rintro t v ⟨u, hu, h⟩; simp only [List.mem_singleton] at hu; subst hu; exact h
  | cons b l ih =>
    rintro t v ⟨u, hu, h⟩
    simp only [List.foldl_cons]
    apply ih
    simp only [List.mem_cons] at hu
    rcases hu with rfl | rfl | hu
    · exact ⟨_, .head _, desc_union_of_mem (t := u) (by simp) h⟩
    · exact ⟨_, .head _, desc_union_of_mem (t := u) (by simp) h⟩
    · exact ⟨u, .tail _ hu, h⟩

/-- After code with these observations, each variable is as it was or as one of the observations says; and it is as one of the
observations says if there are some. -/
def Covered (W : World) (obs : List (Nat × Ty)) (σ σ' : Store W) : Prop :=
  ∀ x, ((∀ t, (x, t) ∉ obs) ∧ σ' x = σ x) ∨ ∃ t, (x, t) ∈ obs ∧ Desc W.toWorld t (σ' x)

theorem agrees_rescueEnv {E : Env} {obs : List (Nat × Ty)} {σ σ' : Store W} (h : Agrees W E σ) (hc : Covered W obs σ σ') :
    Agrees W (rescueEnv E obs) σ' := by
  intro x
  unfold rescueEnv observed
  rcases hc x with ⟨hn, e⟩ | ⟨t, ht, hd⟩
  · have : obsOf obs x = [] := by
      cases e : obsOf obs x with
      | nil => rfl
      | cons t l => exact absurd (mem_obsOf.mp (e ▸ List.mem_cons_self)) (hn t)
    unfold obsOf at this
    rw [this, e]
    exact h x
  · have := mem_obsOf.mpr ht
    unfold obsOf at this
    split
    · next u e =>
      split at e
      · cases e
      · next a l e' =>
        injection e with e
        subst e
        rw [e'] at this
        exact desc_foldl_union ⟨t, this, hd⟩
    · next e =>
      split at e
      · next e' => rw [e'] at this; cases this
      · cases e

end Verif.FlowTypes
