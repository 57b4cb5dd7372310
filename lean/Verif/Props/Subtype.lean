import Verif.Model.Subtype
import Verif.Spec.Subtype
import Verif.Props.Widen
import Mathlib.Tactic.Tauto
/-!
C43: subtyping is sound for the values types describe, apart from three kinds of shapes for which it is not.
-/
namespace Verif.Types
open Verif.Store

/-! ### results -/

theorem Res.and_true {a b : Res} : a.and b = .ok true ↔ a = .ok true ∧ b = .ok true := by
  cases a with
  | ok x => cases x <;> simp [Res.and]
  | _ => simp [Res.and]

theorem allR_true {α : Type} {f : α → Res} {l : List α} : allR f l = .ok true ↔ ∀ a ∈ l, f a = .ok true := by
  induction l with
  | nil => simp [allR]
  | cons a l ih => simp [allR, Res.and_true, ih]

theorem anyR_true {α : Type} {f : α → Res} {l : List α} (h : anyR f l = .ok true) : ∃ a ∈ l, f a = .ok true := by
  induction l with
  | nil => simp [anyR] at h
  | cons a l ih =>
    simp only [anyR] at h
    cases hf : f a with
    | ok b =>
      cases b with
      | true => exact ⟨a, by simp, hf⟩
      | false =>
        rw [hf] at h
        obtain ⟨x, hx, he⟩ := ih h
        exact ⟨x, by simp [hx], he⟩
    | _ => rw [hf] at h; cases h

theorem anyR_false {α : Type} {f : α → Res} {l : List α} (h : anyR f l = .ok false) : ∀ a ∈ l, f a = .ok false := by
  induction l with
  | nil => simp
  | cons a l ih =>
    simp only [anyR] at h
    cases hf : f a with
    | ok b =>
      cases b with
      | true => rw [hf] at h; cases h
      | false =>
        rw [hf] at h
        intro x hx
        rcases List.mem_cons.mp hx with rfl | hx
        · exact hf
        · exact ih h x hx
    | _ => rw [hf] at h; cases h

theorem Res.and_not_stuck {a b : Res} (ha : a ≠ .stuck) (hb : b ≠ .stuck) : a.and b ≠ .stuck := by
  cases a with
  | ok x => cases x <;> simp [Res.and, hb]
  | panic => simp [Res.and]
  | stuck => exact absurd rfl ha

theorem Res.or_not_stuck {a b : Res} (ha : a ≠ .stuck) (hb : b ≠ .stuck) : a.or b ≠ .stuck := by
  cases a with
  | ok x => cases x <;> simp [Res.or, hb]
  | panic => simp [Res.or]
  | stuck => exact absurd rfl ha

theorem allR_not_stuck {α : Type} {f : α → Res} {l : List α} (h : ∀ a ∈ l, f a ≠ .stuck) : allR f l ≠ .stuck := by
  induction l with
  | nil => simp [allR]
  | cons a l ih => exact Res.and_not_stuck (h a (by simp)) (ih (fun x hx => h x (by simp [hx])))

theorem anyR_not_stuck {α : Type} {f : α → Res} {l : List α} (h : ∀ a ∈ l, f a ≠ .stuck) : anyR f l ≠ .stuck := by
  induction l with
  | nil => simp [anyR]
  | cons a l ih => exact Res.or_not_stuck (h a (by simp)) (ih (fun x hx => h x (by simp [hx])))

/-! ### descriptions -/

variable {W : World}

theorem descAny_iff {l : List Ty} {v : W.V} : DescAny W l v ↔ ∃ t ∈ l, Desc W t v := by
  induction l with
  | nil => simp [DescAny]
  | cons a l ih => simp [DescAny, ih]

theorem descFields_iff {l : List Field} {v : W.V} : DescFields W l v ↔
    ∀ f ∈ l, (f.2.1 = false → ∃ x, W.entry v (W.lit f.1) x) ∧ ∀ x, W.entry v (W.lit f.1) x → Desc W f.2.2 x := by
  induction l with
  | nil => simp [DescFields]
  | cons a l ih =>
    obtain ⟨k, p, t⟩ := a
    simp only [DescFields, ih, List.forall_mem_cons]

theorem desc_alt {t : Ty} {v : W.V} : Desc W t v ↔ ∃ x, AltOf t x ∧ Desc W x v := by
  rcases simple_or_union t with h | ⟨us, rfl⟩
  · simp [altOf_simple h]
  · simp [altOf_union, Desc, descAny_iff]

theorem desc_alts {l : List Ty} {v : W.V} : DescAny W l v ↔ ∃ x, Alts l x ∧ Desc W x v := by
  rw [descAny_iff]
  constructor
  · rintro ⟨t, ht, hd⟩
    obtain ⟨x, hx, hd⟩ := desc_alt.mp hd
    exact ⟨x, ⟨t, ht, hx⟩, hd⟩
  · rintro ⟨x, ⟨t, ht, hx⟩, hd⟩
    exact ⟨t, ht, desc_alt.mpr ⟨x, hx, hd⟩⟩

theorem desc_mkUnion {l : List Ty} (hf : ∀ x, Alts l x → Simple x) {v : W.V} (h : DescAny W l v) : Desc W (mkUnion l) v := by
  by_cases hu : mkUnion l = .unknown
  · rw [hu]; simp [Desc]
  · obtain ⟨x, hx, hd⟩ := desc_alts.mp h
    exact desc_alt.mpr ⟨x, ((c21_alternatives hf).2 hu x).mpr hx, hd⟩

theorem desc_members {l : List Ty} (hf : ∀ x, Alts l x → Simple x) {v : W.V} (h : DescAny W l v) : DescAny W (members l) v := by
  rcases members_spec hf with ⟨e, -⟩ | e
  · rw [e]; simp [DescAny, Desc]
  · obtain ⟨x, hx, hd⟩ := desc_alts.mp h
    exact descAny_iff.mpr ⟨x, (e x).mpr hx, hd⟩

theorem desc_generic (l : Lit) : Desc W l.generic (W.lit l) := by
  unfold Lit.generic
  split
  · exact (W.string l).mpr ‹_›
  · exact (W.symbol l).mpr (by cases h : l.isString <;> simp_all)

/-! ### widening -/

theorem widenRest_cases {r r' : Option (Ty × Ty)} (h : widenRest r = some r') :
    (r = none ∧ r' = none) ∨ ∃ k v k' v', r = some (k, v) ∧ r' = some (k', v') ∧ widen k = some k' ∧ widen v = some v' := by
  match r, h with
  | none, h => simp only [widenRest] at h; cases h; exact .inl ⟨rfl, rfl⟩
  | some (k0, v0), h =>
    simp only [widenRest, Option.bind_eq_some_iff, Option.map_eq_some_iff] at h
    obtain ⟨k1, hk1, v1, hv1, rfl⟩ := h
    exact .inr ⟨k0, v0, k1, v1, rfl, rfl, hk1, hv1⟩

theorem widen_shape {fs : List Field} {r : Option (Ty × Ty)} {o z : Bool} {d : Nat} {t' : Ty} (h : widen (.shape fs r o z d) = some t') :
    ∃ fs' r' gs d', List.Forall₂ FieldRel fs fs' ∧ widenRest r = some r' ∧ tryNew fs' r' o z = .ok t' ∧
      t' = .shape gs r' o z d' ∧ WellFormed gs r' o ∧ gs.Perm fs' := by
  simp only [widen, Option.bind_eq_some_iff] at h
  obtain ⟨fs', hfs, r', hr, h⟩ := h
  have ht : tryNew fs' r' o z = .ok t' := by
    cases htn : tryNew fs' r' o z with
    | error e => rw [htn] at h; cases h
    | ok x => rw [htn] at h; cases h; rfl
  obtain ⟨gs, d', he, hw, hp, -⟩ := c23_well_formed ht
  exact ⟨fs', r', gs, d', widenFields_iff.mp hfs, hr, ht, he, hw, hp⟩

theorem flat_of_widenList {ts l : List Ty} (h : widenList ts = some l) : ∀ t ∈ l, Fixed t := by
  intro t ht
  obtain ⟨a, _, hw⟩ := forall₂_right (widenList_iff.mp h) ht
  exact widen_gives_fixed a t hw

/-- C43 (and C22): widening literals only makes a type describe more values. -/
theorem c43_widening_sound : ∀ t t', widen t = some t' → ∀ v : W.V, Desc W t v → Desc W t' v := by
  have listDesc : ∀ {ts l : List Ty}, (∀ t ∈ ts, ∀ t', widen t = some t' → ∀ v : W.V, Desc W t v → Desc W t' v) → widenList ts = some l →
      ∀ v : W.V, DescAny W ts v → DescAny W l v := by
    intro ts l ih h v hd
    obtain ⟨t, ht, hd⟩ := descAny_iff.mp hd
    obtain ⟨t', ht', hw⟩ := forall₂_left (widenList_iff.mp h) ht
    exact descAny_iff.mpr ⟨t', ht', ih t ht t' hw v hd⟩
  refine Ty.ind ?_ ?_ ?_ ?_ ?_ ?_ ?_ ?_ ?_ ?_
  iterate 4 intro n t' h v hd; cases h; exact hd
  · intro l t' h v hd
    cases h
    simp only [Desc] at hd
    subst hd
    exact desc_generic l
  · intro ts ih t' h v hd
    simp only [widen, Option.map_eq_some_iff] at h
    obtain ⟨l, hl, rfl⟩ := h
    simp only [Desc] at hd ⊢
    exact ⟨hd.1, fun x hx => desc_members (flat_of_fixed (flat_of_widenList hl)) (listDesc ih hl x (hd.2 x hx))⟩
  · intro ks vs ih1 ih2 t' h v hd
    simp only [widen, Option.bind_eq_some_iff, Option.map_eq_some_iff] at h
    obtain ⟨k, hk, w, hv, rfl⟩ := h
    simp only [Desc] at hd ⊢
    exact ⟨hd.1, fun x y hx => ⟨desc_members (flat_of_fixed (flat_of_widenList hk)) (listDesc ih1 hk x (hd.2 x y hx).1),
      desc_members (flat_of_fixed (flat_of_widenList hv)) (listDesc ih2 hv y (hd.2 x y hx).2)⟩⟩
  · intro fs r o z d ih1 ih2 t' h v hd
    obtain ⟨fs', r', gs, d', hf, hr, -, rfl, -, hp⟩ := widen_shape h
    simp only [Desc, descFields_iff] at hd ⊢
    refine ⟨hd.1, ?_, ?_⟩
    · intro g hg
      obtain ⟨f, hfm, hk, hpr, hw⟩ := forall₂_right hf (hp.mem_iff.mp hg)
      rw [hk, hpr]
      exact ⟨(hd.2.1 f hfm).1, fun x hx => ih1 f hfm _ hw x ((hd.2.1 f hfm).2 x hx)⟩
    · intro k x he hn
      have hd := hd.2.2 k x he (by
        intro f hfm
        obtain ⟨g, hg, hk, -⟩ := forall₂_left hf hfm
        rw [← hk]
        exact hn g (hp.mem_iff.mpr hg))
      rcases widenRest_cases hr with ⟨rfl, rfl⟩ | ⟨kt, vt, kt', vt', rfl, rfl, hk, hv⟩
      · exact hd
      · simp only [DescRest] at hd ⊢
        exact ⟨(ih2 kt vt rfl).1 _ hk k hd.1, (ih2 kt vt rfl).2 _ hv x hd.2⟩
  · intro ts ih t' h v hd
    simp only [widen, Option.map_eq_some_iff] at h
    obtain ⟨l, hl, rfl⟩ := h
    simp only [Desc] at hd
    exact desc_mkUnion (flat_of_fixed (flat_of_widenList hl)) (listDesc ih hl v hd)
  · intro t' h v hd; cases h; exact hd

/-! ### the generic hash view of a shape -/

theorem genericHash_spec {fs : List Field} {r : Option (Ty × Ty)} {o : Bool} {g : Ty} (h : genericHash fs r o = some g) :
    ∃ ks vs, g = .hash (members ks) (members vs) ∧ (∀ t ∈ ks, Fixed t) ∧ (∀ t ∈ vs, Fixed t) ∧
      (∀ t, t ∈ ks ↔ (∃ f ∈ fs, t = f.1.generic) ∨ (∃ k v, r = some (k, v) ∧ widen k = some t) ∨ (r = none ∧ o = true ∧ t = .unknown)) ∧
      (∀ t, t ∈ vs → (∃ f ∈ fs, widen f.2.2 = some t) ∨ (∃ k v, r = some (k, v) ∧ widen v = some t) ∨ (r = none ∧ o = true ∧ t = .unknown)) ∧
      (∀ f ∈ fs, ∃ t ∈ vs, widen f.2.2 = some t) ∧ (∀ k v, r = some (k, v) → ∃ t ∈ vs, widen v = some t) ∧
      (∀ k v, r = some (k, v) → ∃ t ∈ ks, widen k = some t) ∧ (r = none → o = true → .unknown ∈ vs) := by
  have gen : ∀ l : Lit, Fixed l.generic := fun l => by
    unfold Lit.generic
    split
    · exact fixed_simple (fun _ h => by cases h) (.cls _) rfl
    · exact fixed_simple (fun _ h => by cases h) (.cls _) rfl
  simp only [genericHash, Option.bind_eq_some_iff] at h
  obtain ⟨values, hvals, h⟩ := h
  have hfv := flat_of_widenList hvals
  have h2 := widenList_iff.mp hvals
  have back : ∀ t ∈ values, ∃ f ∈ fs, widen f.2.2 = some t := by
    intro t ht
    obtain ⟨a, ha, hw⟩ := forall₂_right h2 ht
    obtain ⟨f, hf, rfl⟩ := List.mem_map.mp ha
    exact ⟨f, hf, hw⟩
  have fwd : ∀ f ∈ fs, ∃ t ∈ values, widen f.2.2 = some t := fun f hf => forall₂_left h2 (List.mem_map.mpr ⟨f, hf, rfl⟩)
  match r, h with
  | some (k, v), h =>
    simp only [Option.bind_eq_some_iff, Option.map_eq_some_iff] at h
    obtain ⟨k', hk, v', hv, rfl⟩ := h
    refine ⟨_, _, rfl, ?_, ?_, ?_, ?_, ?_, ?_, ?_, ?_⟩
    · intro t ht
      rcases List.mem_append.mp ht with ht | ht
      · obtain ⟨f, -, rfl⟩ := List.mem_map.mp ht
        exact gen _
      · rw [List.mem_singleton.mp ht]; exact widen_gives_fixed k k' hk
    · intro t ht
      rcases List.mem_append.mp ht with ht | ht
      · exact hfv t ht
      · rw [List.mem_singleton.mp ht]; exact widen_gives_fixed v v' hv
    · intro t
      simp [hk, eq_comm]
    · intro t ht
      rcases List.mem_append.mp ht with ht | ht
      · exact .inl (back t ht)
      · rw [List.mem_singleton.mp ht]; exact .inr (.inl ⟨k, v, rfl, hv⟩)
    · intro f hf
      obtain ⟨t, ht, hw⟩ := fwd f hf
      exact ⟨t, by simp [ht], hw⟩
    · intro _ _ e; cases e; exact ⟨v', by simp, hv⟩
    · intro _ _ e; cases e; exact ⟨k', by simp, hk⟩
    · intro e; cases e
  | none, h =>
    cases o with
    | true =>
      simp only [if_true, Option.some.injEq] at h
      subst h
      refine ⟨_, _, rfl, ?_, ?_, ?_, ?_, ?_, ?_, ?_, ?_⟩
      · intro t ht
        rcases List.mem_append.mp ht with ht | ht
        · obtain ⟨f, -, rfl⟩ := List.mem_map.mp ht
          exact gen _
        · rw [List.mem_singleton.mp ht]; exact fixed_simple simple_unknown .unknown rfl
      · intro t ht
        rcases List.mem_append.mp ht with ht | ht
        · exact hfv t ht
        · rw [List.mem_singleton.mp ht]; exact fixed_simple simple_unknown .unknown rfl
      · intro t; simp [eq_comm]
      · intro t ht
        rcases List.mem_append.mp ht with ht | ht
        · exact .inl (back t ht)
        · exact .inr (.inr ⟨rfl, rfl, List.mem_singleton.mp ht⟩)
      · intro f hf
        obtain ⟨t, ht, hw⟩ := fwd f hf
        exact ⟨t, by simp [ht], hw⟩
      · intro _ _ e; cases e
      · intro _ _ e; cases e
      · intro _ _; simp
    | false =>
      simp only [Bool.false_eq_true, if_false, Option.some.injEq] at h
      subst h
      refine ⟨_, _, rfl, ?_, hfv, ?_, ?_, fwd, ?_, ?_, ?_⟩
      · intro t ht
        obtain ⟨f, -, rfl⟩ := List.mem_map.mp ht
        exact gen _
      · intro t; simp [eq_comm]
      · intro t ht; exact .inl (back t ht)
      · intro _ _ e; cases e
      · intro _ _ e; cases e
      · intro _ e; cases e

/-- C43: the generic hash type of a shape describes every hash the shape describes. -/
theorem c43_generic_hash_sound {fs : List Field} {r : Option (Ty × Ty)} {o z : Bool} {d : Nat} {g : Ty} (h : genericHash fs r o = some g)
    {v : W.V} (hd : Desc W (.shape fs r o z d) v) : Desc W g v := by
  obtain ⟨ks, vs, rfl, hk, hv, hks, -, hf, hrv, hrk, hu⟩ := genericHash_spec h
  simp only [Desc, descFields_iff] at hd ⊢
  refine ⟨hd.1, fun k x he => ?_⟩
  have : DescAny W ks k ∧ DescAny W vs x := by
    by_cases hl : ∃ f ∈ fs, k = W.lit f.1
    · obtain ⟨f, hfm, rfl⟩ := hl
      refine ⟨descAny_iff.mpr ⟨f.1.generic, (hks _).mpr (.inl ⟨f, hfm, rfl⟩), desc_generic _⟩, ?_⟩
      obtain ⟨t, ht, hw⟩ := hf f hfm
      exact descAny_iff.mpr ⟨t, ht, c43_widening_sound _ _ hw x ((hd.2.1 f hfm).2 x he)⟩
    · have hr := hd.2.2 k x he (fun f hfm e => hl ⟨f, hfm, e⟩)
      match r, hr with
      | some (kt, vt), hr =>
        obtain ⟨t, ht, hw⟩ := hrv kt vt rfl
        obtain ⟨t2, ht2, hw2⟩ := hrk kt vt rfl
        exact ⟨descAny_iff.mpr ⟨t2, ht2, c43_widening_sound _ _ hw2 k hr.1⟩, descAny_iff.mpr ⟨t, ht, c43_widening_sound _ _ hw x hr.2⟩⟩
      | none, hr =>
        simp only [DescRest] at hr
        exact ⟨descAny_iff.mpr ⟨.unknown, (hks _).mpr (.inr (.inr ⟨rfl, hr, rfl⟩)), by simp [Desc]⟩,
          descAny_iff.mpr ⟨.unknown, hu rfl hr, by simp [Desc]⟩⟩
  exact ⟨desc_members (flat_of_fixed hk) this.1, desc_members (flat_of_fixed hv) this.2⟩

/-! ### well formed and plain types -/

/-- Plain, and every shape well formed. -/
inductive Proper (W : World) : Ty → Prop where
  | cls (n) : Proper W (.cls n)
  | mod (n) : Proper W (.mod n)
  | clsRef (n) : Proper W (.clsRef n)
  | modRef (n) : Proper W (.modRef n)
  | unknown : Proper W .unknown
  | lit (v) : Proper W (.lit v)
  | array {ts} : (∀ t ∈ ts, Proper W t) → Proper W (.array ts)
  | hash {ks vs} : (∀ t ∈ ks, Proper W t) → (∀ t ∈ vs, Proper W t) → Proper W (.hash ks vs)
  | union {ts} : (∀ t ∈ ts, Proper W t) → Proper W (.union ts)
  | shape {fs r o z d} : (∀ f ∈ fs, Proper W f.2.2) → (∀ k v, r = some (k, v) → Proper W k) → (∀ k v, r = some (k, v) → Proper W v) →
      (∀ k v, r = some (k, v) → PlainKey W k) → (o = false → ∀ f ∈ fs, f.2.1 = false) → WellFormed fs r o → Proper W (.shape fs r o z d)

theorem proper_of_plain : ∀ t, Built t → Plain W t → Proper W t := by
  refine Ty.ind ?_ ?_ ?_ ?_ ?_ ?_ ?_ ?_ ?_ ?_
  · intro n _ _; exact .cls n
  · intro n _ _; exact .mod n
  · intro n _ _; exact .clsRef n
  · intro n _ _; exact .modRef n
  · intro n _ _; exact .lit n
  · intro ts ih hb hp
    cases hp with
    | array hp => exact .array (fun t ht => ih t ht (built_array hb t ht) (hp t ht))
  · intro ks vs ih1 ih2 hb hp
    cases hp with
    | hash h1 h2 =>
      exact .hash (fun t ht => ih1 t ht ((built_hash hb).1 t ht) (h1 t ht)) (fun t ht => ih2 t ht ((built_hash hb).2 t ht) (h2 t ht))
  · intro fs r o z d ih1 ih2 hb hp
    obtain ⟨⟨fs0, h0⟩, h1, h2⟩ := built_shape hb
    obtain ⟨gs, d', he, hw, -, -⟩ := c23_well_formed h0
    cases he
    cases hp with
    | shape p1 p2 p3 p4 p5 =>
      exact .shape (fun f hf => ih1 f hf (h1 f hf) (p1 f hf)) (fun k v e => (ih2 k v e).1 (h2 k v e).1 (p2 k v e))
        (fun k v e => (ih2 k v e).2 (h2 k v e).2 (p3 k v e)) p4 p5 hw
  · intro ts ih hb hp
    cases hp with
    | union hp => exact .union (fun t ht => ih t ht (built_union hb t ht) (hp t ht))
  · intro _ _; exact .unknown

theorem proper_alt {t x : Ty} (h : Proper W t) (hx : AltOf t x) : Proper W x := by
  cases hx with
  | self _ => exact h
  | member hm => cases h with | union h => exact h _ hm

theorem proper_of_alts {t : Ty} (h : ∀ x, AltOf t x → Proper W x) : Proper W t := by
  rcases simple_or_union t with hs | ⟨us, rfl⟩
  · exact h t (.self hs)
  · exact .union (fun u hu => h u (.member hu))

theorem proper_members {l : List Ty} (hf : ∀ x, Alts l x → Simple x) (h : ∀ t ∈ l, Proper W t) : ∀ x ∈ members l, Proper W x := by
  intro x hx
  rcases mem_members hf hx with rfl | ⟨t, ht, ha⟩
  · exact .unknown
  · exact proper_alt (h t ht) ha

theorem proper_mkUnion {l : List Ty} (hf : ∀ x, Alts l x → Simple x) (h : ∀ t ∈ l, Proper W t) : Proper W (mkUnion l) := by
  by_cases hu : mkUnion l = .unknown
  · rw [hu]; exact .unknown
  · refine proper_of_alts (fun x hx => ?_)
    obtain ⟨t, ht, ha⟩ := ((c21_alternatives hf).2 hu x).mp hx
    exact proper_alt (h t ht) ha

theorem plainKey_alt {t x : Ty} (h : PlainKey W t) (hx : AltOf t x) : PlainKey W x := by
  cases hx with
  | self _ => exact h
  | member hm => cases h with | union h => exact h _ hm

/-- Widening keeps keys plain unless it gives up. -/
theorem plainKey_widen : ∀ t t', widen t = some t' → PlainKey W t → t' = .unknown ∨ PlainKey W t' := by
  refine Ty.ind ?_ ?_ ?_ ?_ ?_ ?_ ?_ ?_ ?_ ?_
  iterate 4 intro n t' h hp; cases h; exact .inr hp
  · intro l t' _ hp; cases hp
  · intro ts _ t' h _
    simp only [widen, Option.map_eq_some_iff] at h
    obtain ⟨l, -, rfl⟩ := h
    exact .inr (.array _)
  · intro ks vs _ _ t' h _
    simp only [widen, Option.bind_eq_some_iff, Option.map_eq_some_iff] at h
    obtain ⟨k, -, w, -, rfl⟩ := h
    exact .inr (.hash _ _)
  · intro fs r o z d _ _ t' h _
    obtain ⟨fs', r', gs, d', -, -, -, rfl, -⟩ := widen_shape h
    exact .inr (.shape _ _ _ _ _)
  · intro ts ih t' h hp
    simp only [widen, Option.map_eq_some_iff] at h
    obtain ⟨l, hl, rfl⟩ := h
    have hflat := flat_of_fixed (flat_of_widenList hl)
    by_cases hu : mkUnion l = .unknown
    · exact .inl hu
    · right
      have hall : ∀ x, AltOf (mkUnion l) x → PlainKey W x := by
        intro x hx
        obtain ⟨t1, ht1, ha⟩ := ((c21_alternatives hflat).2 hu x).mp hx
        obtain ⟨t0, ht0, hw⟩ := forall₂_right (widenList_iff.mp hl) ht1
        have hp0 : PlainKey W t0 := by cases hp with | union hp => exact hp t0 ht0
        rcases ih t0 ht0 t1 hw hp0 with rfl | hp1
        · exact absurd ((c21_unknown_iff l).mpr (.inl ⟨.unknown, ht1, .self simple_unknown⟩)) hu
        · exact plainKey_alt hp1 ha
      rcases simple_or_union (mkUnion l) with hs | ⟨us, he⟩
      · exact hall _ (.self hs)
      · rw [he]; exact .union (fun u hu => hall u (by rw [he]; exact .member hu))
  · intro t' _ hp; cases hp

theorem proper_widen : ∀ t t', widen t = some t' → Proper W t → Proper W t' := by
  have listP : ∀ {ts l : List Ty}, (∀ t ∈ ts, ∀ t', widen t = some t' → Proper W t → Proper W t') → widenList ts = some l →
      (∀ t ∈ ts, Proper W t) → ∀ t ∈ l, Proper W t := by
    intro ts l ih h hp t ht
    obtain ⟨a, ha, hw⟩ := forall₂_right (widenList_iff.mp h) ht
    exact ih a ha t hw (hp a ha)
  refine Ty.ind ?_ ?_ ?_ ?_ ?_ ?_ ?_ ?_ ?_ ?_
  iterate 4 intro n t' h hp; cases h; exact hp
  · intro l t' h _
    cases h
    unfold Lit.generic
    split <;> exact .cls _
  · intro ts ih t' h hp
    simp only [widen, Option.map_eq_some_iff] at h
    obtain ⟨l, hl, rfl⟩ := h
    cases hp with
    | array hp => exact .array (proper_members (flat_of_fixed (flat_of_widenList hl)) (listP ih hl hp))
  · intro ks vs ih1 ih2 t' h hp
    simp only [widen, Option.bind_eq_some_iff, Option.map_eq_some_iff] at h
    obtain ⟨k, hk, w, hv, rfl⟩ := h
    cases hp with
    | hash h1 h2 =>
      exact .hash (proper_members (flat_of_fixed (flat_of_widenList hk)) (listP ih1 hk h1))
        (proper_members (flat_of_fixed (flat_of_widenList hv)) (listP ih2 hv h2))
  · intro fs r o z d ih1 ih2 t' h hp
    obtain ⟨fs', r', gs, d', hf, hr, -, rfl, hw, hperm⟩ := widen_shape h
    cases hp with
    | shape p1 p2 p3 p4 p5 p6 =>
      refine .shape ?_ ?_ ?_ ?_ ?_ hw
      · intro g hg
        obtain ⟨f, hfm, -, -, hwd⟩ := forall₂_right hf (hperm.mem_iff.mp hg)
        exact ih1 f hfm _ hwd (p1 f hfm)
      · intro k v e
        rcases widenRest_cases hr with ⟨-, rfl⟩ | ⟨k0, v0, k1, v1, rfl, rfl, hk, hv⟩
        · cases e
        · cases e; exact (ih2 k0 v0 rfl).1 _ hk (p2 k0 v0 rfl)
      · intro k v e
        rcases widenRest_cases hr with ⟨-, rfl⟩ | ⟨k0, v0, k1, v1, rfl, rfl, hk, hv⟩
        · cases e
        · cases e; exact (ih2 k0 v0 rfl).2 _ hv (p3 k0 v0 rfl)
      · intro k v e
        rcases widenRest_cases hr with ⟨-, rfl⟩ | ⟨k0, v0, k1, v1, rfl, rfl, hk, hv⟩
        · cases e
        · cases e
          rcases plainKey_widen k0 k hk (p4 k0 v0 rfl) with rfl | hpk
          · exact absurd .here (hw.rest _ _ rfl).1
          · exact hpk
      · intro ho g hg
        obtain ⟨f, hfm, -, hpr, -⟩ := forall₂_right hf (hperm.mem_iff.mp hg)
        rw [hpr]; exact p5 ho f hfm
  · intro ts ih t' h hp
    simp only [widen, Option.map_eq_some_iff] at h
    obtain ⟨l, hl, rfl⟩ := h
    cases hp with
    | union hp => exact proper_mkUnion (flat_of_fixed (flat_of_widenList hl)) (listP ih hl hp)
  · intro t' h hp; cases h; exact hp

theorem proper_genericHash {fs : List Field} {r : Option (Ty × Ty)} {o z : Bool} {d : Nat} {g : Ty} (h : genericHash fs r o = some g)
    (hp : Proper W (.shape fs r o z d)) : Proper W g := by
  obtain ⟨ks, vs, rfl, hk, hv, hks, hvs, -⟩ := genericHash_spec h
  cases hp with
  | shape p1 p2 p3 p4 p5 p6 =>
    refine .hash (proper_members (flat_of_fixed hk) ?_) (proper_members (flat_of_fixed hv) ?_)
    · intro t ht
      rcases (hks t).mp ht with ⟨f, -, rfl⟩ | ⟨k, v, e, hw⟩ | ⟨-, -, rfl⟩
      · unfold Lit.generic; split <;> exact .cls _
      · exact proper_widen k t hw (p2 k v e)
      · exact .unknown
    · intro t ht
      rcases hvs t ht with ⟨f, hf, hw⟩ | ⟨k, v, e, hw⟩ | ⟨-, -, rfl⟩
      · exact proper_widen _ t hw (p1 f hf)
      · exact proper_widen v t hw (p3 k v e)
      · exact .unknown

/-! ### soundness -/

theorem field_some {fs : List Field} {r : Option (Ty × Ty)} {o : Bool} (hw : WellFormed fs r o) (k : Lit) (f : Field) :
    field fs k = some f ↔ f ∈ fs ∧ f.1 = k := by
  constructor
  · intro h
    unfold field at h
    split at h
    · cases h
    · split at h
      · cases h
      · rename_i g hg
        split at h
        · cases h; exact ⟨List.mem_of_getElem? hg, ‹_›⟩
        · cases h
  · rintro ⟨hm, hk⟩
    obtain ⟨i, hi⟩ := List.mem_iff_getElem?.mp hm
    have hlt : i < fs.length := by
      rcases Nat.lt_or_ge i fs.length with h | h
      · exact h
      · rw [List.getElem?_eq_none h] at hi; cases hi
    have := searchStep_spec hw.sorted hi hk fs.length 0 fs.length (by omega) (by omega) (by omega) (by omega) (by omega)
    unfold field
    rw [this, hi]
    simp only [hk, if_true]
    cases fs with
    | nil => simp at hm
    | cons a l => rfl

theorem field_none {fs : List Field} {r : Option (Ty × Ty)} {o : Bool} (hw : WellFormed fs r o) {k : Lit} (h : field fs k = none) :
    ∀ f ∈ fs, f.1 ≠ k := by
  intro f hf e
  rw [(field_some hw k f).mpr ⟨hf, e⟩] at h
  cases h

/-- A plain key type that is not reported to contain the strings (symbols) contains no string (symbol) literal. -/
theorem plainKey_disjoint (l : Lit) : ∀ K, PlainKey W K → ∀ n, sub n l.generic K = .ok false → ¬ Desc W K (W.lit l) := by
  refine Ty.ind ?_ ?_ ?_ ?_ ?_ ?_ ?_ ?_ ?_ ?_
  · intro m hp n hs hd
    have eqCase : l.generic = .cls m → False := by
      intro e
      cases n with
      | zero => cases hs
      | succ n =>
        unfold sub at hs
        rw [if_neg (by rw [e]; intro h; cases h), if_pos e] at hs
        cases hs
    generalize hK : Ty.cls m = K at hp
    cases hp with
    | string =>
      cases hK
      exact eqCase (by rw [Lit.generic, if_pos ((W.string l).mp hd)]; rfl)
    | symbol =>
      cases hK
      exact eqCase (by rw [Lit.generic, (W.symbol l).mp hd]; rfl)
    | cls h => cases hK; exact h l hd
    | _ => cases hK
  · intro m hp n _ hd; cases hp with | mod h => exact h l hd
  · intro m hp n _ hd; cases hp with | clsRef h => exact h l hd
  · intro m hp n _ hd; cases hp with | modRef h => exact h l hd
  · intro m hp; cases hp
  · intro ts _ _ n _ hd; exact W.lit_arr l hd.1
  · intro ks vs _ _ _ n _ hd; exact W.lit_hash l hd.1
  · intro fs r o z d _ _ _ n _ hd; exact W.lit_hash l hd.1
  · intro ts ih hp n hs hd
    cases hp with
    | union hp =>
      obtain ⟨t, ht, hd⟩ := descAny_iff.mp hd
      cases n with
      | zero => cases hs
      | succ n =>
        have hg : l.generic = stringTy ∨ l.generic = symbolTy := by unfold Lit.generic; split <;> simp
        have hs : anyR (fun t => sub n l.generic t) ts = .ok false := by
          rcases hg with e | e <;> (rw [e] at hs ⊢; simpa [sub, stringTy, symbolTy] using hs)
        exact ih t ht (hp t ht) n (anyR_false hs t ht) hd
  · intro hp; cases hp

theorem same_keys {fs gs : List Field} {r r' : Option (Ty × Ty)} {o o' : Bool} (hf : WellFormed fs r o) (hg : WellFormed gs r' o')
    (hsub : ∀ g ∈ gs, ∃ f ∈ fs, f.1 = g.1) (hl : fs.length = gs.length) : ∀ f ∈ fs, ∃ g ∈ gs, f.1 = g.1 := by
  have n1 : (fs.map (·.1)).Nodup := (keys_nodup_iff (.refl fs)).mp (hf.sorted.imp (fun h => h.2))
  have n2 : (gs.map (·.1)).Nodup := (keys_nodup_iff (.refl gs)).mp (hg.sorted.imp (fun h => h.2))
  have hsubset : gs.map (·.1) ⊆ fs.map (·.1) := by
    intro k hk
    obtain ⟨g, hg, rfl⟩ := List.mem_map.mp hk
    obtain ⟨f, hf, e⟩ := hsub g hg
    exact List.mem_map.mpr ⟨f, hf, e⟩
  have hperm : (gs.map (·.1)).Perm (fs.map (·.1)) := (List.subperm_of_subset n2 hsubset).perm_of_length_le (by simp [hl])
  intro f hfm
  obtain ⟨g, hg, e⟩ := List.mem_map.mp (hperm.mem_iff.mpr (List.mem_map.mpr ⟨f, hfm, rfl⟩))
  exact ⟨g, hg, e.symm⟩

theorem shapeSub_sound {n : Nat} {fs fs' : List Field} {r r' : Option (Ty × Ty)} {o o' z z' : Bool} {d d' : Nat}
    (ih : ∀ a b, sub n a b = .ok true → Proper W a → Proper W b → ∀ v : W.V, Desc W a v → Desc W b v)
    (hs : shapeSub (sub n) fs r o fs' r' o' = .ok true)
    (ha : Proper W (.shape fs r o z d)) (hb : Proper W (.shape fs' r' o' z' d')) {v : W.V} (hd : Desc W (.shape fs r o z d) v) :
    Desc W (.shape fs' r' o' z' d') v := by
  have gen : ∀ l : Lit, Proper W l.generic := fun l => by unfold Lit.generic; split <;> exact .cls _
  cases ha with
  | shape a1 a2 a3 a4 a5 aw =>
  cases hb with
  | shape b1 b2 b3 b4 b5 bw =>
  simp only [shapeSub, Res.and_true, allR_true] at hs
  obtain ⟨h1, h2⟩ := hs
  simp only [Desc, descFields_iff] at hd ⊢
  obtain ⟨hh, hfields, hrest⟩ := hd
  refine ⟨hh, ?_, ?_⟩
  · intro t ht
    have hok := h1 t ht
    unfold fieldOk at hok
    cases hfd : field fs t.1 with
    | some s =>
      rw [hfd] at hok
      obtain ⟨hsm, hsk⟩ := (field_some aw _ _).mp hfd
      have hsf := hfields s hsm
      rw [hsk] at hsf
      simp only at hok
      split at hok
      · split at hok
        · rename_i hreq
          exact ⟨fun _ => hsf.1 hreq, fun x hx => ih _ _ hok (a1 s hsm) (b1 t ht) x (hsf.2 x hx)⟩
        · cases hok
      · rename_i hopt
        exact ⟨fun h => absurd h hopt, fun x hx => ih _ _ hok (a1 s hsm) (b1 t ht) x (hsf.2 x hx)⟩
    | none =>
      rw [hfd] at hok
      have hno := field_none aw hfd
      simp only at hok
      split at hok
      · cases hok
      · rename_i hopt
        refine ⟨fun h => absurd h hopt, fun x hx => ?_⟩
        have hr := hrest _ x hx (fun f hf e => hno f hf (W.lit_inj _ _ e).symm)
        cases r with
        | none =>
          simp only [DescRest] at hr
          simp only [hr] at hok
          cases hok
        | some kv =>
          obtain ⟨k, w⟩ := kv
          simp only [DescRest] at hr
          simp only at hok
          split at hok
          · exact ih _ _ hok (a3 k w rfl) (b1 t ht) x hr.2
          · rename_i hsf
            exact absurd hr.1 (plainKey_disjoint t.1 k (a4 k w rfl) n hsf)
          · rename_i h3 h4
            exact absurd hok (fun e => h3 e)
  · intro k x he hnk
    split at h2
    · rename_i ho'
      -- an exact target
      simp only [Res.ok.injEq, Bool.and_eq_true, Bool.not_eq_true', Option.isNone_iff_eq_none, decide_eq_true_eq] at h2
      obtain ⟨⟨ho, hrn⟩, hl⟩ := h2
      have hin : ∀ g ∈ fs', ∃ f ∈ fs, f.1 = g.1 := by
        intro g hg
        have hok := h1 g hg
        unfold fieldOk at hok
        cases hfd : field fs g.1 with
        | some s => exact ⟨s, (field_some aw _ _).mp hfd⟩
        | none => rw [hfd] at hok; simp only [b5 ho' g hg, if_true] at hok; cases hok
      have hsame := same_keys aw bw hin hl
      have hr := hrest k x he (by
        intro f hf e
        obtain ⟨g, hg, hk⟩ := hsame f hf
        exact hnk g hg (by rw [← hk]; exact e))
      rw [hrn] at hr
      simp only [DescRest] at hr
      rw [ho] at hr
      cases hr
    · rename_i ho'
      cases r' with
      | none => simp only [DescRest]; simpa using ho'
      | some kv' =>
        obtain ⟨k', v'⟩ := kv'
        simp only [Res.and_true, allR_true] at h2
        obtain ⟨h3, h4⟩ := h2
        simp only [DescRest]
        by_cases hl : ∃ f ∈ fs, k = W.lit f.1
        · obtain ⟨f, hf, rfl⟩ := hl
          have hfn : field fs' f.1 = none := by
            cases hfd : field fs' f.1 with
            | none => rfl
            | some g =>
              obtain ⟨hg, e⟩ := (field_some bw _ _).mp hfd
              exact absurd (by rw [e]) (hnk g hg)
          have hq := h3 f (List.mem_filter.mpr ⟨hf, by rw [hfn]; rfl⟩)
          exact ⟨ih _ _ hq.1 (gen _) (b2 _ _ rfl) _ (desc_generic _), ih _ _ hq.2 (a1 f hf) (b3 _ _ rfl) x ((hfields f hf).2 x he)⟩
        · have hr := hrest k x he (fun f hf e => hl ⟨f, hf, e⟩)
          cases r with
          | none =>
            simp only [DescRest] at hr
            rw [hr] at h4
            cases h4
          | some kv =>
            obtain ⟨kt, vt⟩ := kv
            simp only [Res.and_true] at h4
            simp only [DescRest] at hr
            exact ⟨ih _ _ h4.1 (a2 _ _ rfl) (b2 _ _ rfl) k hr.1, ih _ _ h4.2 (a3 _ _ rfl) (b3 _ _ rfl) x hr.2⟩

theorem allAny_desc {n : Nat} {es es' : List Ty}
    (ih : ∀ a b, sub n a b = .ok true → Proper W a → Proper W b → ∀ v : W.V, Desc W a v → Desc W b v)
    (hs : allR (fun e => anyR (fun e' => sub n e e') es') es = .ok true) (ha : ∀ t ∈ es, Proper W t) (hb : ∀ t ∈ es', Proper W t) {v : W.V}
    (hd : DescAny W es v) : DescAny W es' v := by
  obtain ⟨t, ht, hd⟩ := descAny_iff.mp hd
  obtain ⟨t', ht', h⟩ := anyR_true (allR_true.mp hs t ht)
  exact descAny_iff.mpr ⟨t', ht', ih t t' h (ha t ht) (hb t' ht') v hd⟩

theorem sub_sound : ∀ n (a b : Ty), sub n a b = .ok true → Proper W a → Proper W b → ∀ v : W.V, Desc W a v → Desc W b v := by
  intro n
  induction n with
  | zero => intro a b h; cases h
  | succ n ih =>
    intro a b h ha hb v hd
    unfold sub at h
    split at h
    · have : b = .unknown := by simpa using h
      rw [this]; simp [Desc]
    · split at h
      · rename_i e; rw [← e]; exact hd
      · split at h
        · -- a union
          obtain ⟨t, ht, hd⟩ := descAny_iff.mp hd
          cases ha with
          | union ha => exact ih t _ (allR_true.mp h t ht) (ha t ht) hb v hd
        · obtain ⟨t, ht, hs⟩ := anyR_true h
          cases hb with
          | union hb => exact descAny_iff.mpr ⟨t, ht, ih _ t hs ha (hb t ht) v hd⟩
        · cases ha with
          | array ha =>
            cases hb with
            | array hb =>
              simp only [Desc] at hd ⊢
              exact ⟨hd.1, fun x hx => allAny_desc ih h ha hb (hd.2 x hx)⟩
        · cases ha with
          | hash ha1 ha2 =>
            cases hb with
            | hash hb1 hb2 =>
              rw [Res.and_true] at h
              simp only [Desc] at hd ⊢
              exact ⟨hd.1, fun k x hx => ⟨allAny_desc ih h.1 ha1 hb1 (hd.2 k x hx).1, allAny_desc ih h.2 ha2 hb2 (hd.2 k x hx).2⟩⟩
        · rename_i l _ _ _
          simp only [Desc] at hd
          subst hd
          exact ih _ _ h (by unfold Lit.generic; split <;> exact .cls _) hb _ (desc_generic l)
        · exact shapeSub_sound ih h ha hb hd
        · split at h
          · cases h
          · rename_i g hg
            exact ih _ _ h (proper_genericHash hg ha) hb v (c43_generic_hash_sound hg hd)
        · cases h

/-- C43, with two restrictions on the shapes in the types: when one type is reported to be a subtype of another, every value
described by the first is described by the second. -/
theorem c43_sound_partial {n : Nat} {a b : Ty} (h : sub n a b = .ok true) (ba : Built a) (bb : Built b) (pa : Plain W a) (pb : Plain W b)
    (v : W.V) (hd : Desc W a v) : Desc W b v :=
  sub_sound n a b h (proper_of_plain a ba pa) (proper_of_plain b bb pb) v hd

/-! ### the recursion ends -/

mutual
/-- How deep a type is nested, with one more level for shapes and literals, which turn into a hash and a class. -/
def hgt : Ty → Nat
  | .lit _ => 2
  | .array ts => hgtList ts + 1
  | .hash ks vs => max (hgtList ks) (hgtList vs) + 1
  | .shape fs r _ _ _ => max (hgtFields fs) (hgtRest r) + 2
  | .union ts => hgtList ts + 1
  | _ => 1
def hgtList : List Ty → Nat
  | [] => 1
  | t :: l => max (hgt t) (hgtList l)
def hgtFields : List (Lit × Bool × Ty) → Nat
  | [] => 1
  | (_, _, t) :: l => max (hgt t) (hgtFields l)
def hgtRest : Option (Ty × Ty) → Nat
  | none => 1
  | some (k, v) => max (hgt k) (hgt v)
end

theorem hgt_pos (t : Ty) : 1 ≤ hgt t := by cases t <;> simp [hgt]

theorem hgtList_le {l : List Ty} {n : Nat} : hgtList l ≤ n ↔ 1 ≤ n ∧ ∀ t ∈ l, hgt t ≤ n := by
  induction l with
  | nil => simp [hgtList]
  | cons a l ih => simp only [hgtList, Nat.max_le, ih, List.forall_mem_cons]; tauto

theorem hgtFields_le {l : List Field} {n : Nat} : hgtFields l ≤ n ↔ 1 ≤ n ∧ ∀ f ∈ l, hgt f.2.2 ≤ n := by
  induction l with
  | nil => simp [hgtFields]
  | cons a l ih => obtain ⟨k, p, t⟩ := a; simp only [hgtFields, Nat.max_le, ih, List.forall_mem_cons]; tauto

theorem hgt_mem {l : List Ty} {t : Ty} (h : t ∈ l) : hgt t ≤ hgtList l := (hgtList_le.mp (Nat.le_refl _)).2 t h
theorem hgt_field {l : List Field} {f : Field} (h : f ∈ l) : hgt f.2.2 ≤ hgtFields l := (hgtFields_le.mp (Nat.le_refl _)).2 f h
theorem hgtList_pos (l : List Ty) : 1 ≤ hgtList l := (hgtList_le.mp (Nat.le_refl _)).1
theorem hgtFields_pos (l : List Field) : 1 ≤ hgtFields l := (hgtFields_le.mp (Nat.le_refl _)).1
theorem hgt_generic (l : Lit) : hgt l.generic = 1 := by unfold Lit.generic; split <;> rfl

theorem hgt_altOf {t x : Ty} (h : AltOf t x) : hgt x ≤ hgt t := by
  cases h with
  | self _ => exact Nat.le_refl _
  | member h => have := hgt_mem h; simp only [hgt]; omega

theorem hgt_members {l : List Ty} (hf : ∀ x, Alts l x → Simple x) : hgtList (members l) ≤ hgtList l := by
  rw [hgtList_le]
  refine ⟨hgtList_pos l, fun x hx => ?_⟩
  rcases mem_members hf hx with rfl | ⟨t, ht, ha⟩
  · exact hgtList_pos l
  · exact Nat.le_trans (hgt_altOf ha) (hgt_mem ht)

theorem hgt_mkUnion {l : List Ty} (hf : ∀ x, Alts l x → Simple x) : hgt (mkUnion l) ≤ hgtList l + 1 := by
  by_cases hu : mkUnion l = .unknown
  · rw [hu]; simp [hgt]
  · have halt := (c21_alternatives hf).2 hu
    have hle : ∀ x, AltOf (mkUnion l) x → hgt x ≤ hgtList l := by
      intro x hx
      obtain ⟨t, ht, ha⟩ := (halt x).mp hx
      exact Nat.le_trans (hgt_altOf ha) (hgt_mem ht)
    rcases simple_or_union (mkUnion l) with hs | ⟨us, he⟩
    · exact Nat.le_succ_of_le (hle _ (.self hs))
    · rw [he]
      simp only [hgt]
      have : hgtList us ≤ hgtList l := hgtList_le.mpr ⟨hgtList_pos l, fun t ht => hle t (by rw [he]; exact .member ht)⟩
      omega

theorem hgt_widen : ∀ t t', widen t = some t' → hgt t' ≤ hgt t := by
  have listH : ∀ {ts l : List Ty}, (∀ t ∈ ts, ∀ t', widen t = some t' → hgt t' ≤ hgt t) → widenList ts = some l → hgtList l ≤ hgtList ts := by
    intro ts l ih h
    refine hgtList_le.mpr ⟨hgtList_pos ts, fun t ht => ?_⟩
    obtain ⟨a, ha, hw⟩ := forall₂_right (widenList_iff.mp h) ht
    exact Nat.le_trans (ih a ha t hw) (hgt_mem ha)
  refine Ty.ind ?_ ?_ ?_ ?_ ?_ ?_ ?_ ?_ ?_ ?_
  iterate 4 intro n t' h; cases h; exact Nat.le_refl _
  · intro l t' h; cases h; rw [hgt_generic]; simp [hgt]
  · intro ts ih t' h
    simp only [widen, Option.map_eq_some_iff] at h
    obtain ⟨l, hl, rfl⟩ := h
    have h1 := hgt_members (flat_of_fixed (flat_of_widenList hl))
    have h2 := listH ih hl
    simp only [hgt]; omega
  · intro ks vs ih1 ih2 t' h
    simp only [widen, Option.bind_eq_some_iff, Option.map_eq_some_iff] at h
    obtain ⟨k, hk, w, hv, rfl⟩ := h
    have h1 := hgt_members (flat_of_fixed (flat_of_widenList hk))
    have h2 := listH ih1 hk
    have h3 := hgt_members (flat_of_fixed (flat_of_widenList hv))
    have h4 := listH ih2 hv
    simp only [hgt]; omega
  · intro fs r o z d ih1 ih2 t' h
    obtain ⟨fs', r', gs, d', hf, hr, -, rfl, -, hperm⟩ := widen_shape h
    have h1 : hgtFields gs ≤ hgtFields fs := by
      refine hgtFields_le.mpr ⟨hgtFields_pos fs, fun g hg => ?_⟩
      obtain ⟨f, hfm, -, -, hw⟩ := forall₂_right hf (hperm.mem_iff.mp hg)
      exact Nat.le_trans (ih1 f hfm _ hw) (hgt_field hfm)
    have h2 : hgtRest r' ≤ hgtRest r := by
      rcases widenRest_cases hr with ⟨rfl, rfl⟩ | ⟨k0, v0, k1, v1, rfl, rfl, hk, hv⟩
      · exact Nat.le_refl _
      · have h1 := (ih2 k0 v0 rfl).1 _ hk
        have h2 := (ih2 k0 v0 rfl).2 _ hv
        simp only [hgtRest]; omega
    simp only [hgt]; omega
  · intro ts ih t' h
    simp only [widen, Option.map_eq_some_iff] at h
    obtain ⟨l, hl, rfl⟩ := h
    have h1 := hgt_mkUnion (flat_of_fixed (flat_of_widenList hl))
    have h2 := listH ih hl
    simp only [hgt]; omega
  · intro t' h; cases h; exact Nat.le_refl _

theorem hgt_genericHash {fs : List Field} {r : Option (Ty × Ty)} {o : Bool} {g : Ty} (h : genericHash fs r o = some g) :
    hgt g ≤ max (hgtFields fs) (hgtRest r) + 1 := by
  obtain ⟨ks, vs, rfl, hk, hv, hks, hvs, -⟩ := genericHash_spec h
  have p := hgtFields_pos fs
  have restLe : ∀ k v, r = some (k, v) → hgt k ≤ hgtRest r ∧ hgt v ≤ hgtRest r := by
    intro k v e; subst e; simp only [hgtRest]; omega
  have h1 : hgtList ks ≤ max (hgtFields fs) (hgtRest r) := by
    refine hgtList_le.mpr ⟨by omega, fun t ht => ?_⟩
    rcases (hks t).mp ht with ⟨f, -, rfl⟩ | ⟨k, v, e, hw⟩ | ⟨-, -, rfl⟩
    · rw [hgt_generic]; omega
    · have := hgt_widen k t hw; have := (restLe k v e).1; omega
    · simp only [hgt]; omega
  have h2 : hgtList vs ≤ max (hgtFields fs) (hgtRest r) := by
    refine hgtList_le.mpr ⟨by omega, fun t ht => ?_⟩
    rcases hvs t ht with ⟨f, hf, hw⟩ | ⟨k, v, e, hw⟩ | ⟨-, -, rfl⟩
    · have := hgt_widen _ t hw; have := hgt_field hf; omega
    · have := hgt_widen v t hw; have := (restLe k v e).2; omega
    · simp only [hgt]; omega
  have h3 := hgt_members (flat_of_fixed hk)
  have h4 := hgt_members (flat_of_fixed hv)
  simp only [hgt]; omega

theorem shapeSub_ends {s : Ty → Ty → Res} {fs fs' : List Field} {r r' : Option (Ty × Ty)} {o o' : Bool} {m : Nat}
    (hm : max (hgtFields fs) (hgtRest r) + max (hgtFields fs') (hgtRest r') ≤ m) (ih : ∀ a b, hgt a + hgt b ≤ m → s a b ≠ .stuck) :
    shapeSub s fs r o fs' r' o' ≠ .stuck := by
  have p1 := hgtFields_pos fs
  have p2 := hgtFields_pos fs'
  have restLe : ∀ k v, r = some (k, v) → hgt k ≤ hgtRest r ∧ hgt v ≤ hgtRest r := by
    intro k v e; subst e; simp only [hgtRest]; omega
  have restLe' : ∀ k v, r' = some (k, v) → hgt k ≤ hgtRest r' ∧ hgt v ≤ hgtRest r' := by
    intro k v e; subst e; simp only [hgtRest]; omega
  unfold shapeSub
  refine Res.and_not_stuck (allR_not_stuck ?_) ?_
  · intro t ht
    have ht := hgt_field ht
    unfold fieldOk
    cases hfd : field fs t.1 with
    | some f =>
      have hfm : f ∈ fs := by
        unfold field at hfd
        split at hfd
        · cases hfd
        · split at hfd
          · cases hfd
          · rename_i hg
            split at hfd
            · cases hfd; exact List.mem_of_getElem? hg
            · cases hfd
      have := hgt_field hfm
      have := ih f.2.2 t.2.2 (by omega)
      simp only
      split
      · split
        · exact this
        · simp
      · exact this
    | none =>
      simp only
      split
      · simp
      · cases r with
        | none => simp
        | some kv =>
          obtain ⟨k, v⟩ := kv
          have := restLe k v rfl
          have h1 := ih t.1.generic k (by rw [hgt_generic]; omega)
          have h2 := ih v t.2.2 (by omega)
          simp only
          split
          · exact h2
          · simp
          · exact h1
  · split
    · simp
    · cases r' with
      | none => simp
      | some kv' =>
        obtain ⟨k', v'⟩ := kv'
        have h' := restLe' k' v' rfl
        refine Res.and_not_stuck (allR_not_stuck ?_) ?_
        · intro f hf
          have := hgt_field (List.mem_filter.mp hf).1
          exact Res.and_not_stuck (ih _ _ (by rw [hgt_generic]; omega)) (ih _ _ (by omega))
        · cases r with
          | none => simp
          | some kv =>
            obtain ⟨k, v⟩ := kv
            have := restLe k v rfl
            exact Res.and_not_stuck (ih _ _ (by omega)) (ih _ _ (by omega))

/-- C43: the recursion of `is_subtype_of` ends, within as many nested calls as the two types are deep. -/
theorem c43_ends : ∀ n a b, hgt a + hgt b ≤ n → sub n a b ≠ .stuck := by
  intro n
  induction n with
  | zero => intro a b h; have := hgt_pos a; omega
  | succ n ih =>
    intro a b h
    unfold sub
    split
    · simp
    · split
      · simp
      · split
        · rename_i ts
          simp only [hgt] at h
          exact allR_not_stuck (fun t ht => ih _ _ (by have := hgt_mem ht; omega))
        · rename_i ts
          simp only [hgt] at h
          exact anyR_not_stuck (fun t ht => ih _ _ (by have := hgt_mem ht; omega))
        · simp only [hgt] at h
          exact allR_not_stuck (fun t ht => anyR_not_stuck (fun t' ht' => ih _ _ (by have := hgt_mem ht; have := hgt_mem ht'; omega)))
        · simp only [hgt] at h
          exact Res.and_not_stuck
            (allR_not_stuck (fun t ht => anyR_not_stuck (fun t' ht' => ih _ _ (by have := hgt_mem ht; have := hgt_mem ht'; omega))))
            (allR_not_stuck (fun t ht => anyR_not_stuck (fun t' ht' => ih _ _ (by have := hgt_mem ht; have := hgt_mem ht'; omega))))
        · simp only [hgt] at h
          exact ih _ _ (by rw [hgt_generic]; omega)
        · simp only [hgt] at h
          exact shapeSub_ends (m := n) (by omega) ih
        · split
          · simp
          · rename_i g hg
            have := hgt_genericHash hg
            simp only [hgt] at h
            exact ih _ _ (by simp only [hgt]; omega)
        · simp

/-- C43: every type is a subtype of itself. -/
theorem c43_reflexive (n : Nat) (a : Ty) : sub (n + 1) a a = .ok true := by
  unfold sub
  split
  · rename_i h; subst h; rfl
  · simp

/-! ### where it is not sound -/

/-- A small world: literals, one integer, and hashes given by the literal keys under which they store that integer. -/
inductive V0 where
  | lit (l : Lit)
  | int
  | hash (keys : List Lit)

/-- In this world everything is an `Object`. -/
def world0 : World where
  V := V0
  inst n v := (n = nameOf "String" ∧ ∃ l, v = .lit l ∧ l.isString = true) ∨ (n = nameOf "Symbol" ∧ ∃ l, v = .lit l ∧ l.isString = false) ∨
    (n = nameOf "Integer" ∧ v = .int) ∨ n = nameOf "Object"
  modInst _ _ := False
  clsRef _ _ := False
  modRef _ _ := False
  lit := .lit
  isArr _ := False
  elem _ _ := False
  isHash v := ∃ ks, v = .hash ks
  entry v k x := ∃ ks l, v = .hash ks ∧ l ∈ ks ∧ k = .lit l ∧ x = .int
  lit_inj := by intro a b h; injection h
  string := by
    intro l
    have h1 : nameOf "String" ≠ nameOf "Symbol" := by decide
    have h2 : nameOf "String" ≠ nameOf "Integer" := by decide
    have h3 : nameOf "String" ≠ nameOf "Object" := by decide
    simp [h1, h2, h3]
  symbol := by
    intro l
    have h1 : nameOf "Symbol" ≠ nameOf "String" := by decide
    have h2 : nameOf "Symbol" ≠ nameOf "Integer" := by decide
    have h3 : nameOf "Symbol" ≠ nameOf "Object" := by decide
    simp [h1, h2, h3]
  lit_arr := by intro l h; exact h
  lit_hash := by rintro l ⟨ks, h⟩; cases h

def intTy : Ty := .cls (nameOf "Integer")
def objTy : Ty := .cls (nameOf "Object")
def symA : Lit := ⟨false, [97]⟩
def symB : Lit := ⟨false, [98]⟩

theorem int_desc : Desc world0 intTy V0.int := by
  show _ ∨ _ ∨ _ ∨ _
  exact .inr (.inr (.inl ⟨rfl, rfl⟩))

theorem int_not_string : ¬ Desc world0 stringTy V0.int := by
  intro h
  have h2 : nameOf "String" ≠ nameOf "Integer" := by decide
  have h3 : nameOf "String" ≠ nameOf "Object" := by decide
  rcases (show _ ∨ _ ∨ _ ∨ _ from h) with ⟨-, l, h, -⟩ | ⟨-, l, h, -⟩ | ⟨h, -⟩ | h
  · cases h
  · cases h
  · exact h2 h
  · exact h3 h

theorem built_one {f : Field} {o : Bool} (hf : Built f.2.2) (hu : hasUnknown f.2.2 = false) (hd : depthIn f.2.2 = 0) :
    Built (.shape [f] none o false 1) := by
  refine .shape (fs := [f]) (r := none) (o := o) (z := false) ?_ ?_ ?_ ?_
  · intro g hg; rw [List.mem_singleton.mp hg]; exact hf
  · intro _ _ h; cases h
  · intro _ _ h; cases h
  · simp [tryNew, maxFields, stableSort, hasDup, hu, nestedDepth, depthList, hd, maxDepth, insertSorted]

theorem built_rest {k v : Ty} (hk : Built k) (hv : Built v) (uk : hasUnknown k = false) (uv : hasUnknown v = false) (dk : depthIn k = 0)
    (dv : depthIn v = 0) : Built (.shape [] (some (k, v)) true false 1) := by
  refine .shape (fs := []) (r := some (k, v)) (o := true) (z := false) ?_ ?_ ?_ ?_
  · intro g hg; cases hg
  · intro _ _ h; cases h; exact hk
  · intro _ _ h; cases h; exact hv
  · simp [tryNew, maxFields, stableSort, hasDup, uk, uv, nestedDepth, depthList, dk, dv, maxDepth]

/-- The exact shape `{ b: Integer }` is reported to be a subtype of the exact shape `{ a?: Integer }`: for an exact target only the
numbers of fields are compared. -/
theorem c43_exact_optional_unsound : ∃ a b : Ty, Built a ∧ Built b ∧ sub 10 a b = .ok true ∧ ∃ v : world0.V, Desc world0 a v ∧ ¬ Desc world0 b v := by
  refine ⟨.shape [(symB, false, intTy)] none false false 1, .shape [(symA, true, intTy)] none false false 1,
    built_one (.cls _) rfl rfl, built_one (.cls _) rfl rfl, by decide, V0.hash [symB], ?_, ?_⟩
  · simp only [Desc]
    refine ⟨⟨_, rfl⟩, descFields_iff.mpr ?_, ?_⟩
    · intro f hf
      rw [List.mem_singleton.mp hf]
      refine ⟨fun _ => ⟨V0.int, _, symB, rfl, by simp, rfl, rfl⟩, ?_⟩
      rintro x ⟨_, _, -, -, -, rfl⟩
      exact int_desc
    · rintro k x ⟨ks, l, h, hl, rfl, rfl⟩ hn
      cases h
      rw [List.mem_singleton.mp hl] at hn
      exact absurd rfl (hn (symB, false, intTy) (by simp))
  · simp only [Desc]
    rintro ⟨-, -, h⟩
    have := h (V0.lit symB) V0.int ⟨_, symB, rfl, by simp, rfl, rfl⟩ (by
      intro f hf e
      rw [List.mem_singleton.mp hf] at e
      injection e with e
      revert e
      decide)
    simp only [DescRest] at this
    cases this

/-- A shape whose other keys are `:a` (a literal type) or any `Object`, with integers as values, is reported to be a subtype of
`{ a?: String, ... }`: a key type not reported to contain all symbols is taken to contain none. -/
theorem c43_rest_key_unsound : ∀ K, K = .lit symA ∨ K = objTy → ∃ a b : Ty, a = .shape [] (some (K, intTy)) true false 1 ∧ Built a ∧ Built b ∧
    sub 10 a b = .ok true ∧ ∃ v : world0.V, Desc world0 a v ∧ ¬ Desc world0 b v := by
  intro K hK
  refine ⟨_, .shape [(symA, true, stringTy)] none true false 1, rfl, ?_, built_one (.cls _) rfl rfl, ?_, V0.hash [symA], ?_, ?_⟩
  · rcases hK with rfl | rfl
    · exact built_rest (.lit _) (.cls _) rfl rfl rfl rfl
    · exact built_rest (.cls _) (.cls _) rfl rfl rfl rfl
  · rcases hK with rfl | rfl <;> decide
  · simp only [Desc]
    refine ⟨⟨_, rfl⟩, descFields_iff.mpr (fun f hf => (by cases hf)), ?_⟩
    rintro k x ⟨ks, l, h, hl, rfl, rfl⟩ -
    cases h
    rw [List.mem_singleton.mp hl]
    refine ⟨?_, int_desc⟩
    rcases hK with rfl | rfl
    · simp only [Desc]; rfl
    · exact .inr (.inr (.inr rfl))
  · simp only [Desc]
    rintro ⟨-, h, -⟩
    exact int_not_string ((descFields_iff.mp h (symA, true, stringTy) (by simp)).2 V0.int ⟨_, symA, rfl, by simp, rfl, rfl⟩)

/-- Frozen and mutable shapes are not told apart. -/
theorem c43_stability_ignored : ∃ a b : Ty, Built a ∧ (∃ fs r o d, a = .shape fs r o false d ∧ b = .shape fs r o true d) ∧ sub 10 a b = .ok true :=
  ⟨.shape [(symA, false, intTy)] none false false 1, .shape [(symA, false, intTy)] none false true 1, built_one (.cls _) rfl rfl,
    ⟨_, _, _, _, rfl, rfl⟩, by decide⟩

/-- A positive case: `{ a: Integer, b?: Integer, ... }` is below `{ b?: Integer, ... }` and `{ a: Integer }` below `Hash<Symbol, Integer>`. -/
theorem c43_example :
    let a : Ty := .shape [(symA, false, intTy)] none false false 1
    sub 10 a (.hash [symbolTy] [intTy]) = .ok true ∧ sub 10 a (.hash [stringTy] [intTy]) = .ok false ∧
    sub 10 a (.shape [(symA, true, intTy)] none true false 1) = .ok true ∧
    sub 10 (.shape [(symA, true, intTy)] none true false 1) a = .ok false ∧
    Plain world0 a ∧ Plain world0 (.shape [(symA, true, intTy)] none true false 1) ∧ Desc world0 a (V0.hash [symA]) := by
  refine ⟨by decide, by decide, by decide, by decide, ?_, ?_, ?_⟩
  · refine .shape ?_ ?_ ?_ ?_ ?_
    · intro f hf; rw [List.mem_singleton.mp hf]; exact .cls _
    · intro _ _ h; cases h
    · intro _ _ h; cases h
    · intro _ _ h; cases h
    · intro _ f hf; rw [List.mem_singleton.mp hf]
  · refine .shape ?_ ?_ ?_ ?_ ?_
    · intro f hf; rw [List.mem_singleton.mp hf]; exact .cls _
    · intro _ _ h; cases h
    · intro _ _ h; cases h
    · intro _ _ h; cases h
    · intro h; cases h
  · simp only [Desc]
    refine ⟨⟨_, rfl⟩, descFields_iff.mpr ?_, ?_⟩
    · intro f hf
      rw [List.mem_singleton.mp hf]
      refine ⟨fun _ => ⟨V0.int, _, symA, rfl, by simp, rfl, rfl⟩, ?_⟩
      rintro x ⟨_, _, -, -, -, rfl⟩
      exact int_desc
    · rintro k x ⟨ks, l, h, hl, rfl, rfl⟩ hn
      cases h
      rw [List.mem_singleton.mp hl] at hn
      exact absurd rfl (hn (symA, false, intTy) (by simp))

end Verif.Types
