import Verif.Props.TypeUnion
import Verif.Props.Shape
import Mathlib.Data.List.Forall2
/-!
C22: widening literals.
-/
namespace Verif.Types
open Verif.Store

theorem widenList_iff {ts l : List Ty} : widenList ts = some l ↔ List.Forall₂ (fun t t' => widen t = some t') ts l := by
  induction ts generalizing l with
  | nil => simp only [widenList, List.forall₂_nil_left_iff, Option.some.injEq]; exact eq_comm
  | cons t ts ih =>
    simp only [widenList, Option.bind_eq_some_iff, Option.map_eq_some_iff, List.forall₂_cons_left_iff]
    constructor
    · rintro ⟨t', h1, l', h2, rfl⟩
      exact ⟨t', l', h1, ih.mp h2, rfl⟩
    · rintro ⟨t', l', h1, h2, rfl⟩
      exact ⟨t', h1, l', ih.mpr h2, rfl⟩

def FieldRel (f f' : Field) : Prop := f'.1 = f.1 ∧ f'.2.1 = f.2.1 ∧ widen f.2.2 = some f'.2.2

theorem widenFields_iff {fs l : List Field} : widenFields fs = some l ↔ List.Forall₂ FieldRel fs l := by
  induction fs generalizing l with
  | nil => simp only [widenFields, List.forall₂_nil_left_iff, Option.some.injEq]; exact eq_comm
  | cons f fs ih =>
    obtain ⟨k, p, t⟩ := f
    simp only [widenFields, Option.bind_eq_some_iff, Option.map_eq_some_iff, List.forall₂_cons_left_iff]
    constructor
    · rintro ⟨t', h1, l', h2, rfl⟩
      exact ⟨(k, p, t'), l', ⟨rfl, rfl, h1⟩, ih.mp h2, rfl⟩
    · rintro ⟨⟨k', p', t'⟩, l', ⟨h0, h0', h1⟩, h2, rfl⟩
      dsimp only at h0 h0' h1
      subst h0 h0'
      exact ⟨t', h1, l', ih.mpr h2, rfl⟩

theorem forall₂_right {α β : Type} {R : α → β → Prop} {l : List α} {m : List β} (h : List.Forall₂ R l m) {b : β} (hb : b ∈ m) :
    ∃ a ∈ l, R a b := by
  induction h with
  | nil => simp at hb
  | cons h _ ih =>
    rcases List.mem_cons.mp hb with rfl | hb
    · exact ⟨_, by simp, h⟩
    · obtain ⟨a, h1, h2⟩ := ih hb
      exact ⟨a, by simp [h1], h2⟩

theorem forall₂_left {α β : Type} {R : α → β → Prop} {l : List α} {m : List β} (h : List.Forall₂ R l m) {a : α} (ha : a ∈ l) :
    ∃ b ∈ m, R a b := by
  induction h with
  | nil => simp at ha
  | cons h _ ih =>
    rcases List.mem_cons.mp ha with rfl | ha
    · exact ⟨_, by simp, h⟩
    · obtain ⟨b, h1, h2⟩ := ih ha
      exact ⟨b, by simp [h1], h2⟩

theorem forall₂_of {α β : Type} {R : α → β → Prop} {l : List α} (h : ∀ a ∈ l, ∃ b, R a b) : ∃ m, List.Forall₂ R l m := by
  induction l with
  | nil => exact ⟨[], .nil⟩
  | cons a l ih =>
    obtain ⟨b, hb⟩ := h a (by simp)
    obtain ⟨m, hm⟩ := ih (fun a ha => h a (by simp [ha]))
    exact ⟨b :: m, .cons hb hm⟩

theorem forall₂_self {α : Type} {R : α → α → Prop} {l : List α} (h : ∀ a ∈ l, R a a) : List.Forall₂ R l l := by
  induction l with
  | nil => exact .nil
  | cons a l ih => exact .cons (h a (by simp)) (ih (fun a ha => h a (by simp [ha])))

/-! ### the result of widening -/

/-- A fixed point of widening. -/
def Fixed (t : Ty) : Prop := Canonical t ∧ ∀ x, AltOf t x → NoLit x ∧ widen x = some x

theorem simple_of_altOf {t x : Ty} (h : Canonical t) (hx : AltOf t x) : Simple x := canonical_flat h x hx

theorem noLit_of_alts {t : Ty} (h : ∀ x, AltOf t x → NoLit x) : NoLit t := by
  rcases simple_or_union t with hs | ⟨us, rfl⟩
  · exact h t (.self hs)
  · exact .union (fun u hu => h u (.member hu))

theorem mkUnion_members {us : List Ty} (h : Canonical (.union us)) : mkUnion us = .union us := by
  have hfl := canonical_flat h
  have := c21_union_grouping (ts := us) (us := []) (fun t ht => hfl t (.member ht))
  rw [List.append_nil] at this
  rw [← this, mkUnion_canonical h]

theorem widen_fixed {t : Ty} (h : Fixed t) : widen t = some t := by
  rcases simple_or_union t with hs | ⟨us, rfl⟩
  · exact (h.2 t (.self hs)).2
  · simp only [widen]
    rw [widenList_iff.mpr (forall₂_self (fun u hu => (h.2 u (.member hu)).2))]
    simp only [Option.map_some]
    rw [mkUnion_members h.1]

/-- The forms a list of canonical members takes. -/
theorem members_form {l : List Ty} (h : ∀ x, Alts l x → Simple x) :
    (∃ t, Simple t ∧ members l = [t] ∧ (t = .unknown ∨ Alts l t)) ∨
    (∃ us, Canonical (.union us) ∧ members l = us ∧ ∀ x ∈ us, Alts l x) := by
  have key : ∀ us : List Ty, (∀ x, Alts us x → Simple x) →
      (∃ t, Simple t ∧ (match mkUnion us with | .union vs => vs | t => [t]) = [t] ∧ (t = .unknown ∨ Alts us t)) ∨
      (∃ vs, Canonical (.union vs) ∧ (match mkUnion us with | .union vs => vs | t => [t]) = vs ∧ ∀ x ∈ vs, Alts us x) := by
    intro us hus
    obtain ⟨h1, h2⟩ := c21_alternatives hus
    rcases simple_or_union (mkUnion us) with hs | ⟨vs, hv⟩
    · refine .inl ⟨mkUnion us, hs, ?_, ?_⟩
      · generalize mkUnion us = t at hs
        cases t <;> first | rfl | exact absurd rfl (hs _)
      · by_cases hu : mkUnion us = .unknown
        · exact .inl hu
        · exact .inr ((h2 hu _).mp (.self hs))
    · refine .inr ⟨vs, hv ▸ h1, by rw [hv], fun x hx => ?_⟩
      exact (h2 (by rw [hv]; intro h; cases h) x).mp (by rw [hv]; exact .member hx)
  match l with
  | [] => exact .inl ⟨.unknown, simple_unknown, rfl, .inl rfl⟩
  | [t] =>
    rcases simple_or_union t with hs | ⟨us, rfl⟩
    · refine .inl ⟨t, hs, ?_, .inr (alts_singleton.mpr (.self hs))⟩
      cases t <;> first | exact absurd rfl (hs _) | rfl
    · exact key _ h
  | a :: b :: l =>
    have : members (a :: b :: l) = (match mkUnion (a :: b :: l) with | .union vs => vs | t => [t]) := by cases a <;> rfl
    rw [this]
    exact key _ h

theorem members_idem {l : List Ty} (h : ∀ x, Alts l x → Simple x) : members (members l) = members l := by
  rcases members_form h with ⟨t, hs, he, -⟩ | ⟨us, hc, he, -⟩
  · rw [he]
    cases t <;> first | exact absurd rfl (hs _) | rfl
  · rw [he]
    have hm := mkUnion_members hc
    cases hc with
    | simple hs => exact absurd rfl (hs _)
    | union _ h2 _ _ =>
      match us, h2, hm with
      | a :: b :: us, _, hm =>
        have : members (a :: b :: us) = (match mkUnion (a :: b :: us) with | .union vs => vs | t => [t]) := by cases a <;> rfl
        rw [this, hm]

theorem mem_members {l : List Ty} (h : ∀ x, Alts l x → Simple x) {x : Ty} (hx : x ∈ members l) : x = .unknown ∨ Alts l x := by
  rcases members_form h with ⟨t, _, he, ht⟩ | ⟨us, _, he, hu⟩
  · rw [he] at hx
    rw [List.mem_singleton.mp hx]; exact ht
  · rw [he] at hx
    exact .inr (hu x hx)

/-- What is true of every element of a list of widened types is true of its canonical members. -/
theorem members_fixed {l : List Ty} (h : ∀ t ∈ l, Fixed t) {x : Ty} (hx : x ∈ members l) : NoLit x ∧ widen x = some x := by
  have hflat : ∀ x, Alts l x → Simple x := fun x ⟨t, ht, hx⟩ => canonical_flat (h t ht).1 x hx
  rcases mem_members hflat hx with rfl | ⟨t, ht, hx⟩
  · exact ⟨.unknown, rfl⟩
  · exact (h t ht).2 x hx

theorem flat_of_fixed {l : List Ty} (h : ∀ t ∈ l, Fixed t) : ∀ x, Alts l x → Simple x :=
  fun x ⟨t, ht, hx⟩ => canonical_flat (h t ht).1 x hx

theorem noLit_of_fixed {t : Ty} (h : Fixed t) : NoLit t := noLit_of_alts (fun x hx => (h.2 x hx).1)

theorem fixed_simple {t : Ty} (hs : Simple t) (hn : NoLit t) (hw : widen t = some t) : Fixed t :=
  ⟨.simple hs, fun x hx => by rw [altOf_simple hs] at hx; subst hx; exact ⟨hn, hw⟩⟩

theorem widenList_members {l : List Ty} (h : ∀ t ∈ l, Fixed t) : widenList (members l) = some (members l) :=
  widenList_iff.mpr (forall₂_self (fun _ hx => (members_fixed h hx).2))

theorem widen_gives_fixed : ∀ t t', widen t = some t' → Fixed t' := by
  have listFixed : ∀ {ts l : List Ty}, (∀ t ∈ ts, ∀ t', widen t = some t' → Fixed t') → widenList ts = some l → ∀ t ∈ l, Fixed t := by
    intro ts l ih h t ht
    obtain ⟨a, ha, hw⟩ := forall₂_right (widenList_iff.mp h) ht
    exact ih a ha t hw
  refine Ty.ind ?_ ?_ ?_ ?_ ?_ ?_ ?_ ?_ ?_ ?_
  · intro n t' h; cases h; exact fixed_simple (fun _ h => by cases h) (.cls n) rfl
  · intro n t' h; cases h; exact fixed_simple (fun _ h => by cases h) (.mod n) rfl
  · intro n t' h; cases h; exact fixed_simple (fun _ h => by cases h) (.clsRef n) rfl
  · intro n t' h; cases h; exact fixed_simple (fun _ h => by cases h) (.modRef n) rfl
  · intro v t' h
    cases h
    unfold Lit.generic
    split
    · exact fixed_simple (fun _ h => by cases h) (.cls _) rfl
    · exact fixed_simple (fun _ h => by cases h) (.cls _) rfl
  · intro ts ih t' h
    simp only [widen, Option.map_eq_some_iff] at h
    obtain ⟨l, hl, rfl⟩ := h
    have hf := listFixed ih hl
    refine fixed_simple (fun _ h => by cases h) (.array (fun x hx => (members_fixed hf hx).1)) ?_
    simp only [widen]
    rw [widenList_members hf]
    simp only [Option.map_some]
    rw [members_idem (flat_of_fixed hf)]
  · intro ks vs ih1 ih2 t' h
    simp only [widen, Option.bind_eq_some_iff, Option.map_eq_some_iff] at h
    obtain ⟨k, hk, v, hv, rfl⟩ := h
    have hfk := listFixed ih1 hk
    have hfv := listFixed ih2 hv
    refine fixed_simple (fun _ h => by cases h)
      (.hash (fun x hx => (members_fixed hfk hx).1) (fun x hx => (members_fixed hfv hx).1)) ?_
    simp only [widen]
    rw [widenList_members hfk, widenList_members hfv]
    simp only [Option.map_some, Option.bind_some]
    rw [members_idem (flat_of_fixed hfk), members_idem (flat_of_fixed hfv)]
  · intro fs r o z d ih1 ih2 t' h
    simp only [widen, Option.bind_eq_some_iff] at h
    obtain ⟨fs', hfs, r', hr, h⟩ := h
    have ht : tryNew fs' r' o z = .ok t' := by
      cases htn : tryNew fs' r' o z with
      | error e => rw [htn] at h; cases h
      | ok x => rw [htn] at h; cases h; rfl
    have hfix : ∀ f ∈ fs', Fixed f.2.2 := by
      intro f hf
      obtain ⟨g, hg, hrel⟩ := forall₂_right (widenFields_iff.mp hfs) hf
      exact ih1 g hg _ hrel.2.2
    have hrfix : ∀ k v, r' = some (k, v) → Fixed k ∧ Fixed v := by
      intro k v hkv
      match r, hr with
      | none, hr => simp only [widenRest] at hr; cases hr; cases hkv
      | some (k0, v0), hr =>
        simp only [widenRest, Option.bind_eq_some_iff, Option.map_eq_some_iff] at hr
        obtain ⟨k1, hk1, v1, hv1, rfl⟩ := hr
        cases hkv
        exact ⟨(ih2 k0 v0 rfl).1 _ hk1, (ih2 k0 v0 rfl).2 _ hv1⟩
    obtain ⟨gs, d', rfl, hw, hp, hd⟩ := c23_well_formed ht
    have hgfix : ∀ f ∈ gs, Fixed f.2.2 := fun f hf => hfix f (hp.mem_iff.mp hf)
    refine fixed_simple (fun _ h => by cases h)
      (.shape (fun f hf => noLit_of_fixed (hgfix f hf)) (fun k v hkv => noLit_of_fixed (hrfix k v hkv).1)
        (fun k v hkv => noLit_of_fixed (hrfix k v hkv).2)) ?_
    simp only [widen]
    rw [widenFields_iff.mpr (forall₂_self (fun f hf => ⟨rfl, rfl, widen_fixed (hgfix f hf)⟩))]
    have hrr : widenRest r' = some r' := by
      match r', hrfix with
      | none, _ => rfl
      | some (k, v), hrfix =>
        have := hrfix k v rfl
        simp only [widenRest, widen_fixed this.1, widen_fixed this.2, Option.bind_some, Option.map_some]
    rw [hrr]
    simp only [Option.bind_some]
    have hsorted : Sorted fieldLe gs := hw.sorted.imp (fun h => h.1)
    have : tryNew gs r' o z = .ok (.shape gs r' o z d') := by
      obtain ⟨-, -, -, -, -, h6, h7⟩ := c23_try_new.mp ht
      injection h7 with e1 _ _ _ e2
      rw [c23_try_new, stableSort_of_sorted hsorted]
      refine ⟨hw.bound, hw.exact, ?_, hw.fields, hw.rest, ?_, ?_⟩
      · exact (keys_nodup_iff (.refl gs)).mp (hw.sorted.imp (fun h => h.2))
      · rw [e1]; exact h6
      · rw [e2, ← e1]
    rw [this]
    rfl
  · intro ts ih t' h
    simp only [widen, Option.map_eq_some_iff] at h
    obtain ⟨l, hl, rfl⟩ := h
    have hf := listFixed ih hl
    have hflat := flat_of_fixed hf
    refine ⟨(c21_alternatives hflat).1, fun x hx => ?_⟩
    by_cases hu : mkUnion l = .unknown
    · rw [hu, altOf_simple simple_unknown] at hx
      subst hx
      exact ⟨.unknown, rfl⟩
    · obtain ⟨t, ht, hx⟩ := ((c21_alternatives hflat).2 hu x).mp hx
      exact (hf t ht).2 x hx
  · intro t' h; cases h; exact fixed_simple simple_unknown .unknown rfl

/-- C22: a widened type has no literals. -/
theorem c22_literal_free {t t' : Ty} (h : widen t = some t') : NoLit t' := noLit_of_fixed (widen_gives_fixed t t' h)

/-- C22: widening twice is widening once. -/
theorem c22_idempotent {t t' : Ty} (h : widen t = some t') : widen t' = some t' := widen_fixed (widen_gives_fixed t t' h)

/-- C22: a widened type is canonical. -/
theorem c22_canonical {t t' : Ty} (h : widen t = some t') : Canonical t' := (widen_gives_fixed t t' h).1

/-! ### when widening cannot fail -/

theorem occurs_alts {t : Ty} : OccursUnknown t ↔ ∃ x, AltOf t x ∧ OccursUnknown x := by
  rcases simple_or_union t with hs | ⟨us, rfl⟩
  · constructor
    · intro h; exact ⟨t, .self hs, h⟩
    · rintro ⟨x, hx, h⟩; rw [altOf_simple hs] at hx; exact hx ▸ h
  · constructor
    · intro h
      cases h with
      | union hu h => exact ⟨_, .member hu, h⟩
    · rintro ⟨x, hx, h⟩
      exact .union (altOf_union.mp hx) h

theorem depth_alts {t : Ty} {n : Nat} : depthIn t ≤ n ↔ ∀ x, AltOf t x → depthIn x ≤ n := by
  rcases simple_or_union t with hs | ⟨us, rfl⟩
  · constructor
    · intro h x hx; rw [altOf_simple hs] at hx; exact hx ▸ h
    · intro h; exact h t (.self hs)
  · simp only [depthIn]
    constructor
    · intro h x hx
      exact Nat.le_trans (le_depthList (altOf_union.mp hx)) h
    · intro h
      rcases depthList_attained (l := us) with h0 | ⟨t, ht, he⟩
      · omega
      · rw [← he]; exact h t (.member ht)

theorem depthList_le {l : List Ty} {n : Nat} (h : ∀ t ∈ l, depthIn t ≤ n) : depthList l ≤ n := by
  rcases depthList_attained (l := l) with h0 | ⟨t, ht, he⟩
  · omega
  · rw [← he]; exact h t ht

/-- A shape among the alternatives of a widened type comes from a shape among the alternatives of the type. -/
theorem shape_preimage : ∀ t t' x', widen t = some t' → AltOf t' x' → x'.isShape = true →
    ∃ x, DeepAlt t x ∧ x.isShape = true ∧ widen x = some x' := by
  have simp_case : ∀ t t' x', Simple t → Simple t' → widen t = some t' → AltOf t' x' → x'.isShape = true →
      (t'.isShape = true → t.isShape = true) → ∃ x, DeepAlt t x ∧ x.isShape = true ∧ widen x = some x' := by
    intro t t' x' hs hs' hw hx hsh himp
    rw [altOf_simple hs'] at hx
    subst hx
    exact ⟨t, .self hs, himp hsh, hw⟩
  refine Ty.ind ?_ ?_ ?_ ?_ ?_ ?_ ?_ ?_ ?_ ?_
  · intro n t' x' h hx hs; cases h; exact simp_case _ _ _ (fun _ h => by cases h) (fun _ h => by cases h) rfl hx hs id
  · intro n t' x' h hx hs; cases h; exact simp_case _ _ _ (fun _ h => by cases h) (fun _ h => by cases h) rfl hx hs id
  · intro n t' x' h hx hs; cases h; exact simp_case _ _ _ (fun _ h => by cases h) (fun _ h => by cases h) rfl hx hs id
  · intro n t' x' h hx hs; cases h; exact simp_case _ _ _ (fun _ h => by cases h) (fun _ h => by cases h) rfl hx hs id
  · intro v t' x' h hx hs
    have hsm : Simple t' := by
      cases h; unfold Lit.generic; split <;> exact fun _ h => by cases h
    refine simp_case _ t' _ (fun _ h => by cases h) hsm h hx hs ?_
    cases h
    unfold Lit.generic; split <;> simp [Ty.isShape, stringTy, symbolTy]
  · intro ts _ t' x' h hx hs
    have h' := h
    simp only [widen, Option.map_eq_some_iff] at h'
    obtain ⟨l, -, rfl⟩ := h'
    exact simp_case _ _ _ (fun _ h => by cases h) (fun _ h => by cases h) h hx hs (fun h => h)
  · intro ks vs _ _ t' x' h hx hs
    have h' := h
    simp only [widen, Option.bind_eq_some_iff, Option.map_eq_some_iff] at h'
    obtain ⟨_, _, _, _, rfl⟩ := h'
    exact simp_case _ _ _ (fun _ h => by cases h) (fun _ h => by cases h) h hx hs (fun h => h)
  · intro fs r o z d _ _ t' x' h hx hs
    have hsm : Simple t' := by
      have h' := h
      simp only [widen, Option.bind_eq_some_iff] at h'
      obtain ⟨fs', -, r', -, h'⟩ := h'
      cases htn : tryNew fs' r' o z with
      | error e => rw [htn] at h'; cases h'
      | ok x =>
        rw [htn] at h'
        cases h'
        obtain ⟨gs, d', rfl, -⟩ := c23_well_formed htn
        exact fun _ h => by cases h
    exact simp_case _ _ _ (fun _ h => by cases h) hsm h hx hs (fun _ => rfl)
  · intro ts ih t' x' h hx hs
    simp only [widen, Option.map_eq_some_iff] at h
    obtain ⟨l, hl, rfl⟩ := h
    have hrel := widenList_iff.mp hl
    have hflat : ∀ x, Alts l x → Simple x := by
      rintro x ⟨t, ht, hx⟩
      obtain ⟨a, -, hw⟩ := forall₂_right hrel ht
      exact canonical_flat (widen_gives_fixed a t hw).1 x hx
    by_cases hu : mkUnion l = .unknown
    · rw [hu, altOf_simple simple_unknown] at hx
      subst hx; cases hs
    · obtain ⟨t, ht, hx⟩ := ((c21_alternatives hflat).2 hu x').mp hx
      obtain ⟨a, ha, hw⟩ := forall₂_right hrel ht
      obtain ⟨x, hd, h1, h2⟩ := ih a ha t x' hw hx hs
      exact ⟨x, .member ha hd, h1, h2⟩
  · intro t' x' h hx hs; cases h; exact simp_case _ _ _ simple_unknown simple_unknown rfl hx hs id

/-- Different widened shapes come from different shapes. -/
theorem many_preimage {ts l : List Ty} (hrel : List.Forall₂ (fun t t' => widen t = some t') ts l) (h : ManyShapes (Alts l)) :
    ManyShapes (fun x => ∃ t ∈ ts, DeepAlt t x) := by
  obtain ⟨m, hn, hl, hm⟩ := h
  have hex : ∀ x' ∈ m, ∃ x, (∃ t ∈ ts, DeepAlt t x) ∧ x.isShape = true ∧ widen x = some x' := by
    intro x' hx'
    obtain ⟨⟨t', ht', hx⟩, hs⟩ := hm x' hx'
    obtain ⟨t, ht, hw⟩ := forall₂_right hrel ht'
    obtain ⟨x, h1, h2, h3⟩ := shape_preimage t t' x' hw hx (isShape_iff.mpr hs)
    exact ⟨x, ⟨t, ht, h1⟩, h2, h3⟩
  obtain ⟨m', hm'⟩ := forall₂_of hex
  refine ⟨m', ?_, by rw [← hm'.length_eq, hl], ?_⟩
  · clear hl hm hex
    induction hm' with
    | nil => exact List.nodup_nil
    | @cons x' x m m' hx hrest ih =>
      have hn' := List.nodup_cons.mp hn
      refine List.nodup_cons.mpr ⟨?_, ih hn'.2⟩
      intro hmem
      obtain ⟨y', hy', hy⟩ := forall₂_right hrest hmem
      have := hx.2.2.symm.trans hy.2.2
      cases this
      exact hn'.1 hy'
  · intro x hx
    obtain ⟨x', -, h1, h2, h3⟩ := forall₂_right hm' hx
    exact ⟨h1, isShape_iff.mp h2⟩

theorem canonical_has_alt {t : Ty} (h : Canonical t) : ∃ x, AltOf t x := by
  cases h with
  | simple hs => exact ⟨t, .self hs⟩
  | @union us _ h2 _ _ =>
    match us, h2 with
    | u :: _, _ => exact ⟨u, .member (by simp)⟩

/-- The union of a tame list of known types stays known and no deeper. -/
theorem tame_list {ts l : List Ty} (htl : TameList ts) (hrel : List.Forall₂ (fun t t' => widen t = some t') ts l)
    (hok : ∀ t' ∈ l, ¬ OccursUnknown t') (n : Nat) (hd : ∀ t' ∈ l, depthIn t' ≤ n) :
    (¬ OccursUnknown (mkUnion l) ∧ depthIn (mkUnion l) ≤ n) ∧ ∀ x ∈ members l, ¬ OccursUnknown x ∧ depthIn x ≤ n := by
  have hcan : ∀ t ∈ l, Canonical t := by
    intro t ht
    obtain ⟨a, -, hw⟩ := forall₂_right hrel ht
    exact (widen_gives_fixed a t hw).1
  have hflat : ∀ x, Alts l x → Simple x := by
    rintro x ⟨t, ht, hx⟩
    exact canonical_flat (hcan t ht) x hx
  have halt : ∀ x, Alts l x → ¬ OccursUnknown x ∧ depthIn x ≤ n := by
    rintro x ⟨t, ht, hx⟩
    exact ⟨fun h => hok t ht (occurs_alts.mpr ⟨x, hx, h⟩), depth_alts.mp (hd t ht) x hx⟩
  have h1 : ¬ Alts l .unknown := fun h => (halt _ h).1 .here
  have h2 : ¬ ∀ x, ¬ Alts l x := by
    intro h
    match ts, l, hrel with
    | [], _, _ => exact htl.1 rfl
    | t :: ts, t' :: l, hrel =>
      obtain ⟨x, hx⟩ := canonical_has_alt (hcan t' (by simp))
      exact h x ⟨t', by simp, hx⟩
  have h3 : ¬ ManyShapes (Alts l) := fun h => htl.2 (many_preimage hrel h)
  have hu : mkUnion l ≠ .unknown := by
    rw [Ne, c21_unknown_iff]
    rintro (h | h | h)
    · exact h1 h
    · exact h2 h
    · exact h3 h
  have ha := (c21_alternatives hflat).2 hu
  refine ⟨⟨?_, ?_⟩, ?_⟩
  · rw [occurs_alts]
    rintro ⟨x, hx, h⟩
    exact (halt x ((ha x).mp hx)).1 h
  · rw [depth_alts]
    intro x hx
    exact (halt x ((ha x).mp hx)).2
  · intro x hx
    rcases members_spec hflat with ⟨-, h | h | h⟩ | h
    · exact absurd h h1
    · exact absurd h h2
    · exact absurd h h3
    · exact halt x ((h x).mp hx)

/-- Mapping the fields of a shape to known types that are no deeper gives a shape that is no deeper. -/
theorem tryNew_map {fs0 fs fs' : List Field} {r r' : Option (Ty × Ty)} {o z : Bool} {d : Nat}
    (hb : tryNew fs0 r o z = .ok (.shape fs r o z d)) (hf : List.Forall₂ FieldRel fs fs')
    (hok : ∀ f f', f ∈ fs → FieldRel f f' → ¬ OccursUnknown f'.2.2 ∧ depthIn f'.2.2 ≤ depthIn f.2.2)
    (hr : ∀ k' v', r' = some (k', v') → ∃ k v, r = some (k, v) ∧ (¬ OccursUnknown k' ∧ depthIn k' ≤ depthIn k) ∧
      (¬ OccursUnknown v' ∧ depthIn v' ≤ depthIn v)) (hr0 : r = none → r' = none) :
    ∃ t', tryNew fs' r' o z = .ok t' ∧ ¬ OccursUnknown t' ∧ depthIn t' ≤ d := by
  obtain ⟨gs, d', he, hw, hp, -⟩ := c23_well_formed hb
  cases he
  obtain ⟨-, -, -, -, -, hd8, he⟩ := c23_try_new.mp hb
  injection he with e1 _ _ _ e2
  rw [← e1] at hd8 e2
  have hkeys : fs'.map (·.1) = fs.map (·.1) := by
    clear hok hb hw hp e1 e2 hd8
    induction hf with
    | nil => rfl
    | cons h _ ih => simp only [List.map_cons, ih, h.1]
  have hnest : nestedDepth (stableSort fieldLe fs') r' ≤ nestedDepth fs r := by
    have h1 : depthList ((stableSort fieldLe fs').map fun f => f.2.2) ≤ depthList (fs.map fun f => f.2.2) := by
      apply depthList_le
      intro t ht
      obtain ⟨f', hf', rfl⟩ := List.mem_map.mp ht
      obtain ⟨f, hfm, hrel⟩ := forall₂_right hf (mem_stableSort.mp hf')
      exact Nat.le_trans (hok f f' hfm hrel).2 (le_depthList (List.mem_map.mpr ⟨f, hfm, rfl⟩))
    match r', hr with
    | none, _ => simp only [nestedDepth]; omega
    | some (k', v'), hr =>
      obtain ⟨k, v, rfl, hk, hv⟩ := hr k' v' rfl
      simp only [nestedDepth]
      omega
  have hunk : ∀ f' ∈ fs', ¬ OccursUnknown f'.2.2 := by
    intro f' hf'
    obtain ⟨f, hfm, hrel⟩ := forall₂_right hf hf'
    exact (hok f f' hfm hrel).1
  have hunr : ∀ k v, r' = some (k, v) → ¬ OccursUnknown k ∧ ¬ OccursUnknown v := by
    intro k' v' h
    obtain ⟨_, _, -, hk, hv⟩ := hr k' v' h
    exact ⟨hk.1, hv.1⟩
  refine ⟨_, c23_try_new.mpr ⟨?_, ?_, ?_, hunk, hunr, ?_, rfl⟩, ?_, ?_⟩
  · rw [← hf.length_eq]; exact hw.bound
  · intro ho; exact hr0 (hw.exact ho)
  · rw [hkeys]; exact (keys_nodup_iff (.refl fs)).mp (hw.sorted.imp (fun h => h.2))
  · omega
  · intro h
    cases h with
    | field hm h => exact hunk _ (mem_stableSort.mp hm) h
    | restKey h => exact (hunr _ _ rfl).1 h
    | restValue h => exact (hunr _ _ rfl).2 h
  · simp only [depthIn]; omega

theorem built_shape {fs : List Field} {r : Option (Ty × Ty)} {o z : Bool} {d : Nat} (h : Built (.shape fs r o z d)) :
    (∃ fs0, tryNew fs0 r o z = .ok (.shape fs r o z d)) ∧ (∀ f ∈ fs, Built f.2.2) ∧ (∀ k v, r = some (k, v) → Built k ∧ Built v) := by
  generalize ht : Ty.shape fs r o z d = t at h
  cases h with
  | @shape fs0 r0 o0 z0 _ h1 h2 h3 h4 =>
    obtain ⟨gs, d', he, hw, hp, -⟩ := c23_well_formed h4
    rw [← ht] at he
    cases he
    refine ⟨⟨fs0, ?_⟩, fun f hf => h1 f (hp.mem_iff.mp hf), fun k v hkv => ⟨h2 k v hkv, h3 k v hkv⟩⟩
    exact h4
  | _ => cases ht

theorem built_array {ts : List Ty} (h : Built (.array ts)) : ∀ t ∈ ts, Built t := by
  cases h with
  | array hb => exact hb
  | shape _ _ _ h =>
    obtain ⟨_, _, he, -⟩ := c23_well_formed h
    cases he

theorem built_hash {ks vs : List Ty} (h : Built (.hash ks vs)) : (∀ t ∈ ks, Built t) ∧ ∀ t ∈ vs, Built t := by
  cases h with
  | hash h1 h2 => exact ⟨h1, h2⟩
  | shape _ _ _ h =>
    obtain ⟨_, _, he, -⟩ := c23_well_formed h
    cases he

theorem built_union {ts : List Ty} (h : Built (.union ts)) : ∀ t ∈ ts, Built t := by
  cases h with
  | union hb => exact hb
  | shape _ _ _ h =>
    obtain ⟨_, _, he, -⟩ := c23_well_formed h
    cases he

/-- Widening a tame known type succeeds, gives a known type, and nests no deeper. -/
theorem tame_widen : ∀ t, Built t → Tame t → ¬ OccursUnknown t →
    ∃ t', widen t = some t' ∧ ¬ OccursUnknown t' ∧ depthIn t' ≤ depthIn t := by
  have listOk : ∀ ts : List Ty, (∀ t ∈ ts, ∃ t', widen t = some t' ∧ ¬ OccursUnknown t' ∧ depthIn t' ≤ depthIn t) →
      ∃ l, widenList ts = some l ∧ List.Forall₂ (fun t t' => widen t = some t') ts l ∧
        ∀ t' ∈ l, ¬ OccursUnknown t' ∧ depthIn t' ≤ depthList ts := by
    intro ts h
    obtain ⟨l, hl⟩ := forall₂_of h
    have hrel : List.Forall₂ (fun t t' => widen t = some t') ts l := hl.imp (fun _ _ h => h.1)
    refine ⟨l, widenList_iff.mpr hrel, hrel, ?_⟩
    intro t' ht'
    obtain ⟨t, ht, -, h2, h3⟩ := forall₂_right hl ht'
    exact ⟨h2, Nat.le_trans h3 (le_depthList ht)⟩
  refine Ty.ind ?_ ?_ ?_ ?_ ?_ ?_ ?_ ?_ ?_ ?_
  · intro n _ _ h; exact ⟨_, rfl, h, Nat.le_refl _⟩
  · intro n _ _ h; exact ⟨_, rfl, h, Nat.le_refl _⟩
  · intro n _ _ h; exact ⟨_, rfl, h, Nat.le_refl _⟩
  · intro n _ _ h; exact ⟨_, rfl, h, Nat.le_refl _⟩
  · intro v _ _ h
    refine ⟨_, rfl, ?_, ?_⟩
    · unfold Lit.generic; split <;> (intro h; cases h)
    · unfold Lit.generic; split <;> exact Nat.le_refl _
  · intro ts ih hb ht hu
    have hb := built_array hb
    cases ht with
    | array htl ht =>
    obtain ⟨l, hl, hrel, hok⟩ := listOk ts (fun t h => ih t h (hb t h) (ht t h) (fun h' => hu (.array h h')))
    have hm := (tame_list htl hrel (fun t h => (hok t h).1) _ (fun t h => (hok t h).2)).2
    refine ⟨.array (members l), by simp only [widen, hl, Option.map_some], ?_, ?_⟩
    · intro h
      cases h with
      | array h1 h2 => exact (hm _ h1).1 h2
    · simp only [depthIn]
      exact depthList_le (fun t h => (hm t h).2)
  · intro ks vs ih1 ih2 hb ht hu
    obtain ⟨hb1, hb2⟩ := built_hash hb
    cases ht with
    | hash htl1 htl2 ht1 ht2 =>
    obtain ⟨k, hk, hrelk, hokk⟩ := listOk ks (fun t h => ih1 t h (hb1 t h) (ht1 t h) (fun h' => hu (.key h h')))
    obtain ⟨v, hv, hrelv, hokv⟩ := listOk vs (fun t h => ih2 t h (hb2 t h) (ht2 t h) (fun h' => hu (.value h h')))
    have hmk := (tame_list htl1 hrelk (fun t h => (hokk t h).1) _ (fun t h => (hokk t h).2)).2
    have hmv := (tame_list htl2 hrelv (fun t h => (hokv t h).1) _ (fun t h => (hokv t h).2)).2
    refine ⟨.hash (members k) (members v), by simp only [widen, hk, hv, Option.map_some, Option.bind_some], ?_, ?_⟩
    · intro h
      cases h with
      | key h1 h2 => exact (hmk _ h1).1 h2
      | value h1 h2 => exact (hmv _ h1).1 h2
    · simp only [depthIn]
      have h1 := depthList_le (fun t h => (hmk t h).2)
      have h2 := depthList_le (fun t h => (hmv t h).2)
      omega
  · intro fs r o z d ih1 ih2 hb ht hu
    obtain ⟨⟨fs0, hnew⟩, hb1, hb2⟩ := built_shape hb
    cases ht with
    | shape ht1 ht2 ht3 =>
    have hf := fun f (h : f ∈ fs) => ih1 f h (hb1 f h) (ht1 f h) (fun h' => hu (.field h h'))
    obtain ⟨fs', hfs'⟩ := forall₂_of (R := FieldRel) (l := fs) (fun f h => by
      obtain ⟨t', h1, -⟩ := hf f h
      exact ⟨(f.1, f.2.1, t'), rfl, rfl, h1⟩)
    have hok : ∀ f f', f ∈ fs → FieldRel f f' → ¬ OccursUnknown f'.2.2 ∧ depthIn f'.2.2 ≤ depthIn f.2.2 := by
      intro f f' hm hrel
      obtain ⟨t', h1, h2⟩ := hf f hm
      have := hrel.2.2
      rw [h1] at this
      cases this
      exact h2
    have hrest : ∃ r', widenRest r = some r' ∧ (∀ k' v', r' = some (k', v') → ∃ k v, r = some (k, v) ∧
        (¬ OccursUnknown k' ∧ depthIn k' ≤ depthIn k) ∧ (¬ OccursUnknown v' ∧ depthIn v' ≤ depthIn v)) ∧ (r = none → r' = none) := by
      match r, ih2, hb2, ht2, ht3, hu with
      | none, _, _, _, _, _ => exact ⟨none, rfl, (fun _ _ h => by cases h), fun _ => rfl⟩
      | some (k, v), ih2, hb2, ht2, ht3, hu =>
        obtain ⟨k', hk, hk'⟩ := (ih2 k v rfl).1 (hb2 k v rfl).1 (ht2 k v rfl) (fun h => hu (.restKey h))
        obtain ⟨v', hv, hv'⟩ := (ih2 k v rfl).2 (hb2 k v rfl).2 (ht3 k v rfl) (fun h => hu (.restValue h))
        refine ⟨some (k', v'), by simp only [widenRest, hk, hv, Option.bind_some, Option.map_some], ?_, fun h => by cases h⟩
        intro k1 v1 h
        cases h
        exact ⟨k, v, rfl, hk', hv'⟩
    obtain ⟨r', hr', hrr, hr0⟩ := hrest
    obtain ⟨t', h1, h2, h3⟩ := tryNew_map hnew hfs' hok hrr hr0
    refine ⟨t', ?_, h2, h3⟩
    simp only [widen, widenFields_iff.mpr hfs', hr', Option.bind_some, h1]
    rfl
  · intro ts ih hb ht hu
    cases ht with
    | union htl ht =>
    have hb' := built_union hb
    obtain ⟨l, hl, hrel, hok⟩ := listOk ts (fun t h => ih t h (hb' t h) (ht t h) (fun h' => hu (.union h h')))
    have hm := (tame_list htl hrel (fun t h => (hok t h).1) _ (fun t h => (hok t h).2)).1
    exact ⟨mkUnion l, by simp only [widen, hl, Option.map_some], hm.1, by simp only [depthIn]; exact hm.2⟩
  · intro _ _ h; exact absurd .here h

/-- C22 (partial: types in shapes must be tame): widening never fails when, inside shapes, no collection type has an empty list of
arguments and no list of alternatives has more than eight shapes. -/
theorem c22_widening_total_partial : ∀ t, Built t → ShapesTame t → ∃ t', widen t = some t' := by
  have listOk : ∀ ts : List Ty, (∀ t ∈ ts, ∃ t', widen t = some t') → ∃ l, widenList ts = some l := by
    intro ts h
    obtain ⟨l, hl⟩ := forall₂_of h
    exact ⟨l, widenList_iff.mpr hl⟩
  refine Ty.ind ?_ ?_ ?_ ?_ ?_ ?_ ?_ ?_ ?_ ?_
  · intro n _ _; exact ⟨_, rfl⟩
  · intro n _ _; exact ⟨_, rfl⟩
  · intro n _ _; exact ⟨_, rfl⟩
  · intro n _ _; exact ⟨_, rfl⟩
  · intro n _ _; exact ⟨_, rfl⟩
  · intro ts ih hb ht
    cases ht with
    | array ht =>
    have hb := built_array hb
    obtain ⟨l, hl⟩ := listOk ts (fun t h => ih t h (hb t h) (ht t h))
    exact ⟨_, by simp only [widen, hl, Option.map_some]; rfl⟩
  · intro ks vs ih1 ih2 hb ht
    cases ht with
    | hash ht1 ht2 =>
    obtain ⟨hb1, hb2⟩ := built_hash hb
    obtain ⟨k, hk⟩ := listOk ks (fun t h => ih1 t h (hb1 t h) (ht1 t h))
    obtain ⟨v, hv⟩ := listOk vs (fun t h => ih2 t h (hb2 t h) (ht2 t h))
    exact ⟨_, by simp only [widen, hk, hv, Option.map_some, Option.bind_some]; rfl⟩
  · intro fs r o z d _ _ hb ht
    cases ht with
    | shape ht =>
    obtain ⟨⟨fs0, hnew⟩, -, -⟩ := built_shape hb
    obtain ⟨gs, d', he, hw, -⟩ := c23_well_formed hnew
    cases he
    obtain ⟨t', h, -⟩ := tame_widen _ hb ht (by
      intro h
      cases h with
      | field hm h => exact hw.fields _ hm h
      | restKey h => exact (hw.rest _ _ rfl).1 h
      | restValue h => exact (hw.rest _ _ rfl).2 h)
    exact ⟨t', h⟩
  · intro ts ih hb ht
    cases ht with
    | union ht =>
    have hb' := built_union hb
    obtain ⟨l, hl⟩ := listOk ts (fun t h => ih t h (hb' t h) (ht t h))
    exact ⟨_, by simp only [widen, hl, Option.map_some]; rfl⟩
  · intro _ _; exact ⟨_, rfl⟩

/-- C22 is false in general: a shape with a field of type `Hash{String => }` (which the YARD reader produces from a type comment
with an empty value part) is accepted by the constructor, and widening it panics. -/
theorem c22_empty_argument_panics :
    let k : Lit := ⟨false, [97]⟩
    let inner : Ty := .hash [stringTy] []
    ∃ t, tryNew [(k, false, inner)] none false false = .ok t ∧ Built t ∧ widen t = none := by
  refine ⟨.shape [(⟨false, [97]⟩, false, .hash [stringTy] [])] none false false 1, by decide, ?_, by decide⟩
  refine .shape (fs := [(⟨false, [97]⟩, false, .hash [stringTy] [])]) (r := none) (o := false) (z := false) ?_ ?_ ?_ (by decide)
  · intro f hf
    rw [List.mem_singleton] at hf
    subst hf
    exact .hash (fun t ht => by rw [List.mem_singleton] at ht; subst ht; exact .cls _) (fun t ht => by simp at ht)
  · intro k v h; cases h
  · intro k v h; cases h

/-- A concrete widening: literals inside a union, an array and a shape. -/
theorem c22_example :
    let a : Lit := ⟨false, [97]⟩
    let b : Lit := ⟨true, [98]⟩
    widen (.array [.lit a, .lit b, .lit ⟨false, [99]⟩]) = some (.array [stringTy, symbolTy]) ∧
    widen (.union [.lit b, .shape [(a, true, .lit b)] none false true 1]) =
      some (.union [stringTy, .shape [(a, true, stringTy)] none false true 1]) := by
  decide

end Verif.Types
