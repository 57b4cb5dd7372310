import Verif.Lemmas.FlowShapesAgree
/-!
What the steps of the analysis do to the states of hashes, and to the types of names.
-/
namespace Verif.FlowShapes
open Verif.Types

variable {n : Nat}

/-- Nothing more is known than before. -/
def Shrinks (E E' : Env n) : Prop := ∀ i t, E'.states i = some (.proven t) → E.states i = some (.proven t)

theorem Shrinks.refl (E : Env n) : Shrinks E E := fun _ _ h => h

theorem Shrinks.trans {E F G : Env n} (h : Shrinks E F) (h' : Shrinks F G) : Shrinks E G := fun i t ht => h i t (h' i t ht)

theorem sync_shrinks {E E' : Env n} (h : sync E = some E') : Shrinks E E' := by
  intro i t ht; rwa [(sync_frame h).2] at ht

theorem invalidate_shrinks {E E' : Env n} {ids : Finset Id} {r : Reason} (h : invalidate E ids r = some E') : Shrinks E E' := by
  intro i t ht
  rw [(invalidate_rest h).2.2.2] at ht
  dsimp only at ht
  split at ht
  · cases ht
  · exact ht

/-- The hashes that are given up are not known. -/
theorem invalidate_unknown {E E' : Env n} {ids : Finset Id} {r : Reason} (h : invalidate E ids r = some E') {i : Id} (hi : i ∈ ids) : E'.states i = some (.invalid r) := by
  rw [(invalidate_rest h).2.2.2]
  exact if_pos (closure_sub _ _ hi)

theorem enforce_shrinks {E E' : Env n} (h : enforce E = some E') : Shrinks E E' := by
  unfold enforce at h
  simp only at h
  split at h
  · cases h; exact Shrinks.refl _
  · exact invalidate_shrinks h

theorem link_shrinks {E E' : Env n} {p c : Id} {k : Lit} (h : link E p k c = some E') : Shrinks E E' := by
  intro i t ht
  rcases (link_rest h).1 with rfl | rfl
  · exact ht
  · exact ht

theorem linkParents_shrinks {k : Lit} {c : Id} {l : List Id} : ∀ {E E' : Env n}, linkParents k c l E = some E' → Shrinks E E' := by
  induction l with
  | nil => intro E E' h; cases h; exact Shrinks.refl _
  | cons p l ih =>
    intro E E' h
    unfold linkParents at h
    obtain ⟨F, h1, h2⟩ := Option.bind_eq_some_iff.mp h
    exact (link_shrinks h1).trans (ih h2)

theorem linkAssigned_shrinks {E E' : Env n} {parents children : Finset Id} {k : Lit} {t : Ty} {b : Bool}
    (h : linkAssigned E parents k children t = some (b, E')) : Shrinks E E' := by
  unfold linkAssigned at h
  split at h
  case h_2 => cases h; exact Shrinks.refl _
  case h_1 =>
    split at h
    · cases h; exact Shrinks.refl _
    · obtain ⟨u, _, h2⟩ := Option.bind_eq_some_iff.mp h
      cases u with
      | error e => cases h2; exact Shrinks.refl _
      | ok u =>
        simp only at h2
        split at h2
        · cases h2; exact Shrinks.refl _
        · split at h2
          · cases h2
          · split at h2
            · cases h2; exact Shrinks.refl _
            · obtain ⟨F, h3, h4⟩ := Option.bind_eq_some_iff.mp h2
              obtain ⟨G, h5, h6⟩ := Option.bind_eq_some_iff.mp h4
              obtain ⟨H, h7, h8⟩ := Option.map_eq_some_iff.mp h6
              cases h8
              exact ((linkParents_shrinks h3).trans (enforce_shrinks h5)).trans (sync_shrinks h7)

theorem transitions_total {f : Ty → Except Reason Ty} {l : List Ty} : ∀ {ts : Transitions}, transitionsOf f l = .ok ts → ∀ b ∈ l, ∃ a, f b = .ok a := by
  induction l with
  | nil => simp
  | cons b l ih =>
    intro ts h
    unfold transitionsOf at h
    split at h
    · cases h
    · rename_i a ha
      split at h
      · cases h
      · split at h
        · rename_i r hr
          intro c hc
          rcases List.mem_cons.mp hc with rfl | hc
          · exact ⟨a, ha⟩
          · exact ih hr c hc
        · cases h

theorem transformAll_total {ids : Finset Id} {f : Ty → Except Reason Ty} {l : List Id} (hn : l.Nodup) :
    ∀ {acc out : List (Id × Transitions)} {E E' : Env n}, transformAll ids f l acc E = some (.ok out, E') →
      ∀ i ∈ l, ∀ t, E.states i = some (.proven t) → ∀ b, DeepAlt t b → ∃ w, f b = .ok w := by
  induction l with
  | nil => simp
  | cons i l ih =>
    intro acc out E E' h
    obtain ⟨hil, hn⟩ := List.nodup_cons.mp hn
    unfold transformAll at h
    split at h
    · cases h
    · cases h
    · rename_i t hst
      split at h
      · cases h
      · rename_i alts hal
        split at h
        · obtain ⟨F, _, h2⟩ := Option.map_eq_some_iff.mp h; cases h2
        · rename_i ts hts
          split at h
          · obtain ⟨F, _, h2⟩ := Option.map_eq_some_iff.mp h; cases h2
          · intro j hj u hu b hb
            rcases List.mem_cons.mp hj with rfl | hj
            · rw [hst] at hu; cases hu
              exact transitions_total hts b ((mem_shapeAlts hal b).mpr hb)
            · have hij : j ≠ i := fun e => hil (by rw [← e]; exact hj)
              exact ih hn h j hj u (by dsimp only; rw [put_other hij]; exact hu) b hb

/-- If a change does not succeed although all hashes are known, then they are given up. -/
theorem transformAll_gives_up {ids : Finset Id} {f : Ty → Except Reason Ty} {l : List Id} (hn : l.Nodup) :
    ∀ {acc : List (Id × Transitions)} {E E' : Env n} {e : Reason}, (∀ i t, E.states i = some (.proven t) → isShapeOnly t = true) →
      MapsShapes f → (∀ i ∈ l, ∃ t, E.states i = some (.proven t)) → transformAll ids f l acc E = some (.error e, E') →
      (∀ i ∈ ids, ∀ t, E'.states i ≠ some (.proven t)) ∧ ∀ j, j ∉ l → ∀ t, E'.states j = some (.proven t) → E.states j = some (.proven t) := by
  induction l with
  | nil => intro acc E E' e _ _ _ h; cases h
  | cons i l ih =>
    intro acc E E' e hsh hmap hp h
    obtain ⟨hil, hn⟩ := List.nodup_cons.mp hn
    obtain ⟨t, hst⟩ := hp i List.mem_cons_self
    obtain ⟨alts, hal, _, hash⟩ := shapeAlts_ok t (hsh i t hst)
    unfold transformAll at h
    simp only [hst, hal] at h
    split at h
    · obtain ⟨F, h1, h2⟩ := Option.map_eq_some_iff.mp h
      cases h2
      exact ⟨(fun i hi t ht => by rw [invalidate_unknown h1 hi] at ht; cases ht), fun j _ t ht => invalidate_shrinks h1 j t ht⟩
    · rename_i ts hts
      split at h
      · obtain ⟨F, h1, h2⟩ := Option.map_eq_some_iff.mp h
        cases h2
        exact ⟨(fun i hi t ht => by rw [invalidate_unknown h1 hi] at ht; cases ht), fun j _ t ht => invalidate_shrinks h1 j t ht⟩
      · rename_i hne
        have hso := mkUnion_shapeOnly (ts := ts.map Prod.snd) (fun u hu => by
            obtain ⟨x, hx, rfl⟩ := List.mem_map.mp hu
            exact transitionsOf_ok hmap hash hts x hx) hne
        obtain ⟨a1, a2⟩ := ih hn (E := { E with states := put E.states i (some (.proven (mkUnion (ts.map Prod.snd)))) }) (by
          intro j u hj
          dsimp only [put] at hj
          split at hj
          · cases hj; exact hso
          · exact hsh j u hj) hmap (by
          intro j hj
          obtain ⟨u, hu⟩ := hp j (List.mem_cons_of_mem _ hj)
          have hij : j ≠ i := fun e => hil (by rw [← e]; exact hj)
          exact ⟨u, by dsimp only; rw [put_other hij]; exact hu⟩) h
        refine ⟨a1, fun j hj t ht => ?_⟩
        rw [List.mem_cons, not_or] at hj
        have := a2 j hj.2 t ht
        dsimp only at this
        rwa [put_other hj.1] at this

theorem asc_single {ids : Finset Id} (hs : ids.card ≤ 1) {i : Id} (him : i ∈ ids) : asc ids = [i] := by
  have e : ids = {i} := Finset.eq_singleton_iff_unique_mem.mpr ⟨him, fun j hj => Finset.card_le_one.mp hs j hj i him⟩
  have hm : ∀ j, j ∈ asc ids ↔ j = i := fun j => by rw [mem_asc, e, Finset.mem_singleton]
  have hn := asc_nodup ids
  generalize asc ids = m at hm hn
  match m, hm, hn with
  | [], hm, _ => exact absurd ((hm i).mpr rfl) (by simp)
  | [a], hm, _ => rw [(hm a).mp (by simp)]
  | a :: b :: m, hm, hn =>
    have h1 := (hm a).mp (by simp)
    have h2 := (hm b).mp (by simp)
    rw [h1, h2] at hn
    simp at hn

/-- What a change does to the hashes that no other hash contains: those that are known afterwards were known before, and their
alternatives are those from before, changed; nothing more is known of the others. -/
theorem transform_states {E E' : Env n} (hi : Inv E) {ids : Finset Id} (hl : ∀ i ∈ ids, Live E i) {f : Ty → Except Reason Ty} (hm : MapsShapes f)
    (hf : ToShape f) (hs : (∀ i ∈ ids, ∃ t, E.states i = some (.proven t)) ∨ ids.card ≤ 1) (hc : ∀ l ∈ E.links, l.child ∉ ids) {r : Except Reason Unit}
    (ht : transform E ids f = some (r, E')) :
    (∀ j, j ∉ ids → ∀ t, E'.states j = some (.proven t) → E.states j = some (.proven t)) ∧
    ∀ i ∈ ids, ∀ u, E'.states i = some (.proven u) → ∃ t, E.states i = some (.proven t) ∧ (∀ w, DeepAlt u w ↔ ∃ b, DeepAlt t b ∧ f b = .ok w) ∧ ∀ b, DeepAlt t b → ∃ w, f b = .ok w := by
  obtain ⟨q, E1, h1, h2, h3, h4⟩ := transformAll_ok hm (ids := ids) (l := asc ids) (fun i hi => mem_asc.mp hi) (acc := []) hi hl (by simp)
  unfold transform at ht
  rw [h1] at ht
  simp only [Option.bind_some] at ht
  cases q with
  | error e =>
    simp only [Option.some.injEq, Prod.mk.injEq] at ht
    obtain ⟨_, rfl⟩ := ht
    by_cases hall : ∀ i ∈ ids, ∃ t, E.states i = some (.proven t)
    · obtain ⟨a1, a2⟩ := transformAll_gives_up (asc_nodup ids) hi.shapes hm (fun i hi => hall i (mem_asc.mp hi)) h1
      exact ⟨fun j hj t ht => a2 j (fun h => hj (mem_asc.mp h)) t ht, fun i hi u hu => absurd hu (a1 i hi u)⟩
    · have hs := hs.resolve_left hall
      simp only [not_forall] at hall
      obtain ⟨i, him, hp⟩ := hall
      rw [asc_single hs him] at h1
      unfold transformAll at h1
      obtain ⟨st, hst⟩ := Option.isSome_iff_exists.mp (hl i him)
      cases st with
      | proven t => exact absurd ⟨t, hst⟩ hp
      | invalid r =>
        simp only [hst, Option.some.injEq, Prod.mk.injEq] at h1
        rw [← h1.2]
        refine ⟨fun _ _ _ h => h, fun j hj u hu => ?_⟩
        rw [Finset.card_le_one.mp hs j hj i him, hst] at hu
        cases hu
  | ok changed =>
    have hno : ∀ l ∈ E1.links, l.child ∉ changed.map Prod.fst := by
      intro l hlm hcm
      obtain ⟨c, hc1, hc2⟩ := List.mem_map.mp hcm
      exact hc l (h3.links ▸ hlm) (hc2 ▸ h4 changed rfl c hc1)
    simp only [propagate_nothing hno, Option.bind_some] at ht
    obtain ⟨F, h5, h6⟩ := Option.bind_eq_some_iff.mp ht
    obtain ⟨t, h7, h8⟩ := Option.map_eq_some_iff.mp h6
    obtain ⟨_, _, _, b4, b5⟩ := transformAll_exact hf (asc_nodup ids) h1
    have e : F = E' := by cases t <;> (simp only [Prod.mk.injEq] at h8; exact h8.2)
    subst e
    rw [(sync_frame h5).2]
    refine ⟨fun j hj t ht => by rwa [b4 j (fun h => hj (mem_asc.mp h))] at ht, fun i hi u hu => ?_⟩
    obtain ⟨t, u', c1, c2, c3⟩ := b5 i (mem_asc.mpr hi)
    rw [c2] at hu; cases hu
    exact ⟨t, c1, c3, transformAll_total (asc_nodup ids) h1 i (mem_asc.mpr hi) t c1⟩

/-! ### types of names -/

theorem sync_bound {E E' : Env n} (hs : sync E = some E') {x : Fin n} (ha : E.arrays x = none) {ids : Finset Id} (hb : E.binds x = some ids) :
    E'.types x = some .unknown ∨ ∃ c t, E.types x = some c ∧ E'.types x = some t ∧ typeForIds E.states c ids = some (.ok t) := by
  unfold sync at hs
  obtain ⟨F, h1, h2⟩ := Option.bind_eq_some_iff.mp hs
  obtain ⟨a0, a1, a2, a3, a4, _, a6, a7⟩ := applyResult_some h1
  obtain ⟨b0, b1, b2, b3, b4, b5, _, _⟩ := applyResult_some h2
  rw [(b5 x (by rw [arrayResult, a2, ha])).1]
  obtain ⟨r, hr⟩ := Option.isSome_iff_exists.mp (a0 x)
  have hr' := hr
  rw [bindResult, hb] at hr'
  simp only at hr'
  obtain ⟨c, hc, hr'⟩ := Option.bind_eq_some_iff.mp hr'
  obtain ⟨q, hq, rfl⟩ := Option.map_eq_some_iff.mp hr'
  cases q with
  | error e => exact .inl (a7 x e hr).1
  | ok u => exact .inr ⟨c, u, hc, (a6 x u hr).1, hq⟩

theorem sync_free {E E' : Env n} (hs : sync E = some E') {x : Fin n} (ha : E.arrays x = none) (hb : E.binds x = none) : E'.types x = E.types x := by
  unfold sync at hs
  obtain ⟨F, h1, h2⟩ := Option.bind_eq_some_iff.mp hs
  obtain ⟨_, _, a2, _, _, a5, _⟩ := applyResult_some h1
  obtain ⟨_, _, _, _, _, b5, _, _⟩ := applyResult_some h2
  rw [(b5 x (by rw [arrayResult, a2, ha])).1, (a5 x (by rw [bindResult, hb])).1]

/-- `u` is an alternative of the type of `x`, or the type may be unknown. -/
def May (E : Env n) (x : Fin n) (u : Ty) : Prop := ∃ t, E.types x = some t ∧ (DeepAlt t u ∨ DeepAlt t .unknown)

theorem deepAlt_unknown : DeepAlt .unknown .unknown := (deepAlt_of_simple (by rintro us ⟨⟩)).mpr rfl

theorem sync_may {E E' : Env n} (hs : sync E = some E') {x : Fin n} (ha : E.arrays x = none) {u : Ty} (hu : u.isShape = false) (h : May E x u) : May E' x u := by
  obtain ⟨t, h1, h2⟩ := h
  cases hb : E.binds x with
  | none => exact ⟨t, by rw [sync_free hs ha hb]; exact h1, h2⟩
  | some ids =>
    rcases sync_bound hs ha hb with h3 | ⟨c, t', h3, h4, h5⟩
    · exact ⟨_, h3, .inr deepAlt_unknown⟩
    · rw [h1] at h3; cases h3
      obtain ⟨_, _, _, h6⟩ := typeForIds_ok h5
      exact ⟨t', h4, h2.imp (h6 u hu).mpr (h6 _ rfl).mpr⟩

theorem invalidate_may {E E' : Env n} {ids : Finset Id} {r : Reason} (hs : invalidate E ids r = some E') {x : Fin n} (ha : E.arrays x = none) {u : Ty}
    (hu : u.isShape = false) (h : May E x u) : May E' x u := by
  unfold invalidate at hs
  simp only at hs
  split at hs
  · exact sync_may (E := { E with states := _ }) hs ha hu h
  · cases hs

theorem enforce_may {E E' : Env n} (hs : enforce E = some E') {x : Fin n} (ha : E.arrays x = none) {u : Ty}
    (hu : u.isShape = false) (h : May E x u) : May E' x u := by
  unfold enforce at hs
  simp only at hs
  split at hs
  · cases hs; exact h
  · exact invalidate_may hs ha hu h

theorem enforce_rest {E E' : Env n} (hs : enforce E = some E') : E'.binds = E.binds ∧ E'.links = E.links ∧ E'.arrays = E.arrays := by
  unfold enforce at hs
  simp only at hs
  split at hs
  · cases hs; exact ⟨rfl, rfl, rfl⟩
  · obtain ⟨h1, h2, h3, _⟩ := invalidate_rest hs; exact ⟨h1, h2, h3⟩

theorem mergeTypes_may {a b : Option Ty} {t : Ty} (hb : mergeTypes a b = some t) {u : Ty}
    (h : (∃ s, (a = some s ∨ b = some s) ∧ DeepAlt s u) ∨ (a = none ∨ b = none) ∧ u = nilTy) : DeepAlt t u ∨ DeepAlt t .unknown := by
  have key : ∀ l : List Ty, (∃ s ∈ l, DeepAlt s u) → DeepAlt (mkUnion l) u ∨ DeepAlt (mkUnion l) .unknown := by
    intro l hl
    by_cases hk : mkUnion l = .unknown
    · exact .inr (by rw [hk]; exact deepAlt_unknown)
    · exact .inl ((deepAlt_mkUnion hk).mpr hl)
  have hnil : DeepAlt nilTy nilTy := (deepAlt_of_simple (by unfold nilTy; rintro us ⟨⟩)).mpr rfl
  unfold mergeTypes at hb
  split at hb
  · rename_i t1 t2
    have h : ∃ s, (some t1 = some s ∨ some t2 = some s) ∧ DeepAlt s u := by
      rcases h with h | ⟨h | h, _⟩
      · exact h
      · cases h
      · cases h
    obtain ⟨s, h1, h2⟩ := h
    split at hb
    · rename_i e; subst e; cases hb
      rcases h1 with h1 | h1 <;> (cases h1; exact .inl h2)
    · cases hb
      refine key _ ⟨s, ?_, h2⟩
      rcases h1 with h1 | h1 <;> (cases h1; simp)
  · cases hb
    refine key _ ?_
    rcases h with ⟨s, h1 | h1, h2⟩ | ⟨_, rfl⟩
    · cases h1
    · cases h1; exact ⟨_, List.mem_cons_self, h2⟩
    · exact ⟨_, by simp, hnil⟩
  · cases hb
    refine key _ ?_
    rcases h with ⟨s, h1 | h1, h2⟩ | ⟨_, rfl⟩
    · cases h1; exact ⟨_, List.mem_cons_self, h2⟩
    · cases h1
    · exact ⟨_, by simp, hnil⟩
  · cases hb

theorem mergeStates_may {a b : Option State} {t s : Ty} {u : Ty} (h : mergeStates a b = some (.proven t)) (hs : a = some (.proven s) ∨ b = some (.proven s))
    (hu : DeepAlt s u) : DeepAlt t u := by
  unfold mergeStates at h
  split at h
  · cases h
  · cases h
  · cases h
  · rename_i t1 t2
    split at h
    · cases h
    · rename_i hne
      cases h
      refine (deepAlt_mkUnion hne).mpr ⟨s, ?_, hu⟩
      rcases hs with hs | hs <;> (cases hs; simp)
  · cases h
    rcases hs with hs | hs
    · cases hs; exact hu
    · cases hs
  · rcases hs with hs | hs
    · cases hs
    · rw [hs] at h; cases h; exact hu

/-- After a branch, every alternative of a side is an alternative, if its shapes belong to hashes that are known. -/
theorem merge_covers {A B E : Env n} (h : merge A B = some E) {x : Fin n} (ha : A.arrays x = none) (hb : B.arrays x = none) {t : Ty} {u : Ty}
    (hu : (A.types x = some t ∨ B.types x = some t) ∧ DeepAlt t u ∨ (A.types x = none ∨ B.types x = none) ∧ (A.types x = some t ∨ B.types x = some t) ∧ u = nilTy)
    (hs : u.isShape = true → ∃ i s, DeepAlt s u ∧ ((∃ ids, A.binds x = some ids ∧ i ∈ ids ∧ A.states i = some (.proven s)) ∨
      ∃ ids, B.binds x = some ids ∧ i ∈ ids ∧ B.states i = some (.proven s))) : May E x u := by
  unfold merge at h
  simp only at h
  obtain ⟨F, h1, h2⟩ := Option.bind_eq_some_iff.mp h
  obtain ⟨G, h3, h4⟩ := Option.bind_eq_some_iff.mp h2
  generalize hE : (⟨_, _, _, _, _, _⟩ : Env n) = E0 at h1
  have harr : E0.arrays x = none := by rw [← hE]; simp [mergeArrays, ha, hb]
  have hF : F.arrays = E0.arrays ∧ F.binds = E0.binds ∧ Shrinks E0 F := by
    split at h1
    · cases h1; exact ⟨rfl, rfl, Shrinks.refl _⟩
    · obtain ⟨a1, _, a3, _⟩ := invalidate_rest h1; exact ⟨a3, a1, invalidate_shrinks h1⟩
  have hG := enforce_rest h3
  have hGa : G.arrays x = none := by rw [hG.2.2, hF.1, harr]
  cases hus : u.isShape with
  | false =>
    have h0 : May E0 x u := by
      have hm : ∃ t0, mergeTypes (A.types x) (B.types x) = some t0 := by
        have : A.types x = some t ∨ B.types x = some t := by rcases hu with hu | hu; exact hu.1; exact hu.2.1
        unfold mergeTypes
        rcases this with e | e <;> rw [e] <;> (split <;> simp_all) <;> (split <;> simp)
      obtain ⟨t0, ht0⟩ := hm
      refine ⟨t0, by rw [← hE]; exact ht0, mergeTypes_may ht0 ?_⟩
      rcases hu with ⟨hu1, hu2⟩ | ⟨hu1, _, hu3⟩
      · exact .inl ⟨t, hu1, hu2⟩
      · exact .inr ⟨hu1, hu3⟩
    have h5 : May F x u := by
      split at h1
      · cases h1; exact h0
      · exact invalidate_may h1 harr hus h0
    exact sync_may h4 hGa hus (enforce_may h3 (by rw [hF.1, harr]) hus h5)
  | true =>
    obtain ⟨i, s, hd, hi⟩ := hs hus
    obtain ⟨ids, hids, hmem⟩ : ∃ ids, E0.binds x = some ids ∧ i ∈ ids := by
      have hm : i ∈ (A.binds x).getD ∅ ∪ (B.binds x).getD ∅ := by
        rcases hi with ⟨ids, h1, h2, _⟩ | ⟨ids, h1, h2, _⟩
        · rw [h1]; exact Finset.mem_union_left _ h2
        · rw [h1]; exact Finset.mem_union_right _ h2
      refine ⟨(A.binds x).getD ∅ ∪ (B.binds x).getD ∅, ?_, hm⟩
      rw [← hE]
      simp only [mergeBinds]
      rw [if_neg]
      intro e; rw [e] at hm; simp at hm
    have hGb : G.binds x = some ids := by rw [hG.1, hF.2.1, hids]
    rcases sync_bound h4 hGa hGb with h6 | ⟨c, t', _, h7, h8⟩
    · exact ⟨_, h6, .inr deepAlt_unknown⟩
    · obtain ⟨_, hp, hsh, _⟩ := typeForIds_ok h8
      refine ⟨t', h7, .inl ((hsh u hus).mpr ⟨i, hmem, ?_⟩)⟩
      obtain ⟨s', hs'⟩ := hp i hmem
      refine ⟨s', hs', ?_⟩
      have h0 := hF.2.2 i s' (enforce_shrinks h3 i s' hs')
      rw [← hE] at h0
      dsimp only at h0
      split at h0
      · cases h0
      · refine mergeStates_may h0 ?_ hd
        rcases hi with ⟨_, _, _, hst⟩ | ⟨_, _, _, hst⟩
        · exact .inl hst
        · exact .inr hst

end Verif.FlowShapes
