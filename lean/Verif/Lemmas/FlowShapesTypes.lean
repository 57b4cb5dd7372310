import Verif.Lemmas.FlowShapesStates
/-!
What the steps of the analysis do to the types of names that keep their hashes.
-/
namespace Verif.FlowShapes
open Verif.Types

variable {n : Nat}

/-- The type `c` of a name becomes `u`: alternatives that are no shapes stay, unless the type becomes unknown. -/
structure Refit (ids : Finset Id) (c u : Ty) : Prop where
  keeps : ∀ w, w.isShape = false → DeepAlt c w → DeepAlt u w ∨ DeepAlt u .unknown
  adds : ∀ w, w.isShape = false → DeepAlt u w → DeepAlt c w ∨ w = .unknown
  bare : ids = ∅ → ∀ w, DeepAlt u w → w.isShape = false

inductive TyStep (b : Option (Finset Id)) (a : Option Arrays) : Option Ty → Option Ty → Prop where
  | same (t) : TyStep b a t t
  | array {t ts} : a ≠ none → TyStep b a t (some (.array ts))
  | refit {ids c u} : a = none → b = some ids → Refit ids c u → TyStep b a (some c) (some u)

theorem TyStep.trans {b : Option (Finset Id)} {a : Option Arrays} {t u v : Option Ty} (h : TyStep b a t u) (h' : TyStep b a u v) : TyStep b a t v := by
  cases h' with
  | same => exact h
  | array ha => exact .array ha
  | refit ha hb r' =>
    cases h with
    | same => exact .refit ha hb r'
    | array ha' => exact absurd ha ha'
    | refit _ hb' r =>
      rw [hb] at hb'; cases hb'
      refine .refit ha hb ⟨fun w hw hd => ?_, fun w hw hd => ?_, r'.bare⟩
      · rcases r.keeps w hw hd with h | h
        · exact r'.keeps w hw h
        · exact .inr ((r'.keeps _ rfl h).elim id id)
      · rcases r'.adds w hw hd with h | h
        · exact r.adds w hw h
        · exact .inr h

/-- Names keep their hashes and the positions of their arrays. -/
structure Evo (E E' : Env n) : Prop where
  binds : E'.binds = E.binds
  arrays : E'.arrays = E.arrays
  types : ∀ x, TyStep (E.binds x) (E.arrays x) (E.types x) (E'.types x)

theorem Evo.refl (E : Env n) : Evo E E := ⟨rfl, rfl, fun _ => .same _⟩

theorem Evo.trans {E F G : Env n} (h : Evo E F) (h' : Evo F G) : Evo E G := by
  refine ⟨h'.binds.trans h.binds, h'.arrays.trans h.arrays, fun x => (h.types x).trans ?_⟩
  have := h'.types x
  rwa [h.binds, h.arrays] at this

theorem Evo.of_eq {E E' : Env n} (h1 : E'.binds = E.binds) (h2 : E'.arrays = E.arrays) (h3 : E'.types = E.types) : Evo E E' :=
  ⟨h1, h2, fun x => by rw [h3]; exact .same _⟩

theorem deepAlt_unknown_iff {w : Ty} : DeepAlt .unknown w ↔ w = .unknown := deepAlt_of_simple (by rintro us ⟨⟩)

theorem refit_unknown {ids : Finset Id} {c : Ty} : Refit ids c .unknown :=
  ⟨fun _ _ _ => .inr deepAlt_unknown, fun _ _ h => .inr (deepAlt_unknown_iff.mp h), fun _ _ h => by rw [deepAlt_unknown_iff.mp h]; rfl⟩

theorem sync_evo {E E' : Env n} (h : sync E = some E') : Evo E E' := by
  obtain ⟨hf, _⟩ := sync_frame h
  refine ⟨hf.binds, hf.arrays, fun x => ?_⟩
  cases ha : E.arrays x with
  | none =>
    cases hb : E.binds x with
    | none => rw [sync_free h ha hb]; exact .same _
    | some ids =>
      have hc : ∃ c, E.types x = some c := by
        unfold sync at h
        obtain ⟨F, h1, _⟩ := Option.bind_eq_some_iff.mp h
        have := (applyResult_some h1).1 x
        rw [bindResult, hb] at this
        cases hc : E.types x with
        | none => simp [hc] at this
        | some c => exact ⟨c, rfl⟩
      obtain ⟨c, hc⟩ := hc
      rw [hc]
      rcases sync_bound h ha hb with h1 | ⟨c', u, h1, h2, h3⟩
      · rw [h1]; exact .refit rfl rfl refit_unknown
      · rw [hc] at h1; cases h1
        rw [h2]
        obtain ⟨_, h4, h5, h6⟩ := typeForIds_ok h3
        refine .refit rfl rfl ⟨fun w hw hd => .inl ((h6 w hw).mpr hd), fun w hw hd => .inl ((h6 w hw).mp hd), ?_⟩
        rintro rfl w hw
        cases hs : w.isShape with
        | false => rfl
        | true => obtain ⟨i, hi, _⟩ := (h5 w hs).mp hw; simp at hi
  | some a =>
    have : ∃ ts, E'.types x = some (.array ts) := by
      unfold sync at h
      obtain ⟨F, h1, h2⟩ := Option.bind_eq_some_iff.mp h
      obtain ⟨_, _, a2, _, a4, _⟩ := applyResult_some h1
      obtain ⟨b0, _, _, _, _, _, b6, b7⟩ := applyResult_some h2
      obtain ⟨r, hr⟩ := Option.isSome_iff_exists.mp (b0 x)
      have hr' := hr
      rw [arrayResult, a2, ha] at hr'
      simp only at hr'
      obtain ⟨c, hc, hr'⟩ := Option.bind_eq_some_iff.mp hr'
      obtain ⟨q, hq, rfl⟩ := Option.map_eq_some_iff.mp hr'
      cases q with
      | error e => exact ⟨_, (b7 x e hr).1⟩
      | ok u =>
        unfold typeForArray at hq
        split at hq
        · cases hq
        · obtain ⟨es, _, hq⟩ := Option.bind_eq_some_iff.mp hq
          obtain ⟨r, _, hq⟩ := Option.bind_eq_some_iff.mp hq
          cases r with
          | error e => cases hq
          | ok b =>
            simp only at hq
            split at hq
            · cases hq
            · cases hq; exact ⟨_, (b6 x _ hr).1⟩
    obtain ⟨ts, hts⟩ := this
    rw [hts]
    exact .array (by simp)

theorem invalidate_evo {E E' : Env n} {ids : Finset Id} {r : Reason} (h : invalidate E ids r = some E') : Evo E E' := by
  unfold invalidate at h
  simp only at h
  split at h
  · refine Evo.trans ?_ (sync_evo h); exact Evo.of_eq rfl rfl rfl
  · cases h

theorem enforce_evo {E E' : Env n} (h : enforce E = some E') : Evo E E' := by
  unfold enforce at h
  simp only at h
  split at h
  · cases h; exact Evo.refl _
  · exact invalidate_evo h

theorem link_evo {E E' : Env n} {p c : Id} {k : Lit} (h : link E p k c = some E') : Evo E E' := by
  rcases (link_rest h).1 with rfl | rfl
  · exact Evo.refl _
  · exact Evo.of_eq rfl rfl rfl

theorem detach_evo (E : Env n) (ids : Finset Id) (k : Option Lit) : Evo E (detach E ids k) := Evo.of_eq rfl rfl rfl

theorem allocate_evo {S S' : Tracker n} {t : Ty} {i : Id} (h : allocate S t = some (i, S')) : Evo S.env S'.env := by
  obtain ⟨_, _, _, rfl⟩ := allocate_rest h
  exact Evo.of_eq rfl rfl rfl

theorem materializeAll_evo {p : Id} {fs : List Field} : ∀ {S S' : Tracker n}, materializeAll p fs S = some S' → Evo S.env S'.env := by
  induction fs with
  | nil => intro S S' h; cases h; exact Evo.refl _
  | cons f l ih =>
    intro S S' hm
    unfold materializeAll at hm
    obtain ⟨c, _, h2⟩ := Option.bind_eq_some_iff.mp hm
    cases c with
    | some c => exact ih h2
    | none =>
      obtain ⟨a, h3, h4⟩ := Option.bind_eq_some_iff.mp h2
      obtain ⟨E, h5, h6⟩ := Option.bind_eq_some_iff.mp h4
      exact ((allocate_evo h3).trans (link_evo h5)).trans (ih (S := ⟨E, a.2.next⟩) h6)

theorem materialize_evo {S S' : Tracker n} {p : Id} {r : Except Reason Unit} (hm : materialize S p = some (r, S')) : Evo S.env S'.env := by
  unfold materialize at hm
  split at hm
  · cases hm
  · cases hm; exact Evo.refl _
  · obtain ⟨T, h1, h2⟩ := Option.bind_eq_some_iff.mp hm
    obtain ⟨E, h3, h4⟩ := Option.map_eq_some_iff.mp h2
    cases h4
    exact (materializeAll_evo h1).trans (enforce_evo h3)
  · cases hm; exact Evo.refl _

theorem linkAll_evo {p : Id} {links : List (Lit × Id)} : ∀ {E E' : Env n}, linkAll p links E = some E' → Evo E E' := by
  induction links with
  | nil => intro E E' h; exact enforce_evo h
  | cons f l ih =>
    intro E E' hl
    unfold linkAll at hl
    obtain ⟨t, _, h2⟩ := Option.bind_eq_some_iff.mp hl
    split at h2
    · split at h2
      · obtain ⟨F, h3, h4⟩ := Option.bind_eq_some_iff.mp h2
        exact (link_evo h3).trans (ih h4)
      · exact invalidate_evo h2
    · exact invalidate_evo h2

theorem linkLiteral_evo {p : Id} {fields : List (Lit × Part n)} {E E' : Env n} (hl : linkLiteral E p fields = some E') : Evo E E' := by
  unfold linkLiteral at hl
  split at hl
  · exact invalidate_evo hl
  · exact linkAll_evo hl

theorem arrayAliases_evo {es : List (Elem n)} : ∀ {i : Nat} {a b : Arrays} {S S' : Tracker n}, arrayAliases i es a S = some (b, S') → Evo S.env S'.env := by
  induction es with
  | nil => intro i a b S S' ha; cases ha; exact Evo.refl _
  | cons e l ih =>
    intro i a b S S' ha
    unfold arrayAliases at ha
    simp only at ha
    have hadd : ∀ (ids : Finset Id) (T : Tracker n), Evo S.env T.env → (if (a.add i ids).positions.length > maxAliases ∨ (a.add i ids).contained.card > maxAliases then
        (invalidate T.env (a.add i ids).contained .boundExceeded).map fun E => ((⟨(a.add i ids).length, [], ∅, some .boundExceeded⟩ : Arrays), (⟨E, T.next⟩ : Tracker n))
      else arrayAliases (i + 1) l (a.add i ids) T) = some (b, S') → Evo S.env S'.env := by
      intro ids T hT hh
      split at hh
      · obtain ⟨E, h1, h2⟩ := Option.map_eq_some_iff.mp hh
        cases h2
        exact hT.trans (invalidate_evo h1)
      · exact hT.trans (ih hh)
    cases e with
    | part p => exact hadd _ _ (Evo.refl _) ha
    | hash fs =>
      simp only at ha
      cases hh : hashLiteral S.env fs with
      | error e => rw [hh] at ha; exact hadd _ _ (Evo.refl _) ha
      | ok t =>
        rw [hh] at ha
        simp only at ha
        split at ha
        · obtain ⟨al, h1, h2⟩ := Option.bind_eq_some_iff.mp ha
          obtain ⟨E, h3, h4⟩ := Option.bind_eq_some_iff.mp h2
          obtain ⟨m, h5, h6⟩ := Option.bind_eq_some_iff.mp h4
          obtain ⟨r, T⟩ := m
          have f3 := ((allocate_evo h1).trans (linkLiteral_evo h3)).trans (materialize_evo (S := ⟨E, al.2.next⟩) h5)
          cases r with
          | ok _ => exact hadd _ _ f3 h6
          | error r =>
            obtain ⟨E', h7, h8⟩ := Option.map_eq_some_iff.mp h6
            cases h8
            exact f3.trans (invalidate_evo h7)
        · exact hadd _ _ (Evo.refl _) ha

theorem allocateChildren_evo {k : Lit} {l : List (Id × Ty)} : ∀ {cs ds : Finset Id} {S S' : Tracker n}, allocateChildren k l cs S = some (ds, S') → Evo S.env S'.env := by
  induction l with
  | nil => intro cs ds S S' ha; cases ha; exact Evo.refl _
  | cons x l ih =>
    intro cs ds S S' ha
    unfold allocateChildren at ha
    obtain ⟨al, h1, h2⟩ := Option.bind_eq_some_iff.mp ha
    obtain ⟨E, h3, h4⟩ := Option.bind_eq_some_iff.mp h2
    exact ((allocate_evo h1).trans (link_evo h3)).trans (ih (S := ⟨E, _⟩) h4)

theorem keyedIds_evo {S S' : Tracker n} {y : Fin n} {k : Lit} {t : Ty} {ids : Finset Id} (hk : keyedIds S y k t = some (ids, S')) : Evo S.env S'.env := by
  have hgive : ∀ {T : Tracker n} {r : Finset Id}, Evo S.env T.env → ((invalidate T.env r .invalidated).map fun E => ((∅ : Finset Id), (⟨E, T.next⟩ : Tracker n))) = some (ids, S') → Evo S.env S'.env := by
    intro T r hT hh
    obtain ⟨E, h1, h2⟩ := Option.map_eq_some_iff.mp hh
    cases h2
    exact hT.trans (invalidate_evo h1)
  unfold keyedIds at hk
  simp only at hk
  split at hk
  · cases hk; exact Evo.refl _
  · obtain ⟨r, h1, h2⟩ := Option.bind_eq_some_iff.mp hk
    cases r with
    | none => exact hgive (Evo.refl _) h2
    | some q =>
      obtain ⟨a, h3, h4⟩ := Option.bind_eq_some_iff.mp h2
      obtain ⟨ds, T⟩ := a
      have hT := allocateChildren_evo h3
      simp only at h4
      split at h4
      · cases h4; exact hT
      · obtain ⟨u, h5, h6⟩ := Option.bind_eq_some_iff.mp h4
        cases u with
        | ok u =>
          simp only at h6
          split at h6
          · cases h6; exact hT
          · exact hgive hT h6
        | error e =>
          simp only at h6
          split at h6
          · cases h6; exact hT
          · exact hgive hT h6

theorem freshIds_evo {S S' : Tracker n} {v : Value n} {t : Ty} {ids : Finset Id} (hf : freshIds S v t = some (ids, S')) : Evo S.env S'.env := by
  unfold freshIds at hf
  obtain ⟨a, h1, h2⟩ := Option.bind_eq_some_iff.mp hf
  obtain ⟨E, h3, h4⟩ := Option.bind_eq_some_iff.mp h2
  have f2 : Evo S.env E := by
    refine (allocate_evo h1).trans ?_
    cases v with
    | hash fs => exact linkLiteral_evo h3
    | _ => cases h3; exact Evo.refl _
  split at h4
  · obtain ⟨m, h5, h6⟩ := Option.bind_eq_some_iff.mp h4
    obtain ⟨r, T⟩ := m
    have f3 := f2.trans (materialize_evo (S := ⟨E, a.2.next⟩) h5)
    cases r with
    | ok _ => cases h6; exact f3
    | error e =>
      obtain ⟨F, h7, h8⟩ := Option.map_eq_some_iff.mp h6
      cases h8
      exact f3.trans (invalidate_evo h7)
  · cases h4; exact f2

theorem transformAll_evo {ids : Finset Id} {f : Ty → Except Reason Ty} {l : List Id} :
    ∀ {acc : List (Id × Transitions)} {E E' : Env n} {r : Except Reason (List (Id × Transitions))}, transformAll ids f l acc E = some (r, E') → Evo E E' := by
  induction l with
  | nil => intro acc E E' r h; cases h; exact Evo.refl _
  | cons i l ih =>
    intro acc E E' r h
    unfold transformAll at h
    split at h
    · cases h
    · cases h; exact Evo.refl _
    · split at h
      · cases h; exact Evo.refl _
      · split at h
        · obtain ⟨F, h1, h2⟩ := Option.map_eq_some_iff.mp h; cases h2; exact invalidate_evo h1
        · split at h
          · obtain ⟨F, h1, h2⟩ := Option.map_eq_some_iff.mp h; cases h2; exact invalidate_evo h1
          · refine Evo.trans ?_ (ih h); exact Evo.of_eq rfl rfl rfl

theorem propagateParents_evo {changed : List (Id × Transitions)} {links : List Link} {l : List Id} :
    ∀ {acc : List (Id × Transitions)} {E E' : Env n} {r : Except Reason (List (Id × Transitions))}, propagateParents changed links l acc E = some (r, E') → Evo E E' := by
  induction l with
  | nil => intro acc E E' r h; cases h; exact Evo.refl _
  | cons i l ih =>
    intro acc E E' r h
    unfold propagateParents at h
    split at h
    · cases h
    · cases h; exact Evo.refl _
    · split at h
      · cases h; exact Evo.refl _
      · split at h
        · cases h
        · cases h; exact Evo.refl _
        · split at h
          · obtain ⟨F, h1, h2⟩ := Option.map_eq_some_iff.mp h; cases h2; exact invalidate_evo h1
          · refine Evo.trans ?_ (ih h); exact Evo.of_eq rfl rfl rfl

theorem propagate_evo {k : Nat} : ∀ {changed : List (Id × Transitions)} {E E' : Env n} {r : Except Reason Unit}, propagate k changed E = some (r, E') → Evo E E' := by
  induction k with
  | zero =>
    intro changed E E' r h
    unfold propagate at h
    obtain ⟨F, h1, h2⟩ := Option.map_eq_some_iff.mp h; cases h2; exact invalidate_evo h1
  | succ k ih =>
    intro changed E E' r h
    unfold propagate at h
    split at h
    · cases h; exact Evo.refl _
    · simp only at h
      obtain ⟨⟨q, F⟩, h1, h2⟩ := Option.bind_eq_some_iff.mp h
      cases q with
      | ok next => exact (propagateParents_evo h1).trans (ih h2)
      | error e => cases h2; exact propagateParents_evo h1

theorem transform_evo {E E' : Env n} {ids : Finset Id} {f : Ty → Except Reason Ty} {r : Except Reason Unit} (h : transform E ids f = some (r, E')) : Evo E E' := by
  unfold transform at h
  obtain ⟨⟨a, F⟩, h1, h2⟩ := Option.bind_eq_some_iff.mp h
  cases a with
  | error e => cases h2; exact transformAll_evo h1
  | ok changed =>
    obtain ⟨⟨b, G⟩, h3, h4⟩ := Option.bind_eq_some_iff.mp h2
    have f2 := (transformAll_evo h1).trans (propagate_evo h3)
    cases b with
    | error e => cases h4; exact f2
    | ok _ =>
      obtain ⟨H, h5, h6⟩ := Option.bind_eq_some_iff.mp h4
      obtain ⟨t, _, h8⟩ := Option.map_eq_some_iff.mp h6
      have e : H = E' := by cases t <;> (simp only [Prod.mk.injEq] at h8; exact h8.2)
      exact e ▸ f2.trans (sync_evo h5)

theorem linkParents_evo {k : Lit} {c : Id} {l : List Id} : ∀ {E E' : Env n}, linkParents k c l E = some E' → Evo E E' := by
  induction l with
  | nil => intro E E' h; cases h; exact Evo.refl _
  | cons p l ih =>
    intro E E' h
    unfold linkParents at h
    obtain ⟨F, h1, h2⟩ := Option.bind_eq_some_iff.mp h
    exact (link_evo h1).trans (ih h2)

theorem linkAssigned_evo {E E' : Env n} {parents children : Finset Id} {k : Lit} {t : Ty} {b : Bool}
    (h : linkAssigned E parents k children t = some (b, E')) : Evo E E' := by
  unfold linkAssigned at h
  split at h
  case h_2 => cases h; exact Evo.refl _
  case h_1 =>
    split at h
    · cases h; exact Evo.refl _
    · obtain ⟨u, _, h2⟩ := Option.bind_eq_some_iff.mp h
      cases u with
      | error e => cases h2; exact Evo.refl _
      | ok u =>
        simp only at h2
        split at h2
        · cases h2; exact Evo.refl _
        · split at h2
          · cases h2
          · split at h2
            · cases h2; exact Evo.refl _
            · obtain ⟨F, h3, h4⟩ := Option.bind_eq_some_iff.mp h2
              obtain ⟨G, h5, h6⟩ := Option.bind_eq_some_iff.mp h4
              obtain ⟨H, h7, h8⟩ := Option.map_eq_some_iff.mp h6
              cases h8
              exact ((linkParents_evo h3).trans (enforce_evo h5)).trans (sync_evo h7)

theorem setField_evo {E E' : Env n} {y : Fin n} {k : Lit} {v : Part n} (hs : setField E y k v = some E') : Evo E E' := by
  unfold setField at hs
  simp only at hs
  split at hs
  · split at hs
    · cases hs; exact Evo.refl _
    · exact invalidate_evo hs
  · split at hs
    · exact invalidate_evo hs
    · obtain ⟨r, h1, h2⟩ := Option.bind_eq_some_iff.mp hs
      obtain ⟨r, F⟩ := r
      have f := (detach_evo E _ _).trans (transform_evo h1)
      cases r with
      | error e => cases h2; exact f
      | ok u =>
        simp only at h2
        split at h2
        · cases h2; exact f
        · obtain ⟨q, h3, h4⟩ := Option.bind_eq_some_iff.mp h2
          obtain ⟨b, G⟩ := q
          have f2 := f.trans (linkAssigned_evo h3)
          simp only at h4
          split at h4
          · cases h4; exact f2
          · exact f2.trans (invalidate_evo h4)

theorem change_evo {E E' : Env n} {y : Fin n} {m : Mutation} (hs : change E y m = some E') : Evo E E' := by
  unfold change at hs
  simp only at hs
  split at hs
  · cases hs; exact Evo.refl _
  · obtain ⟨⟨r, F⟩, h1, h2⟩ := Option.map_eq_some_iff.mp hs
    cases h2
    cases m with
    | delete k => exact (detach_evo E _ _).trans (transform_evo h1)
    | clear => exact (detach_evo E _ _).trans (transform_evo h1)
    | freeze => exact transform_evo h1

/-! ### every shape belongs to a hash -/

/-- A name without hashes has no shapes in its type. -/
def OwnedAll (E : Env n) : Prop := ∀ x t, (E.binds x).getD ∅ = ∅ → E.types x = some t → NoShape t

theorem noShape_simple {t : Ty} (h : Simple t) (hs : t.isShape = false) : NoShape t := by
  intro u hu; rw [(deepAlt_of_simple h).mp hu]; exact hs

theorem noShape_unknown : NoShape .unknown := noShape_simple (by rintro us ⟨⟩) rfl

theorem Evo.owned {E E' : Env n} (h : Evo E E') (ho : OwnedAll E) : OwnedAll E' := by
  intro x t hb ht
  have hs := h.types x
  rw [h.binds] at hb
  rw [ht] at hs
  generalize he : E.types x = s at hs
  generalize ht' : some t = t' at hs
  cases hs with
  | same => exact ho x t hb (by rw [he, ← ht'])
  | array => cases ht'; exact noShape_simple (by rintro us ⟨⟩) rfl
  | refit _ hb' r =>
    cases ht'
    rw [hb'] at hb
    exact r.bare hb

theorem insert_owned {E : Env n} (ho : OwnedAll E) (x : Fin n) {t : Ty} (ht : NoShape t) : OwnedAll (insert E x t) := by
  intro y u hb hu
  dsimp only [insert] at hb hu
  by_cases e : y = x
  · subst e; rw [put_same] at hu; cases hu; exact ht
  · rw [put_other e] at hb hu; exact ho y u hb hu

theorem insertUnknown_owned {E : Env n} (ho : OwnedAll E) (x : Fin n) (r : Reason) : OwnedAll (insertUnknown E x r) :=
  insert_owned ho x noShape_unknown

theorem bindIds_owned {E E' : Env n} (ho : OwnedAll E) {x : Fin n} {t : Ty} {ids : Finset Id} (h : bindIds E x t ids = some E') : OwnedAll E' := by
  unfold bindIds at h
  split at h
  · cases h
  · rename_i hne
    refine (enforce_evo h).owned ?_
    intro y u hb hu
    dsimp only at hb hu
    by_cases e : y = x
    · subst e; rw [put_same] at hb; exact absurd hb hne
    · rw [put_other e] at hb hu; exact ho y u hb hu

theorem keyedOrNone_evo {S S' : Tracker n} {t : Ty} {v : Value n} {ids : Finset Id} (h : keyedOrNone S t v = some (ids, S')) : Evo S.env S'.env := by
  cases v with
  | keyed y k u => exact keyedIds_evo (k := k) h
  | _ => cases h; exact Evo.refl _

theorem bindValue_owned {S S' : Tracker n} (ho : OwnedAll S.env) {x : Fin n} {v : Value n} {t : Ty} {r : Option Reason} {ids : Finset Id}
    (ht : ids = ∅ → isShapeOnly t = true ∨ NoShape t) (hb : bindValue S x v t r ids = some S') : OwnedAll S'.env := by
  unfold bindValue at hb
  split at hb
  · obtain ⟨E, h1, h2⟩ := Option.bind_eq_some_iff.mp hb
    obtain ⟨F, h3, h4⟩ := Option.map_eq_some_iff.mp h2
    cases h4
    exact (sync_evo h3).owned (bindIds_owned ho h1)
  · rename_i hne
    split at hb
    · obtain ⟨⟨i1, S1⟩, h1, h2⟩ := Option.bind_eq_some_iff.mp hb
      obtain ⟨⟨i2, S2⟩, h3, h4⟩ := Option.bind_eq_some_iff.mp h2
      obtain ⟨E, h5, h6⟩ := Option.bind_eq_some_iff.mp h4
      obtain ⟨F, h7, h8⟩ := Option.map_eq_some_iff.mp h6
      cases h8
      have e2 : Evo S1.env S2.env := by
        simp only at h3
        split at h3
        · exact freshIds_evo h3
        · cases h3; exact Evo.refl _
      exact (sync_evo h7).owned (bindIds_owned (((keyedOrNone_evo h1).trans e2).owned ho) h5)
    · rename_i hns
      have hns := (ht (by simpa using hne)).resolve_left hns
      cases r with
      | some r => cases hb; exact insertUnknown_owned ho x r
      | none => cases hb; exact insert_owned ho x hns

theorem valueArrays_evo {S S' : Tracker n} {v : Value n} {a : Option Arrays} (hv : v.arrays S = some (a, S')) : Evo S.env S'.env := by
  cases v with
  | array es =>
    obtain ⟨⟨b, T⟩, h1, h2⟩ := Option.map_eq_some_iff.mp hv
    cases h2
    exact arrayAliases_evo h1
  | _ => cases hv; exact Evo.refl _

theorem hashLiteral_owned {E : Env n} {fs : List (Lit × Part n)} {t : Ty} (h : hashLiteral E fs = .ok t) : isShapeOnly t = true ∨ NoShape t := by
  unfold hashLiteral at h
  split at h
  · cases h; exact .inr (noShape_simple (by rintro us ⟨⟩) rfl)
  · exact .inl (shapeOnly_shape (tryNew_shape h))

theorem assign_owned {S S' : Tracker n} (ho : OwnedAll S.env) {x : Fin n} {v : Value n} (hv : TameValue v) (ha : assign S x v = some S') : OwnedAll S'.env := by
  unfold assign at ha
  simp only at ha
  obtain ⟨⟨a, S1⟩, h1, h2⟩ := Option.bind_eq_some_iff.mp ha
  obtain ⟨T, h3, h4⟩ := Option.bind_eq_some_iff.mp h2
  have f1 := (valueArrays_evo h1).owned ho
  have f2 := bindValue_owned f1 (by
    intro hids
    cases v with
    | read y =>
      refine .inr ?_
      simp only [Value.type, typeOr]
      cases hy : S.env.types y with
      | none => exact noShape_unknown
      | some t => exact ho y t hids hy
    | index y i t => exact hv
    | keyed y k t => exact hv
    | other t => exact hv
    | hash fs =>
      simp only [Value.type]
      cases hh : hashLiteral S.env fs with
      | error e => exact .inr noShape_unknown
      | ok t => exact hashLiteral_owned hh
    | array es =>
      refine .inr ?_
      simp only [Value.type, arrayLiteral]
      cases elemTypes S.env es with
      | error e => exact noShape_unknown
      | ok ts =>
        simp only
        split <;> exact noShape_simple (by rintro us ⟨⟩) rfl) h3
  cases a with
  | none => cases h4; exact f2
  | some b =>
    simp only at h4
    split at h4
    · obtain ⟨E, h5, h6⟩ := Option.map_eq_some_iff.mp h4
      cases h6
      unfold bindArrays at h5
      split at h5
      · exact (sync_evo h5).owned f2
      · exact (sync_evo h5).owned f2
    · cases h4

theorem guardVar_owned {E E' : Env n} (ho : OwnedAll E) {y : Fin n} {f : Ty → Except Reason (Option Ty)} (hs : guardVar E y f = some E')
    (hap : ∀ x a, E.arrays x = some a → E.binds x = none) : OwnedAll E' := by
  unfold guardVar at hs
  simp only at hs
  split at hs
  · cases hs; exact ho
  · obtain ⟨r, h1, h2⟩ := Option.bind_eq_some_iff.mp hs
    cases r with
    | error e => exact (invalidate_evo h2).owned ho
    | ok q =>
      simp only at h2
      split at h2
      · cases h2; exact ho
      · intro x t hb ht
        have he := sync_evo h2
        rw [he.binds] at hb
        dsimp only at hb
        cases hx : E.binds x with
        | none =>
          have hst := he.types x
          rw [ht] at hst
          dsimp only at hst
          rw [hx] at hst
          simp only [Option.map_none] at hst
          generalize hes : E.types x = s at hst
          generalize ht' : some t = t' at hst
          cases hst with
          | same => exact ho x t (by rw [hx]; rfl) (by rw [hes, ← ht'])
          | array => cases ht'; exact noShape_simple (by rintro us ⟨⟩) rfl
          | refit _ hb' r => cases hb'
        | some s =>
          have hax : E.arrays x = none := by
            cases hax : E.arrays x with
            | none => rfl
            | some a => have := hap x a hax; rw [hx] at this; cases this
          rw [hx] at hb
          simp only [Option.map_some, Option.getD_some] at hb
          have hbx : ({ E with
              states := fun i => match q.2.find? (fun u => u.1 = i) with
                | some u => some (.proven u.2)
                | none => E.states i
              binds := fun x => (E.binds x).map fun s => s.filter fun i => i ∉ (E.binds y).getD ∅ ∨ i ∈ q.1 } : Env n).binds x = some ∅ := by
            dsimp only; rw [hx, Option.map_some, hb]
          rcases sync_bound h2 hax hbx with h3 | ⟨c, u, _, h4, h5⟩
          · rw [ht] at h3; cases h3; exact noShape_unknown
          · rw [ht] at h4; cases h4
            intro w hw
            cases hsw : w.isShape with
            | false => rfl
            | true => obtain ⟨i, hi, _⟩ := ((typeForIds_ok h5).2.2.1 w hsw).mp hw; simp at hi

theorem mergeTypes_owned {a b : Option Ty} {t : Ty} (h : mergeTypes a b = some t) (ha : ∀ s, a = some s → NoShape s) (hb : ∀ s, b = some s → NoShape s) : NoShape t := by
  have key : ∀ l : List Ty, (∀ s ∈ l, NoShape s) → NoShape (mkUnion l) := by
    intro l hl u hu
    by_cases hk : mkUnion l = .unknown
    · rw [hk] at hu; exact noShape_unknown u hu
    · obtain ⟨s, hs, hd⟩ := (deepAlt_mkUnion hk).mp hu
      exact hl s hs u hd
  have hnil : NoShape nilTy := noShape_simple (by unfold nilTy; rintro us ⟨⟩) rfl
  unfold mergeTypes at h
  split at h
  · split at h
    · cases h; exact ha _ rfl
    · cases h; refine key _ ?_; simp only [List.mem_cons, List.not_mem_nil, or_false]; rintro s (rfl | rfl); exact ha _ rfl; exact hb _ rfl
  · cases h; refine key _ ?_; simp only [List.mem_cons, List.not_mem_nil, or_false]; rintro s (rfl | rfl); exact hb _ rfl; exact hnil
  · cases h; refine key _ ?_; simp only [List.mem_cons, List.not_mem_nil, or_false]; rintro s (rfl | rfl); exact ha _ rfl; exact hnil
  · cases h

theorem merge_owned {A B E : Env n} (hA : OwnedAll A) (hB : OwnedAll B) (h : merge A B = some E) : OwnedAll E := by
  unfold merge at h
  simp only at h
  obtain ⟨F, h1, h2⟩ := Option.bind_eq_some_iff.mp h
  obtain ⟨G, h3, h4⟩ := Option.bind_eq_some_iff.mp h2
  generalize hE : (⟨_, _, _, _, _, _⟩ : Env n) = E0 at h1
  have h0 : OwnedAll E0 := by
    rw [← hE]
    intro x t hb ht
    dsimp only at hb ht
    have hem : (A.binds x).getD ∅ ∪ (B.binds x).getD ∅ = ∅ := by
      unfold mergeBinds at hb
      simp only at hb
      split at hb
      · assumption
      · exact hb
    rw [Finset.union_eq_empty] at hem
    exact mergeTypes_owned ht (fun s hs => hA x s hem.1 hs) fun s hs => hB x s hem.2 hs
  have hF : OwnedAll F := by
    split at h1
    · cases h1; exact h0
    · exact (invalidate_evo h1).owned h0
  exact (sync_evo h4).owned ((enforce_evo h3).owned hF)

theorem run_owned (c : Code n) (hc : Tame c) : ∀ {S S' : Tracker n}, Good S → OwnedAll S.env → Safe c S → run c S = some S' → OwnedAll S'.env := by
  induction c with
  | skip => intro S S' _ h _ hr; cases hr; exact h
  | assign x v => intro S S' _ h _ hr; exact assign_owned h hc hr
  | insert x t => intro S S' _ h _ hr; cases hr; exact insert_owned h x hc
  | setField y k v =>
    intro S S' _ h _ hr
    obtain ⟨E, h1, h2⟩ := Option.map_eq_some_iff.mp hr
    cases h2; exact (setField_evo h1).owned h
  | change y m =>
    intro S S' _ h _ hr
    obtain ⟨E, h1, h2⟩ := Option.map_eq_some_iff.mp hr
    cases h2; exact (change_evo h1).owned h
  | escape p =>
    intro S S' _ h _ hr
    obtain ⟨E, h1, h2⟩ := Option.map_eq_some_iff.mp hr
    cases h2
    split at h1
    · cases h1; exact h
    · exact (invalidate_evo h1).owned h
  | guard y f =>
    intro S S' hg h _ hr
    obtain ⟨E, h1, h2⟩ := Option.map_eq_some_iff.mp hr
    cases h2; exact guardVar_owned h h1 fun x a ha => (hg.inv.arrays x a ha).2.1
  | narrow x t =>
    intro S S' _ h _ hr
    cases hr
    intro y u hb hu
    dsimp only at hb hu
    by_cases e : y = x
    · subst e; rw [put_same] at hu; cases hu; exact hc
    · rw [put_other e] at hu; exact h y u hb hu
  | seq a b iha ihb =>
    intro S S' hg h hs hr
    obtain ⟨T, h1, h2⟩ := Option.bind_eq_some_iff.mp hr
    obtain ⟨T', h3, hgT, _⟩ := run_ok a hg hs.1
    rw [h1] at h3; cases h3
    exact ihb hc.2 hgT (iha hc.1 hg h hs.1 h1) (hs.2 T h1) h2
  | branch a b iha ihb =>
    intro S S' hg h hs hr
    obtain ⟨A, h1, h2⟩ := Option.bind_eq_some_iff.mp hr
    obtain ⟨B, h3, h4⟩ := Option.bind_eq_some_iff.mp h2
    obtain ⟨E, h5, h6⟩ := Option.map_eq_some_iff.mp h4
    cases h6
    obtain ⟨A', h7, _, hle⟩ := run_ok a hg hs.1
    rw [h1] at h7; cases h7
    have hg' : Good (⟨S.env, A.next⟩ : Tracker n) := ⟨hg.inv, fun i hi => Nat.lt_of_lt_of_le (hg.below i hi) hle⟩
    exact merge_owned (iha hc.1 hg h hs.1 h1) (ihb hc.2 hg' h (hs.2 A h1) h3) h5
  | scratch a _ =>
    intro S S' _ h _ hr
    obtain ⟨A, _, h2⟩ := Option.map_eq_some_iff.mp hr
    cases h2; exact h

end Verif.FlowShapes
