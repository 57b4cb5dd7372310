import Verif.Model.FlowShapes
import Verif.Lemmas.Types
/-!
The environment of the flow analysis stays consistent.
-/
namespace Verif.FlowShapes
open Verif.Types

variable {n : Nat}

/-! ### sets -/

theorem mem_asc {s : Finset Id} {i : Id} : i ∈ asc s ↔ i ∈ s := by
  simp only [asc, List.mem_filter, List.mem_range, decide_eq_true_eq, and_iff_right_iff_imp]
  intro h
  exact Nat.lt_succ_of_le (Finset.le_sup (f := id) h)

theorem asc_nodup (s : Finset Id) : (asc s).Nodup := List.nodup_range.filter _

theorem put_same {α β : Type} [DecidableEq α] (f : α → β) (x : α) (v : β) : put f x v x = v := by simp [put]

theorem put_other {α β : Type} [DecidableEq α] {f : α → β} {x y : α} {v : β} (h : y ≠ x) : put f x v y = f y := by simp [put, h]

/-! ### types -/

theorem allShapeOnly_iff {ts : List Ty} : allShapeOnly ts = true ↔ ∀ t ∈ ts, isShapeOnly t = true := by
  induction ts with
  | nil => simp [allShapeOnly]
  | cons t l ih => simp [allShapeOnly, ih]

theorem shapeOnly_shape {t : Ty} (h : t.isShape = true) : isShapeOnly t = true := by
  cases t <;> simp_all [Ty.isShape, isShapeOnly]

theorem not_shapeOnly_array {ts : List Ty} : isShapeOnly (.array ts) = false := by simp [isShapeOnly]

/-- The alternatives of a type that is a shape. -/
theorem shapeAlts_ok (t : Ty) (h : isShapeOnly t = true) : ∃ l, shapeAlts t = .ok l ∧ l ≠ [] ∧ ∀ u ∈ l, u.isShape = true := by
  induction t using Ty.ind with
  | shape fs r o z d _ _ => exact ⟨[.shape fs r o z d], by simp [shapeAlts], by simp, by simp [Ty.isShape]⟩
  | union ts ih =>
    simp only [isShapeOnly, Bool.and_eq_true, Bool.not_eq_true', List.isEmpty_eq_false_iff, ne_eq, allShapeOnly_iff] at h
    have key : ∀ l : List Ty, (∀ t ∈ l, t ∈ ts) → ∃ r, shapeAltsList l = .ok r ∧ (l ≠ [] → r ≠ []) ∧ ∀ u ∈ r, u.isShape = true := by
      intro l
      induction l with
      | nil => intro _; exact ⟨[], by simp [shapeAltsList], by simp, by simp⟩
      | cons t l ihl =>
        intro hl
        obtain ⟨a, ha, hne, hs⟩ := ih t (hl t List.mem_cons_self) (h.2 t (hl t List.mem_cons_self))
        obtain ⟨b, hb, _, hs'⟩ := ihl fun u hu => hl u (List.mem_cons_of_mem _ hu)
        refine ⟨a ++ b, by simp [shapeAltsList, ha, hb], fun _ => by simp [hne], fun u hu => ?_⟩
        rcases List.mem_append.mp hu with h | h
        · exact hs u h
        · exact hs' u h
    obtain ⟨r, h1, h2, h3⟩ := key ts fun _ h => h
    exact ⟨r, by simpa [shapeAlts] using h1, h2 h.1, h3⟩
  | _ => simp [isShapeOnly] at h

/-- A union of alternatives each with a property of unions. -/
theorem mkUnion_all {P : Ty → Prop} (hu : ∀ us : List Ty, P (.union us) ↔ us ≠ [] ∧ ∀ u ∈ us, P u) {ts : List Ty} (h : ∀ t ∈ ts, P t)
    (hne : mkUnion ts ≠ .unknown) : P (mkUnion ts) := by
  have hf : ∀ x ∈ flatten ts, P x := by
    intro x hx
    obtain ⟨t, ht, ha⟩ := mem_flatten.mp hx
    rcases simple_or_union t with hs | ⟨us, rfl⟩
    · rw [altOf_simple hs] at ha; exact ha ▸ h t ht
    · exact ((hu us).mp (h _ ht)).2 x (altOf_union.mp ha)
  rw [mkUnion_eq] at hne ⊢
  rcases finish_cases (flatten ts) with ⟨h1, _⟩ | ⟨_, _, t, h1, h2⟩ | ⟨_, _, h2, h1⟩
  · exact absurd h1 hne
  · rw [h1]; exact hf t ((h2 t).mpr rfl)
  · rw [h1, hu]
    refine ⟨fun e => by simp [e] at h2, fun u hu => hf u (mem_canon.mp hu)⟩

theorem mkUnion_shapeOnly {ts : List Ty} (h : ∀ t ∈ ts, isShapeOnly t = true) (hne : mkUnion ts ≠ .unknown) :
    isShapeOnly (mkUnion ts) = true := by
  refine mkUnion_all (P := fun t => isShapeOnly t = true) (fun us => ?_) h hne
  simp [isShapeOnly, allShapeOnly_iff]

theorem arrayElemsList_isSome {ts : List Ty} : (arrayElemsList ts).isSome = true ↔ ∀ t ∈ ts, (arrayElems t).isSome = true := by
  induction ts with
  | nil => simp [arrayElemsList]
  | cons t l ih =>
    simp only [arrayElemsList, List.mem_cons, forall_eq_or_imp, ← ih]
    cases arrayElems t <;> cases arrayElemsList l <;> simp

theorem mkUnion_arrays {a b : List Ty} : (arrayElems (mkUnion [.array a, .array b])).isSome = true := by
  have h : ∀ x ∈ flatten [.array a, .array b], (arrayElems x).isSome = true := by
    intro x hx
    simp [flatten] at hx
    rcases hx with rfl | rfl <;> simp [arrayElems]
  rw [mkUnion_eq]
  rcases finish_cases (flatten [.array a, .array b]) with ⟨_, h1⟩ | ⟨_, _, t, h1, h2⟩ | ⟨_, _, h2, h1⟩
  · exfalso
    rcases h1 with h1 | h1 | ⟨l, _, h2, h3⟩
    · simp [flatten] at h1
    · simp [flatten] at h1
    · cases l with
      | nil => simp at h2
      | cons x l =>
        obtain ⟨h4, fs, r, o, z, d, h5⟩ := h3 x List.mem_cons_self
        subst h5
        simp [flatten] at h4
  · rw [h1]; exact h t ((h2 t).mpr rfl)
  · rw [h1, arrayElems, arrayElemsList_isSome]
    exact fun u hu => h u (mem_canon.mp hu)

theorem tryNew_shape {fs : List Field} {r : Option (Ty × Ty)} {o z : Bool} {t : Ty} (h : tryNew fs r o z = .ok t) : t.isShape = true := by
  unfold tryNew at h
  simp only at h
  repeat' split at h
  all_goals simp_all
  exact h ▸ rfl

/-! ### consistent environments -/

/-- The identity exists. -/
def Live (E : Env n) (i : Id) : Prop := (E.states i).isSome = true

/-- What every environment satisfies, also between the steps of an operation. -/
structure Pre (E : Env n) : Prop where
  bound : ∀ x ids, E.binds x = some ids → (E.types x).isSome = true ∧ ∀ i ∈ ids, Live E i
  shapes : ∀ i t, E.states i = some (.proven t) → isShapeOnly t = true
  links : ∀ l ∈ E.links, Live E l.parent ∧ Live E l.child ∧ l.parent ≠ l.child
  functional : ∀ l ∈ E.links, ∀ m ∈ E.links, l.parent = m.parent → l.key = m.key → l = m
  arrays : ∀ x a, E.arrays x = some a → (∃ t, E.types x = some t ∧ (arrayElems t).isSome = true) ∧ E.binds x = none ∧
    (∀ i ∈ a.contained, Live E i) ∧ (a.contained ≠ ∅ ∨ a.reason ≠ none) ∧ ∀ p ∈ a.positions, p.2 ⊆ a.contained

/-- The variables with positions of an array have the type of an array. -/
def ArrayTyped (E : Env n) : Prop := ∀ x a, E.arrays x = some a → ∃ ts, E.types x = some (.array ts)

structure Inv (E : Env n) : Prop extends Pre E where
  typed : ArrayTyped E

/-- Only types, reasons and states of identities that exist already have changed. -/
structure Frame (E E' : Env n) : Prop where
  binds : E'.binds = E.binds
  arrays : E'.arrays = E.arrays
  links : E'.links = E.links
  live : ∀ i, Live E' i ↔ Live E i

theorem Frame.refl (E : Env n) : Frame E E := ⟨rfl, rfl, rfl, fun _ => .rfl⟩
theorem Frame.trans {E F G : Env n} (h : Frame E F) (h' : Frame F G) : Frame E G :=
  ⟨h'.binds.trans h.binds, h'.arrays.trans h.arrays, h'.links.trans h.links, fun i => (h'.live i).trans (h.live i)⟩

/-! ### alternatives of identities -/

theorem collect_ok {states : Id → Option State} {l : List Id} (h : ∀ i ∈ l, (states i).isSome = true)
    (hs : ∀ i t, states i = some (.proven t) → isShapeOnly t = true) :
    ∃ r, collect states l = some r ∧ ∀ ts, r = .ok ts → (l ≠ [] → ts ≠ []) ∧ ∀ t ∈ ts, t.isShape = true := by
  induction l with
  | nil => exact ⟨_, rfl, by rintro _ ⟨⟩; simp⟩
  | cons i l ih =>
    obtain ⟨r, h1, h2⟩ := ih fun j hj => h j (List.mem_cons_of_mem _ hj)
    have hi := h i List.mem_cons_self
    unfold collect
    cases hst : states i with
    | none => simp [hst] at hi
    | some st =>
      cases st with
      | invalid r => exact ⟨_, rfl, by rintro _ ⟨⟩⟩
      | proven t =>
        obtain ⟨a, h3, h4, h5⟩ := shapeAlts_ok t (hs i t hst)
        simp only [h3, h1]
        cases r with
        | error e => exact ⟨_, rfl, by rintro _ ⟨⟩⟩
        | ok b =>
          refine ⟨_, rfl, ?_⟩
          rintro _ ⟨⟩
          refine ⟨fun _ => by simp [h4], fun t ht => ?_⟩
          rcases List.mem_append.mp ht with h | h
          · exact h5 t h
          · exact (h2 b rfl).2 t h

theorem identityType_ok {states : Id → Option State} {ids : Finset Id} (h : ∀ i ∈ ids, (states i).isSome = true)
    (hs : ∀ i t, states i = some (.proven t) → isShapeOnly t = true) : ∃ r, identityType states ids = some r := by
  obtain ⟨r, h1, _⟩ := collect_ok (l := asc ids) (fun i hi => h i (mem_asc.mp hi)) hs
  exact ⟨_, by rw [identityType, h1]; rfl⟩

theorem typeForArray_ok {E : Env n} (hp : Pre E) {x : Fin n} {a : Arrays} (ha : E.arrays x = some a) {t : Ty} (ht : (arrayElems t).isSome = true) :
    ∃ r, typeForArray E.states t a = some r ∧ ∀ u, r = .ok u → ∃ ts, u = .array ts := by
  obtain ⟨_, _, hl, hne, _⟩ := hp.arrays x a ha
  unfold typeForArray
  cases hr : a.reason with
  | some r => exact ⟨_, rfl, by rintro _ ⟨⟩⟩
  | none =>
    obtain ⟨es, hes⟩ := Option.isSome_iff_exists.mp ht
    obtain ⟨r, h1, h2⟩ := collect_ok (l := asc a.contained) (fun i hi => hl i (mem_asc.mp hi)) hp.shapes
    simp only [hes, h1, Option.bind_some]
    cases r with
    | error e => exact ⟨_, rfl, by rintro _ ⟨⟩⟩
    | ok b =>
      have hc : a.contained ≠ ∅ := by
        rcases hne with h | h
        · exact h
        · exact absurd hr h
      obtain ⟨i, hi⟩ := Finset.nonempty_iff_ne_empty.mpr hc
      have hb : b ≠ [] := (h2 b rfl).1 (List.ne_nil_of_mem (mem_asc.mpr hi))
      have he : (es.flatMap nonShape ++ b).isEmpty = false := by
        cases b with
        | nil => exact absurd rfl hb
        | cons c b => simp
      simp only [he, Bool.false_eq_true, if_false]
      exact ⟨_, rfl, by rintro _ ⟨⟩; exact ⟨_, rfl⟩⟩

/-! ### synchronization -/

theorem bindResult_ok {E : Env n} (hp : Pre E) (x : Fin n) : (bindResult E x).isSome = true := by
  unfold bindResult
  cases hb : E.binds x with
  | none => rfl
  | some ids =>
    obtain ⟨h1, h2⟩ := hp.bound x ids hb
    obtain ⟨t, ht⟩ := Option.isSome_iff_exists.mp h1
    obtain ⟨r, h3, _⟩ := collect_ok (l := asc ids) (fun i hi => h2 i (mem_asc.mp hi)) hp.shapes
    simp [ht, typeForIds, h3]

theorem applyResult_some {E E' : Env n} {res : Fin n → Option (Option (Except Reason Ty))} {bad : Ty} (h : applyResult E res bad = some E') :
    (∀ x, (res x).isSome = true) ∧ E'.binds = E.binds ∧ E'.arrays = E.arrays ∧ E'.links = E.links ∧ E'.states = E.states ∧
    (∀ x, res x = some none → E'.types x = E.types x ∧ E'.reasons x = E.reasons x) ∧
    (∀ x t, res x = some (some (.ok t)) → E'.types x = some t ∧ E'.reasons x = none) ∧
    (∀ x r, res x = some (some (.error r)) → E'.types x = some bad ∧ E'.reasons x = some r) := by
  unfold applyResult at h
  split at h
  case isFalse => cases h
  case isTrue ha =>
    cases h
    refine ⟨ha, rfl, rfl, rfl, rfl, ?_, ?_, ?_⟩
    · intro x hx; simp [hx]
    · intro x t hx; simp [hx]
    · intro x r hx; simp [hx]

theorem applyResult_ok {E : Env n} {res : Fin n → Option (Option (Except Reason Ty))} (bad : Ty) (h : ∀ x, (res x).isSome = true) :
    ∃ E', applyResult E res bad = some E' := ⟨_, by rw [applyResult, if_pos h]⟩

/-- What synchronization does not change. -/
theorem sync_frame {E E' : Env n} (h : sync E = some E') : Frame E E' ∧ E'.states = E.states := by
  unfold sync at h
  obtain ⟨F, h1, h2⟩ := Option.bind_eq_some_iff.mp h
  obtain ⟨_, a1, a2, a3, a4, _⟩ := applyResult_some h1
  obtain ⟨_, b1, b2, b3, b4, _⟩ := applyResult_some h2
  refine ⟨⟨b1.trans a1, b2.trans a2, b3.trans a3, fun i => ?_⟩, b4.trans a4⟩
  simp only [Live, b4.trans a4]

theorem pre_types {E E' : Env n} (hp : Pre E) (h : Frame E E') (hs : ∀ i t, E'.states i = some (.proven t) → isShapeOnly t = true)
    (ht : ∀ x, (E.types x).isSome = true → (E'.types x).isSome = true)
    (ha : ∀ x a, E.arrays x = some a → ∃ t, E'.types x = some t ∧ (arrayElems t).isSome = true) : Pre E' where
  bound := by
    intro x ids hb
    rw [h.binds] at hb
    exact ⟨ht x (hp.bound x ids hb).1, fun i hi => (h.live i).mpr ((hp.bound x ids hb).2 i hi)⟩
  shapes := hs
  links := by
    intro l hl
    rw [h.links] at hl
    exact ⟨(h.live _).mpr (hp.links l hl).1, (h.live _).mpr (hp.links l hl).2.1, (hp.links l hl).2.2⟩
  functional := by rw [h.links]; exact hp.functional
  arrays := by
    intro x a hx
    rw [h.arrays] at hx
    obtain ⟨_, h2, h3, h4⟩ := hp.arrays x a hx
    exact ⟨ha x a hx, by rw [h.binds]; exact h2, fun i hi => (h.live i).mpr (h3 i hi), h4⟩

theorem sync_ok {E : Env n} (hp : Pre E) : ∃ E', sync E = some E' ∧ Inv E' ∧ Frame E E' ∧ E'.states = E.states := by
  obtain ⟨F, hF⟩ := applyResult_ok (E := E) .unknown (bindResult_ok hp)
  obtain ⟨_, a1, a2, a3, a4, a5, a6, a7⟩ := applyResult_some hF
  have hres : ∀ x a, E.arrays x = some a → bindResult E x = some none := by
    intro x a ha
    rw [bindResult, (hp.arrays x a ha).2.1]
  have tF : ∀ x a, E.arrays x = some a → F.types x = E.types x := fun x a ha => (a5 x (hres x a ha)).1
  have hr2 : ∀ x, ∃ r, arrayResult F x = some r ∧ (r = none ↔ E.arrays x = none) ∧ ∀ u, r = some (.ok u) → ∃ ts, u = .array ts := by
    intro x
    unfold arrayResult
    rw [a2]
    cases ha : E.arrays x with
    | none => exact ⟨_, rfl, by simp, by simp⟩
    | some a =>
      obtain ⟨t, h1, h2⟩ := (hp.arrays x a ha).1
      obtain ⟨r, h3, h4⟩ := typeForArray_ok hp ha h2
      refine ⟨some r, ?_, by simp, ?_⟩
      · simp [tF x a ha, h1, a4, h3]
      · rintro u ⟨⟩; exact h4 u rfl
  obtain ⟨G, hG⟩ := applyResult_ok (E := F) (res := arrayResult F) (.array [.unknown]) (fun x => by
    obtain ⟨r, h, _⟩ := hr2 x
    simp [h])
  have hsync : sync E = some G := by rw [sync, hF]; exact hG
  obtain ⟨hfr, hst⟩ := sync_frame hsync
  obtain ⟨_, b1, b2, b3, b4, b5, b6, b7⟩ := applyResult_some hG
  have hty : ∀ x a, E.arrays x = some a → ∃ ts, G.types x = some (.array ts) := by
    intro x a ha
    obtain ⟨r, h1, h2, h3⟩ := hr2 x
    cases r with
    | none => exact absurd (h2.mp rfl) (by simp [ha])
    | some r =>
      cases r with
      | ok u =>
        obtain ⟨ts, rfl⟩ := h3 u rfl
        exact ⟨ts, (b6 x _ h1).1⟩
      | error e => exact ⟨_, (b7 x e h1).1⟩
  refine ⟨G, hsync, ⟨pre_types hp hfr (by rw [hst]; exact hp.shapes) ?_ ?_, ?_⟩, hfr, hst⟩
  · intro x hx
    cases ha : E.arrays x with
    | some a => obtain ⟨ts, h⟩ := hty x a ha; simp [h]
    | none =>
      obtain ⟨r, h1, h2, _⟩ := hr2 x
      rw [h2.mpr ha] at h1
      rw [(b5 x h1).1]
      have := bindResult_ok hp x
      cases hb : bindResult E x with
      | none => simp [hb] at this
      | some r =>
        cases r with
        | none => rw [(a5 x hb).1]; exact hx
        | some r =>
          cases r with
          | ok t => rw [(a6 x t hb).1]; rfl
          | error e => rw [(a7 x e hb).1]; rfl
  · intro x a ha
    obtain ⟨ts, h⟩ := hty x a ha
    exact ⟨_, h, by simp [arrayElems]⟩
  · intro x a ha
    rw [hfr.arrays] at ha
    exact hty x a ha

/-! ### the connected identities -/

/-- One pass only adds ends of edges. -/
theorem closeStep_sub (links : List Link) (s : Finset Id) : s ⊆ closeStep links s := by
  unfold closeStep
  induction links generalizing s with
  | nil => exact Finset.Subset.refl _
  | cons l ls ih =>
    simp only [List.foldl_cons]
    refine Finset.Subset.trans ?_ (ih _)
    split
    · exact fun i hi => Finset.mem_insert_of_mem (Finset.mem_insert_of_mem hi)
    · exact Finset.Subset.refl _

theorem closeStep_least {links : List Link} {s t : Finset Id} (hst : s ⊆ t)
    (hl : ∀ l ∈ links, l.parent ∈ t ∨ l.child ∈ t → l.parent ∈ t ∧ l.child ∈ t) : closeStep links s ⊆ t := by
  unfold closeStep
  induction links generalizing s with
  | nil => exact hst
  | cons l ls ih =>
    simp only [List.foldl_cons]
    refine ih ?_ fun m hm => hl m (List.mem_cons_of_mem _ hm)
    split
    case isFalse => exact hst
    case isTrue h =>
      have := hl l List.mem_cons_self (h.imp (fun h => hst h) (fun h => hst h))
      intro i hi
      rcases Finset.mem_insert.mp hi with rfl | hi
      · exact this.1
      · rcases Finset.mem_insert.mp hi with rfl | hi
        · exact this.2
        · exact hst hi

theorem closeStep_pass {links : List Link} {s : Finset Id} {l : Link} (hl : l ∈ links) (h : l.parent ∈ s ∨ l.child ∈ s) :
    l.parent ∈ closeStep links s ∧ l.child ∈ closeStep links s := by
  induction links generalizing s with
  | nil => cases hl
  | cons m ls ih =>
    have hmono : ∀ t : Finset Id, t ⊆ closeStep ls t := closeStep_sub ls
    have he : closeStep (m :: ls) s = closeStep ls (if m.parent ∈ s ∨ m.child ∈ s then Insert.insert m.parent (Insert.insert m.child s) else s) := rfl
    rw [he]
    rcases List.mem_cons.mp hl with rfl | hl
    · rw [if_pos h]
      exact ⟨hmono _ (Finset.mem_insert_self _ _), hmono _ (Finset.mem_insert_of_mem (Finset.mem_insert_self _ _))⟩
    · refine ih hl ?_
      split
      · exact h.imp (fun h => Finset.mem_insert_of_mem (Finset.mem_insert_of_mem h)) (fun h => Finset.mem_insert_of_mem (Finset.mem_insert_of_mem h))
      · exact h

/-- The ends of the edges. -/
def ends (links : List Link) : Finset Id := (links.flatMap fun l => [l.parent, l.child]).toFinset

theorem ends_card (links : List Link) : (ends links).card ≤ 2 * links.length := by
  refine Nat.le_trans (List.toFinset_card_le _) ?_
  induction links with
  | nil => simp
  | cons l ls ih => simp only [List.flatMap_cons, List.length_append, List.length_cons, List.length_nil]; omega

theorem mem_ends {links : List Link} {l : Link} (h : l ∈ links) : l.parent ∈ ends links ∧ l.child ∈ ends links := by
  simp only [ends, List.mem_toFinset, List.mem_flatMap]
  exact ⟨⟨l, h, by simp⟩, ⟨l, h, by simp⟩⟩

theorem close_sub (links : List Link) (k : Nat) (s : Finset Id) : s ⊆ close links k s := by
  induction k generalizing s with
  | zero => exact Finset.Subset.refl _
  | succ k ih =>
    unfold close
    split
    · exact Finset.Subset.refl _
    · exact Finset.Subset.trans (closeStep_sub links s) (ih _)

theorem close_least {links : List Link} {k : Nat} {s t : Finset Id} (hst : s ⊆ t)
    (hl : ∀ l ∈ links, l.parent ∈ t ∨ l.child ∈ t → l.parent ∈ t ∧ l.child ∈ t) : close links k s ⊆ t := by
  induction k generalizing s with
  | zero => exact hst
  | succ k ih =>
    unfold close
    split
    · exact hst
    · exact ih (closeStep_least hst hl)

/-- Enough passes are made. -/
theorem close_fixed {links : List Link} {k : Nat} {s : Finset Id} (h : (ends links \ s).card < k) :
    closeStep links (close links k s) = close links k s := by
  induction k generalizing s with
  | zero => omega
  | succ k ih =>
    unfold close
    split
    case isTrue h => exact h
    case isFalse hne =>
      apply ih
      have hsub : closeStep links s ⊆ s ∪ ends links := by
        refine closeStep_least Finset.subset_union_left fun l hl _ => ?_
        exact ⟨Finset.mem_union_right _ (mem_ends hl).1, Finset.mem_union_right _ (mem_ends hl).2⟩
      obtain ⟨i, hi, hn⟩ : ∃ i ∈ closeStep links s, i ∉ s := by
        by_contra hall
        simp only [not_exists, not_and, not_not] at hall
        exact hne (Finset.Subset.antisymm hall (closeStep_sub links s))
      have hlt : (ends links \ closeStep links s).card < (ends links \ s).card := by
        refine Finset.card_lt_card ⟨fun j hj => ?_, fun hall => ?_⟩
        · rw [Finset.mem_sdiff] at hj ⊢
          exact ⟨hj.1, fun h => hj.2 (closeStep_sub links s h)⟩
        · have hie : i ∈ ends links := by
            rcases Finset.mem_union.mp (hsub hi) with h | h
            · exact absurd h hn
            · exact h
          exact (Finset.mem_sdiff.mp (hall (Finset.mem_sdiff.mpr ⟨hie, hn⟩))).2 hi
      omega

theorem closure_fixed (links : List Link) (s : Finset Id) {l : Link} (hl : l ∈ links) (h : l.parent ∈ closure links s ∨ l.child ∈ closure links s) :
    l.parent ∈ closure links s ∧ l.child ∈ closure links s := by
  have hf : closeStep links (closure links s) = closure links s := by
    refine close_fixed (Nat.lt_succ_of_le (Nat.le_trans (Finset.card_le_card Finset.sdiff_subset) (ends_card links)))
  have := closeStep_pass hl h
  rwa [hf] at this

theorem closure_sub (links : List Link) (s : Finset Id) : s ⊆ closure links s := close_sub _ _ _

theorem closure_live {E : Env n} (hp : Pre E) {s : Finset Id} (h : ∀ i ∈ s, Live E i) : ∀ i ∈ closure E.links s, Live E i := by
  have : closure E.links s ⊆ s ∪ ends E.links := by
    refine close_least Finset.subset_union_left fun l hl _ => ?_
    exact ⟨Finset.mem_union_right _ (mem_ends hl).1, Finset.mem_union_right _ (mem_ends hl).2⟩
  intro i hi
  rcases Finset.mem_union.mp (this hi) with h1 | h1
  · exact h i h1
  · simp only [ends, List.mem_toFinset, List.mem_flatMap] at h1
    obtain ⟨l, hl, h2⟩ := h1
    rcases List.mem_cons.mp h2 with rfl | h2
    · exact (hp.links l hl).1
    · rw [List.mem_singleton.mp h2]; exact (hp.links l hl).2.1

/-! ### invalidation and the bound of aliases -/

theorem invalidate_ok {E : Env n} (hp : Pre E) {ids : Finset Id} (h : ∀ i ∈ ids, Live E i) (r : Reason) :
    ∃ E', invalidate E ids r = some E' ∧ Inv E' ∧ Frame E E' ∧
      E'.states = fun i => if i ∈ closure E.links ids then some (.invalid r) else E.states i := by
  unfold invalidate
  simp only
  rw [if_pos (show ∀ i ∈ closure E.links ids, (E.states i).isSome = true from closure_live hp h)]
  have hf : Frame E { E with states := fun i => if i ∈ closure E.links ids then some (.invalid r) else E.states i } := by
    refine ⟨rfl, rfl, rfl, fun i => ?_⟩
    by_cases hi : i ∈ closure E.links ids
    · simp only [Live, hi, if_true, Option.isSome_some, true_iff]
      exact closure_live hp h i hi
    · simp only [Live, hi, if_false]
  obtain ⟨E', h1, h2, h3, h4⟩ := sync_ok (pre_types hp hf (by
    intro i t hi
    dsimp only at hi
    split at hi
    · cases hi
    · exact hp.shapes i t hi) (fun _ h => h) (fun x a ha => (hp.arrays x a ha).1))
  exact ⟨E', h1, h2, hf.trans h3, h4⟩

theorem enforce_ok {E : Env n} (hp : Pre E) : ∃ E', enforce E = some E' ∧ Pre E' ∧ (ArrayTyped E → Inv E') ∧ Frame E E' := by
  unfold enforce
  simp only
  split
  · exact ⟨E, rfl, hp, fun h => ⟨hp, h⟩, Frame.refl E⟩
  · obtain ⟨E', h1, h2, h3, _⟩ := invalidate_ok hp (ids := (aliased E).filter fun i => (E.states i).isSome ∧ aliasCount E i > maxAliases)
      (fun i hi => (Finset.mem_filter.mp hi).2.1) .boundExceeded
    exact ⟨E', h1, h2.toPre, fun _ => h2, h3⟩

/-! ### children -/

/-- No child under the key. -/
def NoChild (E : Env n) (p : Id) (k : Lit) : Prop := ∀ l ∈ E.links, l.parent = p → l.key ≠ k

theorem containedChild_ok {E : Env n} (hp : Pre E) (p : Id) (k : Lit) :
    (containedChild E p k = some none ∧ NoChild E p k) ∨ ∃ c, containedChild E p k = some (some c) ∧ ⟨p, k, c⟩ ∈ E.links := by
  unfold containedChild
  have hmem : ∀ l, l ∈ (E.links.filter fun l => l.parent = p ∧ l.key = k).dedup ↔ l ∈ E.links ∧ l.parent = p ∧ l.key = k := by
    intro l; simp
  have hnd : ((E.links.filter fun l => l.parent = p ∧ l.key = k).dedup).Nodup := List.nodup_dedup _
  generalize (E.links.filter fun l => l.parent = p ∧ l.key = k).dedup = m at hmem hnd
  match m, hmem, hnd with
  | [], hmem, _ =>
    refine .inl ⟨rfl, fun l hl h1 h2 => ?_⟩
    exact absurd ((hmem l).mpr ⟨hl, h1, h2⟩) (by simp)
  | [l], hmem, _ =>
    obtain ⟨h1, h2, h3⟩ := (hmem l).mp List.mem_cons_self
    refine .inr ⟨l.child, rfl, ?_⟩
    cases l
    simp only at h2 h3
    subst h2; subst h3; exact h1
  | a :: b :: l, hmem, hnd =>
    exfalso
    obtain ⟨h1, h2, h3⟩ := (hmem a).mp List.mem_cons_self
    obtain ⟨h4, h5, h6⟩ := (hmem b).mp (List.mem_cons_of_mem _ List.mem_cons_self)
    have := hp.functional a h1 b h4 (h2.trans h5.symm) (h3.trans h6.symm)
    subst this
    simp at hnd

theorem link_ok {E : Env n} (hp : Inv E) {p c : Id} {k : Lit} (hl : Live E p) (hc : Live E c) (hne : p ≠ c) (hno : NoChild E p k) :
    link E p k c = some { E with links := ⟨p, k, c⟩ :: E.links } ∧ Inv { E with links := ⟨p, k, c⟩ :: E.links } := by
  constructor
  · unfold link
    rw [if_neg hne, if_neg]
    · rcases containedChild_ok hp.toPre p k with ⟨h, _⟩ | ⟨d, _, h⟩
      · rw [h]; rfl
      · exact absurd rfl (hno _ h rfl)
    · unfold Live at hl hc
      simp only [Option.isNone_iff_eq_none]
      rintro (h | h)
      · simp [h] at hl
      · simp [h] at hc
  · refine ⟨⟨hp.bound, hp.shapes, ?_, ?_, hp.arrays⟩, hp.typed⟩
    · intro l h
      rcases List.mem_cons.mp h with rfl | h
      · exact ⟨hl, hc, hne⟩
      · exact hp.links l h
    · intro l h m h' h1 h2
      rcases List.mem_cons.mp h with rfl | h <;> rcases List.mem_cons.mp h' with rfl | h'
      · rfl
      · exact absurd h2.symm (hno m h' h1.symm)
      · exact absurd h2 (hno l h h1)
      · exact hp.functional l h m h' h1 h2

/-! ### the tracker -/

/-- The environment is consistent, and the next identity is new. -/
structure Good (S : Tracker n) : Prop where
  inv : Inv S.env
  below : ∀ i, Live S.env i → i < S.next

/-- Identities and edges were added, types and states changed. -/
structure Ext (S S' : Tracker n) : Prop where
  binds : S'.env.binds = S.env.binds
  arrays : S'.env.arrays = S.env.arrays
  live : ∀ i, Live S.env i → Live S'.env i
  next : S.next ≤ S'.next

theorem Ext.refl (S : Tracker n) : Ext S S := ⟨rfl, rfl, fun _ h => h, Nat.le_refl _⟩
theorem Ext.trans {S T U : Tracker n} (h : Ext S T) (h' : Ext T U) : Ext S U :=
  ⟨h'.binds.trans h.binds, h'.arrays.trans h.arrays, fun i hi => h'.live i (h.live i hi), Nat.le_trans h.next h'.next⟩

theorem Good.frame {S : Tracker n} (h : Good S) {E : Env n} (hi : Inv E) (hf : Frame S.env E) : Good ⟨E, S.next⟩ ∧ Ext S ⟨E, S.next⟩ :=
  ⟨⟨hi, fun i hl => h.below i ((hf.live i).mp hl)⟩, ⟨hf.binds, hf.arrays, fun i hl => (hf.live i).mpr hl, Nat.le_refl _⟩⟩

theorem Good.invalidate {S : Tracker n} (h : Good S) {ids : Finset Id} (hl : ∀ i ∈ ids, Live S.env i) (r : Reason) :
    ∃ E, FlowShapes.invalidate S.env ids r = some E ∧ Good ⟨E, S.next⟩ ∧ Ext S ⟨E, S.next⟩ := by
  obtain ⟨E, h1, h2, h3, _⟩ := invalidate_ok h.inv.toPre hl r
  exact ⟨E, h1, h.frame h2 h3⟩

theorem Good.enforce {S : Tracker n} (h : Good S) : ∃ E, FlowShapes.enforce S.env = some E ∧ Good ⟨E, S.next⟩ ∧ Ext S ⟨E, S.next⟩ := by
  obtain ⟨E, h1, _, h2, h3⟩ := enforce_ok h.inv.toPre
  exact ⟨E, h1, h.frame (h2 h.inv.typed) h3⟩

theorem Good.sync {S : Tracker n} (h : Good S) : ∃ E, FlowShapes.sync S.env = some E ∧ Good ⟨E, S.next⟩ ∧ Ext S ⟨E, S.next⟩ := by
  obtain ⟨E, h1, h2, h3, _⟩ := sync_ok h.inv.toPre
  exact ⟨E, h1, h.frame h2 h3⟩

theorem Good.fresh {S : Tracker n} (h : Good S) : S.env.states S.next = none := by
  cases hs : S.env.states S.next with
  | none => rfl
  | some s => exact absurd (h.below S.next (by simp [Live, hs])) (Nat.lt_irrefl _)

theorem Good.allocate {S : Tracker n} (h : Good S) {t : Ty} (ht : isShapeOnly t = true) :
    ∃ S', FlowShapes.allocate S t = some (S.next, S') ∧ Good S' ∧ Ext S S' ∧ S'.env.states = put S.env.states S.next (some (.proven t)) ∧
      S'.env.links = S.env.links := by
  have hlive : ∀ i, (put S.env.states S.next (some (State.proven t)) i).isSome = true ↔ i = S.next ∨ Live S.env i := by
    intro i
    unfold put Live
    split
    · simp_all
    · simp_all
  refine ⟨⟨{ S.env with states := put S.env.states S.next (some (.proven t)) }, S.next + 1⟩, by rw [FlowShapes.allocate, ht, h.fresh]; rfl, ⟨⟨⟨?_, ?_, ?_, h.inv.functional, ?_⟩, h.inv.typed⟩, ?_⟩, ⟨rfl, rfl, fun i hi => (hlive i).mpr (.inr hi), by simp⟩, rfl, rfl⟩
  · intro x ids hb
    exact ⟨(h.inv.bound x ids hb).1, fun i hi => (hlive i).mpr (.inr ((h.inv.bound x ids hb).2 i hi))⟩
  · intro i u hi
    dsimp only [put] at hi
    split at hi
    · cases hi; exact ht
    · exact h.inv.shapes i u hi
  · intro l hl
    obtain ⟨h1, h2, h3⟩ := h.inv.links l hl
    exact ⟨(hlive _).mpr (.inr h1), (hlive _).mpr (.inr h2), h3⟩
  · intro x a ha
    obtain ⟨h1, h2, h3, h4⟩ := h.inv.arrays x a ha
    exact ⟨h1, h2, fun i hi => (hlive i).mpr (.inr (h3 i hi)), h4⟩
  · intro i hi
    rcases (hlive i).mp hi with rfl | hi
    · exact Nat.lt_succ_self _
    · exact Nat.lt_succ_of_lt (h.below i hi)

theorem Good.link {S : Tracker n} (h : Good S) {p c : Id} {k : Lit} (hl : Live S.env p) (hc : Live S.env c) (hne : p ≠ c)
    (hno : NoChild S.env p k) : ∃ E, FlowShapes.link S.env p k c = some E ∧ Good ⟨E, S.next⟩ ∧ Ext S ⟨E, S.next⟩ ∧
      E.states = S.env.states ∧ E.links = ⟨p, k, c⟩ :: S.env.links := by
  obtain ⟨h1, h2⟩ := link_ok h.inv hl hc hne hno
  exact ⟨_, h1, ⟨h2, h.below⟩, ⟨rfl, rfl, fun _ h => h, Nat.le_refl _⟩, rfl, rfl⟩

/-- A new child is created. -/
theorem Good.child {S : Tracker n} (h : Good S) {t : Ty} (ht : isShapeOnly t = true) {p : Id} {k : Lit} (hl : Live S.env p)
    (hno : NoChild S.env p k) : ∃ S', FlowShapes.allocate S t = some (S.next, S') ∧ ∃ E, FlowShapes.link S'.env p k S.next = some E ∧
      Good ⟨E, S'.next⟩ ∧ Ext S ⟨E, S'.next⟩ ∧ E.links = ⟨p, k, S.next⟩ :: S.env.links ∧ Live E S.next := by
  obtain ⟨S', h1, h2, h3, h4, h5⟩ := h.allocate ht
  have hlive : Live S'.env S.next := by simp [Live, h4, put]
  obtain ⟨E, h6, h7, h8, h9, h10⟩ := h2.link (p := p) (c := S.next) (k := k) (h3.live p hl) hlive
    (fun e => Nat.lt_irrefl _ (e ▸ h.below p hl)) (by unfold NoChild; rw [h5]; exact hno)
  exact ⟨S', h1, E, h6, h7, h3.trans h8, by rw [h10, h5], h8.live _ hlive⟩

/-! ### children of literals -/

theorem materializeAll_ok {p : Id} {fs : List Field} (hfs : ∀ f ∈ fs, isShapeOnly f.2.2 = true) :
    ∀ {S : Tracker n}, Good S → Live S.env p → ∃ S', materializeAll p fs S = some S' ∧ Good S' ∧ Ext S S' := by
  induction fs with
  | nil => intro S h _; exact ⟨S, rfl, h, Ext.refl S⟩
  | cons f l ih =>
    intro S h hl
    have hl' : ∀ f ∈ l, isShapeOnly f.2.2 = true := fun g hg => hfs g (List.mem_cons_of_mem _ hg)
    unfold materializeAll
    rcases containedChild_ok h.inv.toPre p f.1 with ⟨h1, h2⟩ | ⟨c, h1, _⟩
    · obtain ⟨S1, h3, E, h4, h5, h6, _, _⟩ := h.child (hfs f List.mem_cons_self) hl h2
      obtain ⟨S2, h7, h8, h9⟩ := ih hl' h5 (h6.live p hl)
      exact ⟨S2, by rw [h1]; simp only [Option.bind_some]; rw [h3]; simp only [Option.bind_some]; rw [h4]; exact h7, h8, h6.trans h9⟩
    · obtain ⟨S2, h7, h8, h9⟩ := ih hl' h hl
      exact ⟨S2, by rw [h1]; exact h7, h8, h9⟩

theorem materialize_ok {S : Tracker n} (h : Good S) {p : Id} (hl : Live S.env p) :
    ∃ r S', materialize S p = some (r, S') ∧ Good S' ∧ Ext S S' := by
  unfold materialize
  obtain ⟨st, hst⟩ := Option.isSome_iff_exists.mp hl
  rw [hst]
  cases st with
  | invalid r => exact ⟨_, _, rfl, h, Ext.refl S⟩
  | proven t =>
    cases t with
    | shape fs r o z d =>
      obtain ⟨S1, h1, h2, h3⟩ := materializeAll_ok (p := p) (fs := fs.filter fun f => !f.2.1 && isShapeOnly f.2.2)
        (fun f hf => by have := (List.mem_filter.mp hf).2; simp only [Bool.and_eq_true] at this; exact this.2) h hl
      obtain ⟨E, h4, h5, h6⟩ := h2.enforce
      exact ⟨_, _, by simp only; rw [h1]; simp only [Option.bind_some]; rw [h4]; rfl, h5, h3.trans h6⟩
    | _ => exact ⟨_, _, rfl, h, Ext.refl S⟩

/-- The children of a literal are identities of variables, one for a key. -/
theorem literalChildren_ok {E : Env n} {fields : List (Lit × Part n)} :
    ∀ {acc out : List (Lit × Id)}, literalChildren E fields acc = some out → (acc.map Prod.fst).Nodup → (∀ x ∈ acc, ∃ y s, E.binds y = some s ∧ x.2 ∈ s) →
      (out.map Prod.fst).Nodup ∧ ∀ x ∈ out, ∃ y s, E.binds y = some s ∧ x.2 ∈ s := by
  induction fields with
  | nil => rintro acc out h hn hl; cases h; exact ⟨hn, hl⟩
  | cons f l ih =>
    intro acc out h hn hl
    unfold literalChildren at h
    simp only at h
    have hn' : ((acc.filter fun x => x.1 ≠ f.1).map Prod.fst).Nodup := hn.sublist (List.filter_sublist.map _)
    have hl' : ∀ x ∈ acc.filter (fun x => x.1 ≠ f.1), ∃ y s, E.binds y = some s ∧ x.2 ∈ s := fun x hx => hl x (List.mem_filter.mp hx).1
    split at h
    · exact ih h hn' hl'
    · split at h
      case h_2 => cases h
      case h_1 c hc =>
        have hcm : c ∈ f.2.ids E := mem_asc.mp (by rw [hc]; exact List.mem_cons_self)
        refine ih h ?_ ?_
        · rw [List.map_append, List.nodup_append]
          refine ⟨hn', by simp, ?_⟩
          intro a ha b hb
          simp only [List.map_cons, List.map_nil, List.mem_singleton] at hb
          obtain ⟨x, hx, rfl⟩ := List.mem_map.mp ha
          rw [hb]
          simpa using (List.mem_filter.mp hx).2
        · intro x hx
          rcases List.mem_append.mp hx with hx | hx
          · exact hl' x hx
          · rw [List.mem_singleton.mp hx]
            cases hf : f.2 with
            | typed t => simp [hf, Part.ids] at hcm
            | var y =>
              rw [hf, Part.ids] at hcm
              cases hb : E.binds y with
              | none => simp [hb] at hcm
              | some s => exact ⟨y, s, hb, by simpa [hb] using hcm⟩

theorem linkAll_ok {p : Id} {links : List (Lit × Id)} (hn : (links.map Prod.fst).Nodup) :
    ∀ {S : Tracker n}, Good S → Live S.env p → (∀ x ∈ links, Live S.env x.2 ∧ p ≠ x.2 ∧ NoChild S.env p x.1) →
      ∃ E, linkAll p links S.env = some E ∧ Good ⟨E, S.next⟩ ∧ Ext S ⟨E, S.next⟩ := by
  induction links with
  | nil => intro S h _ _; exact h.enforce
  | cons f l ih =>
    intro S h hl hx
    obtain ⟨h1, h2, h3⟩ := hx f List.mem_cons_self
    obtain ⟨t, ht⟩ := identityType_ok (ids := {f.2}) (states := S.env.states) (fun i hi => by rw [Finset.mem_singleton.mp hi]; exact h1) h.inv.shapes
    have hinv := h.invalidate (ids := {p}) (fun i hi => by rw [Finset.mem_singleton.mp hi]; exact hl) .invalidated
    unfold linkAll
    rw [ht]
    simp only [Option.bind_some]
    split
    · split
      · obtain ⟨E, h4, h5, h6, _, h8⟩ := h.link (k := f.1) hl h1 h2 h3
        obtain ⟨E', h9, h10, h11⟩ := ih (List.nodup_cons.mp hn).2 h5 (h6.live p hl) (by
          intro x hxm
          obtain ⟨a1, a2, a3⟩ := hx x (List.mem_cons_of_mem _ hxm)
          refine ⟨h6.live _ a1, a2, ?_⟩
          intro m hm hm1 hm2
          rw [h8] at hm
          rcases List.mem_cons.mp hm with rfl | hm
          · simp only at hm2
            exact (List.nodup_cons.mp hn).1 (by rw [hm2]; exact List.mem_map_of_mem hxm)
          · exact a3 m hm hm1 hm2)
        exact ⟨E', by rw [h4]; exact h9, h10, h6.trans h11⟩
      · exact hinv
    · exact hinv

/-- The literal of a new identity. -/
theorem linkLiteral_ok {S S' : Tracker n} (h : Good S) (h' : Good S') (he : Ext S S') (hl : Live S'.env S.next) (hk : S'.env.links = S.env.links)
    (fields : List (Lit × Part n)) : ∃ E, linkLiteral S'.env S.next fields = some E ∧ Good ⟨E, S'.next⟩ ∧ Ext S' ⟨E, S'.next⟩ := by
  unfold linkLiteral
  cases hc : literalChildren S'.env fields [] with
  | none => exact h'.invalidate (fun i hi => by rw [Finset.mem_singleton.mp hi]; exact hl) _
  | some links =>
    obtain ⟨h1, h2⟩ := literalChildren_ok hc (by simp) (by simp)
    refine linkAll_ok h1 h' hl ?_
    intro x hx
    obtain ⟨y, s, hb, hm⟩ := h2 x hx
    rw [he.binds] at hb
    have hlx := (h.inv.bound y s hb).2 _ hm
    refine ⟨he.live _ hlx, fun e => Nat.lt_irrefl _ (e ▸ h.below _ hlx), ?_⟩
    intro m hm' h3 _
    rw [hk] at hm'
    have := h.below _ (h.inv.links m hm').1
    rw [h3] at this
    exact Nat.lt_irrefl _ this

/-! ### arrays -/

theorem escaped_live {E : Env n} (hp : Pre E) (p : Part n) : ∀ i ∈ p.escaped E, Live E i := by
  cases p with
  | typed t => simp [Part.escaped]
  | var y =>
    intro i hi
    simp only [Part.escaped] at hi
    split at hi
    · cases ha : E.arrays y with
      | none => simp [ha] at hi
      | some a => exact (hp.arrays y a ha).2.2.1 i (by simpa [ha] using hi)
    · cases hb : E.binds y with
      | none => simp [hb] at hi
      | some s => exact (hp.bound y s hb).2 i (by simpa [hb] using hi)

/-- Positions of an array whose identities exist. -/
def Arrays.Ok (E : Env n) (a : Arrays) : Prop := (∀ i ∈ a.contained, Live E i) ∧ ∀ p ∈ a.positions, p.2 ⊆ a.contained

theorem arrayAliases_ok {es : List (Elem n)} : ∀ {i : Nat} {a : Arrays} {S : Tracker n}, Good S → a.Ok S.env →
    ∃ b S', arrayAliases i es a S = some (b, S') ∧ Good S' ∧ Ext S S' ∧ b.Ok S'.env := by
  induction es with
  | nil => intro i a S h ha; exact ⟨a, S, rfl, h, Ext.refl S, ha⟩
  | cons e l ih =>
    intro i a S h ha
    -- the rest, once the identities of the element are known
    have hadd : ∀ (ids : Finset Id) (S : Tracker n), Good S → a.Ok S.env → (∀ i ∈ ids, Live S.env i) →
        ∃ b S', (let a' := a.add i ids
          if a'.positions.length > maxAliases ∨ a'.contained.card > maxAliases then
            (invalidate S.env a'.contained .boundExceeded).map fun E => ((⟨a'.length, [], ∅, some .boundExceeded⟩ : Arrays), (⟨E, S.next⟩ : Tracker n))
          else arrayAliases (i + 1) l a' S) = some (b, S') ∧ Good S' ∧ Ext S S' ∧ b.Ok S'.env := by
      intro ids S h ha hl
      have hok : ∀ j ∈ (a.add i ids).contained, Live S.env j := by
        intro j hj
        rcases Finset.mem_union.mp hj with h | h
        · exact ha.1 j h
        · exact hl j h
      simp only
      split
      · obtain ⟨E, h1, h2, h3⟩ := h.invalidate hok .boundExceeded
        exact ⟨_, _, by rw [h1]; rfl, h2, h3, by simp [Arrays.Ok]⟩
      · refine ih h ⟨hok, ?_⟩
        intro p hp
        unfold Arrays.add at hp
        dsimp only at hp
        split at hp
        · exact Finset.Subset.trans (ha.2 p hp) Finset.subset_union_left
        · rcases List.mem_append.mp hp with hp | hp
          · exact Finset.Subset.trans (ha.2 p hp) Finset.subset_union_left
          · rw [List.mem_singleton.mp hp]; exact Finset.subset_union_right
    have hmono : ∀ {S'}, Ext S S' → a.Ok S'.env := fun he => ⟨fun i hi => he.live i (ha.1 i hi), ha.2⟩
    unfold arrayAliases
    cases e with
    | part p => exact hadd _ S h ha (escaped_live h.inv.toPre p)
    | hash fs =>
      simp only
      cases hh : hashLiteral S.env fs with
      | error r => exact hadd ∅ S h ha (by simp)
      | ok t =>
        simp only
        split
        case isFalse => exact hadd ∅ S h ha (by simp)
        case isTrue ht =>
          obtain ⟨S1, h1, h2, h3, h4, h5⟩ := h.allocate ht
          have hl1 : Live S1.env S.next := by simp [Live, h4, put]
          obtain ⟨E, h6, h7, h8⟩ := linkLiteral_ok h h2 h3 hl1 h5 fs
          have hl2 := h8.live _ hl1
          obtain ⟨r, S3, h9, h10, h11⟩ := materialize_ok h7 hl2
          have hl3 := h11.live _ hl2
          have he := (h3.trans h8).trans h11
          rw [h1]
          simp only [Option.bind_some]
          rw [h6]
          simp only [Option.bind_some]
          rw [h9]
          simp only [Option.bind_some]
          cases r with
          | ok u =>
            obtain ⟨b, S4, h12, h13, h14, h15⟩ := hadd {S.next} S3 h10 (hmono he) (fun i hi => by rw [Finset.mem_singleton.mp hi]; exact hl3)
            exact ⟨b, S4, h12, h13, he.trans h14, h15⟩
          | error r =>
            obtain ⟨E', h12, h13, h14⟩ := h10.invalidate (ids := {S.next}) (fun i hi => by rw [Finset.mem_singleton.mp hi]; exact hl3) r
            exact ⟨_, _, by simp only; rw [h12]; rfl, h13, he.trans h14, by simp [Arrays.Ok]⟩

end Verif.FlowShapes
