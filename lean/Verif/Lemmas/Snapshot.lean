import Verif.Spec.Snapshot
import Verif.Props.Owners
import Verif.Lemmas.Sort
import Verif.Lemmas.Arena
import Verif.Lemmas.Types
/-!
Lemmas about saving and restoring: every value comes back, or is refused, depending on its limits (`Outcome`); what comes back is as
its constructors give it.
-/
namespace Verif.Snapshot

/-! ### outcomes -/

/-- Restoring gives `a` if `P` holds, otherwise an error. -/
def Outcome {α : Type} (P : Prop) (r : Res α) (a : α) : Prop := (P ∧ r = .ok a) ∨ (¬P ∧ r = .err)

theorem bind_ok {α β : Type} {x : Res α} {f : α → Res β} {b : β} : x.bind f = .ok b ↔ ∃ a, x = .ok a ∧ f a = .ok b := by
  cases x <;> simp [Res.bind]

theorem ofOption_ok {α : Type} {x : Option α} {a : α} : ofOption x = .ok a ↔ x = some a := by
  cases x <;> simp [ofOption]

theorem Outcome.ok {α : Type} {a : α} : Outcome True (.ok a) a := Or.inl ⟨trivial, rfl⟩

theorem Outcome.iff {α : Type} {P Q : Prop} {r : Res α} {a : α} (h : Outcome P r a) (hpq : P ↔ Q) : Outcome Q r a := by
  cases h with
  | inl h => exact Or.inl ⟨hpq.mp h.1, h.2⟩
  | inr h => exact Or.inr ⟨fun hq => h.1 (hpq.mpr hq), h.2⟩

theorem Outcome.bind {α β : Type} {P Q : Prop} {r : Res α} {f : α → Res β} {a : α} {b : β} (h : Outcome P r a)
    (hf : Outcome Q (f a) b) : Outcome (P ∧ Q) (r.bind f) b := by
  cases h with
  | inl h =>
    rw [h.2]
    cases hf with
    | inl hq => exact Or.inl ⟨⟨h.1, hq.1⟩, hq.2⟩
    | inr hq => exact Or.inr ⟨fun hh => hq.1 hh.2, hq.2⟩
  | inr h => rw [h.2]; exact Or.inr ⟨fun hh => h.1 hh.1, rfl⟩

/-- The last step of a restoring function. -/
theorem Outcome.map {α β : Type} {P : Prop} {r : Res α} {f : α → Res β} {a : α} {b : β} (h : Outcome P r a)
    (hf : f a = .ok b) : Outcome P (r.bind f) b := by
  have : Outcome True (f a) b := by rw [hf]; exact Outcome.ok
  exact (h.bind this).iff (by simp)

theorem Outcome.guard {α : Type} {P : Prop} {c : Prop} [Decidable c] {r : Res α} {a : α} (h : ¬c → Outcome P r a) :
    Outcome (¬c ∧ P) (if c then .err else r) a := by
  by_cases hc : c
  · rw [if_pos hc]; exact Or.inr ⟨fun hh => hh.1 hc, rfl⟩
  · rw [if_neg hc]; exact (h hc).iff (by simp [hc])

theorem Outcome.mapR {α β γ : Type} {P : α → Prop} {f : β → Res γ} {g : α → β} {h : α → γ} {l : List α}
    (hl : ∀ a ∈ l, Outcome (P a) (f (g a)) (h a)) : Outcome (∀ a ∈ l, P a) (mapR f (l.map g)) (l.map h) := by
  induction l with
  | nil => exact Or.inl ⟨by simp, rfl⟩
  | cons a l ih =>
    simp only [List.map_cons, Verif.Snapshot.mapR]
    refine Outcome.iff ((hl a (by simp)).bind ((ih fun x hx => hl x (by simp [hx])).map rfl)) ?_
    simp

theorem Outcome.mapR_self {α β : Type} {P : α → Prop} {f : β → Res α} {g : α → β} {l : List α}
    (hl : ∀ a ∈ l, Outcome (P a) (f (g a)) a) : Outcome (∀ a ∈ l, P a) (Verif.Snapshot.mapR f (l.map g)) l := by
  have := Outcome.mapR (h := fun a => a) hl
  simpa using this

theorem mapR_mem {α β : Type} {f : α → Res β} {l : List α} {m : List β} (h : mapR f l = .ok m) :
    ∀ b ∈ m, ∃ a ∈ l, f a = .ok b := by
  induction l generalizing m with
  | nil => simp only [mapR, Res.ok.injEq] at h; subst h; simp
  | cons a l ih =>
    simp only [mapR, bind_ok] at h
    obtain ⟨b, hb, bs, hbs, h⟩ := h
    cases h
    intro x hx
    rcases List.mem_cons.mp hx with rfl | hx
    · exact ⟨a, by simp, hb⟩
    · obtain ⟨y, hy, hxy⟩ := ih hbs x hx
      exact ⟨y, by simp [hy], hxy⟩

theorem mapR_length {α β : Type} {f : α → Res β} {l : List α} {m : List β} (h : mapR f l = .ok m) : m.length = l.length := by
  induction l generalizing m with
  | nil => simp only [mapR, Res.ok.injEq] at h; subst h; rfl
  | cons a l ih =>
    simp only [mapR, bind_ok] at h
    obtain ⟨b, hb, bs, hbs, h⟩ := h
    cases h
    simp [ih hbs]

/-! ### names -/

theorem newMethod_some {u : Uni} {x s : Str} (h : newMethod u x = some s) : x = s := by
  unfold newMethod at h
  split at h
  · cases h
  · split at h
    · cases h; rfl
    · cases h

theorem methodMade_iff {u : Uni} {s : Str} : MethodMade u s ↔ newMethod u s = some s := by
  constructor
  · rintro ⟨x, h⟩; have := newMethod_some h; subst this; exact h
  · exact fun h => ⟨s, h⟩

theorem method_back {u : Uni} {s : Str} (h : MethodMade u s) : ofOption (newMethod u s) = .ok s := by
  rw [ofOption_ok]; exact methodMade_iff.mp h

theorem newConstant_eq {u : Uni} {x s : Str} (h : Owners.newConstant u.xidStart u.upper u.xidContinue x = some s) : s = x :=
  (Owners.newConstant_some h).1

theorem part_back {u : Uni} (hnul : u.upper '\x00' = false) {p : Str} (h : PartMade u p) : restPart u p = .ok p := by
  rcases h with ⟨x, h⟩ | ⟨a, b, c, h⟩
  · have := newConstant_eq h
    subst this
    obtain ⟨-, c, rest, rfl, -, hu, -⟩ := Owners.newConstant_some h
    have hc : c ≠ '\x00' := by rintro rfl; rw [hnul] at hu; cases hu
    unfold restPart
    split
    · rename_i heq; cases heq; exact absurd rfl hc
    · rw [ofOption_ok]; exact h
  · have hb := Owners.c24_decode_encode h
    obtain ⟨-, hp⟩ := Owners.newOwner_iff.mp h
    unfold restPart
    rw [hp] at hb ⊢
    simp only [Owners.ownerPrefix, List.cons_append, ofOption_ok] at hb ⊢
    exact hb

theorem part_made {u : Uni} {x p : Str} (h : restPart u x = .ok p) : PartMade u p := by
  unfold restPart at h
  split at h
  · rw [ofOption_ok, Owners.c24_only_canonical] at h; exact Or.inr h.2
  · rw [ofOption_ok] at h; exact Or.inl ⟨_, h⟩

theorem parts_back {u : Uni} (hnul : u.upper '\x00' = false) {ps : List Str} (h : ∀ p ∈ ps, PartMade u p) :
    Outcome (ps.length ≤ 4096) (restParts u (snapParts ps)) ps := by
  unfold restParts snapParts
  have := Outcome.mapR_self (P := fun _ => True) (f := restPart u) (g := fun p => p) (l := ps) (by
    intro a ha; rw [part_back hnul (h a ha)]; exact Outcome.ok)
  rw [List.map_id'] at this
  exact (Outcome.guard (c := ps.length > 4096) fun _ => this).iff (by simp)

theorem parts_made {u : Uni} {ps qs : List Str} (h : restParts u ps = .ok qs) :
    (∀ p ∈ qs, PartMade u p) ∧ qs.length ≤ 4096 := by
  unfold restParts at h
  split at h
  · cases h
  · rename_i hl
    refine ⟨fun p hp => ?_, ?_⟩
    · obtain ⟨a, -, ha⟩ := mapR_mem h p hp; exact part_made ha
    · have := mapR_length h; omega

theorem fqn_back {u : Uni} (hnul : u.upper '\x00' = false) {f : Fqn} (h : FqnMade u f) :
    Outcome (FqnFits f) (restFqn u (snapFqn f)) f := by
  cases f with
  | ns ps k =>
    simp only [snapFqn, restFqn, FqnFits, Fqn.parts]
    refine (parts_back hnul h).map ?_
    cases k <;> rfl
  | const ps => exact (parts_back hnul h).map rfl
  | method ps m =>
    simp only [snapFqn, restFqn, FqnFits, Fqn.parts]
    refine (parts_back hnul h.1).map ?_
    rw [method_back h.2]; rfl
  | localVar n =>
    simp only [snapFqn, restFqn]; simp only [FqnMade] at h; rw [if_pos h]
    exact Outcome.ok.iff (by simp [FqnFits, Fqn.parts])
  | instVar n =>
    simp only [snapFqn, restFqn]; simp only [FqnMade] at h; rw [if_pos h]
    exact Outcome.ok.iff (by simp [FqnFits, Fqn.parts])
  | classVar n =>
    simp only [snapFqn, restFqn]; simp only [FqnMade] at h; rw [if_pos h]
    exact Outcome.ok.iff (by simp [FqnFits, Fqn.parts])
  | globalVar n =>
    simp only [snapFqn, restFqn]; simp only [FqnMade] at h; rw [if_pos h]
    exact Outcome.ok.iff (by simp [FqnFits, Fqn.parts])

theorem fqn_made {u : Uni} {s : SFqn} {f : Fqn} (h : restFqn u s = .ok f) : FqnMade u f ∧ FqnFits f := by
  cases s with
  | ns ps b =>
    simp only [restFqn, bind_ok] at h; obtain ⟨qs, hq, h⟩ := h; cases h; exact parts_made hq
  | const ps =>
    simp only [restFqn, bind_ok] at h; obtain ⟨qs, hq, h⟩ := h; cases h; exact parts_made hq
  | method ps m =>
    simp only [restFqn, bind_ok, ofOption_ok] at h
    obtain ⟨qs, hq, m', hm, h⟩ := h; cases h
    exact ⟨⟨(parts_made hq).1, ⟨m, hm⟩⟩, (parts_made hq).2⟩
  | localVar n =>
    simp only [restFqn] at h; split at h
    · rename_i hv; cases h; exact ⟨hv, by simp [FqnFits, Fqn.parts]⟩
    · cases h
  | instVar n =>
    simp only [restFqn] at h; split at h
    · rename_i hv; cases h; exact ⟨hv, by simp [FqnFits, Fqn.parts]⟩
    · cases h
  | classVar n =>
    simp only [restFqn] at h; split at h
    · rename_i hv; cases h; exact ⟨hv, by simp [FqnFits, Fqn.parts]⟩
    · cases h
  | globalVar n =>
    simp only [restFqn] at h; split at h
    · rename_i hv; cases h; exact ⟨hv, by simp [FqnFits, Fqn.parts]⟩
    · cases h

/-! ### types -/

theorem lit_back (v : Lit) : restLit (snapLit v) = v := by cases v <;> rfl
theorem presence_back (v : Presence) : restPresence (snapPresence v) = v := by cases v <;> rfl
theorem exactness_back (v : Exactness) : restExactness (snapExactness v) = v := by cases v <;> rfl
theorem stability_back (v : Stability) : restStability (snapStability v) = v := by cases v <;> rfl

theorem fits_top {d : Nat} {t : Ty} (h : TyFits d t) : d ≤ 64 := by have := (h 0 t (.self t)).1; omega

theorem fits_leaf {d : Nat} {t : Ty} (h : ∀ n x, Inside n t x → n = 0 ∧ x = t) :
    TyFits d t ↔ d ≤ 64 ∧ ∀ f, t.name = some f → FqnFits f := by
  constructor
  · intro hf; exact ⟨fits_top hf, (hf 0 t (.self t)).2⟩
  · intro hf n x hx; obtain ⟨rfl, rfl⟩ := h n x hx; exact ⟨hf.1, hf.2⟩

theorem fits_array {d : Nat} {ts : List Ty} : TyFits d (.array ts) ↔ d ≤ 64 ∧ ∀ t ∈ ts, TyFits (d + 1) t := by
  constructor
  · intro h
    refine ⟨fits_top h, fun t ht n x hx => ?_⟩
    have := h (n + 1) x (.array ht hx)
    exact ⟨by omega, this.2⟩
  · rintro ⟨hd, h⟩ n x hx
    cases hx with
    | self => exact ⟨hd, fun f hf => by cases hf⟩
    | array ht hx => have := h _ ht _ _ hx; exact ⟨by omega, this.2⟩

theorem fits_union {d : Nat} {ts : List Ty} : TyFits d (.union ts) ↔ d ≤ 64 ∧ ∀ t ∈ ts, TyFits (d + 1) t := by
  constructor
  · intro h
    refine ⟨fits_top h, fun t ht n x hx => ?_⟩
    have := h (n + 1) x (.union ht hx)
    exact ⟨by omega, this.2⟩
  · rintro ⟨hd, h⟩ n x hx
    cases hx with
    | self => exact ⟨hd, fun f hf => by cases hf⟩
    | union ht hx => have := h _ ht _ _ hx; exact ⟨by omega, this.2⟩

theorem fits_hash {d : Nat} {ks vs : List Ty} :
    TyFits d (.hash ks vs) ↔ d ≤ 64 ∧ (∀ t ∈ ks, TyFits (d + 1) t) ∧ ∀ t ∈ vs, TyFits (d + 1) t := by
  constructor
  · intro h
    refine ⟨fits_top h, fun t ht n x hx => ?_, fun t ht n x hx => ?_⟩
    · have := h (n + 1) x (.key ht hx); exact ⟨by omega, this.2⟩
    · have := h (n + 1) x (.value ht hx); exact ⟨by omega, this.2⟩
  · rintro ⟨hd, hk, hv⟩ n x hx
    cases hx with
    | self => exact ⟨hd, fun f hf => by cases hf⟩
    | key ht hx => have := hk _ ht _ _ hx; exact ⟨by omega, this.2⟩
    | value ht hx => have := hv _ ht _ _ hx; exact ⟨by omega, this.2⟩

theorem fits_shape {d : Nat} {fs : List Field} {r : Option (Ty × Ty)} {e : Exactness} {s : Stability} {k : Nat} :
    TyFits d (.shape fs r e s k) ↔
      d ≤ 64 ∧ (∀ f ∈ fs, TyFits (d + 1) f.2.1) ∧ ∀ p ∈ r, TyFits (d + 1) p.1 ∧ TyFits (d + 1) p.2 := by
  constructor
  · intro h
    refine ⟨fits_top h, fun t ht n x hx => ?_, fun p hp => ⟨fun n x hx => ?_, fun n x hx => ?_⟩⟩
    · have := h (n + 1) x (.field ht hx); exact ⟨by omega, this.2⟩
    · have := h (n + 1) x (.restKey (k := p.1) (v := p.2) hp hx); exact ⟨by omega, this.2⟩
    · have := h (n + 1) x (.restValue (k := p.1) (v := p.2) hp hx); exact ⟨by omega, this.2⟩
  · rintro ⟨hd, hf, hr⟩ n x hx
    cases hx with
    | self => exact ⟨hd, fun f hf => by cases hf⟩
    | field ht hx => have := hf _ ht _ _ hx; exact ⟨by omega, this.2⟩
    | restKey hp hx => have := (hr _ hp).1 _ _ hx; exact ⟨by omega, this.2⟩
    | restValue hp hx => have := (hr _ hp).2 _ _ hx; exact ⟨by omega, this.2⟩

/-- The fields of a shape in order, and the shape rebuilt from them. -/
theorem fieldLe_order : IsOrder fieldLe where
  total a b := Store.lexLe_total a.1.enc b.1.enc
  trans a b c := Store.lexLe_trans a.1.enc b.1.enc c.1.enc

theorem newShape_some {fs : List Field} {r : Option (Ty × Ty)} {e : Exactness} {s : Stability} {t : Ty}
    (h : newShape fs r e s = some t) :
    ∃ k, t = .shape (stableSort fieldLe fs) r e s k ∧ newShape (stableSort fieldLe fs) r e s = some t := by
  unfold newShape at h
  simp only at h
  split at h; · cases h
  rename_i h1
  split at h; · cases h
  rename_i h2
  split at h; · cases h
  rename_i h3
  split at h; · cases h
  rename_i h4
  split at h; · cases h
  rename_i h5
  split at h; · cases h
  rename_i h6
  cases h
  refine ⟨_, rfl, ?_⟩
  have hp := stableSort_perm (le := fieldLe) fs
  have hs : stableSort fieldLe (stableSort fieldLe fs) = stableSort fieldLe fs :=
    stableSort_of_sorted (stableSort_sorted fieldLe_order fs)
  unfold newShape
  simp only
  rw [if_neg (by rw [hp.length_eq]; exact h1), if_neg h2, hs, if_neg h3, if_neg h4, if_neg h5, if_neg h6]

theorem restTys_eq {u : Uni} {l : List STy} {d : Nat} : restTys u l d = mapR (fun t => restTy u t d) l := by
  induction l with
  | nil => rfl
  | cons a l ih => simp only [restTys, mapR, ih]

theorem snapTys_eq {l : List Ty} : snapTys l = l.map snapTy := by
  induction l with
  | nil => rfl
  | cons a l ih => simp only [snapTys, ih, List.map_cons]

def snapField (f : Field) : SLit × STy × SPresence := (snapLit f.1, snapTy f.2.1, snapPresence f.2.2)
def restField (u : Uni) (d : Nat) (f : SLit × STy × SPresence) : Res Field :=
  (restTy u f.2.1 d).bind fun t => .ok (restLit f.1, t, restPresence f.2.2)

theorem snapFields_eq {l : List Field} : snapFields l = l.map snapField := by
  induction l with
  | nil => rfl
  | cons a l ih => obtain ⟨k, t, p⟩ := a; simp only [snapFields, ih, List.map_cons, snapField]

theorem restFields_eq {u : Uni} {l : List (SLit × STy × SPresence)} {d : Nat} : restFields u l d = mapR (restField u d) l := by
  induction l with
  | nil => rfl
  | cons a l ih =>
    obtain ⟨k, t, p⟩ := a
    simp only [restFields, mapR, ih, restField]
    cases restTy u t d <;> rfl

/-- A type comes back, if it is not too deep and its names are not too long; otherwise it is refused. -/
theorem ty_back {u : Uni} (hnul : u.upper '\x00' = false) {t : Ty} (h : TyMade u t) (d : Nat) :
    Outcome (TyFits d t) (restTy u (snapTy t) d) t := by
  induction h generalizing d with
  | @cls f h =>
    simp only [snapTy, restTy]
    refine Outcome.iff (Outcome.guard (c := d > 64) fun _ => (fqn_back hnul h).map rfl) ?_
    rw [fits_leaf (by intro n x hx; cases hx; exact ⟨rfl, rfl⟩)]; simp [Ty.name]
  | @mod f h =>
    simp only [snapTy, restTy]
    refine Outcome.iff (Outcome.guard (c := d > 64) fun _ => (fqn_back hnul h).map rfl) ?_
    rw [fits_leaf (by intro n x hx; cases hx; exact ⟨rfl, rfl⟩)]; simp [Ty.name]
  | @clsRef f h =>
    simp only [snapTy, restTy]
    refine Outcome.iff (Outcome.guard (c := d > 64) fun _ => (fqn_back hnul h).map rfl) ?_
    rw [fits_leaf (by intro n x hx; cases hx; exact ⟨rfl, rfl⟩)]; simp [Ty.name]
  | @modRef f h =>
    simp only [snapTy, restTy]
    refine Outcome.iff (Outcome.guard (c := d > 64) fun _ => (fqn_back hnul h).map rfl) ?_
    rw [fits_leaf (by intro n x hx; cases hx; exact ⟨rfl, rfl⟩)]; simp [Ty.name]
  | lit v =>
    simp only [snapTy, restTy, lit_back]
    refine Outcome.iff (Outcome.guard (c := d > 64) fun _ => Outcome.ok) ?_
    rw [fits_leaf (by intro n x hx; cases hx; exact ⟨rfl, rfl⟩)]; simp [Ty.name]
  | unknown =>
    simp only [snapTy, restTy]
    refine Outcome.iff (Outcome.guard (c := d > 64) fun _ => Outcome.ok) ?_
    rw [fits_leaf (by intro n x hx; cases hx; exact ⟨rfl, rfl⟩)]; simp [Ty.name]
  | @array ts h ih =>
    simp only [snapTy, restTy, restTys_eq, snapTys_eq]
    refine Outcome.iff (Outcome.guard (c := d > 64) fun _ => (Outcome.mapR_self fun t ht => ih t ht (d + 1)).map rfl) ?_
    rw [fits_array]; simp
  | @union ts h ih =>
    simp only [snapTy, restTy, restTys_eq, snapTys_eq]
    refine Outcome.iff (Outcome.guard (c := d > 64) fun _ => (Outcome.mapR_self fun t ht => ih t ht (d + 1)).map rfl) ?_
    rw [fits_union]; simp
  | @hash ks vs h1 h2 ih1 ih2 =>
    simp only [snapTy, restTy, restTys_eq, snapTys_eq]
    refine Outcome.iff (Outcome.guard (c := d > 64) fun _ => (Outcome.mapR_self fun t ht => ih1 t ht (d + 1)).bind
      ((Outcome.mapR_self fun t ht => ih2 t ht (d + 1)).map rfl)) ?_
    rw [fits_hash]; simp
  | @shape fs r e s t h1 h2 h3 hn ih1 ih2 ih3 =>
    obtain ⟨k, rfl, hn'⟩ := newShape_some hn
    have hp := stableSort_perm (le := fieldLe) fs
    simp only [snapTy, restTy, restFields_eq, snapFields_eq, exactness_back, stability_back]
    have hf : Outcome (∀ f ∈ stableSort fieldLe fs, TyFits (d + 1) f.2.1)
        (mapR (restField u (d + 1)) ((stableSort fieldLe fs).map snapField)) (stableSort fieldLe fs) := by
      refine Outcome.mapR_self fun f hf => ?_
      unfold restField snapField
      refine (ih1 f (hp.mem_iff.mp hf) (d + 1)).map ?_
      simp only [lit_back, presence_back]
    have hr : Outcome (∀ p ∈ r, TyFits (d + 1) p.1 ∧ TyFits (d + 1) p.2) (restRest u (snapRest r) (d + 1)) r := by
      cases r with
      | none => simp only [snapRest, restRest]; exact Outcome.ok.iff (by simp)
      | some p =>
        obtain ⟨a, b⟩ := p
        simp only [snapRest, restRest]
        refine Outcome.iff ((ih2 (a, b) rfl (d + 1)).bind ((ih3 (a, b) rfl (d + 1)).map rfl)) ?_
        simp
    refine Outcome.iff (Outcome.guard (c := d > 64) fun _ => hf.bind (hr.map ?_)) ?_
    · rw [ofOption_ok]; exact hn'
    · rw [fits_shape]; simp

mutual
theorem ty_made {u : Uni} : ∀ (s : STy) (d : Nat) (t : Ty), restTy u s d = .ok t → TyMade u t ∧ TyFits d t
  | .cls f, d, t, h => by
    simp only [restTy] at h; split at h; · cases h
    rename_i hd
    simp only [bind_ok] at h; obtain ⟨f', hf, h⟩ := h; cases h
    refine ⟨.cls (fqn_made hf).1, ?_⟩
    rw [fits_leaf (by intro n x hx; cases hx; exact ⟨rfl, rfl⟩)]
    exact ⟨by omega, fun f hn => by cases hn; exact (fqn_made hf).2⟩
  | .mod f, d, t, h => by
    simp only [restTy] at h; split at h; · cases h
    rename_i hd
    simp only [bind_ok] at h; obtain ⟨f', hf, h⟩ := h; cases h
    refine ⟨.mod (fqn_made hf).1, ?_⟩
    rw [fits_leaf (by intro n x hx; cases hx; exact ⟨rfl, rfl⟩)]
    exact ⟨by omega, fun f hn => by cases hn; exact (fqn_made hf).2⟩
  | .clsRef f, d, t, h => by
    simp only [restTy] at h; split at h; · cases h
    rename_i hd
    simp only [bind_ok] at h; obtain ⟨f', hf, h⟩ := h; cases h
    refine ⟨.clsRef (fqn_made hf).1, ?_⟩
    rw [fits_leaf (by intro n x hx; cases hx; exact ⟨rfl, rfl⟩)]
    exact ⟨by omega, fun f hn => by cases hn; exact (fqn_made hf).2⟩
  | .modRef f, d, t, h => by
    simp only [restTy] at h; split at h; · cases h
    rename_i hd
    simp only [bind_ok] at h; obtain ⟨f', hf, h⟩ := h; cases h
    refine ⟨.modRef (fqn_made hf).1, ?_⟩
    rw [fits_leaf (by intro n x hx; cases hx; exact ⟨rfl, rfl⟩)]
    exact ⟨by omega, fun f hn => by cases hn; exact (fqn_made hf).2⟩
  | .lit v, d, t, h => by
    simp only [restTy] at h; split at h; · cases h
    rename_i hd
    cases h
    refine ⟨.lit _, ?_⟩
    rw [fits_leaf (by intro n x hx; cases hx; exact ⟨rfl, rfl⟩)]
    exact ⟨by omega, fun f hn => by cases hn⟩
  | .unknown, d, t, h => by
    simp only [restTy] at h; split at h; · cases h
    rename_i hd
    cases h
    refine ⟨.unknown, ?_⟩
    rw [fits_leaf (by intro n x hx; cases hx; exact ⟨rfl, rfl⟩)]
    exact ⟨by omega, fun f hn => by cases hn⟩
  | .array ts, d, t, h => by
    simp only [restTy] at h; split at h; · cases h
    rename_i hd
    simp only [bind_ok] at h; obtain ⟨l, hl, h⟩ := h; cases h
    have := tys_made ts (d + 1) l hl
    exact ⟨.array fun t ht => (this t ht).1, fits_array.mpr ⟨by omega, fun t ht => (this t ht).2⟩⟩
  | .union ts, d, t, h => by
    simp only [restTy] at h; split at h; · cases h
    rename_i hd
    simp only [bind_ok] at h; obtain ⟨l, hl, h⟩ := h; cases h
    have := tys_made ts (d + 1) l hl
    exact ⟨.union fun t ht => (this t ht).1, fits_union.mpr ⟨by omega, fun t ht => (this t ht).2⟩⟩
  | .hash ks vs, d, t, h => by
    simp only [restTy] at h; split at h; · cases h
    rename_i hd
    simp only [bind_ok] at h; obtain ⟨k, hk, v, hv, h⟩ := h; cases h
    have h1 := tys_made ks (d + 1) k hk
    have h2 := tys_made vs (d + 1) v hv
    exact ⟨.hash (fun t ht => (h1 t ht).1) fun t ht => (h2 t ht).1,
      fits_hash.mpr ⟨by omega, fun t ht => (h1 t ht).2, fun t ht => (h2 t ht).2⟩⟩
  | .shape fs r e s, d, t, h => by
    simp only [restTy] at h; split at h; · cases h
    rename_i hd
    simp only [bind_ok, ofOption_ok] at h; obtain ⟨fs', hf, r', hr, h⟩ := h
    have h1 := fields_made fs (d + 1) fs' hf
    have h2 := rest_made r (d + 1) r' hr
    refine ⟨.shape (fun f hf => (h1 f hf).1) (fun p hp => (h2 p hp).1.1) (fun p hp => (h2 p hp).2.1) h, ?_⟩
    obtain ⟨k, rfl, -⟩ := newShape_some h
    refine fits_shape.mpr ⟨by omega, fun f hf => (h1 f ?_).2, fun p hp => ⟨(h2 p hp).1.2, (h2 p hp).2.2⟩⟩
    exact (stableSort_perm fs').mem_iff.mp hf
theorem tys_made {u : Uni} : ∀ (l : List STy) (d : Nat) (m : List Ty), restTys u l d = .ok m → ∀ t ∈ m, TyMade u t ∧ TyFits d t
  | [], d, m, h => by simp only [restTys, Res.ok.injEq] at h; subst h; simp
  | s :: l, d, m, h => by
    simp only [restTys, bind_ok] at h
    obtain ⟨t, ht, m', hm, h⟩ := h; cases h
    intro x hx
    rcases List.mem_cons.mp hx with rfl | hx
    · exact ty_made s d _ ht
    · exact tys_made l d m' hm x hx
theorem fields_made {u : Uni} : ∀ (l : List (SLit × STy × SPresence)) (d : Nat) (m : List (Lit × Ty × Presence)),
    restFields u l d = .ok m → ∀ t ∈ m, TyMade u t.2.1 ∧ TyFits d t.2.1
  | [], d, m, h => by simp only [restFields, Res.ok.injEq] at h; subst h; simp
  | (k, s, p) :: l, d, m, h => by
    simp only [restFields, bind_ok] at h
    obtain ⟨t, ht, m', hm, h⟩ := h; cases h
    intro x hx
    rcases List.mem_cons.mp hx with rfl | hx
    · exact ty_made s d _ ht
    · exact fields_made l d m' hm x hx
theorem rest_made {u : Uni} : ∀ (r : Option (STy × STy)) (d : Nat) (m : Option (Ty × Ty)), restRest u r d = .ok m →
    ∀ p ∈ m, (TyMade u p.1 ∧ TyFits d p.1) ∧ TyMade u p.2 ∧ TyFits d p.2
  | none, d, m, h => by simp only [restRest, Res.ok.injEq] at h; subst h; simp
  | some (k, v), d, m, h => by
    simp only [restRest, bind_ok] at h
    obtain ⟨a, ha, b, hb, h⟩ := h; cases h
    intro p hp
    cases hp
    exact ⟨ty_made k d _ ha, ty_made v d _ hb⟩
end

end Verif.Snapshot
