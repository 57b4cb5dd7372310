import Verif.Spec.HigherOrder
import Verif.Props.Shape
import Mathlib.Data.List.Forall2
/-!
Lemmas on templates and substitutions.
-/
namespace Verif.HigherOrder
open Verif.Types

/-! ### results -/

theorem bind_ok {α β : Type} {o : Out α} {f : α → Out β} {b : β} : o.bind f = .ok b ↔ ∃ a, o = .ok a ∧ f a = .ok b := by
  cases o <;> simp [Out.bind]

theorem bind_receiver {α β : Type} {o : Out α} {f : α → Out β} : o.bind f = .receiver ↔ o = .receiver ∨ ∃ a, o = .ok a ∧ f a = .receiver := by
  cases o <;> simp [Out.bind]

theorem collect_ok {α β : Type} {f : α → Out β} : ∀ {l : List α} {bs : List β}, collect f l = .ok bs ↔ List.Forall₂ (fun a b => f a = .ok b) l bs := by
  intro l
  induction l with
  | nil => intro bs; simp only [collect, List.forall₂_nil_left_iff, Out.ok.injEq]; exact eq_comm
  | cons a l ih =>
    intro bs
    simp only [collect, bind_ok, List.forall₂_cons_left_iff]
    constructor
    · rintro ⟨b, hb, bs', hbs, e⟩
      cases e
      exact ⟨b, bs', hb, ih.mp hbs, rfl⟩
    · rintro ⟨b, bs', hb, hbs, rfl⟩
      exact ⟨b, hb, bs', ih.mpr hbs, rfl⟩

theorem collect_receiver {α β : Type} {f : α → Out β} : ∀ {l : List α}, collect f l = .receiver → ∃ a ∈ l, f a = .receiver := by
  intro l
  induction l with
  | nil => intro h; cases h
  | cons a l ih =>
    intro h
    simp only [collect, bind_receiver] at h
    rcases h with h | ⟨b, _, h | ⟨bs, _, h⟩⟩
    · exact ⟨a, by simp, h⟩
    · obtain ⟨a', ha, h⟩ := ih h
      exact ⟨a', by simp [ha], h⟩
    · cases h

/-! ### unions, without assumptions on nesting -/

variable {W : World}

theorem desc_union_of {l : List Ty} {v : W.V} (h : DescAny W l v) : Desc W (mkUnion l) v := by
  obtain ⟨x, hx, hd⟩ := desc_alts.mp h
  rw [mkUnion_eq]
  rcases finish_cases (flatten l) with ⟨e, -⟩ | ⟨-, -, t, e, ht⟩ | ⟨-, -, -, e⟩
  · rw [e]; simp [Desc]
  · rw [e, ← (ht x).mp (mem_flatten.mpr hx)]; exact hd
  · rw [e]
    simp only [Desc]
    exact descAny_iff.mpr ⟨x, mem_canon.mpr (mem_flatten.mpr hx), hd⟩

theorem desc_of_union {l : List Ty} {v : W.V} (hu : mkUnion l ≠ .unknown) (h : Desc W (mkUnion l) v) : DescAny W l v := by
  rw [mkUnion_eq] at h hu
  rcases finish_cases (flatten l) with ⟨e, -⟩ | ⟨-, -, t, e, ht⟩ | ⟨-, -, -, e⟩
  · exact absurd e hu
  · rw [e] at h
    exact desc_alts.mpr ⟨t, mem_flatten.mp ((ht t).mpr rfl), h⟩
  · rw [e] at h
    simp only [Desc] at h
    obtain ⟨x, hx, hd⟩ := descAny_iff.mp h
    exact desc_alts.mpr ⟨x, mem_flatten.mp (mem_canon.mp hx), hd⟩

theorem list_unknown {l : List Ty} : hasUnknownList l = false ↔ ∀ t ∈ l, hasUnknown t = false := by
  induction l with
  | nil => simp [hasUnknownList]
  | cons a l ih => simp [hasUnknownList, ih]

theorem ne_unknown {t : Ty} (h : hasUnknown t = false) : t ≠ .unknown := by
  rintro rfl
  simp [hasUnknown] at h

/-- A union without unknown parts has no member with one. -/
theorem union_known {l : List Ty} (h : hasUnknown (mkUnion l) = false) : ∀ t ∈ l, hasUnknown t = false := by
  have key : ∀ x, Alts l x → hasUnknown x = false := by
    intro x hx
    rw [mkUnion_eq] at h
    rcases finish_cases (flatten l) with ⟨e, -⟩ | ⟨-, -, t, e, ht⟩ | ⟨-, -, -, e⟩
    · rw [e] at h; simp [hasUnknown] at h
    · rw [e] at h
      rw [(ht x).mp (mem_flatten.mpr hx)]; exact h
    · rw [e] at h
      simp only [hasUnknown] at h
      exact list_unknown.mp h x (mem_canon.mpr (mem_flatten.mpr hx))
  intro t ht
  rcases simple_or_union t with hs | ⟨us, rfl⟩
  · exact key t ⟨t, ht, .self hs⟩
  · simp only [hasUnknown]
    exact list_unknown.mpr (fun u hu => key u ⟨_, ht, .member hu⟩)

theorem mem_membersOf {a y : Ty} : y ∈ membersOf a ↔ AltOf a y := by
  rcases simple_or_union a with hs | ⟨us, rfl⟩
  · have : membersOf a = [a] := by
      cases a <;> first | rfl | exact absurd rfl (hs _)
    rw [this, altOf_simple hs, List.mem_singleton]
  · simp [membersOf, altOf_union]

/-! ### templates -/

theorem tdescAny_iff {R : W.V → Prop} {θ : Var → W.V → Prop} {ms : List Tmpl} {v : W.V} : TDescAny W R θ ms v ↔ ∃ m ∈ ms, TDesc W R θ m v := by
  induction ms with
  | nil => simp [TDescAny]
  | cons m ms ih => simp [TDescAny, ih]

theorem Tmpl.ind {P : Tmpl → Prop} (concrete : ∀ t, P (.concrete t)) (receiver : P .receiver) (var : ∀ x, P (.var x))
    (array : ∀ e, P e → P (.array e)) (hash : ∀ k v, P k → P v → P (.hash k v)) (union : ∀ ms, (∀ m ∈ ms, P m) → P (.union ms))
    (unconstrained : P .unconstrained) : ∀ t, P t := by
  intro t
  refine Tmpl.rec (motive_1 := P) (motive_2 := fun l => ∀ m ∈ l, P m) concrete receiver var array hash union unconstrained ?_ ?_ t
  · intro m h; simp at h
  · intro m ms h hs m' hm
    rcases List.mem_cons.mp hm with rfl | hm
    · exact h
    · exact hs m' hm

/-- Only the variables in the template count. -/
theorem tdesc_mono {R : W.V → Prop} {θ θ' : Var → W.V → Prop} : ∀ t, (∀ x, Occ x t → ∀ v, θ x v → θ' x v) → ∀ v, TDesc W R θ t v → TDesc W R θ' t v := by
  refine Tmpl.ind ?_ ?_ ?_ ?_ ?_ ?_ ?_
  · intro t _ v h; exact h
  · intro _ v h; exact h
  · intro x h v hd; exact h x .var v hd
  · intro e ih h v hd
    simp only [TDesc] at hd ⊢
    exact ⟨hd.1, fun x hx => ih (fun y hy => h y (.array hy)) x (hd.2 x hx)⟩
  · intro k w ihk ihw h v hd
    simp only [TDesc] at hd ⊢
    exact ⟨hd.1, fun a b hab => ⟨ihk (fun y hy => h y (.key hy)) a (hd.2 a b hab).1, ihw (fun y hy => h y (.value hy)) b (hd.2 a b hab).2⟩⟩
  · intro ms ih h v hd
    simp only [TDesc, tdescAny_iff] at hd ⊢
    obtain ⟨m, hm, hd⟩ := hd
    exact ⟨m, hm, ih m hm (fun y hy => h y (.union hm hy)) v hd⟩
  · intro _ v _; trivial

/-! ### replacing `self` -/

theorem instList_ok {r : Option Ty} {ms ms' : List Tmpl} : instList r ms = .ok ms' ↔ List.Forall₂ (fun a b => inst r a = .ok b) ms ms' := by
  induction ms generalizing ms' with
  | nil => simp only [instList, List.forall₂_nil_left_iff, Out.ok.injEq]; exact eq_comm
  | cons a l ih =>
    simp only [instList, bind_ok, List.forall₂_cons_left_iff]
    constructor
    · rintro ⟨b, hb, bs', hbs, e⟩
      cases e
      exact ⟨b, bs', hb, ih.mp hbs, rfl⟩
    · rintro ⟨b, bs', hb, hbs, rfl⟩
      exact ⟨b, hb, bs', ih.mpr hbs, rfl⟩

theorem inst_receiver {r : Option Ty} {t' : Tmpl} (h : inst r .receiver = .ok t') : ∃ t, r = some t ∧ hasUnknown t = false ∧ t' = .concrete t := by
  simp only [inst] at h
  split at h
  · rename_i t
    split at h
    · cases h
    · rename_i hu
      cases h
      exact ⟨t, rfl, by simpa using hu, rfl⟩
  · cases h

theorem forall₂_left {α β : Type} {R : α → β → Prop} {l : List α} {m : List β} (h : List.Forall₂ R l m) {a : α} (ha : a ∈ l) : ∃ b ∈ m, R a b := by
  induction h with
  | nil => simp at ha
  | cons hab _ ih =>
    rcases List.mem_cons.mp ha with rfl | ha
    · exact ⟨_, List.mem_cons_self, hab⟩
    · obtain ⟨b, hb, h⟩ := ih ha
      exact ⟨b, List.mem_cons_of_mem _ hb, h⟩

theorem forall₂_back {α β : Type} {R : α → β → Prop} {l : List α} {m : List β} (h : List.Forall₂ R l m) {b : β} (hb : b ∈ m) : ∃ a ∈ l, R a b := by
  induction h with
  | nil => simp at hb
  | cons hab _ ih =>
    rcases List.mem_cons.mp hb with rfl | hb
    · exact ⟨_, List.mem_cons_self, hab⟩
    · obtain ⟨a, ha, h⟩ := ih hb
      exact ⟨a, List.mem_cons_of_mem _ ha, h⟩

/-- Replacing `self` does not change the meaning. -/
theorem inst_desc {r : Option Ty} {θ : Var → W.V → Prop} : ∀ t t', inst r t = .ok t' → ∀ v, TDesc W (Self W r) θ t v ↔ TDesc W (Self W r) θ t' v := by
  refine Tmpl.ind ?_ ?_ ?_ ?_ ?_ ?_ ?_
  · intro t t' h v; cases h; rfl
  · intro t' h v
    obtain ⟨t, rfl, -, rfl⟩ := inst_receiver h
    simp [TDesc, Self]
  · intro x t' h v; cases h; rfl
  · intro e ih t' h v
    simp only [inst, bind_ok] at h
    obtain ⟨e', he, h⟩ := h
    cases h
    simp only [TDesc]
    exact and_congr_right (fun _ => forall_congr' (fun x => imp_congr_right (fun _ => ih e' he x)))
  · intro k w ihk ihw t' h v
    simp only [inst, bind_ok] at h
    obtain ⟨k', hk, w', hw, h⟩ := h
    cases h
    simp only [TDesc]
    exact and_congr_right (fun _ => forall_congr' (fun a => forall_congr' (fun b => imp_congr_right (fun _ => and_congr (ihk k' hk a) (ihw w' hw b)))))
  · intro ms ih t' h v
    simp only [inst, bind_ok] at h
    obtain ⟨ms', hms, h⟩ := h
    cases h
    rw [instList_ok] at hms
    simp only [TDesc, tdescAny_iff]
    constructor
    · rintro ⟨m, hm, hd⟩
      obtain ⟨m', hm', e⟩ := forall₂_left hms hm
      exact ⟨m', hm', (ih m hm m' e v).mp hd⟩
    · rintro ⟨m', hm', hd⟩
      obtain ⟨m, hm, e⟩ := forall₂_back hms hm'
      exact ⟨m, hm, (ih m hm m' e v).mpr hd⟩
  · intro t' h v; cases h; rfl

theorem inst_takes {r : Option Ty} {m m' : Tmpl} {y : Ty} (h : inst r m = .ok m') : Takes r m y ↔ Takes r m' y := by
  cases m with
  | receiver =>
    obtain ⟨t, rfl, -, rfl⟩ := inst_receiver h
    constructor
    · intro h; cases h with | self e hc => cases e; exact .concrete hc
    · intro h; cases h with | concrete hc => exact .self rfl hc
  | concrete t => cases h; rfl
  | var x => cases h; rfl
  | unconstrained => cases h; rfl
  | array e =>
    simp only [inst, bind_ok] at h
    obtain ⟨e', _, h⟩ := h
    cases h
    exact ⟨fun h => (by cases h), fun h => (by cases h)⟩
  | hash k w =>
    simp only [inst, bind_ok] at h
    obtain ⟨k', _, w', _, h⟩ := h
    cases h
    exact ⟨fun h => (by cases h), fun h => (by cases h)⟩
  | union ms =>
    simp only [inst, bind_ok] at h
    obtain ⟨ms', _, h⟩ := h
    cases h
    exact ⟨fun h => (by cases h), fun h => (by cases h)⟩

theorem inst_var {r : Option Ty} {m m' : Tmpl} {x : Var} (h : inst r m = .ok m') : m = .var x ↔ m' = .var x := by
  cases m with
  | receiver => obtain ⟨t, rfl, -, rfl⟩ := inst_receiver h; simp
  | concrete t => cases h; simp
  | var y => cases h; rfl
  | unconstrained => cases h; simp
  | array e =>
    simp only [inst, bind_ok] at h
    obtain ⟨e', _, h⟩ := h
    cases h; simp
  | hash k w =>
    simp only [inst, bind_ok] at h
    obtain ⟨k', _, w', _, h⟩ := h
    cases h; simp
  | union ms =>
    simp only [inst, bind_ok] at h
    obtain ⟨ms', _, h⟩ := h
    cases h; simp

/-- Replacing `self` does not change what is learnt about variables. -/
theorem inst_gives {r : Option Ty} {x : Var} : ∀ t t', inst r t = .ok t' → ∀ a z, Gives r x t a z ↔ Gives r x t' a z := by
  refine Tmpl.ind ?_ ?_ ?_ ?_ ?_ ?_ ?_
  · intro t t' h a z; cases h; rfl
  · intro t' h a z
    obtain ⟨t, rfl, -, rfl⟩ := inst_receiver h
    exact ⟨fun h => (by cases h), fun h => (by cases h)⟩
  · intro y t' h a z; cases h; rfl
  · intro e ih t' h a z
    simp only [inst, bind_ok] at h
    obtain ⟨e', he, h⟩ := h
    cases h
    constructor
    · intro h; cases h with | array h => exact .array ((ih e' he _ _).mp h)
    · intro h; cases h with | array h => exact .array ((ih e' he _ _).mpr h)
  · intro k w ihk ihw t' h a z
    simp only [inst, bind_ok] at h
    obtain ⟨k', hk, w', hw, h⟩ := h
    cases h
    have one : ∀ ks vs, Gives r x (.hash k w) (.hash ks vs) z ↔ Gives r x (.hash k' w') (.hash ks vs) z := by
      intro ks vs
      constructor
      · intro h
        cases h with
        | key h => exact .key ((ihk k' hk _ _).mp h)
        | value h => exact .value ((ihw w' hw _ _).mp h)
      · intro h
        cases h with
        | key h => exact .key ((ihk k' hk _ _).mpr h)
        | value h => exact .value ((ihw w' hw _ _).mpr h)
    constructor
    · intro h
      cases h with
      | key h => exact (one _ _).mp (.key h)
      | value h => exact (one _ _).mp (.value h)
      | shape hg h =>
        obtain ⟨ks, vs, rfl, -⟩ := genericHash_spec hg
        exact .shape hg ((one _ _).mp h)
    · intro h
      cases h with
      | key h => exact (one _ _).mpr (.key h)
      | value h => exact (one _ _).mpr (.value h)
      | shape hg h =>
        obtain ⟨ks, vs, rfl, -⟩ := genericHash_spec hg
        exact .shape hg ((one _ _).mpr h)
  · intro ms ih t' h a z
    simp only [inst, bind_ok] at h
    obtain ⟨ms', hms, h⟩ := h
    cases h
    rw [instList_ok] at hms
    have hv : .var x ∈ ms ↔ .var x ∈ ms' := by
      constructor
      · intro hm
        obtain ⟨m', hm', e⟩ := forall₂_left hms hm
        rw [(inst_var e).mp rfl] at hm'; exact hm'
      · intro hm
        obtain ⟨m', hm', e⟩ := forall₂_back hms hm
        rw [(inst_var e).mpr rfl] at hm'; exact hm'
    have ht : ∀ y, (∀ m ∈ ms, ¬ Takes r m y) ↔ (∀ m ∈ ms', ¬ Takes r m y) := by
      intro y
      constructor
      · intro h m' hm' ht
        obtain ⟨m, hm, e⟩ := forall₂_back hms hm'
        exact h m hm ((inst_takes e).mpr ht)
      · intro h m hm ht
        obtain ⟨m', hm', e⟩ := forall₂_left hms hm
        exact h m' hm' ((inst_takes e).mp ht)
    constructor
    · intro h; cases h with | union h1 h2 h3 => exact .union (hv.mp h1) h2 ((ht _).mp h3)
    · intro h; cases h with | union h1 h2 h3 => exact .union (hv.mpr h1) h2 ((ht _).mpr h3)
  · intro t' h a z; cases h; rfl

/-- No `self` in the template. -/
inductive NoSelf : Tmpl → Prop where
  | concrete (t) : NoSelf (.concrete t)
  | var (x) : NoSelf (.var x)
  | array {e} : NoSelf e → NoSelf (.array e)
  | hash {k v} : NoSelf k → NoSelf v → NoSelf (.hash k v)
  | union {ms} : (∀ m ∈ ms, NoSelf m) → NoSelf (.union ms)
  | unconstrained : NoSelf .unconstrained

theorem inst_noSelf {r : Option Ty} : ∀ t t', inst r t = .ok t' → NoSelf t' := by
  refine Tmpl.ind ?_ ?_ ?_ ?_ ?_ ?_ ?_
  · intro t t' h; cases h; exact .concrete _
  · intro t' h
    obtain ⟨t, rfl, -, rfl⟩ := inst_receiver h
    exact .concrete _
  · intro x t' h; cases h; exact .var _
  · intro e ih t' h
    simp only [inst, bind_ok] at h
    obtain ⟨e', he, h⟩ := h
    cases h
    exact .array (ih e' he)
  · intro k w ihk ihw t' h
    simp only [inst, bind_ok] at h
    obtain ⟨k', hk, w', hw, h⟩ := h
    cases h
    exact .hash (ihk k' hk) (ihw w' hw)
  · intro ms ih t' h
    simp only [inst, bind_ok] at h
    obtain ⟨ms', hms, h⟩ := h
    cases h
    rw [instList_ok] at hms
    refine .union (fun m' hm' => ?_)
    obtain ⟨m, hm, e⟩ := forall₂_back hms hm'
    exact ih m hm m' e
  · intro t' h; cases h; exact .unconstrained

theorem inst_ne_receiver {r : Option Ty} : ∀ t, inst r t ≠ .receiver := by
  have listR : ∀ ms, (∀ m ∈ ms, inst r m ≠ .receiver) → instList r ms ≠ .receiver := by
    intro ms
    induction ms with
    | nil => intro _ h; cases h
    | cons m ms ih =>
      intro hm h
      simp only [instList, bind_receiver] at h
      rcases h with h | ⟨_, _, h | ⟨_, _, h⟩⟩
      · exact hm m (by simp) h
      · exact ih (fun m h => hm m (by simp [h])) h
      · cases h
  refine Tmpl.ind ?_ ?_ ?_ ?_ ?_ ?_ ?_
  · intro t h; cases h
  · intro h
    simp only [inst] at h
    split at h
    · split at h <;> cases h
    · cases h
  · intro x h; cases h
  · intro e ih h
    simp only [inst, bind_receiver] at h
    rcases h with h | ⟨_, _, h⟩
    · exact ih h
    · cases h
  · intro k w ihk ihw h
    simp only [inst, bind_receiver] at h
    rcases h with h | ⟨_, _, h | ⟨_, _, h⟩⟩
    · exact ihk h
    · exact ihw h
    · cases h
  · intro ms ih h
    simp only [inst, bind_receiver] at h
    rcases h with h | ⟨_, _, h⟩
    · exact listR ms ih h
    · cases h
  · intro h; cases h

/-! ### solving -/

/-- The values of a variable under a substitution. -/
def Val (W : World) (σ : Subst) (x : Var) (v : W.V) : Prop := ∃ t, σ x = some t ∧ Desc W t v

/-- The step adds to each variable exactly the values of the types that `G` gives, as long as the variable does not become
unknown. -/
def Adds (W : World) (s s' : St) (G : Var → Ty → Prop) : Prop :=
  ∀ x, (s'.σ x = none ↔ s.σ x = none ∧ ∀ z, ¬ G x z) ∧
    (∀ v, Val W s.σ x v ∨ (∃ z, G x z ∧ Desc W z v) → Val W s'.σ x v) ∧
    (s'.σ x ≠ some .unknown → s.σ x ≠ some .unknown ∧ ∀ v, Val W s'.σ x v → Val W s.σ x v ∨ ∃ z, G x z ∧ Desc W z v)

theorem adds_refl (s : St) {G : Var → Ty → Prop} (h : ∀ x z, ¬ G x z) : Adds W s s G := by
  intro x
  refine ⟨⟨fun e => ⟨e, h x⟩, fun e => e.1⟩, fun v hv => ?_, fun hu => ⟨hu, fun v hv => .inl hv⟩⟩
  rcases hv with hv | ⟨z, hz, _⟩
  · exact hv
  · exact absurd hz (h x z)

theorem adds_trans {s s' s'' : St} {G H : Var → Ty → Prop} (h1 : Adds W s s' G) (h2 : Adds W s' s'' H) :
    Adds W s s'' (fun x z => G x z ∨ H x z) := by
  intro x
  obtain ⟨a1, a2, a3⟩ := h1 x
  obtain ⟨b1, b2, b3⟩ := h2 x
  refine ⟨?_, ?_, ?_⟩
  · rw [b1, a1]
    constructor
    · rintro ⟨⟨h, hG⟩, hH⟩; exact ⟨h, fun z hz => hz.elim (hG z) (hH z)⟩
    · rintro ⟨h, hz⟩; exact ⟨⟨h, fun z hG => hz z (.inl hG)⟩, fun z hH => hz z (.inr hH)⟩
  · rintro v (hv | ⟨z, hG | hH, hd⟩)
    · exact b2 v (.inl (a2 v (.inl hv)))
    · exact b2 v (.inl (a2 v (.inr ⟨z, hG, hd⟩)))
    · exact b2 v (.inr ⟨z, hH, hd⟩)
  · intro hu
    obtain ⟨c1, c2⟩ := b3 hu
    obtain ⟨d1, d2⟩ := a3 c1
    refine ⟨d1, fun v hv => ?_⟩
    rcases c2 v hv with hv | ⟨z, hz, hd⟩
    · rcases d2 v hv with hv | ⟨z, hz, hd⟩
      · exact .inl hv
      · exact .inr ⟨z, .inl hz, hd⟩
    · exact .inr ⟨z, .inr hz, hd⟩

/-- What `G` gives may be said in another way. -/
theorem adds_congr {s s' : St} {G H : Var → Ty → Prop} (h : Adds W s s' G) (hn : ∀ x, (∃ z, G x z) ↔ ∃ z, H x z)
    (hd : ∀ x v, (∃ z, G x z ∧ Desc W z v) ↔ ∃ z, H x z ∧ Desc W z v) : Adds W s s' H := by
  intro x
  obtain ⟨a1, a2, a3⟩ := h x
  have hn' : (∀ z, ¬ G x z) ↔ ∀ z, ¬ H x z := by
    rw [← not_exists, ← not_exists, hn x]
  refine ⟨by rw [a1, hn'], fun v hv => a2 v (by rw [hd x v]; exact hv), fun hu => ⟨(a3 hu).1, fun v hv => ?_⟩⟩
  have := (a3 hu).2 v hv
  rwa [hd x v] at this

theorem bindVar_ok {x : Var} {a : Ty} {s s' : St} (h : bindVar x a s = .ok s') :
    hasUnknown a = false ∧ s.n + 1 ≤ maxIterations ∧ s'.n = s.n + 1 ∧
    ∃ next, s'.σ = s.σ.set x next ∧ tooWide next = false ∧ ((s.σ x = none ∧ next = a) ∨ ∃ e, s.σ x = some e ∧ next = mkUnion [e, a]) := by
  unfold bindVar at h
  split at h
  · cases h
  · rename_i h1
    split at h
    · cases h
    · rename_i h2
      cases e : s.σ x with
      | none =>
        simp only [e] at h
        by_cases h3 : tooWide a = true
        · rw [if_pos h3] at h; cases h
        · rw [if_neg h3] at h
          cases h
          exact ⟨by simpa using h1, by omega, rfl, _, rfl, by simpa using h3, .inl ⟨rfl, rfl⟩⟩
      | some t =>
        simp only [e] at h
        by_cases h3 : tooWide (mkUnion [t, a]) = true
        · rw [if_pos h3] at h; cases h
        · rw [if_neg h3] at h
          cases h
          exact ⟨by simpa using h1, by omega, rfl, _, rfl, by simpa using h3, .inr ⟨t, rfl, rfl⟩⟩

theorem set_self (σ : Subst) (x : Var) (t : Ty) : σ.set x t x = some t := by simp [Subst.set]
theorem set_other (σ : Subst) {x y : Var} (t : Ty) (h : y ≠ x) : σ.set x t y = σ y := by simp [Subst.set, h]

theorem bindVar_adds {x : Var} {a : Ty} {s s' : St} (h : bindVar x a s = .ok s') : Adds W s s' (fun y z => y = x ∧ z = a) := by
  obtain ⟨hu, -, -, next, hs, -, hn⟩ := bindVar_ok h
  intro y
  rw [hs]
  by_cases hy : y = x
  · subst hy
    rw [set_self]
    have hval : ∀ v, Val W (s.σ.set y next) y v ↔ Desc W next v := by
      intro v
      simp [Val, set_self]
    refine ⟨⟨fun h => (by cases h), fun h => absurd ⟨rfl, rfl⟩ (h.2 a)⟩, ?_, ?_⟩
    · intro v hv
      rw [hval]
      rcases hn with ⟨e, rfl⟩ | ⟨e, he, rfl⟩
      · rcases hv with ⟨t, ht, _⟩ | ⟨z, ⟨-, rfl⟩, hd⟩
        · rw [e] at ht; cases ht
        · exact hd
      · apply desc_union_of
        rcases hv with ⟨t, ht, hd⟩ | ⟨z, ⟨-, rfl⟩, hd⟩
        · rw [he] at ht; cases ht
          exact .inl hd
        · exact .inr (.inl hd)
    · intro hne
      rcases hn with ⟨e, rfl⟩ | ⟨e, he, rfl⟩
      · refine ⟨by simp [e], fun v hv => ?_⟩
        rw [hval] at hv
        exact .inr ⟨_, ⟨rfl, rfl⟩, hv⟩
      · have hne' : mkUnion [e, a] ≠ .unknown := fun h => hne (by rw [h])
        refine ⟨?_, fun v hv => ?_⟩
        · intro h
          rw [he] at h
          cases h
          exact hne' ((c21_unknown_iff _).mpr (.inl ⟨.unknown, by simp, .self (fun _ h => by cases h)⟩))
        · rw [hval] at hv
          rcases desc_of_union hne' hv with hd | hd | hd
          · exact .inl ⟨e, he, hd⟩
          · exact .inr ⟨_, ⟨rfl, rfl⟩, hd⟩
          · cases hd
  · rw [set_other _ _ hy]
    have hval : ∀ v, Val W (s.σ.set x next) y v ↔ Val W s.σ y v := by
      intro v
      simp [Val, set_other _ _ hy]
    refine ⟨⟨fun h => ⟨h, fun z hz => hy hz.1⟩, fun h => h.1⟩, fun v hv => ?_, fun hu => ⟨hu, fun v hv => .inl ((hval v).mp hv)⟩⟩
    rw [hval]
    rcases hv with hv | ⟨z, hz, _⟩
    · exact hv
    · exact absurd hz.1 hy

theorem test_ok {r : Res} {b : Bool} : test r = .ok b ↔ r = .ok b := by
  cases r <;> simp [test]

theorem mem_varsOf {ms : List Tmpl} {x : Var} : x ∈ varsOf ms ↔ .var x ∈ ms := by
  simp only [varsOf, List.mem_filterMap]
  constructor
  · rintro ⟨m, hm, h⟩
    cases m with
    | var y => cases h; exact hm
    | _ => cases h
  · intro h
    exact ⟨_, h, rfl⟩

/-- `self` has been replaced in the members. -/
theorem taken_ok {recv : Option Ty} {ms : List Tmpl} {y : Ty} {b : Bool} (hs : ∀ m ∈ ms, m ≠ .receiver) (h : taken ms y = .ok b) :
    b = true ↔ ∃ m ∈ ms, Takes recv m y := by
  induction ms with
  | nil => simp only [taken] at h; cases h; simp
  | cons m ms ih =>
    have hs' : ∀ m ∈ ms, m ≠ .receiver := fun m hm => hs m (by simp [hm])
    have skip : taken ms y = .ok b → (¬ Takes recv m y) → (b = true ↔ ∃ m' ∈ m :: ms, Takes recv m' y) := by
      intro h hm
      rw [ih hs' h]
      simp [hm]
    cases m with
    | concrete e =>
      simp only [taken, bind_ok, test_ok] at h
      obtain ⟨c, hc, h⟩ := h
      cases c with
      | true =>
        rw [if_pos rfl] at h
        cases h
        exact ⟨fun _ => ⟨_, by simp, .concrete hc⟩, fun _ => rfl⟩
      | false =>
        rw [if_neg (by simp)] at h
        refine skip h (fun ht => ?_)
        cases ht with
        | concrete hc' => rw [hc] at hc'; cases hc'
    | unconstrained =>
      simp only [taken] at h
      cases h
      exact ⟨fun _ => ⟨_, by simp, .unconstrained⟩, fun _ => rfl⟩
    | receiver => exact absurd rfl (hs _ (by simp))
    | var x => exact skip h (fun ht => (by cases ht))
    | array e => exact skip h (fun ht => (by cases ht))
    | hash k v => exact skip h (fun ht => (by cases ht))
    | union us => exact skip h (fun ht => (by cases ht))

theorem unmatched_ok {recv : Option Ty} {ms : List Tmpl} (hs : ∀ m ∈ ms, m ≠ .receiver) : ∀ {l us : List Ty}, unmatched ms l = .ok us →
    ∀ y, y ∈ us ↔ y ∈ l ∧ ∀ m ∈ ms, ¬ Takes recv m y := by
  intro l
  induction l with
  | nil => intro us h y; simp only [unmatched] at h; cases h; simp
  | cons a l ih =>
    intro us h y
    simp only [unmatched, bind_ok] at h
    obtain ⟨b, hb, us', hus, h⟩ := h
    cases h
    have ht := taken_ok (recv := recv) hs hb
    have := ih hus y
    cases b with
    | true =>
      rw [if_pos rfl, this, List.mem_cons]
      obtain ⟨m, hm, hma⟩ := ht.mp rfl
      constructor
      · rintro ⟨h1, h2⟩; exact ⟨.inr h1, h2⟩
      · rintro ⟨rfl | h1, h2⟩
        · exact absurd hma (h2 m hm)
        · exact ⟨h1, h2⟩
    | false =>
      rw [if_neg (by simp), List.mem_cons, this, List.mem_cons]
      have hno : ∀ m ∈ ms, ¬ Takes recv m a := fun m hm hma => (by cases ht.mpr ⟨m, hm, hma⟩)
      constructor
      · rintro (rfl | ⟨h1, h2⟩)
        · exact ⟨.inl rfl, hno⟩
        · exact ⟨.inr h1, h2⟩
      · rintro ⟨rfl | h1, h2⟩
        · exact .inl rfl
        · exact .inr ⟨h1, h2⟩

/-- `constrainUnion`, when it succeeds. -/
theorem constrainUnion_ok {recv : Option Ty} {ms : List Tmpl} (hs : ∀ m ∈ ms, m ≠ .receiver) {a : Ty} {s s' : St} (h : constrainUnion ms a s = .ok s') :
    ∃ us, (∀ y, y ∈ us ↔ AltOf a y ∧ ∀ m ∈ ms, ¬ Takes recv m y) ∧
      ((us = [] ∧ s' = s) ∨ ∃ x, us ≠ [] ∧ (∀ y, .var y ∈ ms ↔ y = x) ∧ bindVar x (mkUnion us) s = .ok s') := by
  unfold constrainUnion at h
  split at h
  · cases h
  · rename_i h1
    simp only [bind_ok] at h
    obtain ⟨us, hus, h⟩ := h
    refine ⟨us, fun y => by rw [unmatched_ok (recv := recv) hs hus, mem_membersOf], ?_⟩
    cases hv : varsOf ms with
    | nil =>
      simp only [hv] at h
      cases us with
      | nil => cases h; exact .inl ⟨rfl, rfl⟩
      | cons => cases h
    | cons x l =>
      simp only [hv] at h
      cases us with
      | nil => cases h; exact .inl ⟨rfl, rfl⟩
      | cons u us =>
        refine .inr ⟨x, by simp, fun y => ?_, h⟩
        rw [← mem_varsOf, hv]
        have : l = [] := by
          rw [hv] at h1
          simp only [List.length_cons] at h1
          exact List.length_eq_zero_iff.mp (by omega)
        simp [this]

theorem constrain_known {t : Tmpl} {a : Ty} {why : Reason} {s s' : St} (h : constrain t a why s = .ok s') : hasUnknown a = false := by
  unfold constrain at h
  split at h
  · cases h
  · rename_i h'; simpa using h'

theorem constrain_array {e : Tmpl} {a : Ty} {why : Reason} {s s' : St} (h : constrain (.array e) a why s = .ok s') :
    ∃ es, a = .array es ∧ constrain e (mkUnion es) why s = .ok s' := by
  cases a with
  | array es =>
    refine ⟨es, rfl, ?_⟩
    rw [constrain] at h
    split at h
    · cases h
    · exact h
  | _ =>
    unfold constrain at h
    split at h <;> cases h

theorem constrain_hash {k v : Tmpl} {a : Ty} {why : Reason} {s s' : St} (h : constrain (.hash k v) a why s = .ok s') :
    ∃ ks vs, (a = .hash ks vs ∨ ∃ fs r o z d, a = .shape fs r o z d ∧ genericHash fs r o = some (.hash ks vs)) ∧
      ∃ s1, constrain k (mkUnion ks) why s = .ok s1 ∧ constrain v (mkUnion vs) why s1 = .ok s' := by
  cases a with
  | hash ks vs =>
    refine ⟨ks, vs, .inl rfl, ?_⟩
    rw [constrain] at h
    split at h
    · cases h
    · exact bind_ok.mp h
  | shape fs r o z d =>
    rw [constrain] at h
    split at h
    · cases h
    · split at h
      · rename_i ks vs hg
        exact ⟨ks, vs, .inr ⟨_, _, _, _, _, rfl, hg⟩, bind_ok.mp h⟩
      · cases h
  | _ =>
    unfold constrain at h
    split at h <;> cases h

theorem constrain_union {ms : List Tmpl} {a : Ty} {why : Reason} {s s' : St} (h : constrain (.union ms) a why s = .ok s') :
    constrainUnion ms a s = .ok s' := by
  rw [constrain] at h
  split at h
  · cases h
  · exact h

theorem noSelf_members {ms : List Tmpl} (h : NoSelf (.union ms)) : ∀ m ∈ ms, m ≠ .receiver := by
  intro m hm e
  cases h with
  | union h => have := h m hm; rw [e] at this; cases this

/-- Comparing a type with a template adds what `Gives` says. -/
theorem constrain_adds {recv : Option Ty} {why : Reason} : ∀ t, NoSelf t → ∀ a s s', constrain t a why s = .ok s' → Adds W s s' (fun x z => Gives recv x t a z) := by
  refine Tmpl.ind ?_ ?_ ?_ ?_ ?_ ?_ ?_
  · intro e _ a s s' h
    have : s' = s := by
      rw [constrain] at h
      split at h
      · cases h
      · simp only [bind_ok] at h
        obtain ⟨b, _, h⟩ := h
        cases b with
        | true => cases h; rfl
        | false => cases h
    rw [this]
    exact adds_refl s (fun x z h => (by cases h))
  · intro h; cases h
  · intro x _ a s s' h
    have h : bindVar x a s = .ok s' := by
      rw [constrain] at h
      split at h
      · cases h
      · exact h
    refine adds_congr (bindVar_adds h) ?_ ?_
    · intro y
      constructor
      · rintro ⟨z, rfl, rfl⟩; exact ⟨_, .var⟩
      · rintro ⟨z, h⟩; cases h; exact ⟨_, rfl, rfl⟩
    · intro y v
      constructor
      · rintro ⟨z, ⟨rfl, rfl⟩, hd⟩; exact ⟨_, .var, hd⟩
      · rintro ⟨z, h, hd⟩; cases h; exact ⟨_, ⟨rfl, rfl⟩, hd⟩
  · intro e ih hs a s s' h
    cases hs with
    | array hs =>
      obtain ⟨es, rfl, hc⟩ := constrain_array h
      refine adds_congr (ih hs _ s s' hc) ?_ ?_
      · intro y
        exact ⟨fun ⟨z, h⟩ => ⟨z, .array h⟩, fun ⟨z, h⟩ => (by cases h with | array h => exact ⟨z, h⟩)⟩
      · intro y v
        exact ⟨fun ⟨z, h, hd⟩ => ⟨z, .array h, hd⟩, fun ⟨z, h, hd⟩ => (by cases h with | array h => exact ⟨z, h, hd⟩)⟩
  · intro k w ihk ihw hs a s s' h
    cases hs with
    | hash hk hw =>
      obtain ⟨ks, vs, ha, s1, h1, h2⟩ := constrain_hash h
      have hiff : ∀ x z, Gives recv x (.hash k w) a z ↔ Gives recv x k (mkUnion ks) z ∨ Gives recv x w (mkUnion vs) z := by
        intro x z
        have base : Gives recv x (.hash k w) (.hash ks vs) z ↔ Gives recv x k (mkUnion ks) z ∨ Gives recv x w (mkUnion vs) z := by
          constructor
          · intro h
            cases h with
            | key h => exact .inl h
            | value h => exact .inr h
          · rintro (h | h)
            · exact .key h
            · exact .value h
        rcases ha with rfl | ⟨fs, r, o, zz, d, rfl, hg⟩
        · exact base
        · rw [← base]
          constructor
          · intro h
            cases h with
            | shape hg' h => rw [hg] at hg'; cases hg'; exact h
          · intro h; exact .shape hg h
      refine adds_congr (adds_trans (ihk hk _ s s1 h1) (ihw hw _ s1 s' h2)) ?_ ?_
      · intro y; simp only [hiff]
      · intro y v; simp only [hiff]
  · intro ms _ hs a s s' h
    obtain ⟨us, hus, h⟩ := constrainUnion_ok (recv := recv) (noSelf_members hs) (constrain_union h)
    rcases h with ⟨rfl, rfl⟩ | ⟨x, hne, hx, h⟩
    · refine adds_refl s' (fun x z h => ?_)
      cases h with
      | union h1 h2 h3 => have := (hus z).mpr ⟨h2, h3⟩; simp at this
    · have hknown := (bindVar_ok h).1
      refine adds_congr (bindVar_adds h) ?_ ?_
      · intro y
        constructor
        · rintro ⟨z, rfl, rfl⟩
          obtain ⟨u, hu⟩ := List.exists_mem_of_ne_nil us hne
          have := (hus u).mp hu
          exact ⟨u, .union ((hx y).mpr rfl) this.1 this.2⟩
        · rintro ⟨z, h⟩
          cases h with
          | union h1 h2 h3 => exact ⟨_, (hx y).mp h1, rfl⟩
      · intro y v
        constructor
        · rintro ⟨z, ⟨rfl, rfl⟩, hd⟩
          obtain ⟨u, hu, hd⟩ := descAny_iff.mp (desc_of_union (ne_unknown hknown) hd)
          have := (hus u).mp hu
          exact ⟨u, .union ((hx y).mpr rfl) this.1 this.2, hd⟩
        · rintro ⟨z, h, hd⟩
          cases h with
          | union h1 h2 h3 =>
            exact ⟨_, ⟨(hx y).mp h1, rfl⟩, desc_union_of (descAny_iff.mpr ⟨z, (hus z).mpr ⟨h2, h3⟩, hd⟩)⟩
  · intro _ a s s' h
    have : s' = s := by
      rw [constrain] at h
      split at h
      · cases h
      · cases h; rfl
    rw [this]
    exact adds_refl s (fun x z h => (by cases h))

/-- The values of a type that was compared with a template are described by the template, if the variables stand for what they
are given. -/
theorem constrain_covers {recv : Option Ty} {why : Reason} {R : W.V → Prop} : ∀ t, NoSelf t → ∀ a s s', constrain t a why s = .ok s' →
    Honest W recv t a → ∀ v, Desc W a v → TDesc W R (fun x v => ∃ z, Gives recv x t a z ∧ Desc W z v) t v := by
  refine Tmpl.ind ?_ ?_ ?_ ?_ ?_ ?_ ?_
  · intro e _ a s s' _ hh v hd; exact hh v hd
  · intro h; cases h
  · intro x _ a s s' _ _ v hd; exact ⟨a, .var, hd⟩
  · intro e ih hs a s s' h hh v hd
    cases hs with
    | array hs =>
      obtain ⟨es, rfl, hc⟩ := constrain_array h
      simp only [TDesc]
      simp only [Desc] at hd
      refine ⟨hd.1, fun x hx => ?_⟩
      refine tdesc_mono e ?_ x (ih hs _ s s' hc (hh es rfl) x (desc_union_of (hd.2 x hx)))
      rintro y _ w ⟨z, hz, hw⟩
      exact ⟨z, .array hz, hw⟩
  · intro k w ihk ihw hs a s s' h hh v hd
    cases hs with
    | hash hk hw =>
      obtain ⟨ks, vs, ha, s1, h1, h2⟩ := constrain_hash h
      obtain ⟨hhk, hhw⟩ := hh ks vs ha
      have hd' : Desc W (.hash ks vs) v := by
        rcases ha with rfl | ⟨fs, r, o, zz, d, rfl, hg⟩
        · exact hd
        · exact c43_generic_hash_sound hg hd
      have lift : ∀ y z, Gives recv y (.hash k w) (.hash ks vs) z → Gives recv y (.hash k w) a z := by
        intro y z hz
        rcases ha with rfl | ⟨fs, r, o, zz, d, rfl, hg⟩
        · exact hz
        · exact .shape hg hz
      simp only [TDesc]
      simp only [Desc] at hd'
      refine ⟨hd'.1, fun p q hpq => ⟨?_, ?_⟩⟩
      · refine tdesc_mono k ?_ p (ihk hk _ s s1 h1 hhk p (desc_union_of (hd'.2 p q hpq).1))
        rintro y _ u ⟨z, hz, hu⟩
        exact ⟨z, lift y z (.key hz), hu⟩
      · refine tdesc_mono w ?_ q (ihw hw _ s1 s' h2 hhw q (desc_union_of (hd'.2 p q hpq).2))
        rintro y _ u ⟨z, hz, hu⟩
        exact ⟨z, lift y z (.value hz), hu⟩
  · intro ms _ hs a s s' h hh v hd
    obtain ⟨us, hus, h⟩ := constrainUnion_ok (recv := recv) (noSelf_members hs) (constrain_union h)
    obtain ⟨y, hy, hd⟩ := desc_alt.mp hd
    simp only [TDesc, tdescAny_iff]
    by_cases ht : ∃ m ∈ ms, Takes recv m y
    · rcases hh y hy ht with hm | ⟨e, hm, he⟩ | ⟨hm, -⟩
      · exact ⟨_, hm, by simp [TDesc]⟩
      · exact ⟨_, hm, by simp only [TDesc]; exact he v hd⟩
      · exact absurd rfl (noSelf_members hs _ hm)
    · have hno : ∀ m ∈ ms, ¬ Takes recv m y := fun m hm h => ht ⟨m, hm, h⟩
      have hyu := (hus y).mpr ⟨hy, hno⟩
      rcases h with ⟨rfl, rfl⟩ | ⟨x, hne, hx, h⟩
      · simp at hyu
      · exact ⟨_, (hx x).mpr rfl, by simp only [TDesc]; exact ⟨y, .union ((hx x).mpr rfl) hy hno, hd⟩⟩
  · intro _ a s s' _ _ v _; trivial

/-! ### the types found -/

theorem resolveList_ok {σ : Subst} {d : Nat} {ms : List Tmpl} {ts : List Ty} : resolveList σ d ms = .ok ts ↔ List.Forall₂ (fun m t => resolve σ d m = .ok t) ms ts := by
  induction ms generalizing ts with
  | nil => simp only [resolveList, List.forall₂_nil_left_iff, Out.ok.injEq]; exact eq_comm
  | cons a l ih =>
    simp only [resolveList, bind_ok, List.forall₂_cons_left_iff]
    constructor
    · rintro ⟨b, hb, bs', hbs, e⟩
      cases e
      exact ⟨b, bs', hb, ih.mp hbs, rfl⟩
    · rintro ⟨b, bs', hb, hbs, rfl⟩
      exact ⟨b, hb, bs', ih.mpr hbs, rfl⟩

/-- A type read off a template describes exactly the values the template describes. -/
theorem resolve_desc {σ : Subst} {R : W.V → Prop} : ∀ t d T, resolve σ d t = .ok T →
    (∀ v, TDesc W R (Val W σ) t v → Desc W T v) ∧
    (hasUnknown T = false → (∀ x, Occ x t → σ x ≠ some .unknown) ∧ ∀ v, Desc W T v → TDesc W R (Val W σ) t v) := by
  refine Tmpl.ind ?_ ?_ ?_ ?_ ?_ ?_ ?_
  · intro t d T h
    simp only [resolve] at h
    split at h
    · cases h
    · cases h
      exact ⟨fun v h => h, fun _ => ⟨fun x hx => (by cases hx), fun v h => h⟩⟩
  · intro d T h
    simp only [resolve] at h
    split at h <;> cases h
  · intro x d T h
    simp only [resolve] at h
    split at h
    · cases h
    · split at h
      · rename_i t ht
        cases h
        refine ⟨?_, fun hu => ⟨?_, fun v hd => ⟨_, ht, hd⟩⟩⟩
        · rintro v ⟨t', ht', hd⟩
          rw [ht] at ht'; cases ht'; exact hd
        · intro y hy e
          cases hy
          rw [ht] at e
          cases e
          simp [hasUnknown] at hu
      · cases h
  · intro e ih d T h
    simp only [resolve] at h
    split at h
    · cases h
    · simp only [bind_ok] at h
      obtain ⟨t, ht, h⟩ := h
      cases h
      obtain ⟨i1, i2⟩ := ih _ t ht
      refine ⟨fun v hd => ?_, fun hu => ?_⟩
      · simp only [TDesc] at hd
        simp only [Desc, DescAny, or_false]
        exact ⟨hd.1, fun x hx => i1 x (hd.2 x hx)⟩
      · simp only [hasUnknown, hasUnknownList, Bool.or_false] at hu
        obtain ⟨j1, j2⟩ := i2 hu
        refine ⟨fun x hx => (by cases hx with | array hx => exact j1 x hx), fun v hd => ?_⟩
        simp only [Desc, DescAny, or_false] at hd
        simp only [TDesc]
        exact ⟨hd.1, fun x hx => j2 x (hd.2 x hx)⟩
  · intro k w ihk ihw d T h
    simp only [resolve] at h
    split at h
    · cases h
    · simp only [bind_ok] at h
      obtain ⟨a, ha, b, hb, h⟩ := h
      cases h
      obtain ⟨i1, i2⟩ := ihk _ a ha
      obtain ⟨i3, i4⟩ := ihw _ b hb
      refine ⟨fun v hd => ?_, fun hu => ?_⟩
      · simp only [TDesc] at hd
        simp only [Desc, DescAny, or_false]
        exact ⟨hd.1, fun x y hxy => ⟨i1 x (hd.2 x y hxy).1, i3 y (hd.2 x y hxy).2⟩⟩
      · simp only [hasUnknown, hasUnknownList, Bool.or_false, Bool.or_eq_false_iff] at hu
        obtain ⟨j1, j2⟩ := i2 hu.1
        obtain ⟨j3, j4⟩ := i4 hu.2
        refine ⟨fun x hx => (by cases hx with | key hx => exact j1 x hx | value hx => exact j3 x hx), fun v hd => ?_⟩
        simp only [Desc, DescAny, or_false] at hd
        simp only [TDesc]
        exact ⟨hd.1, fun x y hxy => ⟨j2 x (hd.2 x y hxy).1, j4 y (hd.2 x y hxy).2⟩⟩
  · intro ms ih d T h
    simp only [resolve] at h
    split at h
    · cases h
    · split at h
      · cases h
      · simp only [bind_ok] at h
        obtain ⟨ts, hts, h⟩ := h
        cases h
        rw [resolveList_ok] at hts
        refine ⟨fun v hd => ?_, fun hu => ?_⟩
        · simp only [TDesc, tdescAny_iff] at hd
          obtain ⟨m, hm, hd⟩ := hd
          obtain ⟨t, ht, e⟩ := forall₂_left hts hm
          exact desc_union_of (descAny_iff.mpr ⟨t, ht, (ih m hm _ t e).1 v hd⟩)
        · have hk := union_known hu
          refine ⟨fun x hx => ?_, fun v hd => ?_⟩
          · cases hx with
            | union hm hx =>
              obtain ⟨t, ht, e⟩ := forall₂_left hts hm
              exact ((ih _ hm _ t e).2 (hk t ht)).1 x hx
          · obtain ⟨t, ht, hd⟩ := descAny_iff.mp (desc_of_union (ne_unknown hu) hd)
            obtain ⟨m, hm, e⟩ := forall₂_back hts ht
            simp only [TDesc, tdescAny_iff]
            exact ⟨m, hm, ((ih m hm _ t e).2 (hk t ht)).2 v hd⟩
  · intro d T h
    simp only [resolve] at h
    split at h <;> cases h

end Verif.HigherOrder
