import Verif.Spec.Tarjan
import Verif.Lemmas.Sort
import Mathlib.Tactic.Push
/-! Tarjan's algorithm: the invariant, and what a visit does. -/
namespace Verif.Tarjan
open Relation

def num (t : T) (x : Nat) : Nat := (t.index x).getD 0

/-- `G` are the methods being visited. -/
structure Inv (g : Nat → List Nat) (keys : List Nat) (G : Nat → Prop) (t : T) : Prop where
  on : ∀ x, t.on x = true ↔ x ∈ t.stack
  desc : t.stack.Pairwise (fun a b => num t b < num t a)
  lt : ∀ x i, t.index x = some i → i < t.next
  known : ∀ x, t.index x ≠ none ↔ x ∈ t.stack ∨ x ∈ t.comps.flatten
  sub : ∀ x, t.index x ≠ none → x ∈ keys
  disj : ∀ x ∈ t.stack, x ∉ t.comps.flatten
  gray : ∀ x, G x → x ∈ t.stack
  explored : ∀ x ∈ t.stack, ¬ G x → ∀ y ∈ g x, t.index y ≠ none
  up : ∀ x y, G x → y ∈ t.stack → num t x ≤ num t y → Reach g x y
  down : ∀ y ∈ t.stack, ∃ x, G x ∧ num t x ≤ num t y ∧ Reach g y x
  comp : ∀ c ∈ t.comps, IsComponent g c
  nodup : t.comps.flatten.Nodup
  topo : ∀ a c b, t.comps = a ++ c :: b → ∀ x ∈ c, ∀ y ∈ g x, y ∈ a.flatten ∨ y ∈ c

/-- What stays as it is. -/
structure Ext (t t' : T) : Prop where
  index : ∀ x i, t.index x = some i → t'.index x = some i
  low : ∀ x, t.index x ≠ none → t'.low x = t.low x
  comps : ∃ l, t'.comps = t.comps ++ l

theorem Ext.refl (t : T) : Ext t t := ⟨fun _ _ h => h, fun _ _ => rfl, [], by simp⟩

theorem Ext.known {t t' : T} (h : Ext t t') {x : Nat} (hx : t.index x ≠ none) : t'.index x ≠ none := by
  cases hi : t.index x with
  | none => exact absurd hi hx
  | some i => rw [h.index x i hi]; simp

theorem Ext.num {t t' : T} (h : Ext t t') {x : Nat} (hx : t.index x ≠ none) : num t' x = num t x := by
  cases hi : t.index x with
  | none => exact absurd hi hx
  | some i => simp [Tarjan.num, h.index x i hi, hi]

theorem Ext.trans {a b c : T} (h : Ext a b) (h' : Ext b c) : Ext a c := by
  refine ⟨fun x i hi => h'.index x i (h.index x i hi), fun x hx => (h'.low x (h.known hx)).trans (h.low x hx), ?_⟩
  obtain ⟨l, hl⟩ := h.comps
  obtain ⟨l', hl'⟩ := h'.comps
  exact ⟨l ++ l', by rw [hl', hl, List.append_assoc]⟩

/-- After visiting `v`. -/
structure Post (g : Nat → List Nat) (keys : List Nat) (G : Nat → Prop) (v : Nat) (t t' : T) : Prop where
  inv : Inv g keys G t'
  ext : Ext t t'
  idx : t'.index v = some t.next
  res : ∃ s n, t'.stack = s ++ t.stack ∧ t'.low v = some n ∧ n ≤ t.next ∧
    (v ∈ t'.stack → ∃ y ∈ t'.stack, num t' y = n ∧ Reach g v y) ∧ (v ∉ t'.stack → n = t.next) ∧
    ∀ x ∈ s, ∀ y ∈ t.stack, y ∈ g x → n ≤ num t' y

/-- While visiting `v`, after the dependencies `done`. -/
structure During (g : Nat → List Nat) (keys : List Nat) (G : Nat → Prop) (v : Nat) (t0 : T) (done : List Nat) (t : T) : Prop where
  inv : Inv g keys (fun x => x = v ∨ G x) t
  ext : Ext t0 t
  idx : t.index v = some t0.next
  res : ∃ s n, t.stack = s ++ v :: t0.stack ∧ t.low v = some n ∧ n ≤ t0.next ∧ (∃ y ∈ t.stack, num t y = n ∧ Reach g v y) ∧
    (∀ x ∈ s, ∀ y ∈ t0.stack, y ∈ g x → n ≤ num t y) ∧ ∀ d ∈ done, t.index d ≠ none ∧ (d ∈ t0.stack → n ≤ num t d)

variable {g : Nat → List Nat} {keys : List Nat} {G : Nat → Prop}

theorem Inv.onStack {t : T} (h : Inv g keys G t) {x : Nat} (hx : x ∈ t.stack) : t.index x ≠ none := (h.known x).mpr (.inl hx)

theorem Inv.num_lt {t : T} (h : Inv g keys G t) {x : Nat} (hx : t.index x ≠ none) : num t x < t.next := by
  cases hi : t.index x with
  | none => exact absurd hi hx
  | some i => simpa [num, hi] using h.lt x i hi

theorem Inv.closed {t : T} (h : Inv g keys G t) {x y : Nat} (hx : x ∈ t.comps.flatten) (hy : y ∈ g x) : y ∈ t.comps.flatten := by
  obtain ⟨c, hc, hxc⟩ := List.mem_flatten.mp hx
  obtain ⟨a, b, hab⟩ := List.append_of_mem hc
  rcases h.topo a c b hab x hxc y hy with h1 | h1
  · rw [hab, List.flatten_append]; exact List.mem_append_left _ h1
  · rw [hab, List.flatten_append, List.flatten_cons]; exact List.mem_append_right _ (List.mem_append_left _ h1)

theorem Inv.closedReach {t : T} (h : Inv g keys G t) {x y : Nat} (hx : x ∈ t.comps.flatten) (hy : Reach g x y) :
    y ∈ t.comps.flatten := by
  induction hy with
  | refl => exact hx
  | tail _ e ih => exact h.closed ih e

theorem Inv.congr {t t' : T} (h : Inv g keys G t) (h1 : t'.index = t.index) (h2 : t'.stack = t.stack) (h3 : t'.on = t.on)
    (h4 : t'.comps = t.comps) (h5 : t'.next = t.next) : Inv g keys G t' := by
  have hn : ∀ x, num t' x = num t x := fun x => by simp [num, h1]
  constructor
  · intro x; rw [h2, h3]; exact h.on x
  · rw [h2]; simp only [hn]; exact h.desc
  · rw [h1, h5]; exact h.lt
  · rw [h1, h2, h4]; exact h.known
  · rw [h1]; exact h.sub
  · rw [h2, h4]; exact h.disj
  · rw [h2]; exact h.gray
  · rw [h2, h1]; exact h.explored
  · intro x y; rw [h2, hn, hn]; exact h.up x y
  · intro y; rw [h2]; intro hy
    obtain ⟨x, hx⟩ := h.down y hy
    exact ⟨x, by rw [hn, hn]; exact hx⟩
  · rw [h4]; exact h.comp
  · rw [h4]; exact h.nodup
  · rw [h4]; exact h.topo

/-! ### starting a visit -/

theorem enter_during {t : T} (h : Inv g keys G t) {v : Nat} (hv : v ∈ keys) (hn : t.index v = none) (hr : ∀ x, G x → Reach g x v) :
    During g keys G v t [] (enter v t) := by
  have hold : ∀ x, x ≠ v → (enter v t).index x = t.index x := fun x hx => by simp [enter, put, hx]
  have hnew : (enter v t).index v = some t.next := by simp [enter, put]
  have hne : ∀ x, t.index x ≠ none → x ≠ v := fun x hx e => hx (e ▸ hn)
  have hnum : ∀ x, t.index x ≠ none → num (enter v t) x = num t x := fun x hx => by simp [num, hold x (hne x hx)]
  have hnv : num (enter v t) v = t.next := by simp [num, hnew]
  have hst : (enter v t).stack = v :: t.stack := rfl
  have hcm : (enter v t).comps = t.comps := rfl
  have hvs : v ∉ t.stack := fun hx => h.onStack hx hn
  have hvc : v ∉ t.comps.flatten := fun hx => ((h.known v).mpr (.inr hx)) hn
  constructor
  · constructor
    · intro x
      rw [hst, List.mem_cons]
      by_cases hx : x = v
      · simp [enter, put, hx]
      · simp [enter, put, hx, h.on x]
    · rw [hst, List.pairwise_cons]
      constructor
      · intro y hy
        rw [hnv, hnum y (h.onStack hy)]
        exact h.num_lt (h.onStack hy)
      · refine h.desc.imp_of_mem (fun {a b} ha hb hab => ?_)
        rw [hnum a (h.onStack ha), hnum b (h.onStack hb)]; exact hab
    · intro x i hi
      show i < t.next + 1
      by_cases hx : x = v
      · subst hx; rw [hnew] at hi; cases hi; omega
      · rw [hold x hx] at hi; have := h.lt x i hi; omega
    · intro x
      rw [hst, hcm, List.mem_cons]
      by_cases hx : x = v
      · subst hx; simp [hnew]
      · rw [hold x hx, h.known]; simp [hx]
    · intro x hx'
      by_cases hx : x = v
      · exact hx ▸ hv
      · rw [hold x hx] at hx'; exact h.sub x hx'
    · intro x hx
      rw [hst, List.mem_cons] at hx
      rcases hx with rfl | hx
      · exact hvc
      · exact h.disj x hx
    · rintro x (rfl | hx)
      · exact List.mem_cons_self
      · exact List.mem_cons_of_mem _ (h.gray x hx)
    · intro x hx hg y hy
      rw [hst, List.mem_cons] at hx
      have hxv : x ≠ v := fun e => hg (.inl e)
      have hxs : x ∈ t.stack := hx.resolve_left hxv
      have := h.explored x hxs (fun hgx => hg (.inr hgx)) y hy
      rw [hold y (hne y this)]; exact this
    · intro x y hx hy hxy
      rw [hst, List.mem_cons] at hy
      rcases hy with rfl | hy
      · rcases hx with rfl | hx
        · exact .refl
        · exact hr x hx
      · rcases hx with rfl | hx
        · rw [hnv, hnum y (h.onStack hy)] at hxy
          have := h.num_lt (h.onStack hy); omega
        · rw [hnum x (h.onStack (h.gray x hx)), hnum y (h.onStack hy)] at hxy
          exact h.up x y hx hy hxy
    · intro y hy
      rw [hst, List.mem_cons] at hy
      rcases hy with rfl | hy
      · exact ⟨y, .inl rfl, Nat.le_refl _, .refl⟩
      · obtain ⟨x, hx, hxy, hr'⟩ := h.down y hy
        exact ⟨x, .inr hx, by rw [hnum x (h.onStack (h.gray x hx)), hnum y (h.onStack hy)]; exact hxy, hr'⟩
    · exact h.comp
    · exact h.nodup
    · exact h.topo
  · refine ⟨fun x i hi => ?_, fun x hx => ?_, [], by simp [hcm]⟩
    · rw [hold x (hne x (by rw [hi]; simp)), hi]
    · simp [enter, put, hne x hx]
  · exact hnew
  · exact ⟨[], t.next, rfl, by simp [enter, put], Nat.le_refl _, ⟨v, List.mem_cons_self, hnv, .refl⟩, by simp, by simp⟩

/-! ### the dependencies -/

theorem nodup_of_desc {t : T} (h : Inv g keys G t) : t.stack.Nodup :=
  h.desc.imp (fun hab e => by rw [e] at hab; omega)

theorem lowered_ext {t0 t : T} {v : Nat} (h : Ext t0 t) (hv : t0.index v = none) (m : Nat) :
    Ext t0 { t with low := put t.low v (some m) } := by
  refine ⟨h.index, fun x hx => ?_, h.comps⟩
  have : x ≠ v := fun e => hx (e ▸ hv)
  simp only [put, this, if_false]
  exact h.low x hx

/-- A dependency seen for the first time. -/
theorem during_visit {t0 t t' : T} {v d : Nat} {done : List Nat} (h : During g keys G v t0 done t) (hn : t0.index v = none)
    (hd : t.index d = none) (hdv : d ∈ g v) (p : Post g keys (fun x => x = v ∨ G x) d t t') :
    ∃ t'', lower v (t'.low d) t' = some t'' ∧ During g keys G v t0 (done ++ [d]) t'' := by
  obtain ⟨s, n, h1, h2, h3, ⟨y, hy, hyn, hyr⟩, h5, h6⟩ := h.res
  obtain ⟨s', n', p1, p2, p3, p4, p5, p6⟩ := p.res
  have hvk : t.index v ≠ none := by rw [h.idx]; simp
  have hlow : t'.low v = some n := by rw [p.ext.low v hvk, h2]
  refine ⟨{ t' with low := put t'.low v (some (min n n')) }, by simp [lower, p2, hlow], ?_⟩
  have hnumv : num t v = t0.next := by simp [num, h.idx]
  have hnext : t0.next < t.next := h.inv.lt v _ h.idx
  have hexts : Ext t0 t' := h.ext.trans p.ext
  have hnum' : ∀ x, num ({ t' with low := put t'.low v (some (min n n')) } : T) x = num t' x := fun _ => rfl
  constructor
  · exact p.inv.congr rfl rfl rfl rfl rfl
  · exact lowered_ext hexts hn _
  · exact p.ext.index v _ h.idx
  · refine ⟨s' ++ s, min n n', by rw [p1, h1]; simp, by simp [put], by omega, ?_, ?_, ?_⟩
    · simp only [hnum']
      have old : ∃ y ∈ t'.stack, num t' y = n ∧ Reach g v y :=
        ⟨y, by rw [p1]; exact List.mem_append_right _ hy, by rw [p.ext.num (h.inv.onStack hy)]; exact hyn, hyr⟩
      by_cases hds : d ∈ t'.stack
      · obtain ⟨z, hz, hzn, hzr⟩ := p4 hds
        by_cases hle : n ≤ n'
        · rw [show min n n' = n by omega]; exact old
        · rw [show min n n' = n' by omega]
          exact ⟨z, hz, hzn, .head hdv hzr⟩
      · have := p5 hds
        rw [show min n n' = n by omega]; exact old
    · intro x hx y hy hxy
      simp only [hnum']
      have hyk : t.index y ≠ none := h.inv.onStack (by rw [h1]; simp [hy])
      rcases List.mem_append.mp hx with hx | hx
      · have := p6 x hx y (by rw [h1]; simp [hy]) hxy; omega
      · have := h5 x hx y hy hxy
        rw [p.ext.num hyk]; omega
    · intro e he
      simp only [hnum']
      rcases List.mem_append.mp he with he | he
      · obtain ⟨k1, k2⟩ := h6 e he
        refine ⟨p.ext.known k1, fun hs => ?_⟩
        have := k2 hs
        rw [p.ext.num k1]; omega
      · rw [List.mem_singleton] at he; subst he
        refine ⟨?_, fun hs => ?_⟩
        · show t'.index e ≠ none
          rw [p.idx]; simp
        · exact absurd hd (h.inv.onStack (by rw [h1]; simp [hs]))

/-- A dependency on the stack. -/
theorem during_on {t0 t : T} {v d : Nat} {done : List Nat} (h : During g keys G v t0 done t) (hn : t0.index v = none)
    (hd : t.on d = true) (hdv : d ∈ g v) : ∃ t'', lower v (t.index d) t = some t'' ∧ During g keys G v t0 (done ++ [d]) t'' := by
  obtain ⟨s, n, h1, h2, h3, ⟨y, hy, hyn, hyr⟩, h5, h6⟩ := h.res
  have hds : d ∈ t.stack := (h.inv.on d).mp hd
  have hdk := h.inv.onStack hds
  have hi : t.index d = some (num t d) := by
    cases hx : t.index d with
    | none => exact absurd hx hdk
    | some i => simp [num, hx]
  refine ⟨{ t with low := put t.low v (some (min n (num t d))) }, by simp [lower, hi, h2], ?_⟩
  have hnum' : ∀ x, num ({ t with low := put t.low v (some (min n (num t d))) } : T) x = num t x := fun _ => rfl
  constructor
  · exact h.inv.congr rfl rfl rfl rfl rfl
  · exact lowered_ext h.ext hn _
  · exact h.idx
  · refine ⟨s, min n (num t d), h1, by simp [put], by omega, ?_, ?_, ?_⟩
    · simp only [hnum']
      by_cases hle : n ≤ num t d
      · rw [show min n (num t d) = n by omega]; exact ⟨y, hy, hyn, hyr⟩
      · rw [show min n (num t d) = num t d by omega]
        exact ⟨d, hds, rfl, .single hdv⟩
    · intro x hx z hz hxz
      have := h5 x hx z hz hxz
      simp only [hnum']; omega
    · intro e he
      simp only [hnum']
      rcases List.mem_append.mp he with he | he
      · obtain ⟨k1, k2⟩ := h6 e he
        exact ⟨k1, fun hs => by have := k2 hs; omega⟩
      · rw [List.mem_singleton] at he; subst he
        exact ⟨hdk, fun _ => by omega⟩

/-- A dependency of a component found earlier. -/
theorem during_done {t0 t : T} {v d : Nat} {done : List Nat} (h : During g keys G v t0 done t) (hk : t.index d ≠ none)
    (hd : t.on d = false) : During g keys G v t0 (done ++ [d]) t := by
  obtain ⟨s, n, h1, h2, h3, h4, h5, h6⟩ := h.res
  refine ⟨h.inv, h.ext, h.idx, s, n, h1, h2, h3, h4, h5, ?_⟩
  intro e he
  rcases List.mem_append.mp he with he | he
  · exact h6 e he
  · rw [List.mem_singleton] at he; subst he
    refine ⟨hk, fun hs => ?_⟩
    have : t.on e = true := (h.inv.on e).mpr (by rw [h1]; simp [hs])
    rw [hd] at this; cases this

/-! ### ending a visit -/

theorem popTo_append {v : Nat} : ∀ {s rest : List Nat}, v ∉ s → popTo v (s ++ v :: rest) = some (s ++ [v], rest)
  | [], rest, _ => by simp [popTo]
  | x :: s, rest, h => by
    have h1 : x ≠ v := fun e => h (e ▸ List.mem_cons_self)
    simp [popTo, h1, popTo_append (fun hs => h (List.mem_cons_of_mem _ hs))]

theorem finish_post {t0 t : T} {v : Nat} (h0 : Inv g keys G t0) (hn : t0.index v = none) (h : During g keys G v t0 (g v) t) :
    ∃ t', finish v t = some t' ∧ Post g keys G v t0 t' := by
  obtain ⟨s, n, h1, h2, h3, ⟨y, hy, hyn, hyr⟩, h5, h6⟩ := h.res
  have I := h.inv
  have hnumv : num t v = t0.next := by simp [num, h.idx]
  have hnd : t.stack.Nodup := nodup_of_desc I
  have hd := I.desc
  rw [h1, List.pairwise_append, List.pairwise_cons] at hd
  obtain ⟨d1, ⟨d2, d3⟩, d4⟩ := hd
  have hvs : v ∉ s := by
    rw [h1, List.nodup_append] at hnd
    intro hx
    exact hnd.2.2 v hx v List.mem_cons_self rfl
  have hv0 : v ∉ t0.stack := fun hx => h0.onStack hx hn
  have hbelow : ∀ x ∈ t0.stack, num t x < num t v := fun x hx => d2 x hx
  have habove : ∀ x ∈ s, num t v < num t x := fun x hx => d4 x hx v List.mem_cons_self
  have hG0 : ∀ x, G x → x ∈ t0.stack := fun x hx => h0.gray x hx
  -- edges out of what is above
  have hcross : ∀ x ∈ s ++ [v], ∀ z ∈ g x, t.index z ≠ none ∧ (z ∈ t0.stack → n ≤ num t z) := by
    intro x hx z hz
    rcases List.mem_append.mp hx with hx | hx
    · refine ⟨I.explored x (by rw [h1]; simp [hx]) ?_ z hz, fun hz0 => h5 x hx z hz0 hz⟩
      rintro (e | hg)
      · exact hvs (e ▸ hx)
      · have := habove x hx
        have := hbelow x (hG0 x hg)
        omega
    · rw [List.mem_singleton] at hx; subst hx
      exact h6 z hz
  unfold finish
  by_cases hroot : t.low v ≠ t.index v
  · rw [if_pos hroot]
    have hlt : n < t0.next := by
      rcases Nat.lt_or_ge n t0.next with h' | h'
      · exact h'
      · exact absurd (by rw [h2, h.idx, show n = t0.next by omega]) hroot
    refine ⟨t, rfl, ⟨?_, h.ext, h.idx, ?_⟩⟩
    · have hyv : y ≠ v := fun e => by rw [e, hnumv] at hyn; omega
      constructor
      · exact I.on
      · exact I.desc
      · exact I.lt
      · exact I.known
      · exact I.sub
      · exact I.disj
      · intro x hx; exact I.gray x (.inr hx)
      · intro x hx hg z hz
        by_cases hxv : x = v
        · subst hxv; exact (h6 z hz).1
        · exact I.explored x hx (fun hh => hh.elim hxv hg) z hz
      · intro x z hx; exact I.up x z (.inr hx)
      · -- the method reaches something lower on the stack
        obtain ⟨w, hw, hwy, hwr⟩ := I.down y hy
        have hwG : G w := by
          rcases hw with rfl | hw
          · rw [hnumv] at hwy; omega
          · exact hw
        intro z hz
        obtain ⟨x, hx, hxz, hxr⟩ := I.down z hz
        rcases hx with rfl | hx
        · exact ⟨w, hwG, by rw [hnumv] at hxz; omega, hxr.trans (hyr.trans hwr)⟩
        · exact ⟨x, hx, hxz, hxr⟩
      · exact I.comp
      · exact I.nodup
      · exact I.topo
    · refine ⟨s ++ [v], n, by rw [h1]; simp, h2, h3, fun _ => ⟨y, hy, hyn, hyr⟩, fun hv => ?_, ?_⟩
      · exact absurd (by rw [h1]; simp) hv
      · intro x hx z hz hxz
        exact (hcross x hx z hxz).2 hz
  · rw [if_neg hroot]
    push Not at hroot
    have hnn : n = t0.next := by rw [h2, h.idx] at hroot; cases hroot; rfl
    rw [h1, popTo_append hvs]
    -- nothing above points below
    have hno : ∀ x ∈ s ++ [v], ∀ z ∈ g x, z ∉ t0.stack := by
      intro x hx z hz hz0
      have := (hcross x hx z hz).2 hz0
      have := hbelow z hz0
      omega
    have hedge : ∀ x ∈ s ++ [v], ∀ z ∈ g x, z ∈ s ++ [v] ∨ z ∈ t.comps.flatten := by
      intro x hx z hz
      rcases (I.known z).mp (hcross x hx z hz).1 with hs | hc
      · rw [h1] at hs
        rcases List.mem_append.mp hs with hs | hs
        · exact .inl (List.mem_append_left _ hs)
        · rcases List.mem_cons.mp hs with rfl | hs
          · exact .inl (by simp)
          · exact absurd hs (hno x hx z hz)
      · exact .inr hc
    have hreach : ∀ x ∈ s ++ [v], ∀ z, Reach g x z → z ∈ s ++ [v] ∨ z ∈ t.comps.flatten := by
      intro x hx z hr
      induction hr with
      | refl => exact .inl hx
      | tail _ e ih =>
        rcases ih with ih | ih
        · exact hedge _ ih _ e
        · exact .inr (I.closed ih e)
    have hstk : ∀ x ∈ s ++ [v], x ∈ t.stack := by
      intro x hx
      rw [h1]
      rcases List.mem_append.mp hx with hx | hx
      · simp [hx]
      · rw [List.mem_singleton] at hx; simp [hx]
    have hfrom : ∀ x ∈ s ++ [v], Reach g v x := by
      intro x hx
      refine I.up v x (.inl rfl) (hstk x hx) ?_
      rcases List.mem_append.mp hx with hx | hx
      · have := habove x hx; omega
      · rw [List.mem_singleton] at hx; rw [hx]; exact Nat.le_refl _
    have hto : ∀ x ∈ s ++ [v], Reach g x v := by
      intro x hx
      obtain ⟨w, hw, _, hwr⟩ := I.down x (hstk x hx)
      rcases hw with rfl | hw
      · exact hwr
      · rcases hreach x hx w hwr with hm | hm
        · have hw0 := hG0 w hw
          rcases List.mem_append.mp hm with hm | hm
          · have := habove w hm; have := hbelow w hw0; omega
          · rw [List.mem_singleton] at hm; subst hm; exact absurd hw0 hv0
        · exact absurd hm (I.disj w (I.gray w (.inr hw)))
    have hcomp : IsComponent g (stableSort Nat.ble (s ++ [v])) := by
      refine ⟨fun he => ?_, fun x hx z => ?_⟩
      · have : v ∈ stableSort Nat.ble (s ++ [v]) := mem_stableSort.mpr (by simp)
        rw [he] at this; cases this
      · rw [mem_stableSort] at hx ⊢
        constructor
        · intro hz
          exact ⟨(hto x hx).trans (hfrom z hz), (hto z hz).trans (hfrom x hx)⟩
        · rintro ⟨hxz, hzx⟩
          rcases hreach x hx z hxz with hz | hz
          · exact hz
          · exact absurd (I.closedReach hz hzx) (I.disj x (hstk x hx))
    have hflat : ∀ x, x ∈ (t.comps ++ [stableSort Nat.ble (s ++ [v])]).flatten ↔ x ∈ t.comps.flatten ∨ x ∈ s ++ [v] := by
      intro x
      rw [List.flatten_append, List.mem_append, List.flatten_cons, List.flatten_nil, List.append_nil, mem_stableSort]
    refine ⟨_, rfl, ⟨?_, ?_, h.idx, ?_⟩⟩
    · constructor
      · intro x
        simp only [Bool.and_eq_true, Bool.not_eq_true', I.on x]
        rw [h1, List.contains_eq_mem, decide_eq_false_iff_not]
        simp only [List.mem_append, List.mem_cons, List.not_mem_nil, or_false]
        constructor
        · rintro ⟨h1 | h1 | h1, h2⟩
          · exact absurd (.inl h1) h2
          · exact absurd (.inr h1) h2
          · exact h1
        · intro hx
          refine ⟨.inr (.inr hx), ?_⟩
          rintro (h' | h')
          · have := habove x h'; have := hbelow x hx; omega
          · exact hv0 (h' ▸ hx)
      · exact d3
      · exact I.lt
      · intro x
        show t.index x ≠ none ↔ x ∈ t0.stack ∨ x ∈ (t.comps ++ [stableSort Nat.ble (s ++ [v])]).flatten
        rw [hflat, I.known, h1]
        simp only [List.mem_append, List.mem_cons, List.not_mem_nil, or_false]
        constructor
        · rintro ((a | a | a) | a)
          · exact .inr (.inr (.inl a))
          · exact .inr (.inr (.inr a))
          · exact .inl a
          · exact .inr (.inl a)
        · rintro (a | a | a | a)
          · exact .inl (.inr (.inr a))
          · exact .inr a
          · exact .inl (.inl a)
          · exact .inl (.inr (.inl a))
      · exact I.sub
      · intro x hx hf
        rcases (hflat x).mp hf with hf | hf
        · exact I.disj x (by rw [h1]; simp [show x ∈ t0.stack from hx]) hf
        · have hx0 : x ∈ t0.stack := hx
          rcases List.mem_append.mp hf with hf | hf
          · have := habove x hf; have := hbelow x hx0; omega
          · rw [List.mem_singleton] at hf; exact hv0 (hf ▸ hx0)
      · exact hG0
      · intro x hx hg z hz
        have hx0 : x ∈ t0.stack := hx
        refine I.explored x (by rw [h1]; simp [hx0]) ?_ z hz
        rintro (rfl | hg')
        · exact hv0 hx0
        · exact hg hg'
      · intro x z hx hz
        have hz0 : z ∈ t0.stack := hz
        exact I.up x z (.inr hx) (by rw [h1]; simp [hz0])
      · intro z hz
        have hz0 : z ∈ t0.stack := hz
        obtain ⟨x, hx, hxz, hxr⟩ := I.down z (by rw [h1]; simp [hz0])
        rcases hx with rfl | hx
        · have := hbelow z hz0; omega
        · exact ⟨x, hx, hxz, hxr⟩
      · intro c hc
        rcases List.mem_append.mp hc with hc | hc
        · exact I.comp c hc
        · rw [List.mem_singleton] at hc; rw [hc]; exact hcomp
      · show (t.comps ++ [stableSort Nat.ble (s ++ [v])]).flatten.Nodup
        rw [List.flatten_append, List.flatten_cons, List.flatten_nil, List.append_nil, List.nodup_append]
        refine ⟨I.nodup, ?_, ?_⟩
        · rw [(stableSort_perm (s ++ [v])).nodup_iff]
          refine List.Nodup.sublist ?_ hnd
          rw [h1]
          exact List.Sublist.append_left (List.Sublist.cons_cons _ (List.nil_sublist _)) _
        · intro x hx z hz e
          rw [mem_stableSort] at hz
          exact I.disj z (hstk z hz) (e ▸ hx)
      · intro a c b hab x hx z hz
        have hab : t.comps ++ [stableSort Nat.ble (s ++ [v])] = a ++ c :: b := hab
        rcases List.eq_nil_or_concat b with rfl | ⟨b', c', rfl⟩
        · obtain ⟨e1, e2⟩ := List.append_inj' hab rfl
          cases e2
          rw [mem_stableSort] at hx
          rcases hedge x hx z hz with hz | hz
          · exact .inr (mem_stableSort.mpr hz)
          · exact .inl (e1 ▸ hz)
        · rw [List.concat_eq_append, ← List.cons_append, ← List.append_assoc] at hab
          obtain ⟨e1, e2⟩ := List.append_inj' hab rfl
          exact I.topo a c b' e1 x hx z hz
    · refine ⟨h.ext.index, h.ext.low, ?_⟩
      obtain ⟨l, hl⟩ := h.ext.comps
      exact ⟨l ++ [stableSort Nat.ble (s ++ [v])], by simp [hl]⟩
    · refine ⟨[], n, rfl, h2, h3, fun hv => absurd hv hv0, fun _ => hnn, by simp⟩

/-! ### everything -/

def whites (keys : List Nat) (t : T) : Nat := (keys.filter fun x => (t.index x).isNone).length

theorem whites_ext {t t' : T} (h : Ext t t') : whites keys t' ≤ whites keys t := by
  unfold whites
  refine (List.monotone_filter_right keys (fun x hx => ?_)).length_le
  cases hi : t.index x with
  | none => rfl
  | some i => rw [h.index x i hi] at hx; cases hx

theorem whites_enter {t : T} {v : Nat} (hv : v ∈ keys) (hn : t.index v = none) : whites keys (enter v t) < whites keys t := by
  unfold whites
  have hsub : (keys.filter fun x => ((enter v t).index x).isNone).Sublist (keys.filter fun x => (t.index x).isNone) := by
    refine List.monotone_filter_right keys (fun x hx => ?_)
    by_cases hxv : x = v
    · rw [hxv, hn]; rfl
    · simpa [enter, put, hxv] using hx
  rcases Nat.lt_or_ge (keys.filter fun x => ((enter v t).index x).isNone).length (keys.filter fun x => (t.index x).isNone).length with h | h
  · exact h
  · have he := hsub.eq_of_length_le h
    have hm : v ∈ keys.filter fun x => (t.index x).isNone := by simp [hv, hn]
    rw [← he] at hm
    simp [enter, put] at hm

theorem whites_pos {t : T} {v : Nat} (hv : v ∈ keys) (hn : t.index v = none) : 0 < whites keys t := by
  have := whites_enter (t := t) hv hn; omega

theorem loop_during {t0 : T} {v : Nat} (hn : t0.index v = none) {f : Nat → T → Option T}
    (hf : ∀ d t, d ∈ g v → t.index d = none → Inv g keys (fun x => x = v ∨ G x) t → (∀ x, x = v ∨ G x → Reach g x d) →
      whites keys t < whites keys t0 → ∃ t', f d t = some t' ∧ Post g keys (fun x => x = v ∨ G x) d t t')
    (hr : ∀ x, G x → Reach g x v) :
    ∀ (ds done : List Nat) (t : T), (∀ d ∈ ds, d ∈ g v) → During g keys G v t0 done t → whites keys t < whites keys t0 →
      ∃ t', loop f v ds t = some t' ∧ During g keys G v t0 (done ++ ds) t'
  | [], done, t, _, h, _ => ⟨t, rfl, by simpa using h⟩
  | d :: ds, done, t, hds, h, hw => by
    have hdv := hds d List.mem_cons_self
    have next : ∀ t1, During g keys G v t0 (done ++ [d]) t1 → whites keys t1 < whites keys t0 →
        ∃ t', loop f v ds t1 = some t' ∧ During g keys G v t0 (done ++ d :: ds) t' := by
      intro t1 h1 hw1
      obtain ⟨t', e, p⟩ := loop_during hn hf hr ds (done ++ [d]) t1 (fun x hx => hds x (List.mem_cons_of_mem _ hx)) h1 hw1
      exact ⟨t', e, by simpa using p⟩
    unfold loop
    cases hi : t.index d with
    | none =>
      obtain ⟨t1, e1, p1⟩ := hf d t hdv hi h.inv (by
        rintro x (rfl | hx)
        · exact .single hdv
        · exact (hr x hx).tail hdv) hw
      obtain ⟨t2, e2, p2⟩ := during_visit h hn hi hdv p1
      have hlow : t2.index = t1.index := by
        unfold lower at e2
        cases h1 : t1.low d with
        | none => rw [h1] at e2; cases e2
        | some a =>
          cases h2 : t1.low v with
          | none => rw [h1, h2] at e2; cases e2
          | some b => rw [h1, h2] at e2; simp only [Option.bind_some, Option.some.injEq] at e2; rw [← e2]
      have hw2 : whites keys t2 < whites keys t0 := by
        have := whites_ext (keys := keys) p1.ext
        have e : whites keys t2 = whites keys t1 := by unfold whites; rw [hlow]
        omega
      obtain ⟨t', e3, p3⟩ := next t2 p2 hw2
      exact ⟨t', by simp [e1, e2, e3], p3⟩
    | some i =>
      cases ho : t.on d with
      | true =>
        obtain ⟨t2, e2, p2⟩ := during_on h hn ho hdv
        have hlow : t2.index = t.index := by
          unfold lower at e2
          rw [hi] at e2
          cases h2 : t.low v with
          | none => rw [h2] at e2; cases e2
          | some b => rw [h2] at e2; simp only [Option.bind_some, Option.some.injEq] at e2; rw [← e2]
        have e : whites keys t2 = whites keys t := by unfold whites; rw [hlow]
        rw [hi] at e2
        obtain ⟨t', e3, p3⟩ := next t2 p2 (by omega)
        exact ⟨t', by simp [e2, e3], p3⟩
      | false =>
        obtain ⟨t', e3, p3⟩ := next t (during_done h (by rw [hi]; simp) ho) hw
        exact ⟨t', by simp [e3], p3⟩

theorem visit_post (hk : ∀ x ∈ keys, ∀ y ∈ g x, y ∈ keys) : ∀ (fuel : Nat) (G : Nat → Prop) (v : Nat) (t : T), Inv g keys G t → v ∈ keys →
    t.index v = none → (∀ x, G x → Reach g x v) → whites keys t ≤ fuel → ∃ t', visit g fuel v t = some t' ∧ Post g keys G v t t'
  | 0, G, v, t, _, hv, hn, _, hw => by have := whites_pos hv hn; omega
  | fuel + 1, G, v, t, h, hv, hn, hr, hw => by
    have hw1 := whites_enter hv hn
    obtain ⟨t1, e1, p1⟩ := loop_during (g := g) (keys := keys) (G := G) (t0 := t) hn (f := visit g fuel)
      (fun d t' hd hi hI hrd hw' => visit_post hk fuel _ d t' hI (hk v hv d hd) hi hrd (by omega)) hr (g v) [] (enter v t)
      (fun _ h => h) (enter_during h hv hn hr) hw1
    obtain ⟨t2, e2, p2⟩ := finish_post h hn p1
    exact ⟨t2, by simp [visit, e1, e2], p2⟩

theorem inv_init : Inv g keys (fun _ => False) T.init := by
  constructor <;> simp [T.init]

theorem visitAll_post (hk : ∀ x ∈ keys, ∀ y ∈ g x, y ∈ keys) : ∀ (vs : List Nat) (t : T), (∀ v ∈ vs, v ∈ keys) →
    Inv g keys (fun _ => False) t → ∃ t', visitAll g (keys.length + 1) vs t = some t' ∧ Inv g keys (fun _ => False) t' ∧
      (∀ x, t.index x ≠ none → t'.index x ≠ none) ∧ ∀ v ∈ vs, t'.index v ≠ none
  | [], t, _, h => ⟨t, rfl, h, fun _ h => h, by simp⟩
  | v :: vs, t, hv, h => by
    have hrest := fun x hx => hv x (List.mem_cons_of_mem _ hx)
    unfold visitAll
    cases hi : t.index v with
    | none =>
      obtain ⟨t1, e1, p1⟩ := visit_post hk (keys.length + 1) _ v t h (hv v List.mem_cons_self) hi (fun _ h => h.elim) (by
        have := List.length_filter_le (fun x => (t.index x).isNone) keys
        unfold whites; omega)
      obtain ⟨t2, e2, i2, k2, a2⟩ := visitAll_post hk vs t1 hrest p1.inv
      refine ⟨t2, by simp [e1, e2], i2, fun x hx => k2 x (p1.ext.known hx), ?_⟩
      intro x hx
      rcases List.mem_cons.mp hx with rfl | hx
      · exact k2 x (by rw [p1.idx]; simp)
      · exact a2 x hx
    | some i =>
      obtain ⟨t2, e2, i2, k2, a2⟩ := visitAll_post hk vs t hrest h
      refine ⟨t2, by simp [e2], i2, k2, ?_⟩
      intro x hx
      rcases List.mem_cons.mp hx with rfl | hx
      · exact k2 x (by rw [hi]; simp)
      · exact a2 x hx

/-- The components are exactly the strongly connected components of the methods, each method in one of them, and everything a
component depends on is in it or in an earlier one. -/
theorem components_spec (g : Nat → List Nat) (keys : List Nat) (hk : ∀ x ∈ keys, ∀ y ∈ g x, y ∈ keys) :
    ∃ cs, components g keys = some cs ∧ (∀ x, x ∈ cs.flatten ↔ x ∈ keys) ∧ cs.flatten.Nodup ∧ (∀ c ∈ cs, IsComponent g c) ∧
      ∀ a c b, cs = a ++ c :: b → ∀ x ∈ c, ∀ y ∈ g x, y ∈ a.flatten ∨ y ∈ c := by
  obtain ⟨t, e, I, _, hall⟩ := visitAll_post hk keys T.init (fun _ h => h) inv_init
  have hempty : t.stack = [] := by
    cases hs : t.stack with
    | nil => rfl
    | cons a l =>
      obtain ⟨_, h, _⟩ := I.down a (by rw [hs]; exact List.mem_cons_self)
      exact h.elim
  refine ⟨t.comps, by simp [components, e], fun x => ⟨fun hx => I.sub x ((I.known x).mpr (.inr hx)), fun hx => ?_⟩, I.nodup, I.comp, I.topo⟩
  rcases (I.known x).mp (hall x hx) with h | h
  · rw [hempty] at h; cases h
  · exact h

end Verif.Tarjan
