import Verif.Lemmas.FlowShapesTypes
import Verif.Props.FlowShapes
/-!
C54: All names of a hash say the same of it, a change through one name is seen through all of them, and after a branch both sides are
covered; and where this is not so.
-/
namespace Verif.FlowShapes
open Verif.Types

variable {n : Nat}

/-! ### aliases -/

theorem reached {c : Code n} (h : Safe c ⟨.empty, 0⟩) {S : Tracker n} (hr : runMethod c = some S) : Good S := by
  obtain ⟨S', h1, hg, _⟩ := run_ok c good_empty h
  rw [show run c ⟨.empty, 0⟩ = some S from hr] at h1
  cases h1
  exact hg

/-- The shapes in the type of a name are exactly those of its hashes, unless it is unknown. -/
theorem c54_aliases_agree (c : Code n) (h : Safe c ⟨.empty, 0⟩) (hreg : Regular c ⟨.empty, 0⟩) {S : Tracker n} (hr : runMethod c = some S) : Agrees S.env :=
  (run_fit (q := True) c good_empty fit_empty h (fun _ => hreg) hr).agrees trivial

/-- Two names of the same hashes say the same of them. -/
theorem c54_same_hashes_same_shapes (c : Code n) (h : Safe c ⟨.empty, 0⟩) (hreg : Regular c ⟨.empty, 0⟩) {S : Tracker n} (hr : runMethod c = some S)
    {x y : Fin n} {ids : Finset Id} {t u : Ty} (hx : S.env.binds x = some ids) (hy : S.env.binds y = some ids) (ht : S.env.types x = some t)
    (hu : S.env.types y = some u) (kt : t ≠ .unknown) (ku : u ≠ .unknown) : ∀ w, w.isShape = true → (DeepAlt t w ↔ DeepAlt u w) := by
  intro w hw
  have ha := c54_aliases_agree c h hreg hr
  rw [(ha x ids t hx ht).resolve_left kt w hw, (ha y ids u hy hu).resolve_left ku w hw]

/-! ### changes -/

theorem mem_putField {fs : List Field} {k : Lit} {t : Ty} {g : Field} : g ∈ putField fs k t ↔ g = (k, false, t) ∨ g ∈ fs ∧ g.1 ≠ k := by
  unfold putField
  rw [List.mem_append, List.mem_filter, List.mem_singleton]
  constructor
  · rintro (⟨h1, h2⟩ | h1)
    · exact .inr ⟨h1, by simpa using h2⟩
    · exact .inl h1
  · rintro (h1 | ⟨h1, h2⟩)
    · exact .inr h1
    · exact .inl ⟨h1, by simpa using h2⟩

theorem tryNew_fields {fs : List Field} {r : Option (Ty × Ty)} {o z : Bool} {t : Ty} (h : tryNew fs r o z = .ok t) :
    ∃ gs d, t = .shape gs r o z d ∧ ∀ g, g ∈ gs ↔ g ∈ fs := by
  unfold tryNew at h
  simp only at h
  repeat' split at h
  all_goals cases h
  exact ⟨_, _, rfl, fun g => mem_stableSort⟩

theorem withField_written {k : Lit} {t u w : Ty} (h : withField k t u = .ok w) : Written k t u w := by
  unfold withField at h
  split at h
  case h_2 => cases h
  case h_1 fs r o z d =>
    refine ⟨fs, r, o, z, d, rfl, ?_⟩
    split at h
    · rename_i hz; cases h; exact .inl ⟨hz, rfl⟩
    · rename_i hz
      split at h
      · rename_i v hv
        cases h
        obtain ⟨gs, d', h1, h2⟩ := tryNew_fields hv
        have hz : z = false := by simpa using hz
        subst hz
        exact .inr ⟨rfl, gs, d', h1, fun g => (h2 g).trans mem_putField⟩
      · cases h

theorem mutation_mutated {m : Mutation} {u w : Ty} (h : m.apply u = .ok w) : Mutated m u w := by
  unfold Mutation.apply at h
  split at h
  case h_2 => cases h
  case h_1 fs r o z d =>
    refine ⟨fs, r, o, z, d, rfl, ?_⟩
    cases m with
    | delete k =>
      simp only at h ⊢
      split at h
      · rename_i hz; cases h; exact .inl ⟨hz, rfl⟩
      · rename_i hz
        split at h
        · rename_i v hv
          cases h
          obtain ⟨gs, d', h1, h2⟩ := tryNew_fields hv
          have hz : z = false := by simpa using hz
          subst hz
          exact .inr ⟨rfl, gs, d', h1, fun g => (h2 g).trans (by simp)⟩
        · cases h
    | clear =>
      simp only at h ⊢
      split at h
      · rename_i hz; cases h; exact .inl ⟨hz, rfl⟩
      · rename_i hz
        split at h
        · rename_i v hv
          cases h
          obtain ⟨gs, d', h1, h2⟩ := tryNew_fields hv
          have : gs = [] := List.eq_nil_iff_forall_not_mem.mpr fun g hg => by have := (h2 g).mp hg; simp at this
          subst this
          exact .inr ⟨by simpa using hz, d', h1⟩
        · cases h
    | freeze =>
      simp only at h ⊢
      split at h
      · rename_i v hv
        cases h
        obtain ⟨gs, d', h1, h2⟩ := tryNew_fields hv
        exact ⟨gs, d', h1, h2⟩
      · cases h

/-- What is known of hashes after a change of those in `ids`. -/
def Changed (E E' : Env n) (ids : Finset Id) (P : Ty → Ty → Prop) : Prop :=
  ∀ i w u, E'.states i = some (.proven u) → DeepAlt u w → ∃ s b, E.states i = some (.proven s) ∧ DeepAlt s b ∧ (i ∈ ids → P b w) ∧ (i ∉ ids → w = b)

theorem transform_changed {E E' : Env n} (hi : Inv E) {y : Fin n} {ids : Finset Id} (hb : E.binds y = some ids) (hsep : Separate E y) {k : Option (Option Lit)}
    {f : Ty → Except Reason Ty} (hm : MapsShapes f) (hf : ToShape f) {P : Ty → Ty → Prop} (hP : ∀ b w, f b = .ok w → P b w) {r : Except Reason Unit}
    (ht : transform (match k with | some k => detach E ids k | none => E) ids f = some (r, E')) : Changed E E' ids P := by
  have key : ∀ F : Env n, Inv F → F.states = E.states → (∀ l ∈ F.links, l ∈ E.links) → transform F ids f = some (r, E') → Changed E E' ids P := by
    intro F hiF hst hln ht
    have hl : ∀ i ∈ ids, Live F i := fun i hm => by unfold Live; rw [hst]; exact (hi.bound y ids hb).2 i hm
    obtain ⟨h1, h2⟩ := transform_states hiF hl hm hf (by rw [hst]; exact (hsep ids hb).1) (fun l hl => (hsep ids hb).2 l (hln l hl)) ht
    rw [hst] at h1 h2
    intro i w u hu hd
    by_cases him : i ∈ ids
    · obtain ⟨s, h3, h4, _⟩ := h2 i him u hu
      obtain ⟨b, h5, h6⟩ := (h4 w).mp hd
      exact ⟨s, b, h3, h5, fun _ => hP b w h6, fun h => absurd him h⟩
    · exact ⟨u, w, h1 i him u hu, hd, fun h => absurd h him, fun _ => rfl⟩
  cases k with
  | none => exact key E hi rfl (fun _ h => h) ht
  | some k => exact key _ (detach_inv hi ids k) rfl (fun l hl => (List.mem_filter.mp hl).1) ht

theorem Changed.shrinks {E F G : Env n} {ids : Finset Id} {P : Ty → Ty → Prop} (h : Changed E F ids P) (hs : Shrinks F G) : Changed E G ids P :=
  fun i w u hu hd => h i w u (hs i u hu) hd

theorem setField_changed {E E' : Env n} (hi : Inv E) {y : Fin n} {ids : Finset Id} (hb : E.binds y = some ids) (hsep : Separate E y) {k : Lit} {v : Part n}
    (hs : setField E y k v = some E') : Changed E E' ids (Written k (v.type E)) := by
  unfold setField at hs
  simp only [hb, Option.getD_some] at hs
  have hsame : ∀ G, Shrinks E G → (∀ i ∈ ids, ∀ t, G.states i ≠ some (.proven t)) → Changed E G ids (Written k (v.type E)) := by
    intro G hG hno i w u hu hd
    have him : i ∉ ids := fun h => hno i h u hu
    exact ⟨u, w, hG i u hu, hd, fun h => absurd h him, fun _ => rfl⟩
  split at hs
  · rename_i he
    subst he
    split at hs
    · cases hs; exact hsame _ (Shrinks.refl _) (by simp)
    · exact hsame _ (invalidate_shrinks hs) (by simp)
  · split at hs
    · exact hsame _ (invalidate_shrinks hs) fun i hi t ht => by
        rw [invalidate_unknown hs (Finset.mem_union_left _ hi)] at ht; cases ht
    · obtain ⟨⟨r, F⟩, h1, h2⟩ := Option.bind_eq_some_iff.mp hs
      have f : Changed E F ids (Written k (v.type E)) :=
        transform_changed hi hb hsep (k := some (some k)) (withField_maps k (v.type E)) (withField_toShape k (v.type E)) (fun _ _ h => withField_written h) h1
      cases r with
      | error e => cases h2; exact f
      | ok u =>
        simp only at h2
        split at h2
        · cases h2; exact f
        · obtain ⟨⟨b, G⟩, h3, h4⟩ := Option.bind_eq_some_iff.mp h2
          have f2 := f.shrinks (linkAssigned_shrinks h3)
          simp only at h4
          split at h4
          · cases h4; exact f2
          · exact f2.shrinks (invalidate_shrinks h4)

theorem change_changed {E E' : Env n} (hi : Inv E) {y : Fin n} {ids : Finset Id} (hb : E.binds y = some ids) (hsep : Separate E y) {m : Mutation}
    (hs : change E y m = some E') : Changed E E' ids (Mutated m) := by
  unfold change at hs
  simp only [hb, Option.getD_some] at hs
  split at hs
  · rename_i he
    subst he
    cases hs
    exact fun i w u hu hd => ⟨u, w, hu, hd, fun h => absurd h (by simp), fun _ => rfl⟩
  · obtain ⟨⟨r, F⟩, h1, h2⟩ := Option.map_eq_some_iff.mp hs
    cases h2
    cases m with
    | delete k => exact transform_changed hi hb hsep (k := some (some k)) (mutation_maps _) (mutation_toShape _) (fun _ _ h => mutation_mutated h) h1
    | clear => exact transform_changed hi hb hsep (k := some none) (mutation_maps _) (mutation_toShape _) (fun _ _ h => mutation_mutated h) h1
    | freeze => exact transform_changed hi hb hsep (k := none) (mutation_maps _) (mutation_toShape _) (fun _ _ h => mutation_mutated h) h1

/-- `y[:k] = v`: afterwards every name is unknown, or its shapes are those from before, with the field written in all that belong to
a hash of `y`. -/
theorem c54_write_reaches_aliases (c : Code n) (h : Safe c ⟨.empty, 0⟩) (hreg : Regular c ⟨.empty, 0⟩) {S S' : Tracker n} (hr : runMethod c = some S)
    {y : Fin n} {ids : Finset Id} (hy : S.env.binds y = some ids) (hsep : Separate S.env y) {k : Lit} {v : Part n} (hs : run (.setField y k v) S = some S')
    {x : Fin n} {jds : Finset Id} (hx : S.env.binds x = some jds) {t : Ty} (ht : S'.env.types x = some t) (kt : t ≠ .unknown) :
    ∀ w, w.isShape = true → DeepAlt t w → ∃ i ∈ jds, ∃ s b, S.env.states i = some (.proven s) ∧ DeepAlt s b ∧
      (i ∈ ids → Written k (v.type S.env) b w) ∧ (i ∉ ids → w = b) := by
  intro w hw hd
  have hg := reached h hr
  have hfit := run_fit (q := True) c good_empty fit_empty h (fun _ => hreg) hr
  have hfit' := run_fit (q := True) (.setField y k v) hg hfit trivial (fun _ => hsep) hs
  obtain ⟨E, h1, h2⟩ := Option.map_eq_some_iff.mp hs
  cases h2
  have hx' : E.binds x = some jds := by rw [(setField_evo h1).binds]; exact hx
  obtain ⟨i, hi, s, hs1, hs2⟩ := ((hfit'.agrees trivial x jds t hx' ht).resolve_left kt w hw).mp hd
  obtain ⟨s', b, h3, h4, h5, h6⟩ := setField_changed hg.inv hy hsep h1 i w s hs1 hs2
  exact ⟨i, hi, s', b, h3, h4, h5, h6⟩

/-- `y.delete(:k)`, `y.clear` and `y.freeze` in the same way. -/
theorem c54_change_reaches_aliases (c : Code n) (h : Safe c ⟨.empty, 0⟩) (hreg : Regular c ⟨.empty, 0⟩) {S S' : Tracker n} (hr : runMethod c = some S)
    {y : Fin n} {ids : Finset Id} (hy : S.env.binds y = some ids) (hsep : Separate S.env y) {m : Mutation} (hs : run (.change y m) S = some S')
    {x : Fin n} {jds : Finset Id} (hx : S.env.binds x = some jds) {t : Ty} (ht : S'.env.types x = some t) (kt : t ≠ .unknown) :
    ∀ w, w.isShape = true → DeepAlt t w → ∃ i ∈ jds, ∃ s b, S.env.states i = some (.proven s) ∧ DeepAlt s b ∧ (i ∈ ids → Mutated m b w) ∧ (i ∉ ids → w = b) := by
  intro w hw hd
  have hg := reached h hr
  have hfit := run_fit (q := True) c good_empty fit_empty h (fun _ => hreg) hr
  have hfit' := run_fit (q := True) (.change y m) hg hfit trivial (fun _ => hsep) hs
  obtain ⟨E, h1, h2⟩ := Option.map_eq_some_iff.mp hs
  cases h2
  have hx' : E.binds x = some jds := by rw [(change_evo h1).binds]; exact hx
  obtain ⟨i, hi, s, hs1, hs2⟩ := ((hfit'.agrees trivial x jds t hx' ht).resolve_left kt w hw).mp hd
  obtain ⟨s', b, h3, h4, h5, h6⟩ := change_changed hg.inv hy hsep h1 i w s hs1 hs2
  exact ⟨i, hi, s', b, h3, h4, h5, h6⟩

/-! ### branches -/

theorem ownedAll_empty : OwnedAll (Env.empty : Env n) := by
  intro x t _ h; simp [Env.empty] at h

/-- If types from outside do not mix hashes with other things, then every shape in the type of a name belongs to one of its hashes. -/
theorem c54_shapes_belong_to_hashes (c : Code n) (hc : Tame c) (h : Safe c ⟨.empty, 0⟩) (hreg : Regular c ⟨.empty, 0⟩) {S : Tracker n} (hr : runMethod c = some S)
    {x : Fin n} {t u : Ty} (ht : S.env.types x = some t) (hu : u.isShape = true) (hd : DeepAlt t u) :
    ∃ ids i s, S.env.binds x = some ids ∧ i ∈ ids ∧ S.env.states i = some (.proven s) ∧ DeepAlt s u := by
  have ho := run_owned c hc good_empty ownedAll_empty h hr
  have ha := c54_aliases_agree c h hreg hr
  cases hb : S.env.binds x with
  | none => have := ho x t (by rw [hb]; rfl) ht u hd; rw [hu] at this; cases this
  | some ids =>
    have kt : t ≠ .unknown := by
      rintro rfl; rw [deepAlt_unknown_iff.mp hd] at hu; cases hu
    obtain ⟨i, hi, s, h1, h2⟩ := ((ha x ids t hb ht).resolve_left kt u hu).mp hd
    exact ⟨ids, i, s, rfl, hi, h1, h2⟩

/-- After a branch, the type of a variable has every alternative that it has at the end of a side, and nil if it is not assigned on a
side, unless the type is unknown. -/
theorem c54_join_covers (c a b : Code n) (hc : Tame (.seq c (.branch a b))) (h : Safe (.seq c (.branch a b)) ⟨.empty, 0⟩)
    (hreg : Regular (.seq c (.branch a b)) ⟨.empty, 0⟩) {S A B T : Tracker n} (hS : runMethod c = some S) (hA : run a S = some A)
    (hB : run b ⟨S.env, A.next⟩ = some B) (hT : runMethod (.seq c (.branch a b)) = some T) {x : Fin n} (xa : A.env.arrays x = none) (xb : B.env.arrays x = none)
    {t u : Ty} (ht : A.env.types x = some t ∨ B.env.types x = some t) (hu : DeepAlt t u ∨ (A.env.types x = none ∨ B.env.types x = none) ∧ u = nilTy) :
    ∃ t', T.env.types x = some t' ∧ (DeepAlt t' u ∨ DeepAlt t' .unknown) := by
  have hS' : run c ⟨.empty, 0⟩ = some S := hS
  have hgS := reached h.1 hS
  have hsb := h.2 S hS'
  have hrb := hreg.2 S hS'
  have hfS := run_fit (q := True) c good_empty fit_empty h.1 (fun _ => hreg.1) hS
  have hoS := run_owned c hc.1 good_empty ownedAll_empty h.1 hS
  obtain ⟨A', h7, hgA, hle⟩ := run_ok a hgS hsb.1
  rw [hA] at h7; cases h7
  have hg' : Good (⟨S.env, A.next⟩ : Tracker n) := ⟨hgS.inv, fun i hi => Nat.lt_of_lt_of_le (hgS.below i hi) hle⟩
  have hfA := run_fit (q := True) a hgS hfS hsb.1 (fun _ => hrb.1) hA
  have hfB := run_fit (q := True) b hg' hfS (hsb.2 A hA) (fun _ => hrb.2 A hA) hB
  have hoA := run_owned a hc.2.1 hgS hoS hsb.1 hA
  have hoB := run_owned b hc.2.2 hg' hoS (hsb.2 A hA) hB
  have own : ∀ E : Env n, Agrees E → OwnedAll E → ∀ s, E.types x = some s → DeepAlt s u → u.isShape = true →
      ∃ i r, DeepAlt r u ∧ ∃ ids, E.binds x = some ids ∧ i ∈ ids ∧ E.states i = some (.proven r) := by
    intro E ha ho s hs hd hus
    cases hb : E.binds x with
    | none => have := ho x s (by rw [hb]; rfl) hs u hd; rw [hus] at this; cases this
    | some ids =>
      have ks : s ≠ .unknown := by rintro rfl; rw [deepAlt_unknown_iff.mp hd] at hus; cases hus
      obtain ⟨i, hi, r, h1, h2⟩ := ((ha x ids s hb hs).resolve_left ks u hus).mp hd
      exact ⟨i, r, h2, ids, rfl, hi, h1⟩
  have hm : merge A.env B.env = some T.env := by
    unfold runMethod at hT
    simp only [run, hS', Option.bind_some, hA, hB] at hT
    obtain ⟨E, h1, h2⟩ := Option.map_eq_some_iff.mp hT
    cases h2
    exact h1
  have hnil : u = nilTy → u.isShape = false := by rintro rfl; rfl
  refine merge_covers hm xa xb (t := t) (u := u) ?_ ?_
  · rcases hu with hu | ⟨h1, h2⟩
    · exact .inl ⟨ht, hu⟩
    · exact .inr ⟨h1, ht, h2⟩
  · intro hus
    rcases hu with hu | ⟨_, h2⟩
    · rcases ht with ht | ht
      · obtain ⟨i, r, h1, h2⟩ := own A.env (hfA.agrees trivial) hoA t ht hu hus
        exact ⟨i, r, h1, .inl h2⟩
      · obtain ⟨i, r, h1, h2⟩ := own B.env (hfB.agrees trivial) hoB t ht hu hus
        exact ⟨i, r, h1, .inr h2⟩
    · rw [hnil h2] at hus; cases hus

/-! ### examples -/

set_option maxRecDepth 10000

/-- `x = {a: 1}; y = x; z = {c: 1}; if e then x[:b] = 1 end; y.delete(:a)`. -/
def shared : Code 3 := seqs [.assign 0 (lit ['a']), .assign 1 (.read 0), .assign 2 (lit ['c']), .branch (.setField 0 (sym 'b') (.typed int)) .skip, .change 1 (.delete (sym 'a'))]

/-- Both names have seen both changes. -/
example : typeAfter shared 0 = some (some (.union [shapeOf [], shapeOf ['b']])) := by decide +kernel
example : typeAfter shared 1 = some (some (.union [shapeOf [], shapeOf ['b']])) := by decide +kernel
example : typeAfter shared 2 = some (some (shapeOf ['c'])) := by decide +kernel

/-- `x = {a: 1}; if e then x = {b: 1} else y = x end`: both hashes are possible, and `y` may be nil. -/
example : typeAfter (seqs [.assign 0 (lit ['a']), .branch (.assign 0 (lit ['b'])) (.assign 1 (.read 0))] : Code 2) 0 = some (some (.union [shapeOf ['a'], shapeOf ['b']])) := by
  decide +kernel
example : typeAfter (seqs [.assign 0 (lit ['a']), .branch (.assign 0 (lit ['b'])) (.assign 1 (.read 0))] : Code 2) 1 = some (some (mkUnion [nilTy, shapeOf ['a']])) := by
  decide +kernel

example : Tame shared := ⟨trivial, trivial, trivial, ⟨trivial, trivial⟩, trivial, trivial⟩

theorem shared_safe : Safe shared ⟨.empty, 0⟩ := by
  have : Plain shared := .seq (.assign (by intro es h; cases h)) <| .seq (.assign (by intro es h; cases h)) <| .seq (.assign (by intro es h; cases h)) <|
    .seq (.branch (.setField _ _ _) .skip) <| .seq (.change _ _) .skip
  exact this.safe _

/-- Nothing is contained in anything there, and all that is changed is known. -/
theorem shared_regular : Regular shared ⟨.empty, 0⟩ := by
  have sep : ∀ (S : Tracker 3) (y : Fin 3), ((S.env.binds y).getD ∅).card ≤ 1 → S.env.links = [] → Separate S.env y := by
    intro S y h1 h2 ids hb
    rw [hb] at h1
    exact ⟨.inr h1, by simp [h2]⟩
  refine ⟨trivial, fun S h1 => ⟨trivial, fun T h2 => ⟨trivial, fun U h3 => ⟨⟨?_, fun _ _ => trivial⟩, fun V h4 => ⟨?_, fun _ _ => trivial⟩⟩⟩⟩⟩
  · have e : runMethod (seqs [.assign 0 (lit ['a']), .assign 1 (.read 0), .assign 2 (lit ['c'])] : Code 3) = some U := by
      simp only [runMethod, seqs, run] at h1 h2 h3 ⊢
      rw [h1, Option.bind_some, h2, Option.bind_some, h3, Option.bind_some]
    have hk : (runMethod (seqs [.assign 0 (lit ['a']), .assign 1 (.read 0), .assign 2 (lit ['c'])] : Code 3)).all fun U =>
        ((U.env.binds 0).getD ∅).card ≤ 1 ∧ U.env.links = [] := by decide +kernel
    rw [e] at hk
    simp only [Option.all_some, decide_eq_true_eq] at hk
    exact sep U 0 hk.1 hk.2
  · have e : runMethod (seqs [.assign 0 (lit ['a']), .assign 1 (.read 0), .assign 2 (lit ['c']), .branch (.setField 0 (sym 'b') (.typed int)) .skip] : Code 3) = some V := by
      simp only [runMethod, seqs] at h1 h2 h3 h4 ⊢
      rw [show ∀ (a b : Code 3) S, run (.seq a b) S = (run a S).bind (run b) from fun _ _ _ => rfl, h1, Option.bind_some,
        show ∀ (a b : Code 3) S, run (.seq a b) S = (run a S).bind (run b) from fun _ _ _ => rfl, h2, Option.bind_some,
        show ∀ (a b : Code 3) S, run (.seq a b) S = (run a S).bind (run b) from fun _ _ _ => rfl, h3, Option.bind_some,
        show ∀ (a b : Code 3) S, run (.seq a b) S = (run a S).bind (run b) from fun _ _ _ => rfl, h4, Option.bind_some]
      rfl
    have hk : (runMethod (seqs [.assign 0 (lit ['a']), .assign 1 (.read 0), .assign 2 (lit ['c']), .branch (.setField 0 (sym 'b') (.typed int)) .skip] : Code 3)).all fun U =>
        ((U.env.binds 1).getD ∅).card ≤ 1 ∧ U.env.links = [] := by decide +kernel
    rw [e] at hk
    simp only [Option.all_some, decide_eq_true_eq] at hk
    exact sep V 1 hk.1 hk.2

example {S} (h : runMethod shared = some S) : Agrees S.env := c54_aliases_agree shared shared_safe shared_regular h

/-! ### where it is not so -/

/-- `y = {a: 1}; z = {c: 1}; if e then x = y else x = z end; x[:b] = 1`: if `x` is `z`, then `y` has no `:b`, but it is said to have it. -/
theorem c54_write_to_either_fails : typeAfter (seqs [.assign 0 (lit ['a']), .assign 1 (lit ['c']), .branch (.assign 2 (.read 0)) (.assign 2 (.read 1)),
    .setField 2 (sym 'b') (.typed int)] : Code 3) 0 = some (some (shapeOf ['a', 'b'])) := by decide +kernel

/-- With `foo(z)` before the branch, which gives `z` up, the write through `x` is not seen by `y` at all, though `x` may be `y`. -/
theorem c54_write_stops_fails : typeAfter (seqs [.assign 0 (lit ['a']), .assign 1 (lit ['c']), .escape (.var 1), .branch (.assign 2 (.read 0)) (.assign 2 (.read 1)),
    .setField 2 (sym 'b') (.typed int)] : Code 3) 0 = some (some (shapeOf ['a'])) := by decide +kernel

/-- The name and its hash do not agree then. -/
theorem c54_agreement_fails : ∃ S, runMethod (seqs [.assign 0 (lit ['a']), .assign 1 (lit ['c']), .escape (.var 1), .branch (.assign 2 (.read 0)) (.assign 2 (.read 1)),
    .setField 2 (sym 'b') (.typed int)] : Code 3) = some S ∧ S.env.binds 0 = some {0} ∧ S.env.types 0 = some (shapeOf ['a']) ∧
    S.env.states 0 = some (.proven (shapeOf ['a', 'b'])) ∧ ¬ Agrees S.env := by
  have hk : (runMethod (seqs [.assign 0 (lit ['a']), .assign 1 (lit ['c']), .escape (.var 1), .branch (.assign 2 (.read 0)) (.assign 2 (.read 1)),
    .setField 2 (sym 'b') (.typed int)] : Code 3)).any fun S => S.env.binds 0 = some {0} ∧ S.env.types 0 = some (shapeOf ['a']) ∧
      S.env.states 0 = some (.proven (shapeOf ['a', 'b'])) := by decide +kernel
  obtain ⟨S, h1, h2⟩ := Option.any_eq_true _ _ |>.mp hk
  simp only [decide_eq_true_eq] at h2
  refine ⟨S, h1, h2.1, h2.2.1, h2.2.2, fun ha => ?_⟩
  have h3 := (ha 0 {0} _ h2.1 h2.2.1).resolve_left (by decide +kernel) (shapeOf ['a']) (by decide +kernel)
  have simple : ∀ t : Ty, t.isShape = true → Simple t := by rintro t h us rfl; cases h
  obtain ⟨i, hi, s, hs, hd⟩ := h3.mp ((deepAlt_of_simple (simple _ (by decide +kernel))).mpr rfl)
  rw [Finset.mem_singleton] at hi
  subst hi
  rw [h2.2.2] at hs
  cases hs
  exact absurd ((deepAlt_of_simple (simple _ (by decide +kernel))).mp hd) (by decide +kernel)

/-- `x = {b: 1}; y = nil; if e then y = x end; if g then x = {a: 1} end; if x.key?(:a) then z = y end`: `y` is said to be nil if `x` has an
`:a`, though `y` may be the other hash. -/
theorem c54_guard_of_another_fails : typeAfter (seqs [.assign 0 (lit ['b']), .assign 1 (.other nilTy), .branch (.assign 1 (.read 0)) .skip, .branch (.assign 0 (lit ['a'])) .skip,
    .guard 0 (presence (sym 'a') true), .assign 2 (.read 1)] : Code 3) 2 = some (some nilTy) := by decide +kernel

/-- `x = e ? {a: 1} : nil; if g then x = {b: 1} end`: the first hash is forgotten. -/
theorem c54_join_of_mixed_fails : typeAfter (seqs [.assign 0 (.other (mkUnion [shapeOf ['a'], nilTy])), .branch (.assign 0 (lit ['b'])) .skip] : Code 1) 0 =
    some (some (mkUnion [shapeOf ['b'], nilTy])) := by decide +kernel

/-- `x = e ? {a: 1} : nil; x[:b] = 1`: the write is not seen. -/
theorem c54_write_to_mixed_fails : typeAfter (seqs [.assign 0 (.other (mkUnion [shapeOf ['a'], nilTy])), .setField 0 (sym 'b') (.typed int)] : Code 1) 0 =
    some (some (mkUnion [shapeOf ['a'], nilTy])) := by decide +kernel

/-- `x = {a: 1}; if e then x[:b] = 1 end; y = {k: x}`, and under `if x.key?(:b)` the write `x[:d] = 1`: not even `x` is said to have `:d`. -/
theorem c54_write_under_guard_fails : typeAfter (seqs [.assign 0 (lit ['a']), .branch (.setField 0 (sym 'b') (.typed int)) .skip, .assign 1 (.hash [(sym 'k', .var 0)]),
    .guard 0 (presence (sym 'b') true), .setField 0 (sym 'd') (.typed int)] : Code 2) 0 = some (some (shapeOf ['a', 'b'])) := by decide +kernel

/-- Without `y` it is. -/
example : typeAfter (seqs [.assign 0 (lit ['a']), .branch (.setField 0 (sym 'b') (.typed int)) .skip,
    .guard 0 (presence (sym 'b') true), .setField 0 (sym 'd') (.typed int)] : Code 2) 0 = some (some (shapeOf ['a', 'b', 'd'])) := by decide +kernel

/-- `x = {a: 1}; y = {k: x, m: foo}; bar(y)`, where the type of `foo` is unknown: `x` is not given up, though `bar` can change it; without
`m: foo` it is. -/
theorem c54_escape_in_generic_fails : typeAfter (seqs [.assign 0 (lit ['a']), .assign 1 (.hash [(sym 'k', .var 0), (sym 'm', .typed .unknown)]), .escape (.var 1)] : Code 2) 0 =
    some (some (shapeOf ['a'])) ∧
    typeAfter (seqs [.assign 0 (lit ['a']), .assign 1 (.hash [(sym 'k', .var 0)]), .escape (.var 1)] : Code 2) 0 = some (some .unknown) := by
  constructor <;> decide +kernel

end Verif.FlowShapes
