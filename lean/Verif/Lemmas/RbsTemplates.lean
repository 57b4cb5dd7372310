import Mathlib.Data.List.Forall2
import Verif.Spec.RbsTemplates
import Verif.Lemmas.RbsTypes
import Verif.Props.RbsTypes
import Verif.Props.HigherOrder
/-! Lemmas for RbsTemplates. -/
namespace Verif.RbsTemplates
open Verif.Types
open Verif.Yard (Text Unicode)
open Verif.RbsTypes
open Verif.HigherOrder (Out Tmpl Sig Var Reason collect validate maxTmplDepth maxUnion TDesc TDescAny Meth Conforms rubyParam positional bind_ok collect_ok)

variable {U : Unicode} {W : World}

theorem concrete_ok {t : Rbs} {m : Tmpl} (h : concrete U t = .ok m) : m = .concrete (conv U t) ∧ hasUnknown (conv U t) = false := by
  unfold concrete at h
  split at h
  · cases h
  · next hu => cases h; exact ⟨rfl, by simpa using hu⟩

theorem tdescAny_iff {S : W.V → Prop} {θ : Var → W.V → Prop} {ms : List Tmpl} {v : W.V} :
    TDescAny W S θ ms v ↔ ∃ m ∈ ms, TDesc W S θ m v := by
  induction ms with
  | nil => simp [TDescAny]
  | cons m ms ih => simp [TDescAny, ih]

theorem templates_ok {ps : List Text} {d : Nat} {ts : List Rbs} {ms : List Tmpl} (h : templates U ps d ts = .ok ms) :
    List.Forall₂ (fun t m => template U ps d t = .ok m) ts ms := by
  induction ts generalizing ms with
  | nil => rw [templates] at h; cases h; exact .nil
  | cons t l ih =>
    rw [templates] at h
    obtain ⟨m, hm, h⟩ := bind_ok.mp h
    obtain ⟨ms', hms, h⟩ := bind_ok.mp h
    cases h
    exact .cons hm (ih hms)

theorem forall2_left {α β : Type} {P : α → β → Prop} {l : List α} {k : List β} (h : List.Forall₂ P l k) {a : α} (ha : a ∈ l) : ∃ b ∈ k, P a b := by
  induction h with
  | nil => cases ha
  | cons h _ ih =>
    rcases List.mem_cons.mp ha with rfl | ha
    · exact ⟨_, by simp, h⟩
    · obtain ⟨b, hb, hp⟩ := ih ha; exact ⟨b, by simp [hb], hp⟩

theorem forall2_right {α β : Type} {P : α → β → Prop} {l : List α} {k : List β} (h : List.Forall₂ P l k) {b : β} (hb : b ∈ k) : ∃ a ∈ l, P a b := by
  induction h with
  | nil => cases hb
  | cons h _ ih =>
    rcases List.mem_cons.mp hb with rfl | hb
    · exact ⟨_, by simp, h⟩
    · obtain ⟨a, ha, hp⟩ := ih hb; exact ⟨a, by simp [ha], hp⟩

theorem Fair.of_union {P : Text → Prop} {ts : List Rbs} (h : Fair P (.union ts)) : ∀ t ∈ ts, Fair P t := by
  cases h with
  | leaf hl _ => exact absurd rfl (hl.2.1 ts)
  | union h => exact h

theorem Fair.of_opt {P : Text → Prop} {t : Rbs} (h : Fair P (.opt t)) : Fair P t := by
  cases h with
  | leaf hl _ => exact absurd rfl (hl.2.2 t)
  | opt h => exact h

theorem template_app {ps : List Text} {d : Nat} {n : Text} {args : List Rbs} {m : Tmpl} (h : template U ps d (.app n args) = .ok m) :
    (args = [] ∧ strip n ∈ ps ∧ m = .var (code (strip n))) ∨
    (∃ e e', args = [e] ∧ Rbs.isArrayName n ∧ template U ps (d + 1) e = .ok e' ∧ m = .array e') ∨
    (∃ k t k' t', args = [k, t] ∧ Rbs.isHashName n ∧ template U ps (d + 1) k = .ok k' ∧ template U ps (d + 1) t = .ok t' ∧ m = .hash k' t') ∨
    ((args = [] → strip n ∉ ps) ∧ ¬ Rbs.isArrayName n ∧ ¬ Rbs.isHashName n ∧ concrete U (.app n args) = .ok m) := by
  match args with
  | [] =>
    rw [template] at h
    · split at h
      · cases h
      · split at h
        · next hp => cases h; exact .inl ⟨hp.1, hp.2, rfl⟩
        · next hp =>
          split at h
          · cases h
          · next ha =>
            exact .inr (.inr (.inr ⟨fun e h => hp ⟨e, h⟩, fun e => ha (.inl (strip_array.mpr e)), fun e => ha (.inr (strip_hash.mpr e)), h⟩))
    all_goals nofun
  | [e] =>
    rw [template] at h
    split at h
    · cases h
    · split at h
      · next hp => exact absurd hp.1 (by simp)
      · split at h
        · next ha =>
          obtain ⟨e', he, h⟩ := bind_ok.mp h
          cases h
          exact .inr (.inl ⟨_, _, rfl, strip_array.mp ha, he, rfl⟩)
        · next ha =>
          split at h
          · cases h
          · next hh => exact .inr (.inr (.inr ⟨nofun, fun e => ha (strip_array.mpr e), fun e => hh (strip_hash.mpr e), h⟩))
  | [k, t] =>
    rw [template] at h
    split at h
    · cases h
    · split at h
      · next hp => exact absurd hp.1 (by simp)
      · split at h
        · next ha =>
          obtain ⟨k', hk, h⟩ := bind_ok.mp h
          obtain ⟨t', ht, h⟩ := bind_ok.mp h
          cases h
          exact .inr (.inr (.inl ⟨_, _, _, _, rfl, strip_hash.mp ha, hk, ht, rfl⟩))
        · next ha =>
          split at h
          · cases h
          · next hh => exact .inr (.inr (.inr ⟨nofun, fun e => hh (strip_array.mpr e), fun e => ha (strip_hash.mpr e), h⟩))
  | _ :: _ :: _ :: _ =>
    rw [template] at h
    · split at h
      · cases h
      · split at h
        · next hp => exact absurd hp.1 (by simp)
        · next hp =>
          split at h
          · cases h
          · next ha =>
            exact .inr (.inr (.inr ⟨nofun, fun e => ha (.inl (strip_array.mpr e)), fun e => ha (.inr (strip_hash.mpr e)), h⟩))
    all_goals nofun

/-- The values of the written type are described by the template. -/
theorem template_sound {ps : List Text} {P : Text → Prop} (hP : ∀ n, n ∈ ps ↔ P n) {θ : Var → W.V → Prop} {S : W.V → Prop} {R : Reading W}
    (hR : Reads U W P (fun n => θ (code n)) S R) : ∀ t, ∀ d m, template U ps d t = .ok m → Fair P t → ∀ v, Sat R t v → TDesc W S θ m v := by
  have hleaf : ∀ t m, Closed P t → concrete U t = .ok m → ∀ v, Sat R t v → TDesc W S θ m v := by
    intro t m hc h v hv
    rw [(concrete_ok h).1, TDesc]
    exact conv_sound hR.rooted t hc v hv
  refine Rbs.ind ?_ ?_ ?_ ?_ ?_ ?_ ?_
  · intro t h1 h2 h3 h4 h5 h6 d m h hf v hv
    have hcl : Closed P t ∨ ∃ n, t = .cls n ∧ P n := by
      cases hf with
      | leaf _ hc => exact .inl hc
      | param hn => exact .inr ⟨_, rfl, hn⟩
      | bare => exact absurd rfl (h1 _ _)
      | app => exact absurd rfl (h1 _ _)
      | union => exact absurd rfl (h2 _)
      | opt => exact absurd rfl (h4 _)
    cases t with
    | cls n =>
      rw [template] at h
      split at h
      · cases h
      · split at h
        · next hn => cases h; rw [TDesc]; cases hv with | cls hv => exact (hR.name n v ((hP n).mp hn)).mp hv
        · next hn =>
          split at h
          · cases h; rw [TDesc]; trivial
          · exact hleaf _ _ (hcl.resolve_right (fun ⟨n', e, hp⟩ => hn ((hP n).mpr (by cases e; exact hp)))) h v hv
    | var n =>
      rw [template] at h
      split at h
      · cases h
      · cases h; rw [TDesc]; cases hv with | var hv => exact (hR.var n v).mp hv
    | app n args => exact absurd rfl (h1 _ _)
    | union => exact absurd rfl (h2 _)
    | opt => exact absurd rfl (h4 _)
    | tuple => exact absurd rfl (h5 _)
    | inter => exact absurd rfl (h3 _)
    | record => exact absurd rfl (h6 _)
    | selfTy =>
      rw [template] at h
      split at h
      · cases h
      · cases h; rw [TDesc]; cases hv with | selfTy hv => exact hR.self v hv
    | untyped => rw [template] at h; split at h <;> cases h; rw [TDesc]; trivial
    | top => rw [template] at h; split at h <;> cases h; rw [TDesc]; trivial
    | bot => cases hv
    | proc => rw [template] at h; split at h <;> cases h
    | instTy => rw [template] at h; split at h <;> cases h
    | classTy => rw [template] at h; split at h <;> cases h
    | iface => rw [template] at h; split at h <;> cases h
    | _ =>
      rcases hcl with hcl | ⟨_, e, _⟩
      · rw [template] at h
        split at h
        · cases h
        · exact hleaf _ _ hcl h v hv
        all_goals nofun
      · cases e
  · intro n args ih d m h hf v hv
    have hf' : (args = [] ∧ P n ∧ strip n = n) ∨ (¬ P n ∧ ¬ P (strip n) ∧ OneRoot n ∧ ∀ t ∈ args, Fair P t) := by
      cases hf with
      | leaf hl _ => exact absurd rfl (hl.1 _ _)
      | bare hn he => exact .inl ⟨rfl, hn, he⟩
      | app h1 h2 h3 h4 => exact .inr ⟨h1, h2, h3, h4⟩
    rcases template_app h with ⟨rfl, hp, rfl⟩ | ⟨e, e', rfl, ha, he, rfl⟩ | ⟨k, t, k', t', rfl, ha, hk, ht, rfl⟩ | ⟨hp, ha, hh, hc⟩
    · rcases hf' with ⟨-, hn, hs⟩ | ⟨-, h2, -⟩
      · rw [TDesc, hs]
        cases hv with
        | bare hv => exact (hR.name n v hn).mp hv
        | gen _ _ _ hne => exact absurd rfl hne
      · exact absurd ((hP _).mp hp) h2
    · rcases hf' with ⟨h0, -⟩ | ⟨h1, h2, h3, h4⟩
      · cases h0
      · rw [TDesc]
        refine ⟨sat_arr hR.rooted h1 ha hv, fun x hx => ih e (by simp) _ _ he (h4 e (by simp)) x ?_⟩
        cases hv with
        | array _ _ h => exact h x hx
        | gen _ h _ _ => exact absurd rfl (h ha)
    · rcases hf' with ⟨h0, -⟩ | ⟨h1, h2, h3, h4⟩
      · cases h0
      · rw [TDesc]
        refine ⟨sat_hash hR.rooted h1 ha hv, fun x y hx => ?_⟩
        cases hv with
        | hash _ _ hk' ht' => exact ⟨ih k (by simp) _ _ hk (h4 k (by simp)) x (hk' x y hx), ih t (by simp) _ _ ht (h4 t (by simp)) y (ht' x y hx)⟩
        | gen _ _ h _ => exact absurd rfl (h ha)
    · rcases hf' with ⟨h0, hn, hs⟩ | ⟨h1, h2, h3, h4⟩
      · exact absurd ((hP _).mpr (by rw [hs]; exact hn)) (hp h0)
      · obtain ⟨rfl, -⟩ := concrete_ok hc
        rw [TDesc, show conv U (.app n args) = _ by rw [conv]]
        unfold appTy
        rw [if_neg (fun e => ha (strip_array.mp e)), if_neg (fun e => hh (strip_hash.mp e)), className_strip h3]
        exact desc_name hR.rooted h1 (sat_name hR.rooted ha hh hv)
  · intro ts ih d m h hf v hv
    rw [template] at h
    split at h
    · cases h
    · split at h
      · cases h
      · obtain ⟨ms, hms, h⟩ := bind_ok.mp h
        cases h
        cases hv with
        | union ht hv =>
          rw [TDesc, tdescAny_iff]
          obtain ⟨m, hm, hok⟩ := forall2_left (templates_ok hms) ht
          exact ⟨m, hm, ih _ ht _ _ hok (hf.of_union _ ht) v hv⟩
  · intro ts d m h
    rw [template] at h; split at h <;> cases h
  · intro t ih d m h hf v hv
    rw [template] at h
    split at h
    · cases h
    · obtain ⟨m', hm, h⟩ := bind_ok.mp h
      cases h
      rw [TDesc, tdescAny_iff]
      cases hv with
      | optNil hv => exact ⟨.concrete nilTy, by simp, by simpa [TDesc, Desc, nilTy] using hv⟩
      | opt hv => exact ⟨m', by simp, ih _ _ hm hf.of_opt v hv⟩
  · intro ts ih d m h
    rw [template] at h; split at h <;> cases h
  · intro fs _ d m h hf v hv
    rw [template] at h
    · split at h
      · cases h
      · cases hf with
        | leaf _ hc => exact hleaf _ _ hc h v hv
    all_goals nofun

/-- What the template describes are values of the written type. -/
theorem template_exact {ps : List Text} {P : Text → Prop} (hP : ∀ n, n ∈ ps ↔ P n) {θ : Var → W.V → Prop} {S : W.V → Prop} {R : Reading W}
    (hR : Reads U W P (fun n => θ (code n)) S R) : ∀ t, ∀ d m, template U ps d t = .ok m → Sharp P t → ∀ v, TDesc W S θ m v → Sat R t v := by
  have hleaf : ∀ t m, Closed P t → Crisp t → concrete U t = .ok m → ∀ v, TDesc W S θ m v → Sat R t v := by
    intro t m hc hcr h v hv
    rw [(concrete_ok h).1, TDesc] at hv
    exact conv_exact hR.exactly t hc hcr v (concrete_ok h).2 hv
  refine Rbs.ind ?_ ?_ ?_ ?_ ?_ ?_ ?_
  · intro t h1 h2 h3 h4 h5 h6 d m h hf v hv
    cases t with
    | cls n =>
      rw [template] at h
      split at h
      · cases h
      · split at h
        · next hn => cases h; rw [TDesc] at hv; exact .cls ((hR.name n v ((hP n).mp hn)).mpr hv)
        · next hn =>
          split at h
          · next hb => subst hb; exact .cls (hR.boolish (fun hp => hn ((hP _).mpr hp)) v)
          · exact hleaf _ _ (.cls fun hp => hn ((hP n).mpr hp)) .cls h v hv
    | var n =>
      rw [template] at h
      split at h
      · cases h
      · cases h; rw [TDesc] at hv; exact .var ((hR.var n v).mpr hv)
    | app n args => exact absurd rfl (h1 _ _)
    | union => exact absurd rfl (h2 _)
    | opt => exact absurd rfl (h4 _)
    | tuple => exact absurd rfl (h5 _)
    | inter => exact absurd rfl (h3 _)
    | record => exact absurd rfl (h6 _)
    | selfTy => cases hf with | crisp _ _ hc => cases hc
    | untyped => exact .untyped
    | top => exact .top
    | void => exact .void
    | bot => cases hf with | crisp _ _ hc => cases hc
    | proc => rw [template] at h; split at h <;> cases h
    | instTy => rw [template] at h; split at h <;> cases h
    | classTy => rw [template] at h; split at h <;> cases h
    | iface => rw [template] at h; split at h <;> cases h
    | _ =>
      cases hf with
      | crisp _ hcl hcr =>
        rw [template] at h
        split at h
        · cases h
        · exact hleaf _ _ hcl hcr h v hv
        all_goals nofun
  · intro n args ih d m h hf v hv
    have hf' : (args = [] ∧ (P n ∨ P (strip n) → strip n = n) ∧ OneRoot n) ∨ ((Rbs.isArrayName n ∨ Rbs.isHashName n) ∧ ∀ t ∈ args, Sharp P t) := by
      cases hf with
      | crisp hl _ _ => exact absurd rfl (hl.1 _ _)
      | bare h1 h2 => exact .inl ⟨rfl, h1, h2⟩
      | array ha hs => exact .inr ⟨.inl ha, by simpa using hs⟩
      | hash ha hk ht => exact .inr ⟨.inr ha, by simpa using ⟨hk, ht⟩⟩
    rcases template_app h with ⟨rfl, hp, rfl⟩ | ⟨e, e', rfl, ha, he, rfl⟩ | ⟨k, t, k', t', rfl, ha, hk, ht, rfl⟩ | ⟨hp, ha, hh, hc⟩
    · rw [TDesc] at hv
      cases hf with
      | crisp hl _ _ => exact absurd rfl (hl.1 _ _)
      | bare hs _ =>
        have hs := hs (.inr ((hP _).mp hp))
        rw [hs] at hv hp
        exact .bare ((hR.name n v ((hP n).mp hp)).mpr hv)
    · rcases hf' with ⟨h0, -⟩ | ⟨-, h4⟩
      · cases h0
      · rw [TDesc] at hv
        exact .array ha hv.1 fun x hx => ih e (by simp) _ _ he (h4 e (by simp)) x (hv.2 x hx)
    · rcases hf' with ⟨h0, -⟩ | ⟨-, h4⟩
      · cases h0
      · rw [TDesc] at hv
        exact .hash ha hv.1 (fun x y hx => ih k (by simp) _ _ hk (h4 k (by simp)) x (hv.2 x y hx).1)
          (fun x y hx => ih t (by simp) _ _ ht (h4 t (by simp)) y (hv.2 x y hx).2)
    · rcases hf' with ⟨rfl, hs, h1⟩ | ⟨hn, -⟩
      · refine hleaf _ _ (.app (fun hn => hp rfl ((hP _).mpr (by rw [hs (.inl hn)]; exact hn))) h1 (by simp)) .bare hc v hv
      · exact (hn.elim ha hh).elim
  · intro ts ih d m h hf v hv
    rw [template] at h
    split at h
    · cases h
    · split at h
      · cases h
      · obtain ⟨ms, hms, h⟩ := bind_ok.mp h
        cases h
        rw [TDesc, tdescAny_iff] at hv
        obtain ⟨m, hm, hv⟩ := hv
        obtain ⟨t, ht, hok⟩ := forall2_right (templates_ok hms) hm
        refine .union ht (ih t ht _ _ hok ?_ v hv)
        cases hf with
        | crisp hl _ _ => exact absurd rfl (hl.2.1 _)
        | union h => exact h t ht
  · intro ts d m h
    rw [template] at h; split at h <;> cases h
  · intro t ih d m h hf v hv
    rw [template] at h
    split at h
    · cases h
    · obtain ⟨m', hm, h⟩ := bind_ok.mp h
      cases h
      rw [TDesc, tdescAny_iff] at hv
      obtain ⟨x, hx, hv⟩ := hv
      simp only [List.mem_cons, List.not_mem_nil, or_false] at hx
      rcases hx with rfl | rfl
      · exact .optNil (by simpa [TDesc, Desc, nilTy] using hv)
      · refine .opt (ih _ _ hm ?_ v hv)
        cases hf with
        | crisp hl _ _ => exact absurd rfl (hl.2.2 _)
        | opt h => exact h
  · intro ts ih d m h
    rw [template] at h; split at h <;> cases h
  · intro fs _ d m h hf v hv
    rw [template] at h
    · split at h
      · cases h
      · cases hf with
        | crisp _ hc hcr => exact hleaf _ _ hc hcr h v hv
    all_goals nofun

theorem concrete_not_occ {t : Rbs} {m : Tmpl} {x : Var} (h : concrete U t = .ok m) : ¬ HigherOrder.Occ x m := by
  rw [(concrete_ok h).1]
  nofun

/-- The variables of the template are names of the written type. -/
theorem occ_mentions {ps : List Text} {x : Text} : ∀ t, ∀ d m, template U ps d t = .ok m → HigherOrder.Occ (code x) m → Mentions x t := by
  refine Rbs.ind ?_ ?_ ?_ ?_ ?_ ?_ ?_
  · intro t h1 h2 h3 h4 h5 h6 d m h hx
    cases t with
    | cls n =>
      rw [template] at h
      split at h
      · cases h
      · split at h
        · cases h
          generalize e : code n = y at hx
          cases hx
          rw [code_inj e]; exact .cls
        · split at h
          · cases h; cases hx
          · exact absurd hx (concrete_not_occ h)
    | var n =>
      rw [template] at h
      split at h
      · cases h
      · cases h
        generalize e : code n = y at hx
        cases hx
        rw [code_inj e]; exact .var
    | app n args => exact absurd rfl (h1 _ _)
    | union => exact absurd rfl (h2 _)
    | opt => exact absurd rfl (h4 _)
    | tuple => exact absurd rfl (h5 _)
    | inter => exact absurd rfl (h3 _)
    | record => exact absurd rfl (h6 _)
    | selfTy => rw [template] at h; split at h <;> cases h; cases hx
    | untyped => rw [template] at h; split at h <;> cases h; cases hx
    | top => rw [template] at h; split at h <;> cases h; cases hx
    | bot => rw [template] at h; split at h <;> cases h; cases hx
    | proc => rw [template] at h; split at h <;> cases h
    | instTy => rw [template] at h; split at h <;> cases h
    | classTy => rw [template] at h; split at h <;> cases h
    | iface => rw [template] at h; split at h <;> cases h
    | _ =>
      rw [template] at h
      split at h
      · cases h
      · exact absurd hx (concrete_not_occ h)
      all_goals nofun
  · intro n args ih d m h hx
    rcases template_app h with ⟨rfl, hp, rfl⟩ | ⟨e, e', rfl, ha, he, rfl⟩ | ⟨k, t, k', t', rfl, ha, hk, ht, rfl⟩ | ⟨hp, ha, hh, hc⟩
    · generalize e : code (strip n) = y at hx
      cases hx
      exact .bare (code_inj e)
    · cases hx with | array hx => exact .app (List.mem_singleton.mpr rfl) (ih e (by simp) _ _ he hx)
    · cases hx with
      | key hx => exact .app (by simp) (ih k (by simp) _ _ hk hx)
      | value hx => exact .app (t := t) (by simp) (ih t (by simp) _ _ ht hx)
    · exact absurd hx (concrete_not_occ hc)
  · intro ts ih d m h hx
    rw [template] at h
    split at h
    · cases h
    · split at h
      · cases h
      · obtain ⟨ms, hms, h⟩ := bind_ok.mp h
        cases h
        cases hx with
        | union hm hx =>
          obtain ⟨t, ht, hok⟩ := forall2_right (templates_ok hms) hm
          exact .union ht (ih t ht _ _ hok hx)
  · intro ts d m h
    rw [template] at h; split at h <;> cases h
  · intro t ih d m h hx
    rw [template] at h
    split at h
    · cases h
    · obtain ⟨m', hm, h⟩ := bind_ok.mp h
      cases h
      cases hx with
      | union hm' hx =>
        simp only [List.mem_cons, List.not_mem_nil, or_false] at hm'
        rcases hm' with rfl | rfl
        · cases hx
        · exact .opt (ih _ _ hm hx)
  · intro ts ih d m h
    rw [template] at h; split at h <;> cases h
  · intro fs _ d m h hx
    rw [template] at h
    · split at h
      · cases h
      · exact absurd hx (concrete_not_occ h)
    all_goals nofun

/-! ### overloads -/

theorem rubyParam_map {α β : Type} (f : α → β) (ps : List (HigherOrder.Kind × α)) (n i : Nat) :
    rubyParam (ps.map fun p => (p.1, f p.2)) n i = (rubyParam ps n i).map f := by
  have htw : ∀ l : List (HigherOrder.Kind × α), (l.map fun p => (p.1, f p.2)).takeWhile (fun p => decide (p.1 = .required)) =
      (l.takeWhile (fun p => decide (p.1 = .required))).map fun p => (p.1, f p.2) := by
    intro l
    rw [List.takeWhile_map]; rfl
  have hfi : ∀ (k : HigherOrder.Kind) (l : List (HigherOrder.Kind × α)), (l.map fun p => (p.1, f p.2)).filter (fun p => decide (p.1 = k)) =
      (l.filter (fun p => decide (p.1 = k))).map fun p => (p.1, f p.2) := by
    intro k l
    rw [List.filter_map]; rfl
  have hfd : ∀ (l : List (HigherOrder.Kind × α)), (l.map fun p => (p.1, f p.2)).find? (fun p => decide (p.1 = .rest)) =
      (l.find? (fun p => decide (p.1 = .rest))).map fun p => (p.1, f p.2) := by
    intro l
    rw [List.find?_map]; rfl
  simp only [rubyParam, htw, List.length_map, ← List.map_drop, hfi, hfd, List.getElem?_map]
  split
  · simp only [Option.map_map]; rfl
  · split
    · simp only [Option.map_map]; rfl
    · split
      · next e => 
        cases ho : (List.filter (fun p => decide (p.1 = .optional)) (ps.drop (ps.takeWhile (fun p => decide (p.1 = .required))).length))[i -
          (ps.takeWhile (fun p => decide (p.1 = .required))).length]? with
        | none => rw [ho] at e; cases e
        | some q => rw [ho] at e; cases e; rfl
      · next e =>
        cases ho : (List.filter (fun p => decide (p.1 = .optional)) (ps.drop (ps.takeWhile (fun p => decide (p.1 = .required))).length))[i -
          (ps.takeWhile (fun p => decide (p.1 = .required))).length]? with
        | none => simp only [Option.map_map]; rfl
        | some q => rw [ho] at e; cases e

theorem rubyParam_mem {α : Type} {ps : List (HigherOrder.Kind × α)} {n i : Nat} {a : α} (h : rubyParam ps n i = some a) : ∃ k, (k, a) ∈ ps := by
  have hmem : ∀ {o : Option (HigherOrder.Kind × α)}, (∀ p, o = some p → p ∈ ps) → o.map (·.2) = some a → ∃ k, (k, a) ∈ ps := by
    intro o ho h
    cases o with
    | none => cases h
    | some p => cases h; exact ⟨p.1, ho p rfl⟩
  unfold rubyParam at h
  simp only at h
  split at h
  · exact hmem (fun p hp => (List.takeWhile_sublist _).subset (List.mem_of_getElem? hp)) h
  · split at h
    · exact hmem (fun p hp => List.mem_of_mem_drop (List.mem_filter.mp (List.mem_of_getElem? hp)).1) h
    · split at h
      · next p hp => cases h; exact ⟨p.1, List.mem_of_mem_drop (List.mem_filter.mp (List.mem_of_getElem? hp)).1⟩
      · exact hmem (fun p hp => List.mem_of_mem_drop (List.mem_of_find?_eq_some hp)) h

theorem forall2_map_right {α β γ : Type} {P : α → β → Prop} {f : γ → β} {l : List α} {k : List γ} (h : List.Forall₂ P l (k.map f)) :
    List.Forall₂ (fun a c => P a (f c)) l k := by
  induction k generalizing l with
  | nil => cases h; exact .nil
  | cons c k ih => cases h with | cons h hl => exact .cons h (ih hl)

theorem signature_ok {owner own : List Text} {o : Overload} {b : List Rbs × Rbs} {g : Sig} (h : signature U owner own o b = .ok g) :
    List.Forall₂ (fun a p => p.1 = a.2.2 ∧ template U (owner ++ own) 1 a.2.1 = .ok p.2) o.args g.args ∧
    List.Forall₂ (fun t m => template U (owner ++ own) 1 t = .ok m) b.1 g.blockParams ∧
    template U (owner ++ own) 1 b.2 = .ok g.blockRet ∧ template U (owner ++ own) 1 o.ret = .ok g.ret ∧ g.params = (owner ++ own).map code := by
  unfold signature at h
  obtain ⟨args, h1, h⟩ := bind_ok.mp h
  obtain ⟨bp, h2, h⟩ := bind_ok.mp h
  obtain ⟨br, h3, h⟩ := bind_ok.mp h
  obtain ⟨ret, h4, h⟩ := bind_ok.mp h
  obtain ⟨_, _, h⟩ := bind_ok.mp h
  cases h
  refine ⟨(collect_ok.mp h1).imp fun a p h => ?_, collect_ok.mp h2, h3, h4, rfl⟩
  obtain ⟨t, ht, h⟩ := bind_ok.mp h
  cases h
  exact ⟨rfl, ht⟩

/-- The written parameters beside their templates. -/
theorem zipped {ps : List Text} {args : List (Option Text × Rbs × HigherOrder.Kind)} {gs : List (HigherOrder.Kind × Tmpl)}
    (h : List.Forall₂ (fun a p => p.1 = a.2.2 ∧ template U ps 1 a.2.1 = .ok p.2) args gs) :
    ∃ zs : List (HigherOrder.Kind × Rbs × Tmpl), args.map (fun a => (a.2.2, a.2.1)) = zs.map (fun z => (z.1, z.2.1)) ∧
      gs = zs.map (fun z => (z.1, z.2.2)) ∧ ∀ z ∈ zs, template U ps 1 z.2.1 = .ok z.2.2 := by
  induction h with
  | nil => exact ⟨[], rfl, rfl, by simp⟩
  | @cons a p _ _ h _ ih =>
    obtain ⟨zs, h1, h2, h3⟩ := ih
    refine ⟨(a.2.2, a.2.1, p.2) :: zs, by simp [h1], by simp [h2, ← h.1], ?_⟩
    intro z hz
    rcases List.mem_cons.mp hz with rfl | hz
    · exact h.2
    · exact h3 z hz

theorem signatures_mem {owner : List Text} {os : List Overload} {gs : List Sig} (h : signatures U owner os = .ok gs) {g : Sig} (hg : g ∈ gs) :
    ∃ o ∈ os, ∃ b own, o.block = some b ∧ lastWords o.params = .ok own ∧ signature U owner own o b = .ok g := by
  induction os generalizing gs with
  | nil => rw [signatures] at h; cases h; cases hg
  | cons o l ih =>
    rw [signatures] at h
    split at h
    · obtain ⟨o', ho, r⟩ := ih h hg; exact ⟨o', by simp [ho], r⟩
    · next b hb =>
      obtain ⟨own, hown, h⟩ := bind_ok.mp h
      obtain ⟨g', hg', h⟩ := bind_ok.mp h
      obtain ⟨gs', hgs, h⟩ := bind_ok.mp h
      cases h
      rcases List.mem_cons.mp hg with rfl | hg
      · exact ⟨o, by simp, b, own, hb, hown, hg'⟩
      · obtain ⟨o', ho, r⟩ := ih hgs hg; exact ⟨o', by simp [ho], r⟩

theorem signatures_all {owner : List Text} {os : List Overload} {gs : List Sig} (h : signatures U owner os = .ok gs) {o : Overload} (ho : o ∈ os)
    {b : List Rbs × Rbs} (hb : o.block = some b) : ∃ g ∈ gs, ∃ own, lastWords o.params = .ok own ∧ signature U owner own o b = .ok g := by
  induction os generalizing gs with
  | nil => cases ho
  | cons o' l ih =>
    rw [signatures] at h
    split at h
    · next hn =>
      rcases List.mem_cons.mp ho with rfl | ho
      · rw [hn] at hb; cases hb
      · exact ih h ho
    · next b' hb' =>
      obtain ⟨own, hown, h⟩ := bind_ok.mp h
      obtain ⟨g', hg', h⟩ := bind_ok.mp h
      obtain ⟨gs', hgs, h⟩ := bind_ok.mp h
      cases h
      rcases List.mem_cons.mp ho with rfl | ho
      · rw [hb'] at hb; cases hb; exact ⟨g', by simp, own, hown, hg'⟩
      · obtain ⟨g, hg, r⟩ := ih hgs ho; exact ⟨g, by simp [hg], r⟩

end Verif.RbsTemplates
