import Verif.Lemmas.HigherOrder
/-!
Lemmas on whole calls.
-/
namespace Verif.HigherOrder
open Verif.Types

variable {W : World}

/-! ### signatures with `self` replaced -/

/-- `self` replaced in a signature. -/
structure SigInst (r : Option Ty) (g g' : Sig) : Prop where
  recvParams : g'.recvParams = g.recvParams
  params : g'.params = g.params
  args : List.Forall₂ (fun (a b : Kind × Tmpl) => a.1 = b.1 ∧ inst r a.2 = .ok b.2) g.args g'.args
  blockParams : List.Forall₂ (fun a b => inst r a = .ok b) g.blockParams g'.blockParams
  blockRet : inst r g.blockRet = .ok g'.blockRet
  ret : inst r g.ret = .ok g'.ret

theorem instSig_ok {r : Option Ty} {g g' : Sig} (h : instSig r g = .ok g') : SigInst r g g' := by
  simp only [instSig, bind_ok, collect_ok] at h
  obtain ⟨args, ha, bp, hb, br, hbr, ret, hr, h⟩ := h
  cases h
  refine ⟨rfl, rfl, ?_, hb, hbr, hr⟩
  refine ha.imp ?_
  rintro a b ⟨t, ht, e⟩
  cases e
  exact ⟨rfl, ht⟩

theorem positional_inst {r : Option Ty} {l l' : List (Kind × Tmpl)} (h : List.Forall₂ (fun (a b : Kind × Tmpl) => a.1 = b.1 ∧ inst r a.2 = .ok b.2) l l') :
    List.Forall₂ (fun (a b : Kind × Tmpl) => a.1 = b.1 ∧ inst r a.2 = .ok b.2) (positional l) (positional l') := by
  induction h with
  | nil => exact .nil
  | cons hab _ ih =>
    rename_i a b l l' _
    unfold positional at ih ⊢
    by_cases ha : a.1 = .other
    · rw [List.filter_cons_of_neg (by simp [ha]), List.filter_cons_of_neg (by simp [← hab.1, ha])]
      exact ih
    · rw [List.filter_cons_of_pos (by simp [ha]), List.filter_cons_of_pos (by simp [← hab.1, ha])]
      exact .cons hab ih

theorem forall₂_get {α β : Type} {R : α → β → Prop} {l : List α} {m : List β} (h : List.Forall₂ R l m) (i : Nat) :
    (l[i]? = none ∧ m[i]? = none) ∨ ∃ a b, l[i]? = some a ∧ m[i]? = some b ∧ R a b := by
  induction h generalizing i with
  | nil => exact .inl ⟨by simp, by simp⟩
  | cons hab _ ih =>
    cases i with
    | zero => exact .inr ⟨_, _, by simp, by simp, hab⟩
    | succ i => simpa using ih i

theorem find_inst {r : Option Ty} {l l' : List (Kind × Tmpl)} (h : List.Forall₂ (fun (a b : Kind × Tmpl) => a.1 = b.1 ∧ inst r a.2 = .ok b.2) l l') :
    (l.find? (fun p => decide (p.1 = .rest)) = none ∧ l'.find? (fun p => decide (p.1 = .rest)) = none) ∨
    ∃ a b, l.find? (fun p => decide (p.1 = .rest)) = some a ∧ l'.find? (fun p => decide (p.1 = .rest)) = some b ∧ inst r a.2 = .ok b.2 := by
  induction h with
  | nil => exact .inl ⟨rfl, rfl⟩
  | cons hab _ ih =>
    rename_i a b l l' _
    by_cases ha : a.1 = .rest
    · exact .inr ⟨a, b, List.find?_cons_of_pos (by simp [ha]), List.find?_cons_of_pos (by simp [← hab.1, ha]), hab.2⟩
    · rw [List.find?_cons_of_neg (by simp [ha]), List.find?_cons_of_neg (by simp [← hab.1, ha])]
      exact ih

theorem paramAt_inst {r : Option Ty} {l l' : List (Kind × Tmpl)} (h : List.Forall₂ (fun (a b : Kind × Tmpl) => a.1 = b.1 ∧ inst r a.2 = .ok b.2) l l') (i : Nat) :
    (paramAt l i = none ∧ paramAt l' i = none) ∨ ∃ t t', paramAt l i = some t ∧ paramAt l' i = some t' ∧ inst r t = .ok t' := by
  unfold paramAt
  rcases forall₂_get h i with ⟨h1, h2⟩ | ⟨a, b, h1, h2, hab⟩
  · rw [h1, h2]
    rcases find_inst h with ⟨h3, h4⟩ | ⟨a, b, h3, h4, hab⟩
    · exact .inl ⟨by simp only [h3, Option.map], by simp only [h4, Option.map]⟩
    · exact .inr ⟨a.2, b.2, by simp only [h3, Option.map], by simp only [h4, Option.map], hab⟩
  · rw [h1, h2]
    exact .inr ⟨a.2, b.2, rfl, rfl, hab.2⟩

theorem paramAt_mem {l : List (Kind × Tmpl)} {i : Nat} {t : Tmpl} (h : paramAt l i = some t) : ∃ p ∈ l, t = p.2 := by
  unfold paramAt at h
  split at h
  · rename_i p hp
    cases h
    exact ⟨p, List.mem_of_getElem? hp, rfl⟩
  · rw [Option.map_eq_some_iff] at h
    obtain ⟨p, hp, rfl⟩ := h
    exact ⟨p, List.mem_of_find?_eq_some hp, rfl⟩

theorem positional_noSelf {r : Option Ty} {g g' : Sig} (h : SigInst r g g') {p : Kind × Tmpl} (hp : p ∈ positional g'.args) : NoSelf p.2 := by
  have : p ∈ g'.args := (List.mem_filter.mp hp).1
  obtain ⟨a, _, _, hi⟩ := forall₂_back h.args this
  exact inst_noSelf _ _ hi

theorem blockParams_noSelf {r : Option Ty} {g g' : Sig} (h : SigInst r g g') {t : Tmpl} (ht : t ∈ g'.blockParams) : NoSelf t := by
  obtain ⟨a, _, hi⟩ := forall₂_back h.blockParams ht
  exact inst_noSelf _ _ hi

/-! ### receiver and arguments -/

theorem bindReceiver_adds {params : List Var} : ∀ {binds : List (Var × Ty)} {s s' : St}, bindReceiver params binds s = .ok s' →
    Adds W s s' (fun x z => x ∈ params ∧ (x, z) ∈ binds) := by
  intro binds
  induction binds with
  | nil =>
    intro s s' h
    cases h
    exact adds_refl s (fun x z h => (by simp at h))
  | cons b binds ih =>
    intro s s' h
    simp only [bindReceiver, each, bind_ok] at h
    obtain ⟨s1, h1, h2⟩ := h
    have ih2 := ih h2
    have iff1 : ∀ x z, (x ∈ params ∧ (x, z) ∈ b :: binds) ↔ (b.1 ∈ params ∧ x = b.1 ∧ z = b.2) ∨ (x ∈ params ∧ (x, z) ∈ binds) := by
      intro x z
      rw [List.mem_cons]
      constructor
      · rintro ⟨hx, rfl | h⟩
        · exact .inl ⟨hx, rfl, rfl⟩
        · exact .inr ⟨hx, h⟩
      · rintro (⟨hx, rfl, rfl⟩ | ⟨hx, h⟩)
        · exact ⟨hx, .inl rfl⟩
        · exact ⟨hx, .inr h⟩
    have first : Adds W s s1 (fun x z => b.1 ∈ params ∧ x = b.1 ∧ z = b.2) := by
      by_cases hb : b.1 ∈ params
      · rw [if_pos (by simpa using hb)] at h1
        refine adds_congr (bindVar_adds h1) ?_ ?_ <;> intros <;> simp [hb]
      · rw [if_neg (by simpa using hb)] at h1
        cases h1
        exact adds_refl s (fun x z h => hb h.1)
    refine adds_congr (adds_trans first ih2) ?_ ?_
    · intro x; simp only [iff1]
    · intro x v; simp only [iff1]

theorem constrainArgs_adds {recv : Option Ty} {ps : List (Kind × Tmpl)} (hs : ∀ p ∈ ps, NoSelf p.2) : ∀ {l : List Ty} {i : Nat} {s s' : St},
    constrainArgs ps i l s = .ok s' →
    Adds W s s' (fun x z => ∃ j a t, l[j]? = some a ∧ paramAt ps (i + j) = some t ∧ Gives recv x t a z) ∧
    ∀ j a, l[j]? = some a → ∃ t s1 s2, paramAt ps (i + j) = some t ∧ constrain t a .substitution s1 = .ok s2 := by
  intro l
  induction l with
  | nil =>
    intro i s s' h
    cases h
    exact ⟨adds_refl s (fun x z h => (by obtain ⟨j, a, t, h, _⟩ := h; simp at h)), fun j a h => (by simp at h)⟩
  | cons a l ih =>
    intro i s s' h
    simp only [constrainArgs] at h
    split at h
    · cases h
    · rename_i t ht
      simp only [bind_ok] at h
      obtain ⟨s1, h1, h2⟩ := h
      obtain ⟨i1, i2⟩ := ih h2
      obtain ⟨p, hp, hpt⟩ := paramAt_mem ht
      have iff1 : ∀ x z, (∃ j b t, (a :: l)[j]? = some b ∧ paramAt ps (i + j) = some t ∧ Gives recv x t b z) ↔
          Gives recv x t a z ∨ ∃ j b t, l[j]? = some b ∧ paramAt ps (i + 1 + j) = some t ∧ Gives recv x t b z := by
        intro x z
        constructor
        · rintro ⟨j, b, t', hj, ht', hg⟩
          cases j with
          | zero =>
            simp only [List.getElem?_cons_zero] at hj
            cases hj
            rw [Nat.add_zero, ht] at ht'
            cases ht'
            exact .inl hg
          | succ j =>
            rw [List.getElem?_cons_succ] at hj
            exact .inr ⟨j, b, t', hj, by rw [← ht']; congr 1; omega, hg⟩
        · rintro (hg | ⟨j, b, t', hj, ht', hg⟩)
          · exact ⟨0, a, t, by simp, ht, hg⟩
          · exact ⟨j + 1, b, t', by simpa using hj, by rw [← ht']; congr 1; omega, hg⟩
      refine ⟨?_, ?_⟩
      · refine adds_congr (adds_trans (constrain_adds (recv := recv) t (hpt ▸ hs p hp) a s s1 h1) i1) ?_ ?_
        · intro x; simp only [iff1]
        · intro x v; simp only [iff1]
      · intro j b hj
        cases j with
        | zero =>
          simp only [List.getElem?_cons_zero] at hj
          cases hj
          exact ⟨t, s, s1, ht, h1⟩
        | succ j =>
          rw [List.getElem?_cons_succ] at hj
          obtain ⟨t', u1, u2, h3, h4⟩ := i2 j b hj
          exact ⟨t', u1, u2, by rw [← h3]; congr 1; omega, h4⟩

/-- What one overload gives. -/
structure One (recv : Option Ty) (binds : List (Var × Ty)) (args : List Ty) (g : Sig) (c : Cand) (ps : List Ty) : Prop where
  sig : SigInst recv g c.sig
  valid : validate c.sig = .ok ()
  adds : ∀ W : World, Adds W ⟨fun _ => none, 0⟩ c.st (fun x z => (x ∈ g.params ∧ (x, z) ∈ binds) ∨
    ∃ i a t, args[i]? = some a ∧ paramAt (positional g.args) i = some t ∧ Gives recv x t a z)
  fits : ∀ (i : Nat) (a : Ty), args[i]? = some a → ∃ t t' s1 s2, paramAt (positional g.args) i = some t ∧ inst recv t = .ok t' ∧
    constrain t' a .substitution s1 = .ok s2
  block : List.Forall₂ (fun t P => resolve c.st.σ 1 t = .ok P) c.sig.blockParams ps
  known : ∀ P ∈ ps, hasUnknown P = false

theorem asInput_ok {α : Type} {o : Out α} {a : α} : asInput o = .ok a ↔ o = .ok a := by
  cases o with
  | err r => cases r <;> simp [asInput]
  | _ => simp [asInput]

theorem prepareOne_ok {recv : Option Ty} {binds : List (Var × Ty)} {args : List Ty} {g : Sig} {r : Cand × List Ty}
    (h : prepareOne recv binds args g = .ok r) : One recv binds args g r.1 r.2 := by
  simp only [prepareOne, bind_ok, asInput_ok, collect_ok] at h
  obtain ⟨g', hg, u, hv, s1, h1, s2, h2, ps, hps, h⟩ := h
  split at h
  · cases h
  · rename_i hu
    cases h
    have hi := instSig_ok hg
    have hps' := positional_inst hi.args
    have hn : ∀ p ∈ positional g'.args, NoSelf p.2 := fun p hp => positional_noSelf hi hp
    refine ⟨hi, hv, fun W => ?_, ?_, hps, ?_⟩
    · have a1 := bindReceiver_adds (W := W) h1
      have a2 := (constrainArgs_adds (W := W) (recv := recv) hn h2).1
      have iff1 : ∀ x z, (∃ i a t, args[i]? = some a ∧ paramAt (positional g'.args) (0 + i) = some t ∧ Gives recv x t a z) ↔
          ∃ i a t, args[i]? = some a ∧ paramAt (positional g.args) i = some t ∧ Gives recv x t a z := by
        intro x z
        constructor
        · rintro ⟨i, a, t, hj, ht, hg⟩
          rw [Nat.zero_add] at ht
          rcases paramAt_inst hps' i with ⟨_, e⟩ | ⟨t0, t', e1, e2, e3⟩
          · rw [e] at ht; cases ht
          · rw [e2] at ht
            cases ht
            exact ⟨i, a, t0, hj, e1, (inst_gives _ _ e3 _ _).mpr hg⟩
        · rintro ⟨i, a, t, hj, ht, hg⟩
          rcases paramAt_inst hps' i with ⟨e, _⟩ | ⟨t0, t', e1, e2, e3⟩
          · rw [e] at ht; cases ht
          · rw [e1] at ht
            cases ht
            exact ⟨i, a, t', hj, by rw [Nat.zero_add]; exact e2, (inst_gives _ _ e3 _ _).mp hg⟩
      refine adds_congr (adds_trans a1 a2) ?_ ?_
      · intro x; simp only [iff1, hi.params]
      · intro x v; simp only [iff1, hi.params]
    · intro i a ha
      obtain ⟨t', u1, u2, h3, h4⟩ := (constrainArgs_adds (W := world0) (recv := recv) hn h2).2 i a ha
      rw [Nat.zero_add] at h3
      rcases paramAt_inst hps' i with ⟨_, e⟩ | ⟨t0, t1, e1, e2, e3⟩
      · rw [e] at h3; cases h3
      · rw [e2] at h3
        cases h3
        exact ⟨t0, _, u1, u2, e1, e3, h4⟩
    · intro P hP
      by_contra hc
      exact hu (List.any_eq_true.mpr ⟨P, hP, by simpa using hc⟩)

/-! ### all overloads -/

theorem prepareLoop_ok {recv : Option Ty} {binds : List (Var × Ty)} {args : List Ty} : ∀ {gs : List Sig} {common : Option (List Ty)} {cs : List Cand}
    {r : Option (List Ty) × List Cand}, prepareLoop recv binds args gs common cs = .ok r →
    ∃ rs : List (Cand × List Ty), List.Forall₂ (fun g x => prepareOne recv binds args g = .ok x) gs rs ∧ r.2 = cs ++ rs.map (·.1) ∧
      (∀ x ∈ rs, r.1 = some x.2) ∧ (common ≠ none → r.1 = common) ∧ (gs = [] → r.1 = common) := by
  intro gs
  induction gs with
  | nil =>
    intro common cs r h
    cases h
    exact ⟨[], .nil, by simp, by simp, fun _ => rfl, fun _ => rfl⟩
  | cons g gs ih =>
    intro common cs r h
    simp only [prepareLoop, bind_ok] at h
    obtain ⟨x, hx, h⟩ := h
    cases common with
    | none =>
      obtain ⟨rs, i1, i2, i3, i4, -⟩ := ih h
      refine ⟨x :: rs, .cons hx i1, by simp [i2], ?_, fun h => absurd rfl h, fun h => (by cases h)⟩
      intro y hy
      rcases List.mem_cons.mp hy with rfl | hy
      · exact i4 (by simp)
      · exact i3 y hy
    | some ps =>
      simp only at h
      split at h
      · rename_i e
        obtain ⟨rs, i1, i2, i3, i4, -⟩ := ih h
        refine ⟨x :: rs, .cons hx i1, by simp [i2], ?_, fun _ => i4 (by simp), fun h => (by cases h)⟩
        intro y hy
        rcases List.mem_cons.mp hy with rfl | hy
        · rw [i4 (by simp), e]
        · exact i3 y hy
      · cases h

/-- The overloads whose number of arguments fits, with what each gives, in order. -/
theorem prepare_ok {recv : Option Ty} {sigs : List Sig} {binds : List (Var × Ty)} {args : List Ty} {p : Prepared} (h : prepare recv sigs binds args = .ok p) :
    List.Forall₂ (fun g c => One recv binds args g c p.blockParams) (sigs.filter fun g => countOk g.args args.length) p.cands ∧
    p.cands ≠ [] ∧ p.cands.length ≤ maxOverloads := by
  simp only [prepare] at h
  split at h
  · cases h
  · rename_i h1
    split at h
    · cases h
    · rename_i h2
      simp only [bind_ok] at h
      obtain ⟨r, hr, h⟩ := h
      obtain ⟨rs, i1, i2, i3, -, -⟩ := prepareLoop_ok hr
      split at h
      · rename_i ps hps
        cases h
        simp only [List.nil_append] at i2
        have hone : List.Forall₂ (fun g c => One recv binds args g c ps) (sigs.filter fun g => countOk g.args args.length) (rs.map (·.1)) := by
          rw [List.forall₂_map_right_iff]
          have : ∀ {l : List Sig} {m : List (Cand × List Ty)}, List.Forall₂ (fun g x => prepareOne recv binds args g = .ok x) l m →
              (∀ x ∈ m, r.1 = some x.2) → List.Forall₂ (fun g (x : Cand × List Ty) => One recv binds args g x.1 ps) l m := by
            intro l m hlm
            induction hlm with
            | nil => intro _; exact .nil
            | cons hab _ ih =>
              intro hm
              refine .cons ?_ (ih (fun x hx => hm x (List.mem_cons_of_mem _ hx)))
              have e := hm _ List.mem_cons_self
              rw [hps] at e
              cases e
              exact prepareOne_ok hab
          exact this i1 i3
        rw [i2]
        refine ⟨hone, ?_, ?_⟩
        · intro e
          simp only at e; rw [e] at hone
          have := hone.length_eq
          simp only [List.length_nil, List.length_eq_zero_iff] at this
          exact h1 (by rw [this]; rfl)
        · rw [← hone.length_eq]; omega
      · cases h

/-! ### the block -/

theorem replace_ok {t : Tmpl} {a : Ty} {σ σ' : Subst} (h : replace t a σ = .ok σ') :
    (∀ x, t = .var x → σ' x = some a) ∧ ∀ x, t ≠ .var x → σ' x = σ x := by
  unfold replace at h
  split at h
  · cases h
  · cases t with
    | var y =>
      simp only at h
      split at h
      · cases h
      · rename_i p hp
        split at h
        · split at h
          · rename_i e
            cases h
            exact ⟨fun x e' => (by cases e'; rw [hp, e]), fun x _ => rfl⟩
          · cases h
        · cases h
          refine ⟨fun x e' => (by cases e'; exact set_self _ _ _), fun x hx => set_other _ _ (fun e => hx (by rw [e]))⟩
    | _ =>
      cases h
      exact ⟨fun x e' => (by cases e'), fun x _ => rfl⟩

theorem last_cons_succ {x : Var} {t : Tmpl} {ts : List Tmpl} {i : Nat} : Last x (t :: ts) (i + 1) ↔ Last x ts i := by
  unfold Last
  rw [List.getElem?_cons_succ]
  refine and_congr_right (fun _ => ⟨fun h j hj => ?_, fun h j hj => ?_⟩)
  · have := h (j + 1) (by omega)
    rwa [List.getElem?_cons_succ] at this
  · cases j with
    | zero => omega
    | succ j => rw [List.getElem?_cons_succ]; exact h j (by omega)

theorem last_cons_zero {x : Var} {t : Tmpl} {ts : List Tmpl} : Last x (t :: ts) 0 ↔ t = .var x ∧ ∀ j : Nat, ts[j]? ≠ some (Tmpl.var x) := by
  unfold Last
  rw [List.getElem?_cons_zero, Option.some.injEq]
  refine and_congr_right (fun _ => ⟨fun h j => ?_, fun h j hj => ?_⟩)
  · have := h (j + 1) (by omega)
    rwa [List.getElem?_cons_succ] at this
  · cases j with
    | zero => omega
    | succ j => rw [List.getElem?_cons_succ]; exact h j

theorem no_last {x : Var} {ts : List Tmpl} : (∀ i, ¬ Last x ts i) ↔ ∀ i : Nat, ts[i]? ≠ some (Tmpl.var x) := by
  constructor
  · induction ts with
    | nil => intro _ i; simp
    | cons t ts ih =>
      intro h i e
      have htail := ih (fun i hi => h (i + 1) (last_cons_succ.mpr hi))
      cases i with
      | zero => exact h 0 (last_cons_zero.mpr ⟨by simpa using e, htail⟩)
      | succ i => rw [List.getElem?_cons_succ] at e; exact htail i e
  · intro h i hi
    exact h i hi.1

theorem replaceAll_ok : ∀ {ts : List Tmpl} {as : List Ty} {σ σ' : Subst}, replaceAll ts as σ = .ok σ' → as.length = ts.length →
    ∀ x, (∀ i, Last x ts i → σ' x = as[i]?) ∧ ((∀ i, ¬ Last x ts i) → σ' x = σ x) := by
  intro ts
  induction ts with
  | nil =>
    intro as σ σ' h _ x
    simp only [replaceAll] at h
    cases h
    exact ⟨fun i hi => (by have := hi.1; simp at this), fun _ => rfl⟩
  | cons t ts ih =>
    intro as σ σ' h hl x
    cases as with
    | nil => simp at hl
    | cons a as =>
      simp only [replaceAll, bind_ok] at h
      obtain ⟨σ1, h1, h2⟩ := h
      obtain ⟨i1, i2⟩ := ih h2 (by simpa using hl) x
      obtain ⟨r1, r2⟩ := replace_ok h1
      refine ⟨?_, ?_⟩
      · intro i hi
        cases i with
        | zero =>
          obtain ⟨e, hn⟩ := last_cons_zero.mp hi
          rw [i2 (no_last.mpr hn), r1 x e]; simp
        | succ i => rw [i1 i (last_cons_succ.mp hi), List.getElem?_cons_succ]
      · intro hn
        have hn' := no_last.mp hn
        rw [i2 (fun i hi => hn (i + 1) (last_cons_succ.mpr hi)), r2 x]
        intro e
        exact hn' 0 (by simp [e])

theorem last_inst {r : Option Ty} {x : Var} {ts ts' : List Tmpl} (h : List.Forall₂ (fun a b => inst r a = .ok b) ts ts') (i : Nat) : Last x ts i ↔ Last x ts' i := by
  have key : ∀ j : Nat, ts[j]? = some (Tmpl.var x) ↔ ts'[j]? = some (Tmpl.var x) := by
    intro j
    rcases forall₂_get h j with ⟨e1, e2⟩ | ⟨a, b, e1, e2, e3⟩
    · rw [e1, e2]
    · rw [e1, e2, Option.some.injEq, Option.some.injEq]
      exact inst_var e3
  simp only [Last, key, ne_eq]

theorem finish_ok {p : Prepared} {B T : Ty} {post : Option (List Ty)} (h : finish p B post = .ok T) :
    (∀ c ∈ p.cands, finishOne B post c = .ok T) ∧ (∀ as, post = some as → as.length = p.blockParams.length) ∧ p.cands ≠ [] ∧
      hasUnknown B = false ∧ tooWide B = false := by
  unfold finish at h
  split at h
  · cases h
  · rename_i hu
    split at h
    · cases h
    · rename_i hw
      split at h
      · cases h
      · rename_i hl
        simp only [bind_ok, collect_ok] at h
        obtain ⟨ts, hts, h⟩ := h
        cases ts with
        | nil => cases h
        | cons t ts =>
          simp only at h
          split at h
          · cases h
          · rename_i hall
            cases h
            refine ⟨?_, ?_, ?_, by simpa using hu, by simpa using hw⟩
            · intro c hc
              obtain ⟨t', ht', e⟩ := forall₂_left hts hc
              rcases List.mem_cons.mp ht' with rfl | ht'
              · exact e
              · by_cases hne : t' = T
                · rw [e, hne]
                · exact absurd (List.any_eq_true.mpr ⟨t', ht', by simpa using hne⟩) hall
            · rintro as rfl
              simpa [lengthOff] using hl
            · intro e
              rw [e] at hts
              cases hts

theorem finishOne_ok {c : Cand} {B T : Ty} {post : Option (List Ty)} (h : finishOne B post c = .ok T) :
    ∃ σ s, (post = none ∧ σ = c.st.σ ∨ ∃ as, post = some as ∧ replaceAll c.sig.blockParams as c.st.σ = .ok σ) ∧
      constrain c.sig.blockRet B .blockResult ⟨σ, c.st.n⟩ = .ok s ∧ resolve s.σ 1 c.sig.ret = .ok T ∧ hasUnknown T = false := by
  unfold finishOne at h
  simp only [bind_ok] at h
  obtain ⟨σ, hσ, s, hs, t, ht, h⟩ := h
  split at h
  · cases h
  · rename_i hu
    cases h
    refine ⟨σ, s, ?_, hs, ht, by simpa using hu⟩
    cases post with
    | none => cases hσ; exact .inl ⟨rfl, rfl⟩
    | some as => exact .inr ⟨as, rfl, hσ⟩

/-- The values of the variables when the block is entered. -/
theorem one_before {recv : Option Ty} {binds : List (Var × Ty)} {args : List Ty} {g : Sig} {c : Cand} {ps : List Ty} (h : One recv binds args g c ps) (x : Var) :
    (∀ v, Before W recv binds args g x v → Val W c.st.σ x v) ∧
    (c.st.σ x ≠ some .unknown → ∀ v, Val W c.st.σ x v → Before W recv binds args g x v) := by
  obtain ⟨-, a2, a3⟩ := h.adds W x
  have hb : ∀ v, Before W recv binds args g x v ↔ ∃ z, ((x ∈ g.params ∧ (x, z) ∈ binds) ∨
      ∃ i a t, args[i]? = some a ∧ paramAt (positional g.args) i = some t ∧ Gives recv x t a z) ∧ Desc W z v := by
    intro v
    constructor
    · rintro (⟨hx, t, ht, hd⟩ | ⟨i, a, t, z, h1, h2, h3, hd⟩)
      · exact ⟨t, .inl ⟨hx, ht⟩, hd⟩
      · exact ⟨z, .inr ⟨i, a, t, h1, h2, h3⟩, hd⟩
    · rintro ⟨z, ⟨hx, ht⟩ | ⟨i, a, t, h1, h2, h3⟩, hd⟩
      · exact .inl ⟨hx, z, ht, hd⟩
      · exact .inr ⟨i, a, t, z, h1, h2, h3, hd⟩
  refine ⟨fun v hv => a2 v (.inr ((hb v).mp hv)), fun hu v hv => ?_⟩
  rcases (a3 hu).2 v hv with ⟨t, ht, _⟩ | h
  · cases ht
  · exact (hb v).mpr h

theorem inst_occ {r : Option Ty} {x : Var} : ∀ t t', inst r t = .ok t' → (Occ x t ↔ Occ x t') := by
  refine Tmpl.ind ?_ ?_ ?_ ?_ ?_ ?_ ?_
  · intro t t' h; cases h; rfl
  · intro t' h
    obtain ⟨t, rfl, -, rfl⟩ := inst_receiver h
    exact ⟨fun h => (by cases h), fun h => (by cases h)⟩
  · intro y t' h; cases h; rfl
  · intro e ih t' h
    simp only [inst, bind_ok] at h
    obtain ⟨e', he, h⟩ := h
    cases h
    exact ⟨fun h => (by cases h with | array h => exact .array ((ih e' he).mp h)), fun h => (by cases h with | array h => exact .array ((ih e' he).mpr h))⟩
  · intro k w ihk ihw t' h
    simp only [inst, bind_ok] at h
    obtain ⟨k', hk, w', hw, h⟩ := h
    cases h
    constructor
    · intro h
      cases h with
      | key h => exact .key ((ihk k' hk).mp h)
      | value h => exact .value ((ihw w' hw).mp h)
    · intro h
      cases h with
      | key h => exact .key ((ihk k' hk).mpr h)
      | value h => exact .value ((ihw w' hw).mpr h)
  · intro ms ih t' h
    simp only [inst, bind_ok] at h
    obtain ⟨ms', hms, h⟩ := h
    cases h
    rw [instList_ok] at hms
    constructor
    · intro h
      cases h with
      | union hm h =>
        obtain ⟨m', hm', e⟩ := forall₂_left hms hm
        exact .union hm' ((ih _ hm m' e).mp h)
    · intro h
      cases h with
      | union hm h =>
        obtain ⟨m, hm', e⟩ := forall₂_back hms hm
        exact .union hm' ((ih m hm' _ e).mpr h)
  · intro t' h; cases h; rfl

end Verif.HigherOrder
