import Verif.Lemmas.HigherOrderCall
import Mathlib.Data.List.Dedup
/-!
C64: the type of a call with a block.
-/
namespace Verif.HigherOrder
open Verif.Types

variable {W : World}

/-! ### what is found -/

theorem val_congr {R : W.V → Prop} {θ : Var → W.V → Prop} {σ : Subst} {t : Tmpl} {d : Nat} {T : Ty} (h : resolve σ d t = .ok T) (hu : hasUnknown T = false)
    (h1 : ∀ x v, θ x v → Val W σ x v) (h2 : ∀ x, Occ x t → σ x ≠ some .unknown → ∀ v, Val W σ x v → θ x v) (v : W.V) :
    Desc W T v ↔ TDesc W R θ t v := by
  obtain ⟨r1, r2⟩ := resolve_desc (W := W) (R := R) t d T h
  obtain ⟨r3, r4⟩ := r2 hu
  exact ⟨fun hd => tdesc_mono t (fun x hx v => h2 x hx (r3 x hx) v) v (r4 v hd), fun hd => r1 v (tdesc_mono t (fun x _ v => h1 x v) v hd)⟩

theorem prepared_one {recv : Option Ty} {sigs : List Sig} {binds : List (Var × Ty)} {args : List Ty} {p : Prepared} (hp : prepare recv sigs binds args = .ok p)
    {g : Sig} (hg : g ∈ sigs) (hc : countOk g.args args.length = true) : ∃ c ∈ p.cands, One recv binds args g c p.blockParams :=
  forall₂_left (prepare_ok hp).1 (List.mem_filter.mpr ⟨hg, hc⟩)

/-- C64: the types with which the block is typed are, for every overload whose number of arguments fits, exactly those that its
signature names, with each variable standing for what the receiver and the arguments say. -/
theorem c64_block_input {recv : Option Ty} {sigs : List Sig} {binds : List (Var × Ty)} {args : List Ty} {p : Prepared} (hp : prepare recv sigs binds args = .ok p)
    {g : Sig} (hg : g ∈ sigs) (hc : countOk g.args args.length = true) :
    List.Forall₂ (fun t P => hasUnknown P = false ∧ ∀ v, Desc W P v ↔ TDesc W (Self W recv) (Before W recv binds args g) t v) g.blockParams p.blockParams := by
  obtain ⟨c, -, ho⟩ := prepared_one hp hg hc
  rw [List.forall₂_iff_get]
  have l1 := ho.sig.blockParams.length_eq
  have l2 := ho.block.length_eq
  refine ⟨by omega, fun i h1 h2 => ?_⟩
  have e1 := (List.forall₂_iff_get.mp ho.sig.blockParams).2 i h1 (by omega)
  have e2 := (List.forall₂_iff_get.mp ho.block).2 i (by omega) h2
  have hk := ho.known _ (List.get_mem p.blockParams ⟨i, h2⟩)
  refine ⟨hk, fun v => ?_⟩
  rw [inst_desc _ _ e1]
  exact val_congr e2 hk (fun x => (one_before ho x).1) (fun x _ hu v hv => (one_before ho x).2 hu v hv) v

/-- C64: a proven type of the call is, for every overload whose number of arguments fits, exactly the return type that its
signature names, with each variable standing for what the receiver, the arguments and the result of the block say (and the state
in which the block left the objects it was given, if that is known). -/
theorem c64_exact {recv : Option Ty} {sigs : List Sig} {binds : List (Var × Ty)} {args : List Ty} {p : Prepared} (hp : prepare recv sigs binds args = .ok p)
    {ret T : Ty} {post : Option (List Ty)} (hf : finish p ret post = .ok T) {g : Sig} (hg : g ∈ sigs) (hc : countOk g.args args.length = true) (v : W.V) :
    Desc W T v ↔ TDesc W (Self W recv) (After W recv binds args g ret post) g.ret v := by
  obtain ⟨c, hcm, ho⟩ := prepared_one hp hg hc
  obtain ⟨f1, f2, -, -, -⟩ := finish_ok hf
  obtain ⟨σ, s, hσ, hs, hr, hu⟩ := finishOne_ok (f1 c hcm)
  have hadds := constrain_adds (W := W) (recv := recv) _ (inst_noSelf _ _ ho.sig.blockRet) _ _ _ hs
  have hgives : ∀ x z, Gives recv x c.sig.blockRet ret z ↔ Gives recv x g.blockRet ret z := fun x z => (inst_gives _ _ ho.sig.blockRet _ _).symm
  have hstart : ∀ x, (∀ v, Start W recv binds args g post x v → Val W σ x v) ∧
      (σ x ≠ some .unknown → ∀ v, Val W σ x v → Start W recv binds args g post x v) := by
    intro x
    rcases hσ with ⟨rfl, rfl⟩ | ⟨as, rfl, hrep⟩
    · exact one_before ho x
    · have hl : as.length = c.sig.blockParams.length := by
        rw [f2 as rfl, ← ho.block.length_eq]
      obtain ⟨r1, r2⟩ := replaceAll_ok hrep hl x
      have hlast := last_inst (x := x) ho.sig.blockParams
      refine ⟨?_, ?_⟩
      · rintro v (⟨i, a, hi, ha, hd⟩ | ⟨hn, hb⟩)
        · exact ⟨a, by rw [r1 i ((hlast i).mp hi), ha], hd⟩
        · have := (one_before ho x).1 v hb
          unfold Val at this ⊢
          rwa [r2 (fun i hi => hn i ((hlast i).mpr hi))]
      · intro hne v hv
        by_cases hex : ∃ i, Last x g.blockParams i
        · obtain ⟨i, hi⟩ := hex
          obtain ⟨t, ht, hd⟩ := hv
          rw [r1 i ((hlast i).mp hi)] at ht
          exact .inl ⟨i, t, hi, ht, hd⟩
        · have hn : ∀ i, ¬ Last x g.blockParams i := fun i hi => hex ⟨i, hi⟩
          have e := r2 (fun i hi => hn i ((hlast i).mpr hi))
          refine .inr ⟨hn, (one_before ho x).2 (by rw [← e]; exact hne) v ?_⟩
          unfold Val at hv ⊢
          rwa [← e]
  rw [inst_desc _ _ ho.sig.ret]
  refine val_congr hr hu ?_ ?_ v
  · rintro x v (h | ⟨z, hz, hd⟩)
    · exact (hadds x).2.1 v (.inl ((hstart x).1 v h))
    · exact (hadds x).2.1 v (.inr ⟨z, (hgives x z).mpr hz, hd⟩)
  · intro x _ hne v hv
    obtain ⟨a1, a2⟩ := (hadds x).2.2 hne
    rcases a2 v hv with h | ⟨z, hz, hd⟩
    · exact .inl ((hstart x).2 a1 v h)
    · exact .inr ⟨z, (hgives x z).mp hz, hd⟩

/-- C64: a proven type contains nothing unknown, the block was known, and all applicable overloads were taken into account, at
most eight of them, but one at least. -/
theorem c64_proven {recv : Option Ty} {sigs : List Sig} {binds : List (Var × Ty)} {args : List Ty} {p : Prepared} (hp : prepare recv sigs binds args = .ok p)
    {ret T : Ty} {post : Option (List Ty)} (hf : finish p ret post = .ok T) :
    hasUnknown T = false ∧ hasUnknown ret = false ∧ tooWide ret = false ∧
    (sigs.filter fun g => countOk g.args args.length).length = p.cands.length ∧ 0 < p.cands.length ∧ p.cands.length ≤ maxOverloads ∧
    p.blockParams.length ≤ maxBlockParams := by
  obtain ⟨h1, h2, h3⟩ := prepare_ok hp
  obtain ⟨f1, -, -, f4, f5⟩ := finish_ok hf
  obtain ⟨c, hc⟩ := List.exists_mem_of_ne_nil _ h2
  obtain ⟨σ, s, -, -, -, hu⟩ := finishOne_ok (f1 c hc)
  obtain ⟨g, -, ho⟩ := forall₂_back h1 hc
  refine ⟨hu, f4, f5, h1.length_eq, List.length_pos_iff.mpr h2, h3, ?_⟩
  have hv := ho.valid
  unfold validate at hv
  split at hv
  · cases hv
  · rename_i hn
    rw [← ho.block.length_eq]
    omega

/-! ### `self` -/

theorem test_ne_receiver {r : Res} : test r ≠ .receiver := by
  cases r <;> simp [test]

theorem taken_ne_receiver {ms : List Tmpl} {a : Ty} : taken ms a ≠ .receiver := by
  induction ms with
  | nil => simp [taken]
  | cons m ms ih =>
    cases m with
    | concrete e =>
      simp only [taken, ne_eq, bind_receiver]
      rintro (h | ⟨b, -, h⟩)
      · exact test_ne_receiver h
      · split at h
        · cases h
        · exact ih h
    | unconstrained => simp [taken]
    | _ => exact ih

theorem unmatched_ne_receiver {ms : List Tmpl} {l : List Ty} : unmatched ms l ≠ .receiver := by
  induction l with
  | nil => simp [unmatched]
  | cons a l ih =>
    simp only [unmatched, ne_eq, bind_receiver]
    rintro (h | ⟨b, -, h | ⟨us, -, h⟩⟩)
    · exact taken_ne_receiver h
    · exact ih h
    · cases h

theorem bindVar_ne_receiver {x : Var} {a : Ty} {s : St} : bindVar x a s ≠ .receiver := by
  unfold bindVar
  intro h
  split at h
  · cases h
  · split at h
    · cases h
    · cases e : s.σ x with
      | none =>
        simp only [e] at h
        by_cases h3 : tooWide a = true
        · rw [if_pos h3] at h; cases h
        · rw [if_neg h3] at h; cases h
      | some t =>
        simp only [e] at h
        by_cases h3 : tooWide (mkUnion [t, a]) = true
        · rw [if_pos h3] at h; cases h
        · rw [if_neg h3] at h; cases h

theorem constrainUnion_ne_receiver {ms : List Tmpl} {a : Ty} {s : St} : constrainUnion ms a s ≠ .receiver := by
  unfold constrainUnion
  intro h
  split at h
  · cases h
  · simp only [bind_receiver] at h
    rcases h with h | ⟨us, -, h⟩
    · exact unmatched_ne_receiver h
    · split at h
      · split at h
        · cases h
        · exact bindVar_ne_receiver h
      · split at h <;> cases h

theorem constrain_ne_receiver {why : Reason} : ∀ t, NoSelf t → ∀ a s, constrain t a why s ≠ .receiver := by
  refine Tmpl.ind ?_ ?_ ?_ ?_ ?_ ?_ ?_
  · intro e _ a s h
    rw [constrain] at h
    split at h
    · cases h
    · simp only [bind_receiver] at h
      rcases h with h | ⟨b, -, h⟩
      · exact test_ne_receiver h
      · split at h <;> cases h
  · intro h; cases h
  · intro x _ a s h
    rw [constrain] at h
    split at h
    · cases h
    · exact bindVar_ne_receiver h
  · intro e ih hs a s h
    cases hs with
    | array hs =>
      cases a with
      | array es =>
        rw [constrain] at h
        split at h
        · cases h
        · exact ih hs _ _ h
      | _ =>
        unfold constrain at h
        split at h <;> cases h
  · intro k w ihk ihw hs a s h
    cases hs with
    | hash hk hw =>
      have both : ∀ ks vs, (constrain k (mkUnion ks) why s).bind (fun s => constrain w (mkUnion vs) why s) ≠ .receiver := by
        intro ks vs h
        simp only [bind_receiver] at h
        rcases h with h | ⟨s1, -, h⟩
        · exact ihk hk _ _ h
        · exact ihw hw _ _ h
      cases a with
      | hash ks vs =>
        rw [constrain] at h
        split at h
        · cases h
        · exact both _ _ h
      | shape fs r o z d =>
        rw [constrain] at h
        split at h
        · cases h
        · split at h
          · exact both _ _ h
          · cases h
      | _ =>
        unfold constrain at h
        split at h <;> cases h
  · intro ms _ _ a s h
    rw [constrain] at h
    split at h
    · cases h
    · exact constrainUnion_ne_receiver h
  · intro _ a s h
    rw [constrain] at h
    split at h <;> cases h

theorem resolve_ne_receiver {σ : Subst} : ∀ t, NoSelf t → ∀ d, resolve σ d t ≠ .receiver := by
  have listR : ∀ ms d, (∀ m ∈ ms, resolve σ d m ≠ .receiver) → resolveList σ d ms ≠ .receiver := by
    intro ms d
    induction ms with
    | nil => intro _ h; cases h
    | cons m ms ih =>
      intro hm h
      simp only [resolveList, bind_receiver] at h
      rcases h with h | ⟨_, _, h | ⟨_, _, h⟩⟩
      · exact hm m (by simp) h
      · exact ih (fun m h => hm m (by simp [h])) h
      · cases h
  refine Tmpl.ind ?_ ?_ ?_ ?_ ?_ ?_ ?_
  · intro t _ d h
    simp only [resolve] at h
    split at h <;> cases h
  · intro h; cases h
  · intro x _ d h
    simp only [resolve] at h
    split at h
    · cases h
    · split at h <;> cases h
  · intro e ih hs d h
    cases hs with
    | array hs =>
      simp only [resolve] at h
      split at h
      · cases h
      · simp only [bind_receiver] at h
        rcases h with h | ⟨_, _, h⟩
        · exact ih hs _ h
        · cases h
  · intro k w ihk ihw hs d h
    cases hs with
    | hash hk hw =>
      simp only [resolve] at h
      split at h
      · cases h
      · simp only [bind_receiver] at h
        rcases h with h | ⟨_, _, h | ⟨_, _, h⟩⟩
        · exact ihk hk _ h
        · exact ihw hw _ h
        · cases h
  · intro ms ih hs d h
    cases hs with
    | union hs =>
      simp only [resolve] at h
      split at h
      · cases h
      · split at h
        · cases h
        · simp only [bind_receiver] at h
          rcases h with h | ⟨_, _, h⟩
          · exact listR ms _ (fun m hm => ih m hm (hs m hm) _) h
          · cases h
  · intro _ d h
    simp only [resolve] at h
    split at h <;> cases h

theorem each_ne_receiver {α : Type} {f : α → St → Out St} (hf : ∀ a s, f a s ≠ .receiver) : ∀ l s, each f l s ≠ .receiver := by
  intro l
  induction l with
  | nil => intro s h; cases h
  | cons a l ih =>
    intro s h
    simp only [each, bind_receiver] at h
    rcases h with h | ⟨s1, -, h⟩
    · exact hf a s h
    · exact ih s1 h

theorem constrainArgs_ne_receiver {ps : List (Kind × Tmpl)} (hs : ∀ p ∈ ps, NoSelf p.2) : ∀ l i s, constrainArgs ps i l s ≠ .receiver := by
  intro l
  induction l with
  | nil => intro i s h; cases h
  | cons a l ih =>
    intro i s h
    simp only [constrainArgs] at h
    split at h
    · cases h
    · rename_i t ht
      obtain ⟨p, hp, e⟩ := paramAt_mem ht
      simp only [bind_receiver] at h
      rcases h with h | ⟨s1, -, h⟩
      · exact constrain_ne_receiver _ (e ▸ hs p hp) _ _ h
      · exact ih _ _ h

theorem prepareOne_ne_receiver {recv : Option Ty} {binds : List (Var × Ty)} {args : List Ty} {g : Sig} : prepareOne recv binds args g ≠ .receiver := by
  intro h
  simp only [prepareOne, bind_receiver] at h
  rcases h with h | ⟨g', hg, h | ⟨_, -, h | ⟨s1, -, h | ⟨s2, -, h | ⟨ps, -, h⟩⟩⟩⟩⟩
  · simp only [instSig, bind_receiver] at h
    rcases h with h | ⟨_, -, h | ⟨_, -, h | ⟨_, -, h | ⟨_, -, h⟩⟩⟩⟩
    · obtain ⟨a, -, h⟩ := collect_receiver h
      simp only [bind_receiver] at h
      rcases h with h | ⟨_, -, h⟩
      · exact inst_ne_receiver _ h
      · cases h
    · obtain ⟨a, -, h⟩ := collect_receiver h
      exact inst_ne_receiver _ h
    · exact inst_ne_receiver _ h
    · exact inst_ne_receiver _ h
    · cases h
  · unfold validate at h
    split at h
    · cases h
    · split at h
      · cases h
      · split at h
        · cases h
        · split at h <;> cases h
  · refine each_ne_receiver ?_ _ _ h
    intro b s h
    split at h
    · exact bindVar_ne_receiver h
    · cases h
  · exact constrainArgs_ne_receiver (fun p hp => positional_noSelf (instSig_ok hg) hp) _ _ _ h
  · have h' : collect (resolve s2.σ 1) g'.blockParams = .receiver := by
      cases e : collect (resolve s2.σ 1) g'.blockParams with
      | err r => rw [e] at h; cases r <;> cases h
      | ok a => rw [e] at h; cases h
      | panic => rw [e] at h; cases h
      | receiver => rfl
    obtain ⟨t, ht, h'⟩ := collect_receiver h'
    exact resolve_ne_receiver _ (blockParams_noSelf (instSig_ok hg) ht) _ h'
  · split at h <;> cases h

/-- C64: `self` never reaches the places that panic on it: it is replaced everywhere before. -/
theorem c64_self (recv : Option Ty) (sigs : List Sig) (binds : List (Var × Ty)) (args : List Ty) :
    prepare recv sigs binds args ≠ .receiver ∧ ∀ p, prepare recv sigs binds args = .ok p → ∀ ret post, finish p ret post ≠ .receiver := by
  have loopR : ∀ gs common cs, prepareLoop recv binds args gs common cs ≠ .receiver := by
    intro gs
    induction gs with
    | nil => intro common cs h; cases h
    | cons g gs ih =>
      intro common cs h
      simp only [prepareLoop, bind_receiver] at h
      rcases h with h | ⟨r, -, h⟩
      · exact prepareOne_ne_receiver h
      · cases common with
        | none => exact ih _ _ h
        | some ps =>
          simp only at h
          split at h
          · exact ih _ _ h
          · cases h
  refine ⟨?_, ?_⟩
  · intro h
    simp only [prepare] at h
    split at h
    · cases h
    · split at h
      · cases h
      · simp only [bind_receiver] at h
        rcases h with h | ⟨r, -, h⟩
        · exact loopR _ _ _ h
        · split at h <;> cases h
  · intro p hp ret post h
    obtain ⟨hone, -, -⟩ := prepare_ok hp
    unfold finish at h
    split at h
    · cases h
    · split at h
      · cases h
      · split at h
        · cases h
        · simp only [bind_receiver] at h
          rcases h with h | ⟨ts, -, h⟩
          · obtain ⟨c, hc, h⟩ := collect_receiver h
            obtain ⟨g, -, ho⟩ := forall₂_back hone hc
            unfold finishOne at h
            simp only [bind_receiver] at h
            rcases h with h | ⟨σ, -, h | ⟨s, -, h | ⟨t, -, h⟩⟩⟩
            · cases post with
              | none => cases h
              | some as =>
                simp only at h
                have : ∀ ts as σ, replaceAll ts as σ ≠ .receiver := by
                  intro ts
                  induction ts with
                  | nil => intro as σ h; simp only [replaceAll] at h; cases h
                  | cons t ts ih =>
                    intro as σ h
                    cases as with
                    | nil => simp only [replaceAll] at h; cases h
                    | cons a as =>
                      simp only [replaceAll, bind_receiver] at h
                      rcases h with h | ⟨σ1, -, h⟩
                      · unfold replace at h
                        split at h
                        · cases h
                        · split at h
                          · split at h
                            · cases h
                            · split at h
                              · split at h <;> cases h
                              · cases h
                          · cases h
                      · exact ih _ _ h
                exact this _ _ _ h
            · exact constrain_ne_receiver _ (inst_noSelf _ _ ho.sig.blockRet) _ _ h
            · exact resolve_ne_receiver _ (inst_noSelf _ _ ho.sig.ret) _ h
            · split at h <;> cases h
          · cases ts with
            | nil => cases h
            | cons t ts =>
              simp only at h
              split at h <;> cases h

/-! ### Ruby -/

/-- C64: where required parameters come first, then optional ones, then a rest parameter, each argument is compared with the
parameter that takes it in Ruby. -/
theorem c64_positional {ps : List (Kind × Tmpl)} (ho : InOrder ps) {n i : Nat} (hi : i < n) : paramAt ps i = rubyParam ps n i := by
  obtain ⟨req, opt, rest, rfl, h1, h2, h3, h4⟩ := ho
  have hno : ∀ p ∈ opt ++ rest, p.1 ≠ .required := by
    intro p hp
    rcases List.mem_append.mp hp with hp | hp
    · rw [h2 p hp]; simp
    · rw [h3 p hp]; simp
  have hfront : (req ++ opt ++ rest).takeWhile (fun p => decide (p.1 = .required)) = req := by
    rw [List.append_assoc, List.takeWhile_append_of_pos (fun p hp => by simp [h1 p hp])]
    cases e : opt ++ rest with
    | nil => simp
    | cons a l =>
      rw [List.takeWhile_cons_of_neg (by have := hno a (by simp [e]); simpa using this)]
      simp
  have hothers : (req ++ opt ++ rest).drop req.length = opt ++ rest := by rw [List.append_assoc, List.drop_left]
  have hback : (opt ++ rest).filter (fun p => decide (p.1 = .required)) = [] := by
    rw [List.filter_eq_nil_iff]
    intro p hp
    simpa using hno p hp
  have hopt : (opt ++ rest).filter (fun p => decide (p.1 = .optional)) = opt := by
    rw [List.filter_append, List.filter_eq_self.mpr (fun p hp => by simp [h2 p hp]), List.filter_eq_nil_iff.mpr (fun p hp => by simp [h3 p hp]), List.append_nil]
  have hrest : ∀ l : List (Kind × Tmpl), (∀ p ∈ l, p.1 ≠ .rest) → (l ++ rest).find? (fun p => decide (p.1 = .rest)) = rest.head? := by
    intro l hl
    rw [List.find?_append, List.find?_eq_none.mpr (fun p hp => by simpa using hl p hp)]
    cases rest with
    | nil => rfl
    | cons p l => simp [h3 p (by simp)]
  have r1 := hrest opt (fun p hp => by rw [h2 p hp]; simp)
  have r2 := hrest (req ++ opt) (fun p hp => by
    rcases List.mem_append.mp hp with hp | hp
    · rw [h1 p hp]; simp
    · rw [h2 p hp]; simp)
  unfold rubyParam paramAt
  simp only [hfront, hothers, hback, hopt, r1, r2, List.length_nil, Nat.sub_zero]
  by_cases c1 : i < req.length
  · rw [if_pos c1, List.append_assoc, List.getElem?_append_left c1, List.getElem?_eq_getElem c1]
    rfl
  · rw [if_neg c1, if_neg (by omega), List.append_assoc, List.getElem?_append_right (by omega)]
    by_cases c2 : i - req.length < opt.length
    · rw [List.getElem?_append_left c2, List.getElem?_eq_getElem c2]
    · rw [List.getElem?_append_right (by omega), List.getElem?_eq_none (l := opt) (by omega)]
      cases rest with
      | nil => simp
      | cons p l =>
        have : l = [] := List.length_eq_zero_iff.mp (by simp only [List.length_cons] at h4; omega)
        subst this
        cases hj : i - req.length - opt.length with
        | zero => simp
        | succ j => simp

theorem inst_honest {recv : Option Ty} : ∀ t t', inst recv t = .ok t' → ∀ a, Honest W recv t a → Honest W recv t' a := by
  refine Tmpl.ind ?_ ?_ ?_ ?_ ?_ ?_ ?_
  · intro t t' h a hh; cases h; exact hh
  · intro t' h a hh
    obtain ⟨t, rfl, -, rfl⟩ := inst_receiver h
    intro v hd
    obtain ⟨t', e, hd⟩ := hh v hd
    cases e
    exact hd
  · intro x t' h a hh; cases h; exact hh
  · intro e ih t' h a hh
    simp only [inst, bind_ok] at h
    obtain ⟨e', he, h⟩ := h
    cases h
    intro es hes
    exact ih e' he _ (hh es hes)
  · intro k w ihk ihw t' h a hh
    simp only [inst, bind_ok] at h
    obtain ⟨k', hk, w', hw, h⟩ := h
    cases h
    intro ks vs hkv
    exact ⟨ihk k' hk _ (hh ks vs hkv).1, ihw w' hw _ (hh ks vs hkv).2⟩
  · intro ms _ t' h a hh
    simp only [inst, bind_ok] at h
    obtain ⟨ms', hms, h⟩ := h
    cases h
    rw [instList_ok] at hms
    intro y hy ht
    obtain ⟨m', hm', ht⟩ := ht
    obtain ⟨m, hm, e⟩ := forall₂_back hms hm'
    rcases hh y hy ⟨m, hm, (inst_takes e).mpr ht⟩ with hm | ⟨c, hm, hc⟩ | ⟨hm, hc⟩
    · obtain ⟨m', hm', e⟩ := forall₂_left hms hm
      cases e
      exact .inl hm'
    · obtain ⟨m', hm', e⟩ := forall₂_left hms hm
      cases e
      exact .inr (.inl ⟨c, hm', hc⟩)
    · obtain ⟨m', hm', e⟩ := forall₂_left hms hm
      obtain ⟨t, rfl, -, rfl⟩ := inst_receiver e
      refine .inr (.inl ⟨t, hm', fun v hd => ?_⟩)
      obtain ⟨t', e, hd⟩ := hc v hd
      cases e
      exact hd
  · intro t' h a hh; cases h; exact hh

/-- C64: a proven type is right.  If one of the overloads describes the method, required parameters first, the arguments have
the types found for them and, where they are compared with a concrete type, are values of that type, the block answers values of
the types it was typed with by values of the type found for it, and that type tells nothing new about the variables of which
the types of its parameters are made, then what the method returns is described by the proven type. -/
theorem c64_sound {recv : Option Ty} {sigs : List Sig} {binds : List (Var × Ty)} {args : List Ty} {p : Prepared} (hp : prepare recv sigs binds args = .ok p)
    {ret T : Ty} (hf : finish p ret none = .ok T) {g : Sig} (hg : g ∈ sigs) (hc : countOk g.args args.length = true) (ho : InOrder (positional g.args))
    {m : Meth W} (hm : Conforms W recv binds g m) {vals : List W.V} (hvals : List.Forall₂ (Desc W) args vals)
    (hha : ∀ (i : Nat) a t, args[i]? = some a → paramAt (positional g.args) i = some t → Honest W recv t a) (hhr : Honest W recv g.blockRet ret)
    (hnew : ∀ x t, t ∈ g.blockParams → Occ x t → ∀ z, Gives recv x g.blockRet ret z → ∀ v, Desc W z v → Before W recv binds args g x v)
    {blk : List W.V → W.V → Prop} (hblk : ∀ vs w, List.Forall₂ (Desc W) p.blockParams vs → blk vs w → Desc W ret w)
    {r : W.V} (hr : m vals blk r) : Desc W T r := by
  rw [c64_exact hp hf hg hc]
  obtain ⟨c, hcm, hone⟩ := prepared_one hp hg hc
  obtain ⟨f1, -, -, -, -⟩ := finish_ok hf
  obtain ⟨σ, s, -, hs, -, -⟩ := finishOne_ok (f1 c hcm)
  refine hm _ ?_ vals blk r ?_ ?_ hr
  · intro x t hx ht v hd
    exact .inl (.inl ⟨hx, t, ht, hd⟩)
  · intro i v t hv ht
    rcases forall₂_get hvals i with ⟨-, e⟩ | ⟨a, v', ha, hv', hd⟩
    · rw [e] at hv; cases hv
    · rw [hv] at hv'
      cases hv'
      have hi : i < vals.length := (List.getElem?_eq_some_iff.mp hv).1
      rw [← c64_positional ho hi] at ht
      obtain ⟨t1, t2, s1, s2, e1, e2, e3⟩ := hone.fits i a ha
      rw [ht] at e1
      cases e1
      rw [inst_desc _ _ e2]
      refine tdesc_mono t2 ?_ v (constrain_covers t2 (inst_noSelf _ _ e2) a s1 s2 e3 (inst_honest _ _ e2 a (hha i a t ha ht)) v hd)
      rintro x - w ⟨z, hz, hw⟩
      exact .inl (.inr ⟨i, a, t, z, ha, ht, (inst_gives _ _ e2 _ _).mpr hz, hw⟩)
  · intro vs w hvs hw
    have hvs' : List.Forall₂ (Desc W) p.blockParams vs := by
      have hin := c64_block_input (W := W) hp hg hc
      rw [List.forall₂_iff_get] at hin hvs ⊢
      refine ⟨by omega, fun i h1 h2 => ?_⟩
      have i1 := hin.2 i (by omega) h1
      have i2 := hvs.2 i (by omega) h2
      rw [i1.2]
      refine tdesc_mono _ ?_ _ i2
      rintro x hx v (hb | ⟨z, hz, hd⟩)
      · exact hb
      · exact hnew x _ (List.get_mem _ _) hx z hz v hd
    have hd := hblk vs w hvs' hw
    rw [inst_desc _ _ hone.sig.blockRet]
    refine tdesc_mono _ ?_ w (constrain_covers _ (inst_noSelf _ _ hone.sig.blockRet) ret _ _ hs (inst_honest _ _ hone.sig.blockRet ret hhr) w hd)
    rintro x - v ⟨z, hz, hv⟩
    exact .inr ⟨z, (inst_gives _ _ hone.sig.blockRet _ _).mpr hz, hv⟩

/-- What a type tells about a variable that does not occur in the template: nothing. -/
theorem gives_occ {recv : Option Ty} {x : Var} {t : Tmpl} {a z : Ty} (h : Gives recv x t a z) : Occ x t := by
  induction h with
  | var => exact .var
  | array _ ih => exact .array ih
  | key _ ih => exact .key ih
  | value _ ih => exact .value ih
  | shape _ _ ih => exact ih
  | union h _ _ => exact .union h .var

/-- C64: in particular the type is right where no variable of the types of the block's parameters occurs in the type of its
result, as in `Array#map`. -/
theorem c64_sound_disjoint {recv : Option Ty} {sigs : List Sig} {binds : List (Var × Ty)} {args : List Ty} {p : Prepared} (hp : prepare recv sigs binds args = .ok p)
    {ret T : Ty} (hf : finish p ret none = .ok T) {g : Sig} (hg : g ∈ sigs) (hc : countOk g.args args.length = true) (ho : InOrder (positional g.args))
    {m : Meth W} (hm : Conforms W recv binds g m) {vals : List W.V} (hvals : List.Forall₂ (Desc W) args vals)
    (hha : ∀ (i : Nat) a t, args[i]? = some a → paramAt (positional g.args) i = some t → Honest W recv t a) (hhr : Honest W recv g.blockRet ret)
    (hdis : ∀ x t, t ∈ g.blockParams → Occ x t → ¬ Occ x g.blockRet)
    {blk : List W.V → W.V → Prop} (hblk : ∀ vs w, List.Forall₂ (Desc W) p.blockParams vs → blk vs w → Desc W ret w)
    {r : W.V} (hr : m vals blk r) : Desc W T r :=
  c64_sound hp hf hg hc ho hm hvals hha hhr (fun x t ht hx _ hz => absurd (gives_occ hz) (hdis x t ht hx)) hblk hr

/-- C64: the comparison with a concrete type is honest where it is the type found for the argument that is the subtype. -/
theorem c64_subtype_honest {recv : Option Ty} {n : Nat} {e a : Ty} (h : sub n a e = .ok true) (ba : Built a) (be : Built e) (pa : Plain W a) (pe : Plain W e) :
    Honest W recv (.concrete e) a :=
  fun v hd => c43_sound_partial h ba be pa pe v hd

/-! ### limits -/

/-- A type inside a type. -/
inductive Within : Ty → Ty → Prop where
  | refl (t) : Within t t
  | array {u t ts} : t ∈ ts → Within u t → Within u (.array ts)
  | key {u t ks vs} : t ∈ ks → Within u t → Within u (.hash ks vs)
  | value {u t ks vs} : t ∈ vs → Within u t → Within u (.hash ks vs)
  | field {u fs r o z d} {f : Field} : f ∈ fs → Within u f.2.2 → Within u (.shape fs r o z d)
  | member {u t ts} : t ∈ ts → Within u t → Within u (.union ts)

theorem tooWideList_iff {l : List Ty} : tooWideList l = true ↔ ∃ t ∈ l, tooWide t = true := by
  induction l with
  | nil => simp [tooWideList]
  | cons a l ih => simp [tooWideList, ih]

theorem tooWideFields_iff {l : List Field} : tooWideFields l = true ↔ ∃ f ∈ l, tooWide f.2.2 = true := by
  induction l with
  | nil => simp [tooWideFields]
  | cons a l ih => obtain ⟨k, p, t⟩ := a; simp [tooWideFields, ih]

/-- C64: a type is too wide if there is a union of more than eight members in it (other than in the rest of a shape). -/
theorem c64_wide_iff : ∀ t, tooWide t = true ↔ ∃ us, Within (.union us) t ∧ 8 < us.length := by
  refine Ty.ind ?_ ?_ ?_ ?_ ?_ ?_ ?_ ?_ ?_ ?_
  iterate 5
    intro n
    refine ⟨fun h => (by cases h), ?_⟩
    rintro ⟨us, h, -⟩
    cases h
  · intro ts ih
    rw [tooWide, tooWideList_iff]
    constructor
    · rintro ⟨t, ht, h⟩
      obtain ⟨us, hw, hl⟩ := (ih t ht).mp h
      exact ⟨us, .array ht hw, hl⟩
    · rintro ⟨us, hw, hl⟩
      cases hw with
      | array ht hw => exact ⟨_, ht, (ih _ ht).mpr ⟨us, hw, hl⟩⟩
  · intro ks vs ihk ihv
    rw [tooWide, Bool.or_eq_true, tooWideList_iff, tooWideList_iff]
    constructor
    · rintro (⟨t, ht, h⟩ | ⟨t, ht, h⟩)
      · obtain ⟨us, hw, hl⟩ := (ihk t ht).mp h
        exact ⟨us, .key ht hw, hl⟩
      · obtain ⟨us, hw, hl⟩ := (ihv t ht).mp h
        exact ⟨us, .value ht hw, hl⟩
    · rintro ⟨us, hw, hl⟩
      cases hw with
      | key ht hw => exact .inl ⟨_, ht, (ihk _ ht).mpr ⟨us, hw, hl⟩⟩
      | value ht hw => exact .inr ⟨_, ht, (ihv _ ht).mpr ⟨us, hw, hl⟩⟩
  · intro fs r o z d ih _
    rw [tooWide, tooWideFields_iff]
    constructor
    · rintro ⟨f, hf, h⟩
      obtain ⟨us, hw, hl⟩ := (ih f hf).mp h
      exact ⟨us, .field hf hw, hl⟩
    · rintro ⟨us, hw, hl⟩
      cases hw with
      | field hf hw => exact ⟨_, hf, (ih _ hf).mpr ⟨us, hw, hl⟩⟩
  · intro ts ih
    rw [tooWide, Bool.or_eq_true, tooWideList_iff, decide_eq_true_iff]
    constructor
    · rintro (h | ⟨t, ht, h⟩)
      · exact ⟨ts, .refl _, h⟩
      · obtain ⟨us, hw, hl⟩ := (ih t ht).mp h
        exact ⟨us, .member ht hw, hl⟩
    · rintro ⟨us, hw, hl⟩
      cases hw with
      | refl => exact .inl hl
      | member ht hw => exact .inr ⟨_, ht, (ih _ ht).mpr ⟨us, hw, hl⟩⟩
  · refine ⟨fun h => (by cases h), ?_⟩
    rintro ⟨us, h, -⟩
    cases h

/-- A template inside a template, so many levels down. -/
inductive Down : Nat → Tmpl → Tmpl → Prop where
  | refl (t) : Down 0 t t
  | array {n u e} : Down n u e → Down (n + 1) u (.array e)
  | key {n u k v} : Down n u k → Down (n + 1) u (.hash k v)
  | value {n u k v} : Down n u v → Down (n + 1) u (.hash k v)
  | member {n u m ms} : m ∈ ms → Down n u m → Down (n + 1) u (.union ms)

/-- At most eight levels, and at most eight members in a union. -/
def Small (t : Tmpl) : Prop := ∀ n u, Down n u t → n < 8 ∧ ∀ ms, u = .union ms → ms.length ≤ 8

theorem depthOkList_iff {d : Nat} {ms : List Tmpl} : depthOkList d ms = true ↔ ∀ m ∈ ms, depthOk d m = true := by
  induction ms with
  | nil => simp [depthOkList]
  | cons m ms ih => simp [depthOkList, ih]

theorem depthOk_iff : ∀ t d, depthOk d t = true ↔ ∀ n u, Down n u t → d + n ≤ 8 ∧ ∀ ms, u = .union ms → ms.length ≤ 8 := by
  have leaf : ∀ t, (∀ d, depthOk d t = decide (d ≤ maxTmplDepth)) → (∀ n u, Down n u t → n = 0 ∧ u = t) → (∀ ms, t ≠ .union ms) →
      ∀ d, depthOk d t = true ↔ ∀ n u, Down n u t → d + n ≤ 8 ∧ ∀ ms, u = .union ms → ms.length ≤ 8 := by
    intro t h1 h2 h3 d
    rw [h1, decide_eq_true_iff]
    constructor
    · intro h n u hd
      obtain ⟨rfl, rfl⟩ := h2 n u hd
      exact ⟨h, fun ms e => absurd e (h3 ms)⟩
    · intro h
      exact (h 0 t (.refl t)).1
  refine Tmpl.ind ?_ ?_ ?_ ?_ ?_ ?_ ?_
  · intro t
    exact leaf _ (fun d => rfl) (fun n u h => (by cases h; exact ⟨rfl, rfl⟩)) (fun ms h => (by cases h))
  · exact leaf _ (fun d => rfl) (fun n u h => (by cases h; exact ⟨rfl, rfl⟩)) (fun ms h => (by cases h))
  · intro x
    exact leaf _ (fun d => rfl) (fun n u h => (by cases h; exact ⟨rfl, rfl⟩)) (fun ms h => (by cases h))
  · intro e ih d
    rw [depthOk, Bool.and_eq_true, decide_eq_true_iff, ih]
    constructor
    · rintro ⟨h1, h2⟩ n u hd
      cases hd with
      | refl => exact ⟨h1, fun ms e => (by cases e)⟩
      | array hd =>
        have := h2 _ u hd
        exact ⟨by omega, this.2⟩
    · intro h
      refine ⟨(h 0 _ (.refl _)).1, fun n u hd => ?_⟩
      have := h _ u (.array hd)
      exact ⟨by omega, this.2⟩
  · intro k w ihk ihw d
    rw [depthOk, Bool.and_eq_true, Bool.and_eq_true, decide_eq_true_iff, ihk, ihw]
    constructor
    · rintro ⟨h1, h2, h3⟩ n u hd
      cases hd with
      | refl => exact ⟨h1, fun ms e => (by cases e)⟩
      | key hd =>
        have := h2 _ u hd
        exact ⟨by omega, this.2⟩
      | value hd =>
        have := h3 _ u hd
        exact ⟨by omega, this.2⟩
    · intro h
      refine ⟨(h 0 _ (.refl _)).1, fun n u hd => ?_, fun n u hd => ?_⟩
      · have := h _ u (.key hd)
        exact ⟨by omega, this.2⟩
      · have := h _ u (.value hd)
        exact ⟨by omega, this.2⟩
  · intro ms ih d
    rw [depthOk, Bool.and_eq_true, Bool.and_eq_true, decide_eq_true_iff, decide_eq_true_iff, depthOkList_iff]
    constructor
    · rintro ⟨h1, h2, h3⟩ n u hd
      cases hd with
      | refl => exact ⟨h1, fun ms' e => (by cases e; exact h2)⟩
      | member hm hd =>
        have := (ih _ hm (d + 1)).mp (h3 _ hm) _ u hd
        exact ⟨by omega, this.2⟩
    · intro h
      refine ⟨(h 0 _ (.refl _)).1, (h 0 _ (.refl _)).2 ms rfl, fun m hm => (ih m hm (d + 1)).mpr (fun n u hd => ?_)⟩
      have := h _ u (.member hm hd)
      exact ⟨by omega, this.2⟩
  · exact leaf _ (fun d => rfl) (fun n u h => (by cases h; exact ⟨rfl, rfl⟩)) (fun ms h => (by cases h))

theorem differ_iff : ∀ {l m : List Var}, (l.length ≤ m.length ∧ differ l m = false) ↔ l <+: m := by
  intro l
  induction l with
  | nil => intro m; simp [differ]
  | cons a l ih =>
    intro m
    cases m with
    | nil => simp [differ]
    | cons b m =>
      rw [List.cons_prefix_cons, ← ih]
      simp only [differ, Bool.or_eq_false_iff, decide_eq_false_iff_not, not_not, List.length_cons]
      constructor
      · rintro ⟨h1, h2, h3⟩; exact ⟨h2, by omega, h3⟩
      · rintro ⟨h1, h2, h3⟩; exact ⟨by omega, h1, h3⟩

/-- C64: a signature is used only if it has at most eight type variables, all different, those of the receiver first, at most
four block parameters, and templates of at most eight levels with unions of at most eight members. -/
theorem c64_valid_iff (g : Sig) : validate g = .ok () ↔ g.params.length ≤ 8 ∧ g.blockParams.length ≤ 4 ∧ g.params.Nodup ∧ g.recvParams <+: g.params ∧
    Small g.ret ∧ Small g.blockRet ∧ (∀ a ∈ g.args, Small a.2) ∧ ∀ t ∈ g.blockParams, Small t := by
  have small : ∀ t, depthOk 1 t = true ↔ Small t := by
    intro t
    rw [depthOk_iff]
    exact forall_congr' (fun n => forall_congr' (fun u => imp_congr_right (fun _ => and_congr_left (fun _ => by omega))))
  have hded : g.params.dedup.length = g.params.length ↔ g.params.Nodup := by
    constructor
    · intro h
      have := (List.dedup_sublist g.params).eq_of_length h
      rw [← List.dedup_eq_self]; exact this
    · intro h
      rw [List.dedup_eq_self.mpr h]
  unfold validate
  constructor
  · intro h
    split at h
    · cases h
    · rename_i h1
      split at h
      · cases h
      · rename_i h2
        split at h
        · cases h
        · rename_i h3
          split at h
          · rename_i h4
            simp only [Bool.and_eq_true, List.all_eq_true, small] at h4
            have b1 : ¬ g.params.length > 8 := fun h => h1 (.inl h)
            have b2 : ¬ g.blockParams.length > 4 := fun h => h1 (.inr h)
            have b3 : ¬ g.recvParams.length > g.params.length := fun h => h3 (.inl h)
            have b4 : differ g.recvParams g.params = false := by
              cases e : differ g.recvParams g.params with
              | false => rfl
              | true => exact absurd (.inr e) h3
            exact ⟨by omega, by omega, hded.mp (by omega), differ_iff.mp ⟨by omega, b4⟩, h4.1, h4.2.1, h4.2.2.1, h4.2.2.2⟩
          · cases h
  · rintro ⟨h1, h2, h3, h4, h5, h6, h7, h8⟩
    have h4' := differ_iff.mpr h4
    rw [if_neg, if_neg, if_neg, if_pos]
    · simp only [Bool.and_eq_true, List.all_eq_true, small]
      exact ⟨h5, h6, h7, h8⟩
    · rintro (h | h)
      · omega
      · rw [h4'.2] at h; cases h
    · rw [hded.mpr h3]; simp
    · rintro (h | h)
      · exact absurd h (by unfold maxVariables; omega)
      · exact absurd h (by unfold maxBlockParams; omega)

/-- C64: a call to which no overload applies, or more than eight, has no type. -/
theorem c64_refused (recv : Option Ty) (sigs : List Sig) (binds : List (Var × Ty)) (args : List Ty) :
    ((∀ g ∈ sigs, countOk g.args args.length = false) → prepare recv sigs binds args = .err .unsupported) ∧
    (8 < (sigs.filter fun g => countOk g.args args.length).length → prepare recv sigs binds args = .err .bound) := by
  refine ⟨fun h => ?_, fun h => ?_⟩
  · have : (sigs.filter fun g => countOk g.args args.length) = [] := by
      rw [List.filter_eq_nil_iff]
      intro g hg
      rw [h g hg]; simp
    unfold prepare
    simp only [this, List.isEmpty_nil, if_true]
  · unfold prepare
    simp only
    rw [if_neg, if_pos (show _ > maxOverloads from h)]
    intro he
    rw [List.isEmpty_iff] at he
    rw [he] at h
    simp at h

/-- C64: the number of arguments fits if it is not less than that of the required parameters and, without a rest parameter, not
more than that of the required and optional ones; keywords and the block do not count. -/
theorem c64_count_iff (req opt rest other : List (Kind × Tmpl)) (args : List (Kind × Tmpl)) (hp : args.Perm (req ++ opt ++ rest ++ other))
    (h1 : ∀ p ∈ req, p.1 = .required) (h2 : ∀ p ∈ opt, p.1 = .optional) (h3 : ∀ p ∈ rest, p.1 = .rest) (h4 : ∀ p ∈ other, p.1 = .other) (n : Nat) :
    countOk args n = true ↔ req.length ≤ n ∧ (n ≤ req.length + opt.length ∨ rest ≠ []) := by
  have all : ∀ (l : List (Kind × Tmpl)) (k k' : Kind), (∀ p ∈ l, p.1 = k) → k ≠ k' → l.filter (fun a => decide (a.1 = k')) = [] := by
    intro l k k' h hne
    rw [List.filter_eq_nil_iff]
    intro p hp'
    simp [h p hp', hne]
  have own : ∀ (l : List (Kind × Tmpl)) (k : Kind), (∀ p ∈ l, p.1 = k) → l.filter (fun a => decide (a.1 = k)) = l := by
    intro l k h
    rw [List.filter_eq_self]
    intro p hp'
    simp [h p hp']
  have c1 : (args.filter fun a => decide (a.1 = .required)).length = req.length := by
    rw [(hp.filter _).length_eq, List.filter_append, List.filter_append, List.filter_append, own _ _ h1, all _ _ _ h2 (by simp), all _ _ _ h3 (by simp),
      all _ _ _ h4 (by simp)]
    simp
  have c2 : (args.filter fun a => decide (a.1 = .optional)).length = opt.length := by
    rw [(hp.filter _).length_eq, List.filter_append, List.filter_append, List.filter_append, own _ _ h2, all _ _ _ h1 (by simp), all _ _ _ h3 (by simp),
      all _ _ _ h4 (by simp)]
    simp
  have c3 : (args.any fun a => decide (a.1 = .rest)) = true ↔ rest ≠ [] := by
    rw [List.any_eq_true]
    constructor
    · rintro ⟨p, hp', hk⟩ e
      have hk : p.1 = .rest := by simpa using hk
      have hp' := hp.mem_iff.mp hp'
      rw [e] at hp'
      simp only [List.append_nil, List.mem_append] at hp'
      rcases hp' with (hp' | hp') | hp'
      · rw [h1 p hp'] at hk; cases hk
      · rw [h2 p hp'] at hk; cases hk
      · rw [h4 p hp'] at hk; cases hk
    · intro hne
      obtain ⟨p, hp'⟩ := List.exists_mem_of_ne_nil _ hne
      exact ⟨p, hp.mem_iff.mpr (by simp [hp']), by simp [h3 p hp']⟩
  unfold countOk
  simp only [c1, c2, Bool.and_eq_true, Bool.or_eq_true, decide_eq_true_iff, c3]
  exact and_congr_right (fun _ => or_comm)

/-! ### examples and counterexamples -/

def vA : Var := [65]
def vB : Var := [66]

/-- `Array#map`: `[U] () { (Elem) -> U } -> Array[U]` on `Array[Elem]`. -/
def mapSig : Sig := ⟨[vA], [vA, vB], [], [.var vA], .var vB, .array (.var vB)⟩

/-- C64: `Array#map` has the type of arrays of what the block gives, whatever the types are, as long as they are known and no
union in them has more than eight members. -/
theorem c64_map (e b : Ty) (he : hasUnknown e = false) (hb : hasUnknown b = false) (we : tooWide e = false) (wb : tooWide b = false) :
    ∃ p, prepare none [mapSig] [(vA, e)] [] = .ok p ∧ p.blockParams = [e] ∧ finish p b none = .ok (.array [b]) := by
  have hprep : prepare none [mapSig] [(vA, e)] [] = .ok ⟨[⟨mapSig, ⟨Subst.set (fun _ => none) vA e, 1⟩⟩], [e]⟩ := by
    have h1 : bindVar vA e ⟨fun _ => none, 0⟩ = .ok ⟨Subst.set (fun _ => none) vA e, 1⟩ := by
      unfold bindVar
      rw [if_neg (by simp [he]), if_neg (by decide)]
      simp only [we, Bool.false_eq_true, if_false, Nat.zero_add]
    have h2 : bindReceiver [vA, vB] [(vA, e)] ⟨fun _ => none, 0⟩ = .ok ⟨Subst.set (fun _ => none) vA e, 1⟩ := by
      simp only [bindReceiver, each]
      rw [if_pos (by decide), h1]
      rfl
    have hone : prepareOne none [(vA, e)] [] mapSig = .ok (⟨mapSig, ⟨Subst.set (fun _ => none) vA e, 1⟩⟩, [e]) := by
      unfold prepareOne
      have i1 : instSig none mapSig = .ok mapSig := rfl
      have i2 : validate mapSig = .ok () := by decide +kernel
      have i3 : mapSig.params = [vA, vB] := rfl
      rw [i1]
      simp only [Out.bind, i2, i3, h2]
      have i4 : collect (resolve (Subst.set (fun _ => none) vA e) 1) mapSig.blockParams = .ok [e] := by
        have : resolve (Subst.set (fun _ => none) vA e) 1 (.var vA) = .ok e := by
          simp only [resolve]
          rw [if_neg (by decide), set_self]
        show (resolve (Subst.set (fun _ => none) vA e) 1 (.var vA)).bind _ = _
        rw [this]
        rfl
      have i5 : constrainArgs (positional mapSig.args) 0 [] ⟨Subst.set (fun _ => none) vA e, 1⟩ = .ok ⟨Subst.set (fun _ => none) vA e, 1⟩ := rfl
      simp only [i5, i4, asInput, List.any_cons, List.any_nil, he, Bool.or_false, Bool.false_eq_true, if_false]
    unfold prepare
    have hfil : ([mapSig].filter fun g => countOk g.args ([] : List Ty).length) = [mapSig] := rfl
    simp only [hfil, List.isEmpty_cons, Bool.false_eq_true, if_false, List.length_singleton]
    rw [if_neg (by decide)]
    simp only [prepareLoop, hone, Out.bind, List.nil_append]
  refine ⟨_, hprep, rfl, ?_⟩
  have hfin : finishOne b none ⟨mapSig, ⟨Subst.set (fun _ => none) vA e, 1⟩⟩ = .ok (.array [b]) := by
    have c1 : constrain mapSig.blockRet b .blockResult ⟨Subst.set (fun _ => none) vA e, 1⟩ = .ok ⟨Subst.set (Subst.set (fun _ => none) vA e) vB b, 2⟩ := by
      show constrain (.var vB) b _ _ = _
      rw [constrain, if_neg (by simp [hb])]
      unfold bindVar
      rw [if_neg (by simp [hb]), if_neg (by show ¬ (1 + 1 > maxIterations); decide)]
      have : Subst.set (fun _ => none) vA e vB = none := by rw [set_other _ _ (by decide)]
      simp only [this, wb, Bool.false_eq_true, if_false]
    have c2 : resolve (Subst.set (Subst.set (fun _ => none) vA e) vB b) 1 mapSig.ret = .ok (.array [b]) := by
      show resolve _ 1 (.array (.var vB)) = _
      simp only [resolve]
      rw [if_neg (by decide), if_neg (by decide), set_self]
      rfl
    unfold finishOne
    simp only [Out.bind, c1, c2, hasUnknown, hasUnknownList, hb, Bool.or_false, Bool.false_eq_true, if_false]
  unfold finish
  simp only [hb, wb, lengthOff, Bool.false_eq_true, if_false, collect, hfin, Out.bind, List.any_nil]

/-- A signature in which the block's result is what the next call of the block is given:
`[A] (A) { (A) -> A } -> A` (like `inject`). -/
def foldSig : Sig := ⟨[], [vA], [(.required, .var vA)], [.var vA], .var vA, .var vA⟩

theorem str_desc {l : Lit} (h : l.isString = true) : Desc world0 stringTy (V0.lit l) := (world0.string l).mpr h
theorem sym_desc {l : Lit} (h : l.isString = false) : Desc world0 symbolTy (V0.lit l) := (world0.symbol l).mpr h

theorem int_of_desc {v : V0} (h : Desc world0 intTy v) : v = .int := by
  have h1 : nameOf "Integer" ≠ nameOf "String" := by decide
  have h2 : nameOf "Integer" ≠ nameOf "Symbol" := by decide
  have h3 : nameOf "Integer" ≠ nameOf "Object" := by decide
  rcases (show _ ∨ _ ∨ _ ∨ _ from h) with ⟨e, -⟩ | ⟨e, -⟩ | ⟨-, e⟩ | e
  · exact absurd e h1
  · exact absurd e h2
  · exact e
  · exact absurd e h3

theorem str_of_desc {v : V0} (h : Desc world0 stringTy v) : ∃ l, v = .lit l ∧ l.isString = true := by
  have h1 : nameOf "String" ≠ nameOf "Symbol" := by decide
  have h2 : nameOf "String" ≠ nameOf "Integer" := by decide
  have h3 : nameOf "String" ≠ nameOf "Object" := by decide
  rcases (show _ ∨ _ ∨ _ ∨ _ from h) with ⟨-, e⟩ | ⟨e, -⟩ | ⟨e, -⟩ | e
  · exact e
  · exact absurd e h1
  · exact absurd e h2
  · exact absurd e h3

theorem sym_of_desc {v : V0} (h : Desc world0 symbolTy v) : ∃ l, v = .lit l ∧ l.isString = false := by
  have h1 : nameOf "Symbol" ≠ nameOf "String" := by decide
  have h2 : nameOf "Symbol" ≠ nameOf "Integer" := by decide
  have h3 : nameOf "Symbol" ≠ nameOf "Object" := by decide
  rcases (show _ ∨ _ ∨ _ ∨ _ from h) with ⟨e, -⟩ | ⟨-, e⟩ | ⟨e, -⟩ | e
  · exact absurd e h1
  · exact e
  · exact absurd e h2
  · exact absurd e h3

def strA : Lit := ⟨true, [97]⟩

/-- C64, where it fails: the block is typed once.  If its result widens a variable that its own parameters are made of, then a
further call of the block gets values it was not typed with: a method that passes its argument to the block and then the block's
result to the block again keeps the signature `[A] (A) { (A) -> A } -> A`; for a block that turns integers into strings and
strings into symbols the call with an integer is proven to give an integer or a string, but gives a symbol. -/
theorem c64_block_again_fails : ∃ p T, prepare none [foldSig] [] [intTy] = .ok p ∧ p.blockParams = [intTy] ∧ finish p stringTy none = .ok T ∧
    ∃ (m : Meth world0) (blk : List V0 → V0 → Prop) (r : V0), Conforms world0 none [] foldSig m ∧
      (∀ vs w, List.Forall₂ (Desc world0) p.blockParams vs → blk vs w → Desc world0 stringTy w) ∧
      (∀ (i : Nat) a t, [intTy][i]? = some a → paramAt (positional foldSig.args) i = some t → Honest world0 none t a) ∧ Honest world0 none foldSig.blockRet stringTy ∧
      List.Forall₂ (Desc world0) [intTy] [V0.int] ∧ m [V0.int] blk r ∧ ¬ Desc world0 T r := by
  refine ⟨_, .union [intTy, stringTy], rfl, rfl, rfl, ?_⟩
  refine ⟨fun args blk r => ∃ a b, args = [a] ∧ blk [a] b ∧ blk [b] r,
    fun vs w => (vs = [V0.int] ∧ w = V0.lit strA) ∨ (vs = [V0.lit strA] ∧ w = V0.lit symA), V0.lit symA, ?_, ?_, ?_, trivial, ?_, ?_, ?_⟩
  · rintro θ - args blk r ha hb ⟨a, b, rfl, h1, h2⟩
    have h0 : θ vA a := ha 0 a (.var vA) rfl rfl
    have h3 : θ vA b := hb [a] b (.cons h0 .nil) h1
    exact hb [b] r (.cons h3 .nil) h2
  · rintro vs w hvs (⟨-, rfl⟩ | ⟨rfl, rfl⟩)
    · exact str_desc rfl
    · cases hvs with
      | cons h _ => cases int_of_desc h
  · intro i a t _ ht
    have : t = .var vA := by
      have : ∀ i, paramAt (positional foldSig.args) i = some t → t = .var vA := by
        intro i h
        obtain ⟨p, hp, rfl⟩ := paramAt_mem h
        have : positional foldSig.args = [(.required, .var vA)] := rfl
        rw [this, List.mem_singleton] at hp
        rw [hp]
      exact this i ht
    rw [this]
    trivial
  · exact .cons int_desc .nil
  · exact ⟨V0.int, V0.lit strA, rfl, .inl ⟨rfl, rfl⟩, .inr ⟨rfl, rfl⟩⟩
  · rintro (h | h | h)
    · cases int_of_desc h
    · obtain ⟨l, e, hl⟩ := str_of_desc h
      cases e
      cases hl
    · exact h

/-- `each_with_object`: `[U] (U) { (Elem, U) -> untyped } -> U`. -/
def withObjectSig : Sig := ⟨[vA], [vA, vB], [(.required, .var vB)], [.var vA, .var vB], .unconstrained, .var vB⟩

def emptyShape : Ty := .shape [] none false false 1
def shapeA : Ty := .shape [(symA, false, intTy)] none false false 1

/-- C64, where it fails: the state in which the block leaves an object is taken to be the state of the object after the call,
also if the block is never called: `[].each_with_object({}) { |x, h| h[:a] = 1 }` is proven to be a hash with the key `:a`. -/
theorem c64_block_never_called_fails : ∃ p, prepare none [withObjectSig] [(vA, intTy)] [emptyShape] = .ok p ∧ p.blockParams = [intTy, emptyShape] ∧
    finish p intTy (some [intTy, shapeA]) = .ok shapeA ∧
    ∃ (m : Meth world0) (r : V0), Conforms world0 none [(vA, intTy)] withObjectSig m ∧ List.Forall₂ (Desc world0) [emptyShape] [V0.hash []] ∧
      m [V0.hash []] (fun _ _ => False) r ∧ ¬ Desc world0 shapeA r := by
  refine ⟨_, rfl, rfl, rfl, fun args _ r => args = [r], V0.hash [], ?_, .cons ?_ .nil, rfl, ?_⟩
  · rintro θ - args blk r ha - rfl
    exact ha 0 r (.var vB) rfl rfl
  · refine ⟨⟨_, rfl⟩, trivial, ?_⟩
    rintro k x ⟨ks, l, e, hl, -⟩ -
    cases e
    cases hl
  · rintro ⟨-, ⟨⟨h, -⟩, -⟩, -⟩
    obtain ⟨x, ks, l, e, hl, -⟩ := h rfl
    cases e
    cases hl

/-- `[A, B] (*A, B) { () -> untyped } -> B`. -/
def trailingSig : Sig := ⟨[], [vA, vB], [(.rest, .var vA), (.required, .var vB)], [], .unconstrained, .var vB⟩

/-- C64, where it fails: parameters behind a rest parameter are compared with the wrong arguments: a method
`[A, B] (*A, B) -> B` that returns its last argument is proven to return the second of three. -/
theorem c64_trailing_parameter_fails : ∃ p, prepare none [trailingSig] [] [intTy, symbolTy, stringTy] = .ok p ∧ p.blockParams = [] ∧
    finish p intTy none = .ok symbolTy ∧
    ∃ (m : Meth world0) (vals : List V0) (r : V0), Conforms world0 none [] trailingSig m ∧ List.Forall₂ (Desc world0) [intTy, symbolTy, stringTy] vals ∧
      m vals (fun _ _ => False) r ∧ ¬ Desc world0 symbolTy r := by
  refine ⟨_, rfl, rfl, rfl, fun args _ r => ∃ l, args = l ++ [r], [V0.int, V0.lit symA, V0.lit strA], V0.lit strA, ?_,
    .cons int_desc (.cons (sym_desc rfl) (.cons (str_desc rfl) .nil)), ⟨[V0.int, V0.lit symA], rfl⟩, ?_⟩
  · rintro θ - args blk r ha - ⟨l, rfl⟩
    refine ha l.length r (.var vB) (by simp) ?_
    have h1 : positional trailingSig.args = [(.rest, .var vA), (.required, .var vB)] := rfl
    rw [h1]
    simp [rubyParam]
  · intro h
    obtain ⟨l, e, hl⟩ := sym_of_desc h
    cases e
    cases hl

/-- `(Integer) { () -> untyped } -> Integer`. -/
def intSig : Sig := ⟨[], [], [(.required, .concrete intTy)], [], .unconstrained, .concrete intTy⟩

/-- C64, where it fails: an argument is also accepted when its type is wider than that of the parameter: a method
`(Integer) -> Integer` called with an integer or a string is proven to return an integer, though one that returns its argument
keeps that signature. -/
theorem c64_wider_argument_fails : ∃ p, prepare none [intSig] [] [.union [intTy, stringTy]] = .ok p ∧ p.blockParams = [] ∧ finish p intTy none = .ok intTy ∧
    ∃ (m : Meth world0) (r : V0), Conforms world0 none [] intSig m ∧ List.Forall₂ (Desc world0) [.union [intTy, stringTy]] [r] ∧
      m [r] (fun _ _ => False) r ∧ ¬ Desc world0 intTy r := by
  refine ⟨_, rfl, rfl, rfl, fun args _ r => args = [r], V0.lit strA, ?_, .cons (.inr (.inl (str_desc rfl))) .nil, rfl, ?_⟩
  · rintro θ - args blk r ha - rfl
    exact ha 0 r (.concrete intTy) rfl rfl
  · intro h
    cases int_of_desc h

/-- C64, where it fails: in a union only concrete members and a variable are considered, so a call whose argument is exactly one
of the members has no type: `(Array[Integer] | nil) { () -> untyped } -> Integer` called with an array of integers. -/
theorem c64_array_in_union_fails : ∃ g : Sig, g.args = [(.required, .union [.array (.concrete intTy), .concrete nilTy])] ∧
    prepare none [g] [] [.array [intTy]] = .err .unsupported ∧
    ∀ (W : World) (R : W.V → Prop) (θ : Var → W.V → Prop) v, Desc W (.array [intTy]) v → TDesc W R θ (.union [.array (.concrete intTy), .concrete nilTy]) v := by
  refine ⟨⟨[], [], [(.required, .union [.array (.concrete intTy), .concrete nilTy])], [], .unconstrained, .concrete intTy⟩, rfl, rfl, ?_⟩
  intro W R θ v hd
  simp only [TDesc, TDescAny]
  simp only [Desc, DescAny, or_false] at hd
  exact .inl hd

/-- C64, concretely: two overloads of which one takes no argument; a union parameter whose `nil` is taken by the concrete
member; an overload that disagrees; an unknown result of the block; a shape given for a hash. -/
theorem c64_example :
    (∃ p, prepare none [mapSig, foldSig] [(vA, intTy)] [] = .ok p ∧ p.blockParams = [intTy] ∧ finish p (.array [stringTy]) none = .ok (.array [.array [stringTy]]) ∧
      finish p .unknown none = .err .blockResult) ∧
    (∃ p, prepare (some stringTy) [⟨[], [vA], [(.optional, .union [.concrete nilTy, .var vA])], [.receiver], .var vA, .array (.var vA)⟩] [] [.union [nilTy, symbolTy]] = .ok p ∧
      p.blockParams = [stringTy] ∧ finish p intTy none = .ok (.array [.union [intTy, symbolTy]])) ∧
    prepare (some stringTy) [mapSig, ⟨[vA], [vA], [], [.receiver], .var vA, .var vA⟩] [(vA, intTy)] [] = .err .ambiguous ∧
    (∃ p, prepare none [⟨[], [vA, vB], [(.required, .hash (.var vA) (.var vB))], [.var vA], .unconstrained, .hash (.var vB) (.var vA)⟩] [] [shapeA] = .ok p ∧
      p.blockParams = [symbolTy] ∧ finish p stringTy none = .ok (.hash [intTy] [symbolTy])) :=
  ⟨⟨_, rfl, rfl, rfl, rfl⟩, ⟨_, rfl, rfl, rfl⟩, rfl, ⟨_, rfl, rfl, rfl⟩⟩

end Verif.HigherOrder
