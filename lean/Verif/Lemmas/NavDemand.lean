import Verif.Model.NavDemand
import Verif.Lemmas.Common
import Mathlib.Data.List.Nodup
set_option linter.unnecessarySeqFocus false
namespace Verif.NavDemand

variable {K : Type} [DecidableEq K]

omit [DecidableEq K] in
theorem stage_setStage (c : Ctl K) (n m : StageName) (st : Stage K) : (c.setStage n st).stage m = if m = n then st else c.stage m := by
  cases n <;> cases m <;> rfl

omit [DecidableEq K] in
theorem setStage_generation (c : Ctl K) (n : StageName) (st : Stage K) : (c.setStage n st).generation = c.generation := by cases n <;> rfl

omit [DecidableEq K] in
theorem setStage_terminal (c : Ctl K) (n : StageName) (st : Stage K) : (c.setStage n st).terminal = c.terminal := by cases n <;> rfl

/-- What holds of one stage. -/
structure StageOk (max : Nat) (st : Stage K) : Prop where
  pending : st.pending.Nodup
  inFlight : st.inFlight.Nodup
  processed : st.processed.Nodup
  pf : ∀ k ∈ st.pending, k ∉ st.inFlight
  pp : ∀ k ∈ st.pending, k ∉ st.processed
  fp : ∀ k ∈ st.inFlight, k ∉ st.processed
  bound : st.pending.length + st.inFlight.length ≤ max
  complete : st.complete = true → st.pending = [] ∧ st.inFlight = []

structure CtlOk (max : Nat) (c : Ctl K) : Prop where
  stages : ∀ n, StageOk max (c.stage n)
  terminal : c.terminal.isSome = true → ∀ n, (c.stage n).pending = [] ∧ (c.stage n).inFlight = []
  fresh : c.generation = none → ∀ n, (c.stage n).pending = [] ∧ (c.stage n).inFlight = [] ∧ (c.stage n).processed = []

/-- How an operation of the current generation may change the state; `flag`: it owes a notification. -/
structure Ext (c c' : Ctl K) (flag : Bool) : Prop where
  generation : c'.generation = c.generation
  terminal : c.terminal.isSome = true → c'.terminal = c.terminal
  terminalFlag : flag = false → c'.terminal = c.terminal
  processed : ∀ n, ∀ k ∈ (c.stage n).processed, k ∈ (c'.stage n).processed
  complete : ∀ n, (c.stage n).complete = true → (c'.stage n).complete = true
  kept : ∀ n k, k ∈ (c.stage n).pending ∨ k ∈ (c.stage n).inFlight →
    (k ∈ (c'.stage n).pending ∨ k ∈ (c'.stage n).inFlight) ∨ k ∈ (c'.stage n).processed ∨ (c'.stage n).complete = true ∨ c'.terminal.isSome = true
  flight : ∀ n k, k ∈ (c.stage n).inFlight →
    k ∈ (c'.stage n).inFlight ∨ k ∈ (c'.stage n).processed ∨ (c'.stage n).complete = true ∨ c'.terminal.isSome = true
  flag : flag = false → ∀ n, (c'.stage n).complete = (c.stage n).complete ∧ ∀ k ∈ (c'.stage n).processed, k ∈ (c.stage n).processed

omit [DecidableEq K] in
theorem Ext.refl (c : Ctl K) (flag : Bool) : Ext c c flag := by
  constructor <;> intros
  · rfl
  · rfl
  · rfl
  · assumption
  · assumption
  · exact Or.inl (by assumption)
  · exact Or.inl (by assumption)
  · exact ⟨rfl, fun _ h => h⟩

omit [DecidableEq K] in
/-- An operation on one stage only. -/
theorem ext_stage {c : Ctl K} {n : StageName} {st : Stage K} {flag : Bool}
    (h1 : ∀ k ∈ (c.stage n).processed, k ∈ st.processed) (h2 : (c.stage n).complete = true → st.complete = true)
    (h3 : ∀ k, k ∈ (c.stage n).pending ∨ k ∈ (c.stage n).inFlight → (k ∈ st.pending ∨ k ∈ st.inFlight) ∨ k ∈ st.processed ∨ st.complete = true)
    (h4 : ∀ k, k ∈ (c.stage n).inFlight → k ∈ st.inFlight ∨ k ∈ st.processed ∨ st.complete = true)
    (h5 : flag = false → st.complete = (c.stage n).complete ∧ ∀ k ∈ st.processed, k ∈ (c.stage n).processed) :
    Ext c (c.setStage n st) flag := by
  constructor
  · exact setStage_generation c n st
  · intro _; exact setStage_terminal c n st
  · intro _; exact setStage_terminal c n st
  · intro m k hk
    rw [stage_setStage]
    split
    · rename_i hm; subst hm; exact h1 k hk
    · exact hk
  · intro m hm
    rw [stage_setStage]
    split
    · rename_i h; subst h; exact h2 hm
    · exact hm
  · intro m k hk
    rw [stage_setStage]
    split
    · rename_i h; subst h
      rcases h3 k hk with h | h | h
      · exact Or.inl h
      · exact Or.inr (Or.inl h)
      · exact Or.inr (Or.inr (Or.inl h))
    · exact Or.inl hk
  · intro m k hk
    rw [stage_setStage]
    split
    · rename_i h; subst h
      rcases h4 k hk with h | h | h
      · exact Or.inl h
      · exact Or.inr (Or.inl h)
      · exact Or.inr (Or.inr (Or.inl h))
    · exact Or.inl hk
  · intro hf m
    rw [stage_setStage]
    split
    · rename_i h; subst h; exact h5 hf
    · exact ⟨rfl, fun _ h => h⟩

omit [DecidableEq K] in
theorem ctlOk_stage {max : Nat} {c : Ctl K} (h : CtlOk max c) {n : StageName} {st : Stage K} (hst : StageOk max st)
    (ht : c.terminal = none) (hg : c.generation ≠ none) : CtlOk max (c.setStage n st) := by
  constructor
  · intro m
    rw [stage_setStage]
    split
    · exact hst
    · exact h.stages m
  · intro hs
    rw [setStage_terminal, ht] at hs
    cases hs
  · intro hn
    rw [setStage_generation] at hn
    exact absurd hn hg

theorem insert_true {l l' : List K} {k : K} (h : insert l k = (l', true)) : k ∉ l ∧ l' = l ++ [k] := by
  unfold insert at h
  split at h
  · cases h
  · rename_i hk; cases h; exact ⟨hk, rfl⟩

theorem insert_false {l l' : List K} {k : K} (h : insert l k = (l', false)) : k ∈ l ∧ l' = l := by
  unfold insert at h
  split at h
  · rename_i hk; cases h; exact ⟨hk, rfl⟩
  · cases h

theorem remove_true {l l' : List K} {k : K} (h : remove l k = (l', true)) : k ∈ l ∧ l' = l.filter (· ≠ k) := by
  unfold remove at h
  simp only [Prod.mk.injEq, decide_eq_true_eq] at h
  exact ⟨h.2, h.1.symm⟩

theorem remove_false {l l' : List K} {k : K} (h : remove l k = (l', false)) : k ∉ l := by
  unfold remove at h
  simp only [Prod.mk.injEq, decide_eq_false_iff_not] at h
  exact h.2

theorem length_filter_ne {l : List K} {k : K} (hn : l.Nodup) (hk : k ∈ l) : (l.filter (· ≠ k)).length + 1 = l.length := by
  induction l with
  | nil => simp at hk
  | cons a l ih =>
    rw [List.nodup_cons] at hn
    by_cases ha : a = k
    · subst ha
      have : l.filter (· ≠ a) = l := by
        rw [List.filter_eq_self]
        intro x hx
        simp only [ne_eq, decide_eq_true_eq]
        rintro rfl
        exact hn.1 hx
      rw [List.filter_cons_of_neg (by simp), this]
      simp
    · have hk' : k ∈ l := by
        rcases List.mem_cons.mp hk with h | h
        · exact absurd h.symm ha
        · exact h
      have := ih hn.2 hk'
      rw [List.filter_cons_of_pos (by simpa using ha)]
      simp only [List.length_cons]
      omega

theorem moveAll_eq {l ks l' : List K} (h : moveAll l ks = some l') : l' = l ++ ks := by
  induction ks generalizing l with
  | nil => simp [moveAll] at h; simp [h]
  | cons k ks ih =>
    unfold moveAll at h
    split at h
    · rename_i l2 hi
      rw [ih h, (insert_true hi).2]; simp
    · cases h

theorem moveAll_some {l ks : List K} (hn : ks.Nodup) (hd : ∀ k ∈ ks, k ∉ l) : moveAll l ks = some (l ++ ks) := by
  induction ks generalizing l with
  | nil => simp [moveAll]
  | cons k ks ih =>
    rw [List.nodup_cons] at hn
    unfold moveAll
    have : insert l k = (l ++ [k], true) := by
      unfold insert; rw [if_neg (hd k (by simp))]
    rw [this]
    dsimp only
    rw [ih hn.2]
    · simp
    · intro x hx hm
      rcases List.mem_append.mp hm with h | h
      · exact hd x (by simp [hx]) h
      · simp at h; subst h; exact hn.1 hx

/-! ### The operations -/

theorem request_spec {max : Nat} {c : Ctl K} (h : CtlOk max c) (g : Nat) (n : StageName) (k : K) :
    ∃ c' imm ins, request max c g n k = .ok (c', imm, ins) ∧ CtlOk max c' ∧ Ext c c' ins ∧
      (imm = none → c'.generation = some g ∧ c'.terminal = none ∧ (k ∈ (c'.stage n).pending ∨ k ∈ (c'.stage n).inFlight)) ∧
      (imm ≠ none → c' = c) := by
  unfold request
  split
  · exact ⟨c, _, _, rfl, h, Ext.refl _ _, by simp, fun _ => rfl⟩
  · rename_i hg
    simp only [ne_eq, not_not] at hg
    split
    · exact ⟨c, _, _, rfl, h, Ext.refl _ _, by simp, fun _ => rfl⟩
    · rename_i ht
      dsimp only
      split
      · exact ⟨c, _, _, rfl, h, Ext.refl _ _, by simp, fun _ => rfl⟩
      · rename_i hp
        split
        · exact ⟨c, _, _, rfl, h, Ext.refl _ _, by simp, fun _ => rfl⟩
        · rename_i hc
          split
          · rename_i hk
            exact ⟨c, _, _, rfl, h, Ext.refl _ _, fun _ => ⟨hg, ht, hk⟩, by simp⟩
          · rename_i hk
            split
            · exact ⟨c, _, _, rfl, h, Ext.refl _ _, by simp, fun _ => rfl⟩
            · rename_i hmax
              split
              · rename_i l hins
                obtain ⟨hkn, rfl⟩ := insert_true hins
                have hst := h.stages n
                refine ⟨_, _, _, rfl, ctlOk_stage h ?_ ht (by rw [hg]; simp), ?_, ?_, by simp⟩
                · constructor
                  · show ((c.stage n).pending ++ [k]).Nodup
                    rw [List.nodup_append]
                    refine ⟨hst.pending, by simp, ?_⟩
                    intro a ha b hb
                    simp at hb
                    subst hb
                    exact fun hab => hkn (hab ▸ ha)
                  · exact hst.inFlight
                  · exact hst.processed
                  · intro x hx
                    rcases List.mem_append.mp hx with hx | hx
                    · exact hst.pf x hx
                    · simp at hx; subst hx; exact fun hm => hk (Or.inr hm)
                  · intro x hx
                    rcases List.mem_append.mp hx with hx | hx
                    · exact hst.pp x hx
                    · simp at hx; subst hx; exact hp
                  · exact hst.fp
                  · show ((c.stage n).pending ++ [k]).length + (c.stage n).inFlight.length ≤ max
                    rw [List.length_append]
                    simp only [List.length_cons, List.length_nil]
                    omega
                  · intro hcomp
                    exact absurd hcomp hc
                · refine ext_stage (fun _ h => h) (fun h => h) ?_ (fun _ h => Or.inl h) (by simp)
                  rintro x (hx | hx)
                  · exact Or.inl (Or.inl (List.mem_append_left _ hx))
                  · exact Or.inl (Or.inr hx)
                · intro _
                  rw [setStage_generation, setStage_terminal, stage_setStage, if_pos rfl]
                  exact ⟨hg, ht, Or.inl (List.mem_append_right _ (by simp))⟩
              · rename_i hins
                exact absurd (Or.inl (insert_false hins).1) hk

theorem drain_spec {max : Nat} {c : Ctl K} (h : CtlOk max c) (g : Nat) (n : StageName) :
    ∃ c' ks, drain c g n = .ok (c', ks) ∧ CtlOk max c' ∧ Ext c c' (!ks.isEmpty) ∧ ks.Nodup ∧
      (ks ≠ [] → c.generation = some g ∧ c.terminal = none ∧ (c.stage n).complete = false) ∧
      ((c.generation = some g ∧ c.terminal = none ∧ (c.stage n).complete = false) → ks = (c.stage n).pending ∧ (c'.stage n).pending = []) ∧
      (∀ k ∈ ks, k ∈ (c.stage n).pending ∧ k ∈ (c'.stage n).inFlight) := by
  unfold drain
  split
  · rename_i hcond
    refine ⟨c, [], rfl, h, Ext.refl _ _, by simp, by simp, ?_, by simp⟩
    rintro ⟨h1, h2, -⟩
    rcases hcond with hc | hc
    · exact absurd h1 hc
    · rw [h2] at hc; cases hc
  · rename_i hcond
    have hg : c.generation = some g := by
      by_contra hne; exact hcond (Or.inl hne)
    have ht : c.terminal = none := by
      cases hx : c.terminal with
      | none => rfl
      | some t => exact absurd (Or.inr (by rw [hx]; rfl)) hcond
    dsimp only
    split
    · rename_i hc
      refine ⟨c, [], rfl, h, Ext.refl _ _, by simp, by simp, ?_, by simp⟩
      rintro ⟨-, -, h3⟩
      rw [hc] at h3; cases h3
    · rename_i hc
      have hst := h.stages n
      rw [moveAll_some hst.pending hst.pf]
      dsimp only
      refine ⟨_, _, rfl, ctlOk_stage h ?_ ht (by rw [hg]; simp), ?_, hst.pending, ?_, ?_, ?_⟩
      · constructor
        · simp
        · rw [List.nodup_append]
          refine ⟨hst.inFlight, hst.pending, ?_⟩
          rintro a ha b hb rfl
          exact hst.pf a hb ha
        · exact hst.processed
        · simp
        · simp
        · intro x hx
          rcases List.mem_append.mp hx with hx | hx
          · exact hst.fp x hx
          · exact hst.pp x hx
        · have := hst.bound
          simp only [List.length_nil, List.length_append]
          omega
        · intro hcomp; exact absurd hcomp hc
      · refine ext_stage (fun _ h => h) (fun h => h) ?_ (fun _ h => Or.inl (List.mem_append_left _ h)) (fun _ => ⟨rfl, fun _ h => h⟩)
        rintro x (hx | hx)
        · exact Or.inl (Or.inr (List.mem_append_right _ hx))
        · exact Or.inl (Or.inr (List.mem_append_left _ hx))
      · intro _; exact ⟨hg, ht, by simpa using hc⟩
      · intro _
        refine ⟨rfl, ?_⟩
        rw [stage_setStage, if_pos rfl]
      · intro k hk
        refine ⟨hk, ?_⟩
        rw [stage_setStage, if_pos rfl]
        exact List.mem_append_right _ hk

theorem claim_spec {max : Nat} {c : Ctl K} (h : CtlOk max c) (g : Nat) (n : StageName) (k : K) :
    ∃ c' ans moved, claim c g n k = .ok (c', ans, moved) ∧ CtlOk max c' ∧ Ext c c' moved ∧
      (moved = true → c.generation = some g ∧ c.terminal = none ∧ (c.stage n).complete = false ∧ k ∈ (c.stage n).pending ∧ k ∈ (c'.stage n).inFlight ∧ ans = true) ∧
      (moved = false → c' = c) ∧
      (ans = true → k ∈ (c'.stage n).inFlight ∧ (k ∈ (c.stage n).pending ∨ k ∈ (c.stage n).inFlight)) := by
  unfold claim
  split
  · exact ⟨c, _, _, rfl, h, Ext.refl _ _, by simp, by simp, by simp⟩
  · rename_i hcond
    have hg : c.generation = some g := by
      by_contra hne; exact hcond (Or.inl hne)
    have ht : c.terminal = none := by
      cases hx : c.terminal with
      | none => rfl
      | some t => exact absurd (Or.inr (by rw [hx]; rfl)) hcond
    dsimp only
    split
    · exact ⟨c, _, _, rfl, h, Ext.refl _ _, by simp, by simp, by simp⟩
    · rename_i hc
      split
      · rename_i hfl
        exact ⟨c, _, _, rfl, h, Ext.refl _ _, by simp, by simp, fun _ => ⟨hfl, Or.inr hfl⟩⟩
      · rename_i hfl
        have hst := h.stages n
        split
        · rename_i l hrem
          obtain ⟨hkp, rfl⟩ := remove_true hrem
          split
          · rename_i l2 hins
            obtain ⟨-, rfl⟩ := insert_true hins
            have hcf : (c.stage n).complete = false := by
              cases hcc : (c.stage n).complete with
              | false => rfl
              | true => exact absurd (Or.inl hcc) hc
            refine ⟨_, _, _, rfl, ctlOk_stage h ?_ ht (by rw [hg]; simp), ?_, ?_, by simp, ?_⟩
            · constructor
              · exact hst.pending.filter _
              · rw [List.nodup_append]
                refine ⟨hst.inFlight, by simp, ?_⟩
                intro a ha b hb
                simp at hb
                subst hb
                rintro rfl
                exact hfl ha
              · exact hst.processed
              · intro x hx hm
                obtain ⟨hx1, hx2⟩ := List.mem_filter.mp hx
                rcases List.mem_append.mp hm with hm | hm
                · exact hst.pf x hx1 hm
                · simp at hm; subst hm; simp at hx2
              · intro x hx
                exact hst.pp x (List.mem_filter.mp hx).1
              · intro x hx
                rcases List.mem_append.mp hx with hx | hx
                · exact hst.fp x hx
                · simp at hx; subst hx; exact hst.pp _ hkp
              · have := hst.bound
                have := length_filter_ne hst.pending hkp
                simp only [List.length_append, List.length_cons, List.length_nil]
                omega
              · intro hcomp
                dsimp only at hcomp
                rw [hcf] at hcomp; cases hcomp
            · refine ext_stage (fun _ h => h) (fun h => h) ?_ (fun _ h => Or.inl (List.mem_append_left _ h)) (by simp)
              rintro x (hx | hx)
              · by_cases hxk : x = k
                · subst hxk; exact Or.inl (Or.inr (List.mem_append_right _ (by simp)))
                · exact Or.inl (Or.inl (List.mem_filter.mpr ⟨hx, by simpa using hxk⟩))
              · exact Or.inl (Or.inr (List.mem_append_left _ hx))
            · intro _
              refine ⟨hg, ht, hcf, hkp, ?_, rfl⟩
              rw [stage_setStage, if_pos rfl]
              exact List.mem_append_right _ (by simp)
            · intro _
              rw [stage_setStage, if_pos rfl]
              exact ⟨List.mem_append_right _ (by simp), Or.inl hkp⟩
          · rename_i hins
            exact absurd (insert_false hins).1 hfl
        · exact ⟨c, _, _, rfl, h, Ext.refl _ _, by simp, by simp, by simp⟩

theorem completeLoop_spec {max : Nat} {st st' : Stage K} {b b' : Bool} {ks : List K} (hst : StageOk max st)
    (h : completeLoop st b ks = some (st', b')) :
    StageOk max st' ∧ st'.pending = st.pending ∧ st'.complete = st.complete ∧ (∀ k ∈ st.processed, k ∈ st'.processed) ∧
      (∀ k ∈ st.inFlight, k ∈ st'.inFlight ∨ k ∈ st'.processed) ∧ (b' = false → b = false ∧ ∀ k ∈ st'.processed, k ∈ st.processed) ∧
      (∀ k, k ∈ st'.processed → k ∈ st.processed ∨ k ∈ ks) ∧ (∀ k ∈ ks, k ∈ st.inFlight ∧ k ∈ st'.processed) := by
  induction ks generalizing st b with
  | nil =>
    simp only [completeLoop, Option.some.injEq, Prod.mk.injEq] at h
    obtain ⟨rfl, rfl⟩ := h
    exact ⟨hst, rfl, rfl, fun _ h => h, fun _ h => Or.inl h, fun h => ⟨h, fun _ h => h⟩, fun _ h => Or.inl h, by simp⟩
  | cons k ks ih =>
    unfold completeLoop at h
    split at h
    · rename_i l hrem
      obtain ⟨hk, rfl⟩ := remove_true hrem
      have hins : insert st.processed k = (st.processed ++ [k], true) := by
        unfold insert; rw [if_neg (hst.fp k hk)]
      rw [hins] at h
      dsimp only at h
      have hst2 : StageOk max { st with inFlight := st.inFlight.filter (· ≠ k), processed := st.processed ++ [k] } := by
        constructor
        · exact hst.pending
        · exact hst.inFlight.filter _
        · rw [List.nodup_append]
          refine ⟨hst.processed, by simp, ?_⟩
          intro a ha b hb
          simp at hb; subst hb
          rintro rfl
          exact hst.fp _ hk ha
        · intro x hx hm; exact hst.pf x hx (List.mem_filter.mp hm).1
        · intro x hx hm
          rcases List.mem_append.mp hm with hm | hm
          · exact hst.pp x hx hm
          · simp at hm; subst hm; exact hst.pf _ hx hk
        · intro x hx hm
          obtain ⟨hx1, hx2⟩ := List.mem_filter.mp hx
          rcases List.mem_append.mp hm with hm | hm
          · exact hst.fp x hx1 hm
          · simp at hm; subst hm; simp at hx2
        · have := hst.bound
          have := length_filter_ne hst.inFlight hk
          dsimp only
          omega
        · intro hc
          obtain ⟨h1, h2⟩ := hst.complete hc
          rw [h2] at hk; cases hk
      obtain ⟨a1, a2, a3, a4, a5, a6, a7, a8⟩ := ih hst2 h
      refine ⟨a1, a2, a3, fun x hx => a4 x (List.mem_append_left _ hx), ?_, ?_, ?_, ?_⟩
      · intro x hx
        by_cases hxk : x = k
        · subst hxk; exact Or.inr (a4 _ (List.mem_append_right _ (by simp)))
        · exact a5 x (List.mem_filter.mpr ⟨hx, by simpa using hxk⟩)
      · intro hb
        obtain ⟨hb', -⟩ := a6 hb
        simp at hb'
      · intro x hx
        rcases a7 x hx with h | h
        · rcases List.mem_append.mp h with h | h
          · exact Or.inl h
          · simp at h; subst h; exact Or.inr (by simp)
        · exact Or.inr (List.mem_cons_of_mem _ h)
      · intro x hx
        rcases List.mem_cons.mp hx with rfl | hx
        · exact ⟨hk, a4 _ (List.mem_append_right _ (by simp))⟩
        · obtain ⟨h1, h2⟩ := a8 x hx
          exact ⟨(List.mem_filter.mp h1).1, h2⟩
    · cases h

theorem completeKeys_spec {max : Nat} {c c' : Ctl K} (h : CtlOk max c) {g : Nat} {n : StageName} {ks : List K} {changed : Bool}
    (hc : completeKeys c g n ks = .ok (c', changed)) : CtlOk max c' ∧ Ext c c' changed ∧
      ((c.generation ≠ some g ∨ c.terminal ≠ none) → c' = c) ∧ (c.generation = some g → c.terminal = none → ∀ k ∈ ks, k ∈ (c'.stage n).processed) := by
  unfold completeKeys at hc
  split at hc
  · rename_i hcond
    cases hc
    refine ⟨h, Ext.refl _ _, fun _ => rfl, ?_⟩
    intro h1 h2
    rcases hcond with hc | hc
    · exact absurd h1 hc
    · rw [h2] at hc; cases hc
  · rename_i hcond
    have hg : c.generation = some g := by
      by_contra hne; exact hcond (Or.inl hne)
    have ht : c.terminal = none := by
      cases hx : c.terminal with
      | none => rfl
      | some t => exact absurd (Or.inr (by rw [hx]; rfl)) hcond
    split at hc
    · rename_i st b hl
      cases hc
      obtain ⟨a1, a2, a3, a4, a5, a6, a7, a8⟩ := completeLoop_spec (h.stages n) hl
      refine ⟨ctlOk_stage h a1 ht (by rw [hg]; simp), ?_, ?_, ?_⟩
      · refine ext_stage a4 (fun h => by rw [a3]; exact h) ?_ ?_ ?_
        · rintro k (hk | hk)
          · exact Or.inl (Or.inl (by rw [a2]; exact hk))
          · rcases a5 k hk with h | h
            · exact Or.inl (Or.inr h)
            · exact Or.inr (Or.inl h)
        · intro k hk
          rcases a5 k hk with h | h
          · exact Or.inl h
          · exact Or.inr (Or.inl h)
        · intro hf
          exact ⟨a3, (a6 hf).2⟩
      · rintro (h | h)
        · exact absurd hg h
        · exact absurd ht h
      · intro _ _ k hk
        rw [stage_setStage, if_pos rfl]
        exact (a8 k hk).2
    · cases hc

omit [DecidableEq K] in
theorem completeStage_spec {max : Nat} {c : Ctl K} (h : CtlOk max c) (g : Nat) (n : StageName) :
    CtlOk max (completeStage c g n).1 ∧ Ext c (completeStage c g n).1 (completeStage c g n).2 := by
  classical
  unfold completeStage
  split
  · exact ⟨h, Ext.refl _ _⟩
  · rename_i hcond
    have hg : c.generation = some g := by
      by_contra hne; exact hcond (Or.inl hne)
    have ht : c.terminal = none := by
      cases hx : c.terminal with
      | none => rfl
      | some t => exact absurd (Or.inr (by rw [hx]; rfl)) hcond
    split
    · exact ⟨h, Ext.refl _ _⟩
    · refine ⟨ctlOk_stage h ?_ ht (by rw [hg]; simp), ?_⟩
      · have hst := h.stages n
        constructor <;> simp [hst.processed]
      · exact ext_stage (fun _ h => h) (fun _ => rfl) (fun _ _ => Or.inr (Or.inr rfl)) (fun _ _ => Or.inr (Or.inr rfl)) (by simp)

omit [DecidableEq K] in
theorem cancel_spec {max : Nat} {c : Ctl K} (h : CtlOk max c) (g : Nat) : CtlOk max (cancel c g).1 ∧ Ext c (cancel c g).1 (cancel c g).2 := by
  unfold cancel
  split
  · exact ⟨h, Ext.refl _ _⟩
  · rename_i hcond
    have hg : c.generation = some g := by
      by_contra hne; exact hcond (Or.inl hne)
    have ht : c.terminal = none := by
      cases hx : c.terminal with
      | none => rfl
      | some t => exact absurd (Or.inr (by rw [hx]; rfl)) hcond
    constructor
    · constructor
      · intro n
        have hp := (h.stages .project).processed
        have hd := (h.stages .dependency).processed
        cases n
        · constructor <;> simp_all [Ctl.stage]
        · constructor <;> simp_all [Ctl.stage]
      · intro _ n; cases n <;> exact ⟨rfl, rfl⟩
      · intro hn
        change c.generation = none at hn
        rw [hg] at hn; cases hn
    · constructor
      · rfl
      · intro hs; rw [ht] at hs; cases hs
      · simp
      · intro n k hk; cases n <;> exact hk
      · intro n hk; cases n <;> exact hk
      · intro n k _; exact Or.inr (Or.inr (Or.inr rfl))
      · intro n k _; exact Or.inr (Or.inr (Or.inr rfl))
      · simp

omit [DecidableEq K] in
theorem stage_fresh (g : Nat) (n : StageName) :
    (({ generation := some g, terminal := none, project := Stage.empty, dependency := Stage.empty } : Ctl K).stage n) = Stage.empty := by
  cases n <;> rfl

omit [DecidableEq K] in
theorem begin_spec {max : Nat} {c c' : Ctl K} {g : Nat} (hb : begin c g = .ok c') : CtlOk max c' ∧ c'.generation = some g ∧ c'.terminal = none ∧
    (∀ p, c.generation = some p → p < g) ∧ ∀ n, c'.stage n = Stage.empty := by
  have key : c' = { generation := some g, terminal := none, project := Stage.empty, dependency := Stage.empty } ∧ ∀ p, c.generation = some p → p < g := by
    unfold begin at hb
    cases hgen : c.generation with
    | none =>
      rw [hgen] at hb
      split at hb
      · cases hb
      · simp at hb; exact ⟨hb.symm, by simp⟩
    | some q =>
      rw [hgen] at hb
      split at hb
      · cases hb
      · dsimp only at hb
        split at hb
        · rename_i hlt
          cases hb
          refine ⟨rfl, ?_⟩
          rintro p hp
          cases hp
          simpa using hlt
        · cases hb
  obtain ⟨rfl, hlt⟩ := key
  refine ⟨?_, rfl, rfl, hlt, stage_fresh g⟩
  constructor
  · intro n
    rw [stage_fresh]
    constructor <;> simp [Stage.empty]
  · intro h; cases h
  · intro h; cases h

/-! ### Where keys come from -/

/-- No operation but `request` adds a key; only keys in flight become processed. -/
structure Back (c c' : Ctl K) : Prop where
  open_ : ∀ n k, k ∈ (c'.stage n).pending ∨ k ∈ (c'.stage n).inFlight → k ∈ (c.stage n).pending ∨ k ∈ (c.stage n).inFlight
  processed : ∀ n k, k ∈ (c'.stage n).processed → k ∈ (c.stage n).processed ∨ k ∈ (c.stage n).inFlight

omit [DecidableEq K] in
theorem Back.refl (c : Ctl K) : Back c c := ⟨fun _ _ h => h, fun _ _ h => Or.inl h⟩

omit [DecidableEq K] in
theorem back_stage {c : Ctl K} {n : StageName} {st : Stage K}
    (h1 : ∀ k, k ∈ st.pending ∨ k ∈ st.inFlight → k ∈ (c.stage n).pending ∨ k ∈ (c.stage n).inFlight)
    (h2 : ∀ k, k ∈ st.processed → k ∈ (c.stage n).processed ∨ k ∈ (c.stage n).inFlight) : Back c (c.setStage n st) := by
  constructor
  · intro m k
    rw [stage_setStage]
    split
    · rename_i h; subst h; exact h1 k
    · exact id
  · intro m k
    rw [stage_setStage]
    split
    · rename_i h; subst h; exact h2 k
    · exact Or.inl

/-- Keys in flight in the new state are in flight in the old one or handed out by this operation. -/
def FlightFrom (c c' : Ctl K) (new : List (StageName × K)) : Prop :=
  ∀ n k, k ∈ (c'.stage n).inFlight → k ∈ (c.stage n).inFlight ∨ (n, k) ∈ new

omit [DecidableEq K] in
theorem flight_stage {c : Ctl K} {n : StageName} {st : Stage K} {new : List (StageName × K)}
    (h : ∀ k, k ∈ st.inFlight → k ∈ (c.stage n).inFlight ∨ (n, k) ∈ new) : FlightFrom c (c.setStage n st) new := by
  intro m k
  rw [stage_setStage]
  split
  · rename_i h'; subst h'; exact h k
  · exact Or.inl

theorem drain_back {c c' : Ctl K} {g : Nat} {n : StageName} {ks : List K} (h : drain c g n = .ok (c', ks)) :
    Back c c' ∧ FlightFrom c c' (ks.map (fun k => (n, k))) := by
  unfold drain at h
  split at h
  · cases h; exact ⟨Back.refl _, fun _ _ => Or.inl⟩
  · dsimp only at h
    split at h
    · cases h; exact ⟨Back.refl _, fun _ _ => Or.inl⟩
    · split at h
      · rename_i l hm
        cases h
        have := moveAll_eq hm
        subst this
        refine ⟨back_stage ?_ (fun _ => Or.inl), flight_stage ?_⟩
        · rintro k (hk | hk)
          · cases hk
          · exact (List.mem_append.mp hk).symm
        · intro k hk
          rcases List.mem_append.mp hk with hk | hk
          · exact Or.inl hk
          · exact Or.inr (List.mem_map_of_mem hk)
      · cases h

theorem claim_back {c c' : Ctl K} {g : Nat} {n : StageName} {k : K} {a m : Bool} (h : claim c g n k = .ok (c', a, m)) :
    Back c c' ∧ FlightFrom c c' (if m then [(n, k)] else []) := by
  unfold claim at h
  split at h
  · cases h; exact ⟨Back.refl _, fun _ _ => Or.inl⟩
  · dsimp only at h
    split at h
    · cases h; exact ⟨Back.refl _, fun _ _ => Or.inl⟩
    · split at h
      · cases h; exact ⟨Back.refl _, fun _ _ => Or.inl⟩
      · split at h
        · rename_i l hr
          obtain ⟨hk, rfl⟩ := remove_true hr
          split at h
          · rename_i l2 hi
            obtain ⟨-, rfl⟩ := insert_true hi
            cases h
            refine ⟨back_stage ?_ (fun _ => Or.inl), flight_stage ?_⟩
            · rintro x (hx | hx)
              · exact Or.inl (List.mem_filter.mp hx).1
              · rcases List.mem_append.mp hx with hx | hx
                · exact Or.inr hx
                · simp at hx; subst hx; exact Or.inl hk
            · intro x hx
              rcases List.mem_append.mp hx with hx | hx
              · exact Or.inl hx
              · simp at hx; subst hx; exact Or.inr (by simp)
          · cases h
        · cases h; exact ⟨Back.refl _, fun _ _ => Or.inl⟩

theorem completeLoop_back {st st' : Stage K} {b b' : Bool} {ks : List K} (h : completeLoop st b ks = some (st', b')) :
    st'.pending = st.pending ∧ (∀ k ∈ st'.inFlight, k ∈ st.inFlight) ∧ ∀ k ∈ st'.processed, k ∈ st.processed ∨ k ∈ st.inFlight := by
  induction ks generalizing st b with
  | nil =>
    simp only [completeLoop, Option.some.injEq, Prod.mk.injEq] at h
    obtain ⟨rfl, rfl⟩ := h
    exact ⟨rfl, fun _ h => h, fun _ h => Or.inl h⟩
  | cons k ks ih =>
    unfold completeLoop at h
    split at h
    · rename_i l hr
      obtain ⟨hk, rfl⟩ := remove_true hr
      obtain ⟨a1, a2, a3⟩ := ih h
      refine ⟨a1, fun x hx => (List.mem_filter.mp (a2 x hx)).1, ?_⟩
      intro x hx
      rcases a3 x hx with hx | hx
      · dsimp only at hx
        unfold insert at hx
        split at hx
        · exact Or.inl hx
        · rcases List.mem_append.mp hx with hx | hx
          · exact Or.inl hx
          · simp at hx; subst hx; exact Or.inr hk
      · exact Or.inr (List.mem_filter.mp hx).1
    · cases h

theorem completeKeys_back {c c' : Ctl K} {g : Nat} {n : StageName} {ks : List K} {b : Bool} (h : completeKeys c g n ks = .ok (c', b)) :
    Back c c' ∧ FlightFrom c c' [] := by
  unfold completeKeys at h
  split at h
  · cases h; exact ⟨Back.refl _, fun _ _ => Or.inl⟩
  · split at h
    · rename_i st b hl
      cases h
      obtain ⟨a1, a2, a3⟩ := completeLoop_back hl
      refine ⟨back_stage ?_ a3, flight_stage (fun k hk => Or.inl (a2 k hk))⟩
      rintro k (hk | hk)
      · exact Or.inl (a1 ▸ hk)
      · exact Or.inr (a2 k hk)
    · cases h

omit [DecidableEq K] in
theorem completeStage_back (c : Ctl K) (g : Nat) (n : StageName) : Back c (completeStage c g n).1 ∧ FlightFrom c (completeStage c g n).1 [] := by
  unfold completeStage
  split
  · exact ⟨Back.refl _, fun _ _ => Or.inl⟩
  · split
    · exact ⟨Back.refl _, fun _ _ => Or.inl⟩
    · exact ⟨back_stage (by simp) (fun _ => Or.inl), flight_stage (by simp)⟩

omit [DecidableEq K] in
theorem cancel_back (c : Ctl K) (g : Nat) : Back c (cancel c g).1 ∧ FlightFrom c (cancel c g).1 [] := by
  unfold cancel
  split
  · exact ⟨Back.refl _, fun _ _ => Or.inl⟩
  · refine ⟨⟨?_, ?_⟩, ?_⟩
    · intro n k; cases n <;> simp [Ctl.stage]
    · intro n k; cases n <;> exact Or.inl
    · intro n k; cases n <;> simp [Ctl.stage]

theorem request_back {max : Nat} {c c' : Ctl K} {g : Nat} {n : StageName} {k : K} {imm : Option Result} {ins : Bool}
    (h : request max c g n k = .ok (c', imm, ins)) :
    (∀ m x, x ∈ (c'.stage m).pending ∨ x ∈ (c'.stage m).inFlight → (x ∈ (c.stage m).pending ∨ x ∈ (c.stage m).inFlight) ∨
      (m = n ∧ x = k ∧ imm = none ∧ c.generation = some g)) ∧
    (∀ m, (c'.stage m).inFlight = (c.stage m).inFlight ∧ (c'.stage m).processed = (c.stage m).processed) := by
  unfold request at h
  split at h
  · cases h; exact ⟨fun _ _ => Or.inl, fun _ => ⟨rfl, rfl⟩⟩
  · rename_i hg
    split at h
    · cases h; exact ⟨fun _ _ => Or.inl, fun _ => ⟨rfl, rfl⟩⟩
    · dsimp only at h
      split at h
      · cases h; exact ⟨fun _ _ => Or.inl, fun _ => ⟨rfl, rfl⟩⟩
      · split at h
        · cases h; exact ⟨fun _ _ => Or.inl, fun _ => ⟨rfl, rfl⟩⟩
        · split at h
          · cases h; exact ⟨fun _ _ => Or.inl, fun _ => ⟨rfl, rfl⟩⟩
          · split at h
            · cases h; exact ⟨fun _ _ => Or.inl, fun _ => ⟨rfl, rfl⟩⟩
            · split at h
              · rename_i l hi
                obtain ⟨-, rfl⟩ := insert_true hi
                cases h
                constructor
                · intro m x
                  rw [stage_setStage]
                  split
                  · rename_i hm; subst hm
                    rintro (hx | hx)
                    · rcases List.mem_append.mp hx with hx | hx
                      · exact Or.inl (Or.inl hx)
                      · simp at hx; exact Or.inr ⟨rfl, hx, rfl, by simpa using hg⟩
                    · exact Or.inl (Or.inr hx)
                  · exact Or.inl
                · intro m
                  rw [stage_setStage]
                  split
                  · rename_i hm; subst hm; exact ⟨rfl, rfl⟩
                  · exact ⟨rfl, rfl⟩
              · cases h

/-! ### The invariant -/

/-- What the answer of a ticket that waited says about the state. -/
def Answer (s : State K) (t : Ticket K) : Result → Prop
  | .targetProcessed => (t.generation, t.stage, t.key) ∈ s.handed ∧
      (s.ctl.generation = some t.generation → t.key ∈ (s.ctl.stage t.stage).processed)
  | .stageComplete => s.ctl.generation = some t.generation → (s.ctl.stage t.stage).complete = true
  | .superseded => s.ctl.generation ≠ some t.generation
  | .cancelled => s.ctl.generation = some t.generation → s.ctl.terminal = some .cancelled
  | .saturated => False

structure TicketOk (s : State K) (t : Ticket K) : Prop where
  current : t.immediate = none → ∃ cur, s.ctl.generation = some cur ∧ t.generation ≤ cur
  live : t.immediate = none → s.ctl.generation = some t.generation → s.ctl.terminal = none → (s.ctl.stage t.stage).complete = false →
    t.key ∈ (s.ctl.stage t.stage).processed ∨ t.key ∈ (s.ctl.stage t.stage).pending ∨ t.key ∈ (s.ctl.stage t.stage).inFlight
  checking : ∀ seen, t.phase = .checking seen → seen ≤ s.revision ∧ t.immediate = none
  asleep : ∀ seen, t.phase = .asleep seen → seen ≤ s.revision ∧ t.immediate = none
  wake : ∀ seen, t.phase = .asleep seen → outcomeFor s.ctl t.generation t.stage t.key ≠ none → 0 < s.owed ∨ seen < s.revision
  immediate : ∀ r r', t.phase = .done r → t.immediate = some r' → r = r'
  answer : ∀ r, t.phase = .done r → t.immediate = none → Answer s t r

structure Inv (max : Nat) (s : State K) : Prop where
  ctl : CtlOk max s.ctl
  terminal : s.ctl.terminal = none ∨ s.ctl.terminal = some .cancelled
  tickets : ∀ t ∈ s.tickets, TicketOk s t
  nodup : s.handed.Nodup
  below : ∀ g n k, (g, n, k) ∈ s.handed → ∃ cur, s.ctl.generation = some cur ∧ g ≤ cur
  handedCur : ∀ g n k, (g, n, k) ∈ s.handed → s.ctl.generation = some g →
    k ∈ (s.ctl.stage n).inFlight ∨ k ∈ (s.ctl.stage n).processed ∨ (s.ctl.stage n).complete = true ∨ s.ctl.terminal.isSome = true
  origin : ∀ n k, k ∈ (s.ctl.stage n).pending ∨ k ∈ (s.ctl.stage n).inFlight →
    ∃ t ∈ s.tickets, s.ctl.generation = some t.generation ∧ t.stage = n ∧ t.key = k ∧ t.immediate = none
  flight : ∀ n k, k ∈ (s.ctl.stage n).inFlight ∨ k ∈ (s.ctl.stage n).processed → ∃ g, s.ctl.generation = some g ∧ (g, n, k) ∈ s.handed
  handedTicket : ∀ g n k, (g, n, k) ∈ s.handed → ∃ t ∈ s.tickets, t.generation = g ∧ t.stage = n ∧ t.key = k ∧ t.immediate = none

theorem outcome_none {c : Ctl K} {g : Nat} {n : StageName} {k : K} :
    outcomeFor c g n k = none ↔ c.generation = some g ∧ c.terminal = none ∧ k ∉ (c.stage n).processed ∧ (c.stage n).complete = false := by
  unfold outcomeFor
  split
  · rename_i h; simp [h]
  · rename_i h
    simp only [ne_eq, not_not] at h
    split
    · rename_i t ht; simp [ht]
    · rename_i ht
      split
      · rename_i hk; simp [hk]
      · rename_i hk
        split
        · rename_i hc; simp [hc]
        · rename_i hc; simp [h, ht, hk, hc]

theorem ext_outcome {c c' : Ctl K} {flag : Bool} (h : Ext c c' flag) {g : Nat} {n : StageName} {k : K}
    (hn : outcomeFor c g n k ≠ none) : outcomeFor c' g n k ≠ none := by
  intro h0
  apply hn
  rw [outcome_none] at h0 ⊢
  obtain ⟨h1, h2, h3, h4⟩ := h0
  refine ⟨h.generation ▸ h1, ?_, fun hk => h3 (h.processed n k hk), ?_⟩
  · cases ht : c.terminal with
    | none => rfl
    | some t =>
      have := h.terminal (by rw [ht]; rfl)
      rw [h2, ht] at this; cases this
  · cases hc : (c.stage n).complete with
    | false => rfl
    | true => rw [h.complete n hc] at h4; cases h4

theorem ext_outcome_flag {c c' : Ctl K} (h : Ext c c' false) {g : Nat} {n : StageName} {k : K}
    (hn : outcomeFor c' g n k ≠ none) : outcomeFor c g n k ≠ none := by
  intro h0
  apply hn
  rw [outcome_none] at h0 ⊢
  obtain ⟨h1, h2, h3, h4⟩ := h0
  obtain ⟨f1, f2⟩ := h.flag rfl n
  exact ⟨h.generation ▸ h1, h.terminalFlag rfl ▸ h2, fun hk => h3 (f2 k hk), f1 ▸ h4⟩

theorem ticketOk_ext {s s' : State K} {flag : Bool} {t : Ticket K} (h : TicketOk s t) (he : Ext s.ctl s'.ctl flag)
    (hr : s'.revision = s.revision) (ho : s'.owed = s.owed + owe flag) (hh : ∀ x ∈ s.handed, x ∈ s'.handed) : TicketOk s' t := by
  constructor
  · intro hi; rw [he.generation]; exact h.current hi
  · intro hi hg ht hc
    rw [he.generation] at hg
    have ht0 : s.ctl.terminal = none := by
      cases hx : s.ctl.terminal with
      | none => rfl
      | some t =>
        have := he.terminal (by rw [hx]; rfl)
        rw [ht, hx] at this; cases this
    have hc0 : (s.ctl.stage t.stage).complete = false := by
      cases hx : (s.ctl.stage t.stage).complete with
      | false => rfl
      | true => rw [he.complete _ hx] at hc; cases hc
    rcases h.live hi hg ht0 hc0 with hk | hk
    · exact Or.inl (he.processed _ _ hk)
    · rcases he.kept _ _ hk with hk | hk | hk | hk
      · exact Or.inr hk
      · exact Or.inl hk
      · rw [hc] at hk; cases hk
      · rw [ht] at hk; cases hk
  · intro seen hp; rw [hr]; exact h.checking seen hp
  · intro seen hp; rw [hr]; exact h.asleep seen hp
  · intro seen hp hn
    rw [hr, ho]
    cases flag with
    | true => left; show 0 < s.owed + owe true; unfold owe; simp
    | false =>
      have := h.wake seen hp (ext_outcome_flag he hn)
      simpa [owe] using this
  · exact h.immediate
  · intro r hp hi
    have := h.answer r hp hi
    cases r with
    | targetProcessed => exact ⟨hh _ this.1, fun hg => he.processed _ _ (this.2 (he.generation ▸ hg))⟩
    | stageComplete => exact fun hg => he.complete _ (this (he.generation ▸ hg))
    | superseded =>
      show s'.ctl.generation ≠ _
      rw [he.generation]; exact this
    | cancelled =>
      intro hg
      have := this (he.generation ▸ hg)
      rw [he.terminal (by rw [this]; rfl)]; exact this
    | saturated => exact this

omit [DecidableEq K] in
theorem mem_modify_phase {l : List (Ticket K)} {i : Nat} {p : Phase} {t : Ticket K} (h : t ∈ l.modify i (fun t => { t with phase := p })) :
    t ∈ l ∨ ∃ t0, l[i]? = some t0 ∧ t = { t0 with phase := p } := by
  obtain ⟨j, hj⟩ := List.mem_iff_getElem?.mp h
  rw [List.getElem?_modify] at hj
  split at hj
  · rename_i hij; subst hij
    cases hl : l[i]? with
    | none => rw [hl] at hj; cases hj
    | some t0 =>
      rw [hl] at hj
      simp at hj
      exact Or.inr ⟨t0, rfl, hj.symm⟩
  · simp at hj
    exact Or.inl (List.mem_iff_getElem?.mpr ⟨j, hj⟩)

omit [DecidableEq K] in
theorem exists_modify_phase {l : List (Ticket K)} {i : Nat} {p : Phase} {t : Ticket K} (h : t ∈ l) :
    ∃ t' ∈ l.modify i (fun t => { t with phase := p }), t'.generation = t.generation ∧ t'.stage = t.stage ∧ t'.key = t.key ∧ t'.immediate = t.immediate := by
  obtain ⟨j, hj⟩ := List.mem_iff_getElem?.mp h
  by_cases hij : i = j
  · refine ⟨{ t with phase := p }, List.mem_iff_getElem?.mpr ⟨j, ?_⟩, rfl, rfl, rfl, rfl⟩
    rw [List.getElem?_modify, hj]; simp [hij]
  · refine ⟨t, List.mem_iff_getElem?.mpr ⟨j, ?_⟩, rfl, rfl, rfl, rfl⟩
    rw [List.getElem?_modify, hj]; simp [hij]

/-- Changing the phase of one ticket. -/
theorem inv_phase {max : Nat} {s : State K} (h : Inv max s) {i : Nat} {p : Phase} {t0 : Ticket K} (ht : s.tickets[i]? = some t0)
    (hok : TicketOk s { t0 with phase := p }) : Inv max (setPhase s i p) := by
  constructor
  · exact h.ctl
  · exact h.terminal
  · intro t hm
    have : TicketOk s t := by
      rcases mem_modify_phase hm with hm | ⟨t1, h1, rfl⟩
      · exact h.tickets t hm
      · rw [ht] at h1; cases h1; exact hok
    exact ⟨this.current, this.live, this.checking, this.asleep, this.wake, this.immediate, this.answer⟩
  · exact h.nodup
  · exact h.below
  · exact h.handedCur
  · intro n k hk
    obtain ⟨t, hm, h1, h2, h3, h4⟩ := h.origin n k hk
    obtain ⟨t', hm', e1, e2, e3, e4⟩ := exists_modify_phase (i := i) (p := p) hm
    exact ⟨t', hm', by rw [e1]; exact h1, by rw [e2]; exact h2, by rw [e3]; exact h3, by rw [e4]; exact h4⟩
  · exact h.flight
  · intro g n k hk
    obtain ⟨t, hm, h1, h2, h3, h4⟩ := h.handedTicket g n k hk
    obtain ⟨t', hm', e1, e2, e3, e4⟩ := exists_modify_phase (i := i) (p := p) hm
    exact ⟨t', hm', by rw [e1]; exact h1, by rw [e2]; exact h2, by rw [e3]; exact h3, by rw [e4]; exact h4⟩

theorem outcome_answer {max : Nat} {s : State K} (h : Inv max s) {t : Ticket K} {r : Result}
    (hr : outcomeFor s.ctl t.generation t.stage t.key = some r) : Answer s t r := by
  unfold outcomeFor at hr
  split at hr
  · rename_i hg; cases hr; exact hg
  · rename_i hg
    simp only [ne_eq, not_not] at hg
    split at hr
    · rename_i tt ht
      cases hr
      rcases h.terminal with h1 | h1
      · rw [ht] at h1; cases h1
      · rw [ht] at h1; cases h1; exact fun _ => ht
    · split at hr
      · rename_i hk
        cases hr
        obtain ⟨g, hg', hh⟩ := h.flight _ _ (Or.inr hk)
        rw [hg] at hg'; cases hg'
        exact ⟨hh, fun _ => hk⟩
      · split at hr
        · rename_i hc; cases hr; exact fun _ => hc
        · cases hr

/-- An operation of the producer: nothing new is requested. -/
theorem inv_ext {max : Nat} {s s' : State K} (h : Inv max s) {flag : Bool} {new : List (Nat × StageName × K)} (hc : CtlOk max s'.ctl)
    (he : Ext s.ctl s'.ctl flag) (hb : Back s.ctl s'.ctl) (hf : FlightFrom s.ctl s'.ctl (new.map (·.2)))
    (hterm : s'.ctl.terminal = none ∨ s'.ctl.terminal = some .cancelled)
    (hnew : new.Nodup) (hnew' : ∀ g n k, (g, n, k) ∈ new → s.ctl.generation = some g ∧ s.ctl.terminal = none ∧ (s.ctl.stage n).complete = false ∧
      k ∈ (s.ctl.stage n).pending ∧ k ∈ (s'.ctl.stage n).inFlight)
    (hr : s'.revision = s.revision) (ho : s'.owed = s.owed + owe flag) (ht : s'.tickets = s.tickets) (hh : s'.handed = new ++ s.handed) : Inv max s' := by
  constructor
  · exact hc
  · exact hterm
  · rw [ht]
    intro t hm
    exact ticketOk_ext (h.tickets t hm) he hr ho (by rw [hh]; exact fun x hx => List.mem_append_right _ hx)
  · rw [hh, List.nodup_append]
    refine ⟨hnew, h.nodup, ?_⟩
    rintro ⟨g, n, k⟩ ha b hb rfl
    obtain ⟨h1, h2, h3, h4, -⟩ := hnew' g n k ha
    rcases h.handedCur g n k hb h1 with hx | hx | hx | hx
    · exact (h.ctl.stages n).pf k h4 hx
    · exact (h.ctl.stages n).pp k h4 hx
    · rw [h3] at hx; cases hx
    · rw [h2] at hx; cases hx
  · intro g n k hm
    rw [he.generation]
    rw [hh] at hm
    rcases List.mem_append.mp hm with hm | hm
    · exact ⟨g, (hnew' g n k hm).1, Nat.le_refl _⟩
    · exact h.below g n k hm
  · intro g n k hm hg
    rw [hh] at hm
    rcases List.mem_append.mp hm with hm | hm
    · exact Or.inl (hnew' g n k hm).2.2.2.2
    · rw [he.generation] at hg
      rcases h.handedCur g n k hm hg with hx | hx | hx | hx
      · exact he.flight n k hx
      · exact Or.inr (Or.inl (he.processed n k hx))
      · exact Or.inr (Or.inr (Or.inl (he.complete n hx)))
      · exact Or.inr (Or.inr (Or.inr (by rw [he.terminal hx]; exact hx)))
  · intro n k hk
    rw [ht, he.generation]
    exact h.origin n k (hb.open_ n k hk)
  · intro n k hk
    rw [he.generation]
    have old : k ∈ (s.ctl.stage n).inFlight ∨ k ∈ (s.ctl.stage n).processed → ∃ g, s.ctl.generation = some g ∧ (g, n, k) ∈ s'.handed := by
      intro hx
      obtain ⟨g, h1, h2⟩ := h.flight n k hx
      exact ⟨g, h1, by rw [hh]; exact List.mem_append_right _ h2⟩
    rcases hk with hk | hk
    · rcases hf n k hk with hx | hx
      · exact old (Or.inl hx)
      · obtain ⟨⟨g, n', k'⟩, hm, he'⟩ := List.mem_map.mp hx
        cases he'
        exact ⟨g, (hnew' g n k hm).1, by rw [hh]; exact List.mem_append_left _ hm⟩
    · exact old (hb.processed n k hk).symm
  · intro g n k hm
    rw [ht]
    rw [hh] at hm
    rcases List.mem_append.mp hm with hm | hm
    · obtain ⟨h1, -, -, h4, -⟩ := hnew' g n k hm
      obtain ⟨t, ht, e1, e2, e3, e4⟩ := h.origin n k (Or.inl h4)
      rw [h1] at e1
      exact ⟨t, ht, (Option.some.inj e1).symm, e2, e3, e4⟩
    · exact h.handedTicket g n k hm

theorem inv_init {max : Nat} : Inv max (init : State K) := by
  have hs : ∀ n, ((init : State K).ctl.stage n) = Stage.empty := by intro n; cases n <;> rfl
  constructor
  · constructor
    · intro n; rw [hs]; constructor <;> simp [Stage.empty]
    · intro _ n; rw [hs]; exact ⟨rfl, rfl⟩
    · intro _ n; rw [hs]; exact ⟨rfl, rfl, rfl⟩
  · exact Or.inl rfl
  · simp [init]
  · simp [init]
  · simp [init]
  · simp [init]
  · intro n k hk; rw [hs] at hk; simp [Stage.empty] at hk
  · intro n k hk; rw [hs] at hk; simp [Stage.empty] at hk
  · simp [init]

theorem inv_step {max : Nat} {s s' : State K} (h : Inv max s) (hs : Step max s s') : Inv max s' := by
  cases hs with
  | begin g c hb =>
    obtain ⟨b1, b2, b3, b4, b5⟩ := begin_spec (max := max) hb
    have hlt : ∀ g', (∃ cur, s.ctl.generation = some cur ∧ g' ≤ cur) → g' < g := by
      rintro g' ⟨cur, hc, hle⟩
      exact Nat.lt_of_le_of_lt hle (b4 cur hc)
    constructor
    · exact b1
    · exact Or.inl b3
    · intro t hm
      have ht := h.tickets t hm
      constructor
      · intro hi; exact ⟨g, b2, Nat.le_of_lt (hlt _ (ht.current hi))⟩
      · intro hi hg
        change c.generation = _ at hg
        rw [b2] at hg
        have := hlt _ (ht.current hi)
        cases hg; omega
      · exact ht.checking
      · exact ht.asleep
      · intro seen _ _; left; show 0 < s.owed + 1; omega
      · exact ht.immediate
      · intro r hp hi
        have hlt' := hlt _ (ht.current hi)
        have hne : c.generation ≠ some t.generation := by
          rw [b2]; intro he; cases he; omega
        have := ht.answer r hp hi
        cases r with
        | targetProcessed => exact ⟨this.1, fun hg => absurd hg hne⟩
        | stageComplete => exact fun hg => absurd hg hne
        | superseded => exact hne
        | cancelled => exact fun hg => absurd hg hne
        | saturated => exact this
    · exact h.nodup
    · intro g' n k hm; exact ⟨g, b2, Nat.le_of_lt (hlt _ (h.below g' n k hm))⟩
    · intro g' n k hm hg
      have := hlt _ (h.below g' n k hm)
      change c.generation = _ at hg
      rw [b2] at hg
      cases hg; omega
    · intro n k hk
      change k ∈ (c.stage n).pending ∨ k ∈ (c.stage n).inFlight at hk
      rw [b5] at hk; simp [Stage.empty] at hk
    · intro n k hk
      change k ∈ (c.stage n).inFlight ∨ k ∈ (c.stage n).processed at hk
      rw [b5] at hk; simp [Stage.empty] at hk
    · exact h.handedTicket
  | request g n k c imm ins hb =>
    obtain ⟨c2, imm2, ins2, heq, a1, a2, a3, a4⟩ := request_spec h.ctl g n k
    rw [heq] at hb
    cases hb
    obtain ⟨p1, p2⟩ := request_back heq
    constructor
    · exact a1
    · by_cases hi : imm = none
      · exact Or.inl (a3 hi).2.1
      · show c.terminal = none ∨ _
        rw [a4 hi]; exact h.terminal
    · intro t hm
      rcases List.mem_append.mp hm with hm | hm
      · exact ticketOk_ext (flag := ins) (h.tickets t hm) a2 rfl rfl (fun _ h => h)
      · simp at hm
        subst hm
        constructor
        · intro hi; exact ⟨g, (a3 hi).1, Nat.le_refl _⟩
        · intro hi _ _ _; exact Or.inr (a3 hi).2.2
        · intro seen hp; cases hp
        · intro seen hp; cases hp
        · intro seen hp; cases hp
        · intro r r' hp; cases hp
        · intro r hp; cases hp
    · exact h.nodup
    · intro g' n' k' hm
      show ∃ cur, c.generation = some cur ∧ _
      rw [a2.generation]; exact h.below g' n' k' hm
    · intro g' n' k' hm hg
      change c.generation = _ at hg
      rw [a2.generation] at hg
      rcases h.handedCur g' n' k' hm hg with hx | hx | hx | hx
      · exact a2.flight _ _ hx
      · exact Or.inr (Or.inl (a2.processed _ _ hx))
      · exact Or.inr (Or.inr (Or.inl (a2.complete _ hx)))
      · exact Or.inr (Or.inr (Or.inr (by show c.terminal.isSome = true; rw [a2.terminal hx]; exact hx)))
    · intro m x hx
      show ∃ t ∈ s.tickets ++ [_], c.generation = _ ∧ _
      rcases p1 m x hx with hx | ⟨rfl, rfl, hi, hg⟩
      · obtain ⟨t, hm, e⟩ := h.origin m x hx
        refine ⟨t, List.mem_append_left _ hm, ?_⟩
        rw [a2.generation]; exact e
      · exact ⟨_, List.mem_append_right _ (List.mem_singleton.mpr rfl), by rw [a2.generation]; exact hg, rfl, rfl, hi⟩
    · intro m x hx
      change x ∈ (c.stage m).inFlight ∨ x ∈ (c.stage m).processed at hx
      rw [(p2 m).1, (p2 m).2] at hx
      show ∃ g, c.generation = _ ∧ _
      rw [a2.generation]; exact h.flight m x hx
    · intro g' n' k' hm
      obtain ⟨t, ht, e⟩ := h.handedTicket g' n' k' hm
      exact ⟨t, List.mem_append_left _ ht, e⟩
  | drain g n c ks hb =>
    obtain ⟨c2, ks2, heq, a1, a2, a3, a4, a5, a6⟩ := drain_spec h.ctl g n
    rw [heq] at hb
    cases hb
    obtain ⟨p1, p2⟩ := drain_back heq
    refine inv_ext (s := s) (flag := !ks.isEmpty) (new := ks.map (fun k => (g, n, k))) h a1 a2 p1 ?_ ?_ ?_ ?_ rfl rfl rfl rfl
    · rw [List.map_map]; exact p2
    · by_cases hf : ks = []
      · have := a2.terminalFlag (by simp [hf])
        show c.terminal = none ∨ _
        rw [this]; exact h.terminal
      · have ht := (a4 hf).2.1
        unfold drain at heq
        split at heq
        · cases heq; exact Or.inl ht
        · dsimp only at heq
          split at heq
          · cases heq; exact Or.inl ht
          · split at heq
            · cases heq; show (Ctl.setStage _ _ _).terminal = none ∨ _; rw [setStage_terminal]; exact Or.inl ht
            · cases heq
    · exact a3.map (fun x y hxy => by cases hxy; rfl)
    · intro g' n' k' hm
      obtain ⟨k0, hk0, he⟩ := List.mem_map.mp hm
      cases he
      obtain ⟨b1, b2, b3⟩ := a4 (List.ne_nil_of_mem hk0)
      exact ⟨b1, b2, b3, (a6 k' hk0).1, (a6 k' hk0).2⟩
  | claim g n k c ans moved hb =>
    obtain ⟨c2, ans2, moved2, heq, a1, a2, a3, a4, a5⟩ := claim_spec h.ctl g n k
    rw [heq] at hb
    cases hb
    obtain ⟨p1, p2⟩ := claim_back heq
    cases moved with
    | false =>
      have := a4 rfl
      subst this
      exact inv_ext (s := s) (flag := false) (new := []) h a1 a2 p1 p2 h.terminal (by simp) (by simp) rfl rfl rfl rfl
    | true =>
      obtain ⟨b1, b2, b3, b4, b5, -⟩ := a3 rfl
      refine inv_ext (s := s) (flag := true) (new := [(g, n, k)]) h a1 a2 p1 p2 ?_ (by simp) ?_ rfl rfl rfl rfl
      · unfold claim at heq
        split at heq
        · cases heq
        · dsimp only at heq
          split at heq
          · cases heq
          · split at heq
            · cases heq
            · split at heq
              · split at heq
                · cases heq; show (Ctl.setStage _ _ _).terminal = none ∨ _; rw [setStage_terminal]; exact Or.inl b2
                · cases heq
              · cases heq
      · intro g' n' k' hm
        simp at hm
        obtain ⟨rfl, rfl, rfl⟩ := hm
        exact ⟨b1, b2, b3, b4, b5⟩
  | completeKeys g n ks c changed hb =>
    obtain ⟨a1, a2, a3, a4⟩ := completeKeys_spec h.ctl hb
    obtain ⟨p1, p2⟩ := completeKeys_back hb
    refine inv_ext (s := s) (flag := changed) (new := []) h a1 a2 p1 p2 ?_ (by simp) (by simp) rfl rfl rfl rfl
    show c.terminal = none ∨ _
    unfold completeKeys at hb
    split at hb
    · cases hb; exact h.terminal
    · split at hb
      · cases hb; rw [setStage_terminal]; exact h.terminal
      · cases hb
  | completeStage g n =>
    obtain ⟨a1, a2⟩ := completeStage_spec h.ctl g n
    obtain ⟨p1, p2⟩ := completeStage_back s.ctl g n
    refine inv_ext (s := s) (flag := _) (new := []) h a1 a2 p1 p2 ?_ (by simp) (by simp) rfl rfl rfl rfl
    show (completeStage s.ctl g n).1.terminal = none ∨ (completeStage s.ctl g n).1.terminal = some .cancelled
    unfold completeStage
    split
    · exact h.terminal
    · split
      · exact h.terminal
      · rw [setStage_terminal]; exact h.terminal
  | cancel g =>
    obtain ⟨a1, a2⟩ := cancel_spec h.ctl g
    obtain ⟨p1, p2⟩ := cancel_back s.ctl g
    refine inv_ext (s := s) (flag := _) (new := []) h a1 a2 p1 p2 ?_ (by simp) (by simp) rfl rfl rfl rfl
    show (cancel s.ctl g).1.terminal = none ∨ (cancel s.ctl g).1.terminal = some .cancelled
    unfold cancel
    split
    · exact h.terminal
    · exact Or.inr rfl
  | notify ho =>
    refine ⟨h.ctl, h.terminal, ?_, h.nodup, h.below, h.handedCur, h.origin, h.flight, h.handedTicket⟩
    intro t hm
    have ht := h.tickets t hm
    refine ⟨ht.current, ht.live, ?_, ?_, ?_, ht.immediate, ht.answer⟩
    · intro seen hp
      obtain ⟨h1, h2⟩ := ht.checking seen hp
      exact ⟨Nat.le_succ_of_le h1, h2⟩
    · intro seen hp
      obtain ⟨h1, h2⟩ := ht.asleep seen hp
      exact ⟨Nat.le_succ_of_le h1, h2⟩
    · intro seen hp _
      right
      exact Nat.lt_succ_of_le (ht.asleep seen hp).1
  | immediate i t r ht hp hr =>
    have hk := h.tickets t (List.mem_iff_getElem?.mpr ⟨i, ht⟩)
    refine inv_phase h ht ⟨hk.current, hk.live, ?_, ?_, ?_, ?_, ?_⟩
    · intro seen hp; cases hp
    · intro seen hp; cases hp
    · intro seen hp; cases hp
    · intro a b ha hb
      cases ha
      change t.immediate = some b at hb
      rw [hr] at hb; cases hb; rfl
    · intro a _ hb
      change t.immediate = none at hb
      rw [hr] at hb; cases hb
  | subscribe i t ht hp hr =>
    have hk := h.tickets t (List.mem_iff_getElem?.mpr ⟨i, ht⟩)
    refine inv_phase h ht ⟨hk.current, hk.live, ?_, ?_, ?_, ?_, ?_⟩
    · intro seen hp; cases hp; exact ⟨Nat.le_refl _, hr⟩
    · intro seen hp; cases hp
    · intro seen hp; cases hp
    · intro a b hp; cases hp
    · intro a hp; cases hp
  | check i t seen ht hp =>
    have hk := h.tickets t (List.mem_iff_getElem?.mpr ⟨i, ht⟩)
    obtain ⟨c1, c2⟩ := hk.checking seen hp
    refine inv_phase h ht ⟨hk.current, hk.live, ?_, ?_, ?_, ?_, ?_⟩
    · intro seen' hp'
      dsimp only at hp'
      split at hp' <;> cases hp'
    · intro seen' hp'
      dsimp only at hp'
      split at hp'
      · cases hp'
      · cases hp'; exact ⟨c1, c2⟩
    · intro seen' hp' hn
      dsimp only at hp' hn
      split at hp'
      · cases hp'
      · rename_i h0; exact absurd h0 hn
    · intro a b _ hb
      change t.immediate = some b at hb
      rw [c2] at hb; cases hb
    · intro a ha _
      dsimp only at ha
      split at ha
      · rename_i r hr
        cases ha
        have := outcome_answer h (t := t) hr
        cases a <;> exact this
      · cases ha
  | wake i t seen ht hp hn =>
    have hk := h.tickets t (List.mem_iff_getElem?.mpr ⟨i, ht⟩)
    obtain ⟨c1, c2⟩ := hk.asleep seen hp
    refine inv_phase h ht ⟨hk.current, hk.live, ?_, ?_, ?_, ?_, ?_⟩
    · intro seen' hp'; cases hp'; exact ⟨Nat.le_refl _, c2⟩
    · intro seen hp; cases hp
    · intro seen hp; cases hp
    · intro a b hp; cases hp
    · intro a hp; cases hp

theorem reachable_inv {max : Nat} {s : State K} (h : Reachable max s) : Inv max s := by
  induction h with
  | init => exact inv_init
  | step _ hs ih => exact inv_step ih hs

end Verif.NavDemand
