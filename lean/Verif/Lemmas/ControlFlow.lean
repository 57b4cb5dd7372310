import Verif.Spec.ControlFlow
import Mathlib.Tactic.Tauto

namespace Verif.ControlFlow

theorem no_stop {W : World} (hS : ¬ W.stop) {t : Task} {o : Out} (h : Run W t o) : o ≠ .raised true := by
  induction h with
  | leave hl _ _ => cases hl <;> simp
  | callRaise hb => rename_i b; cases b <;> simp_all
  | otherRaise hb => rename_i b; cases b <;> simp_all
  | _ => simp_all

/-- A break that leaves the task is found. -/
def BreakIn : Task → Prop
  | .node n => hasBreak n = true
  | .seq l => anyBreak l = true
  | .attempt b rs e => anyBreak b = true ∨ pairBreak rs = true ∨ anyBreak e = true
  | .loop _ => False
  | .yields _ => False
  | .while _ _ => False

theorem pairBreak_mem {a b : List Node} {l : List (List Node × List Node)} (h : (a, b) ∈ l)
    (hb : anyBreak a = true ∨ anyBreak b = true) : pairBreak l = true := by
  induction l with
  | nil => simp at h
  | cons p l ih =>
    obtain ⟨x, y⟩ := p
    rcases List.mem_cons.1 h with e | h'
    · cases e
      rcases hb with hb | hb <;> simp [pairBreak, hb]
    · simp [pairBreak, ih h']

theorem anyBreak_mem {n : Node} {l : List Node} (h : n ∈ l) (hb : hasBreak n = true) : anyBreak l = true := by
  induction l with
  | nil => simp at h
  | cons p l ih =>
    rcases List.mem_cons.1 h with e | h'
    · cases e
      simp [anyBreak, hb]
    · simp [anyBreak, ih h']

theorem break_found {W : World} {t : Task} {o : Out} (h : Run W t o) : o = .brk → BreakIn t := by
  induction h with
  | nil => simp
  | leave hl _ _ => cases hl <;> simp [BreakIn, hasBreak]
  | leaveArg hl _ _ ih => intro e; have := ih e; cases hl <;> simp_all [BreakIn, hasBreak, anyBreak]
  | callLoop _ _ ih => intro e; exact absurd (ih e) (by simp [BreakIn])
  | callBlock _ _ _ ih => intro e; exact absurd (ih e) (by simp [BreakIn])
  | block _ ih => intro e; exact absurd (ih e) (by simp [BreakIn])
  | forBody _ _ _ ih => intro e; exact absurd (ih e) (by simp [BreakIn])
  | @caseCond s ws e0 o conds b _ hm _ _ _ ih =>
    intro e; cases e0 <;> simp [BreakIn, hasBreak, pairBreak_mem hm (.inl (ih e))]
  | @caseWhen s ws e0 o conds b _ hm _ _ ih =>
    intro e; cases e0 <;> simp [BreakIn, hasBreak, pairBreak_mem hm (.inr (ih e))]
  | @matchCond s ws e0 o conds b _ hm _ _ _ ih =>
    intro e; cases e0 <;> simp [BreakIn, hasBreak, pairBreak_mem hm (.inl (ih e))]
  | @matchIn s ws e0 o conds b _ hm _ _ ih =>
    intro e; cases e0 <;> simp [BreakIn, hasBreak, pairBreak_mem hm (.inr (ih e))]
  | rescueCond _ hm _ _ _ ih => intro e; exact .inr (.inl (pairBreak_mem hm (.inl (ih e))))
  | rescue _ hm _ _ _ ih => intro e; exact .inr (.inl (pairBreak_mem hm (.inr (ih e))))
  | otherChild hm _ _ ih => intro e; exact anyBreak_mem hm (ih e)
  | @caseSubject s ws e0 o _ _ ih => intro e; have := ih e; cases e0 <;> simp_all [BreakIn, hasBreak]
  | @matchSubject s ws e0 o _ _ ih => intro e; have := ih e; cases e0 <;> simp_all [BreakIn, hasBreak]
  | @unlessCond c b e0 o _ _ ih => intro e; have := ih e; cases e0 <;> simp_all [BreakIn, hasBreak]
  | @unlessThen c b e0 o _ _ _ ih => intro e; have := ih e; cases e0 <;> simp_all [BreakIn, hasBreak]
  | whileCondLeaves _ _ hb _ => intro e; exact absurd e hb
  | whileLeaves _ _ _ hb _ => intro e; exact absurd e hb
  | ensured _ _ ih _ => intro e; have := ih e; simp only [BreakIn, hasBreak, Bool.or_eq_true] at *; tauto
  | _ => simp_all [BreakIn, hasBreak, anyBreak, optBreak, Out.continues]

theorem join_falls {a b : Reach} : (join a b).isDiverges = (a.isDiverges && b.isDiverges) := by
  cases a <;> cases b <;> rfl

theorem clauses_mem {l : List (List Node × List Node)} {c b : List Node} (h : (c, b) ∈ l)
    (hd : (analyzeClauses l).isDiverges = true) : (analyzeStatements b).isDiverges = true := by
  induction l with
  | nil => simp at h
  | cons p l ih =>
    obtain ⟨x, y⟩ := p
    simp only [analyzeClauses, join_falls, Bool.and_eq_true] at hd
    rcases List.mem_cons.1 h with e | h'
    · cases e
      exact hd.1
    · exact ih h' hd.2

theorem rescues_mem {l : List (List Node × List Node)} {c b : List Node} (h : (c, b) ∈ l) :
    ∀ {r : Reach}, (rescued r (analyzeRescues l)).isDiverges = true → (analyzeStatements b).isDiverges = true := by
  induction l with
  | nil => simp at h
  | cons p l ih =>
    obtain ⟨x, y⟩ := p
    intro r hd
    simp only [analyzeRescues, rescued, join_falls, Bool.and_eq_true] at hd
    rcases List.mem_cons.1 h with e | h'
    · cases e
      have := hd.2
      cases hr : analyzeRescues l with
      | none => simpa [hr, rescued] using this
      | some z => rw [hr] at this; simp only [join_falls, Bool.and_eq_true] at this; exact this.1
    · exact ih h' hd.2

/-- The part of `analyze` for `begin` without `ensure`. -/
def attemptReach (b : List Node) (rs : List (List Node × List Node)) (e : List Node) : Reach :=
  rescued (happy (analyzeStatements b) (analyzeStatements e)) (analyzeRescues rs)

theorem attempt_happy {b rs e} (h : (attemptReach b rs e).isDiverges = true) :
    (happy (analyzeStatements b) (analyzeStatements e)).isDiverges = true := by
  unfold attemptReach at h
  cases hr : analyzeRescues rs with
  | none => simpa [hr, rescued] using h
  | some z => rw [hr] at h; simp only [rescued, join_falls, Bool.and_eq_true] at h; exact h.1

theorem attempt_rescue {b rs e c r} (h : (attemptReach b rs e).isDiverges = true) (hm : (c, r) ∈ rs) :
    (analyzeStatements r).isDiverges = true := rescues_mem hm h

theorem analyze_begin (b rs e n) : analyze (.beginN b rs e n) = ensured (analyzeStatements n) (attemptReach b rs e) := by
  rw [analyze]
  rfl

/-- The task is analysed as leaving. -/
def Div : Task → Bool
  | .node n => (analyze n).isDiverges
  | .seq l => (analyzeStatements l).isDiverges
  | .attempt b rs e => (attemptReach b rs e).isDiverges
  | .loop b => !anyBreak b
  | .yields _ => false
  | .while _ _ => false

theorem never_returns {W : World} (hW : W.Plain) {recv name} (h : isTerminatingCall recv name = true) : NeverReturns W recv name := by
  unfold isTerminatingCall at h
  split at h
  · exact .self (by simpa [kernelTerminators] using h) (hW.2 _)
  · rename_i c
    simp only [Bool.and_eq_true, Bool.or_eq_true, beq_iff_eq] at h
    exact .module (by simpa using h.1) (by simpa [kernelTerminators] using h.2) (hW.2 _)
  · simp at h

theorem diverging_loop {recv name block} (h : isDivergingLoop recv name block = true) :
    recv = none ∧ name = "loop" ∧ ∃ body, block = some body ∧ anyBreak body = false := by
  unfold isDivergingLoop at h
  split at h
  · simp at h
  · split at h
    · simp at h
    · rename_i hn
      split at h
      · simp at h
      · rename_i body
        exact ⟨rfl, by simpa using hn, body, rfl, by simpa using h⟩

theorem call_div {recv name args block} (h : (analyze (.call recv name args block)).isDiverges = true) :
    isTerminatingCall recv name = true ∨ isDivergingLoop recv name block = true := by
  rw [analyze] at h
  by_cases h1 : isTerminatingCall recv name = true
  · exact .inl h1
  · by_cases h2 : isDivergingLoop recv name block = true
    · exact .inr h2
    · simp [h1, h2, Reach.isDiverges] at h

theorem sound {W : World} (hW : W.Plain) {t : Task} {o : Out} (h : Run W t o) : o = .done → Div t = false := by
  induction h with
  | nil => simp [Div, analyzeStatements, Reach.isDiverges]
  | @cons n l o _ _ ih1 ih2 =>
    intro e
    cases l with
    | nil => exact ih1 rfl
    | cons m l => simpa [Div, analyzeStatements] using ih2 e
  | head _ h => exact fun e => absurd e h
  | leave hl _ _ => intro e; subst e; cases hl
  | leaveArg _ _ h => exact fun e => absurd e h
  | callRecv _ h => exact fun e => absurd e h
  | callArg _ h => exact fun e => absurd e h
  | callRaise => simp
  | @callLoop recv name args block body o hl _ ih =>
    intro e
    obtain ⟨rfl, rfl, rfl, _⟩ := hl
    have := ih e
    rw [Bool.eq_false_iff]
    intro hd
    rcases call_div hd with h | h
    · revert h; simp [isTerminatingCall, kernelTerminators]
    · obtain ⟨_, _, b, hb, hn⟩ := diverging_loop h
      cases hb
      simp [Div, hn] at this
  | callDone hn =>
    intro _
    rw [Bool.eq_false_iff]
    intro hd
    rcases call_div hd with h | h
    · exact hn (never_returns hW h)
    · obtain ⟨_, _, b, hb, _⟩ := diverging_loop h
      cases hb
  | callBlock hn hl _ _ =>
    intro _
    rw [Bool.eq_false_iff]
    intro hd
    rcases call_div hd with h | h
    · exact hn (never_returns hW h)
    · obtain ⟨h1, h2, b, hb, _⟩ := diverging_loop h
      exact hl ⟨h1, h2, rfl, hW.2 _⟩
  | ifCond _ h => exact fun e => absurd e h
  | @ifThen c b s o _ _ _ ih =>
    intro e
    cases s with
    | none => rfl
    | some s => have := ih e; simp only [Div] at *; simp [analyze, join_falls, this]
  | ifElse _ _ _ ih => intro e; have := ih e; simp only [Div] at *; simp [analyze, join_falls, this]
  | ifNone => intro _; rfl
  | unlessCond _ h => exact fun e => absurd e h
  | @unlessThen c b s o _ _ _ ih =>
    intro e
    cases s with
    | none => rfl
    | some s => have := ih e; simp only [Div] at *; simp [analyze, join_falls, this]
  | unlessElse _ _ _ ih => intro e; have := ih e; simp only [Div] at *; simp [analyze, join_falls, this]
  | unlessNone => intro _; rfl
  | caseSubject _ h => exact fun e => absurd e h
  | caseCond _ _ _ h => exact fun e => absurd e h
  | @caseWhen s ws e o conds b _ hm _ _ ih =>
    intro eo
    cases e with
    | none => rfl
    | some s =>
      rw [Bool.eq_false_iff]
      intro hd
      simp only [Div, analyze, joinCase, join_falls, Bool.and_eq_true] at hd
      have := ih eo
      simp [Div, clauses_mem hm hd.1] at this
  | caseElse _ _ _ ih => intro e; have := ih e; simp only [Div] at *; simp [analyze, joinCase, join_falls, this]
  | caseNone => intro _; rfl
  | matchSubject _ h => exact fun e => absurd e h
  | matchCond _ _ _ h => exact fun e => absurd e h
  | @matchIn s ws e o conds b _ hm _ _ ih =>
    intro eo
    cases e with
    | none => rfl
    | some s =>
      rw [Bool.eq_false_iff]
      intro hd
      simp only [Div, analyze, joinCase, join_falls, Bool.and_eq_true] at hd
      have := ih eo
      simp [Div, clauses_mem hm hd.1] at this
  | matchElse _ _ _ ih => intro e; have := ih e; simp only [Div] at *; simp [analyze, joinCase, join_falls, this]
  | matchNone => intro _; rfl
  | @ensured b rs e n o _ _ ih1 ih2 =>
    intro eo
    have h1 := ih1 eo
    have h2 := ih2 rfl
    simp only [Div] at *
    rw [analyze_begin]
    cases hn : analyzeStatements n with
    | diverges es => simp [hn, Reach.isDiverges] at h2
    | falls => exact h1
  | ensureLeaves _ _ h => exact fun e => absurd e h
  | @noError b rs e o _ _ ih1 ih2 =>
    intro eo
    have h1 := ih1 rfl
    have h2 := ih2 eo
    rw [Bool.eq_false_iff]
    intro hd
    have := attempt_happy hd
    simp only [Div] at h1 h2
    cases hb : analyzeStatements b with
    | diverges es => simp [hb, Reach.isDiverges] at h1
    | falls => rw [hb] at this; simp [happy, h2] at this
  | bodyLeaves _ h => exact fun e => absurd e h
  | rescueCond _ _ _ h => exact fun e => absurd e h
  | rescue _ hm _ _ _ ih =>
    intro eo
    have h1 := ih eo
    rw [Bool.eq_false_iff]
    intro hd
    simp [Div, attempt_rescue hd hm] at h1
  | retry _ _ _ _ _ _ ih => exact ih
  | stmts _ ih => intro e; have := ih e; simpa [Div, analyze] using this
  | elseN _ ih => intro e; have := ih e; simpa [Div, analyze] using this
  | loopAgain _ _ _ _ ih => exact ih
  | loopBreak h => intro _; have := break_found h rfl; simpa [Div, BreakIn] using this
  | loopStop h => exact absurd rfl (no_stop hW.1 h)
  | loopRaise => simp
  | loopReturn => simp
  | otherChild _ _ h => exact fun e => absurd e h
  | forColl _ h => exact fun e => absurd e h
  | _ => intro _; rfl

/-- A `break`, `redo` or `retry` that leaves the task is found. -/
def ExitIn : Task → Prop
  | .node n => hasExit n = true
  | .seq l => anyExit l = true
  | .attempt b rs e => anyExit b = true ∨ pairExit rs = true ∨ anyExit e = true
  | .loop _ => False
  | .yields _ => False
  | .while c b => hasExit c = true ∨ anyExit b = true

theorem pairExit_mem {a b : List Node} {l : List (List Node × List Node)} (h : (a, b) ∈ l)
    (hb : anyExit a = true ∨ anyExit b = true) : pairExit l = true := by
  induction l with
  | nil => simp at h
  | cons p l ih =>
    obtain ⟨x, y⟩ := p
    rcases List.mem_cons.1 h with e | h'
    · cases e
      rcases hb with hb | hb <;> simp [pairExit, hb]
    · simp [pairExit, ih h']

theorem anyExit_mem {n : Node} {l : List Node} (h : n ∈ l) (hb : hasExit n = true) : anyExit l = true := by
  induction l with
  | nil => simp at h
  | cons p l ih =>
    rcases List.mem_cons.1 h with e | h'
    · cases e
      simp [anyExit, hb]
    · simp [anyExit, ih h']

theorem exit_found {W : World} {t : Task} {o : Out} (h : Run W t o) : o = .brk ∨ o = .redo ∨ o = .retry → ExitIn t := by
  induction h with
  | nil => simp
  | leave hl _ _ => cases hl <;> simp [ExitIn, hasExit]
  | leaveArg hl _ _ ih => intro e; have := ih e; cases hl <;> simp_all [ExitIn, hasExit, anyExit]
  | callLoop _ _ ih => intro e; exact absurd (ih e) (by simp [ExitIn])
  | callBlock _ _ _ ih => intro e; exact absurd (ih e) (by simp [ExitIn])
  | block _ ih => intro e; exact absurd (ih e) (by simp [ExitIn])
  | forBody _ _ _ ih => intro e; exact absurd (ih e) (by simp [ExitIn])
  | @caseCond s ws e0 o conds b _ hm _ _ _ ih =>
    intro e; cases e0 <;> simp [ExitIn, hasExit, pairExit_mem hm (.inl (ih e))]
  | @caseWhen s ws e0 o conds b _ hm _ _ ih =>
    intro e; cases e0 <;> simp [ExitIn, hasExit, pairExit_mem hm (.inr (ih e))]
  | @matchCond s ws e0 o conds b _ hm _ _ _ ih =>
    intro e; cases e0 <;> simp [ExitIn, hasExit, pairExit_mem hm (.inl (ih e))]
  | @matchIn s ws e0 o conds b _ hm _ _ ih =>
    intro e; cases e0 <;> simp [ExitIn, hasExit, pairExit_mem hm (.inr (ih e))]
  | rescueCond _ hm _ _ _ ih => intro e; exact .inr (.inl (pairExit_mem hm (.inl (ih e))))
  | rescue _ hm _ _ _ ih => intro e; exact .inr (.inl (pairExit_mem hm (.inr (ih e))))
  | otherChild hm _ _ ih => intro e; exact anyExit_mem hm (ih e)
  | @caseSubject s ws e0 o _ _ ih => intro e; have := ih e; cases e0 <;> simp_all [ExitIn, hasExit]
  | @matchSubject s ws e0 o _ _ ih => intro e; have := ih e; cases e0 <;> simp_all [ExitIn, hasExit]
  | @unlessCond c b e0 o _ _ ih => intro e; have := ih e; cases e0 <;> simp_all [ExitIn, hasExit]
  | @unlessThen c b e0 o _ _ _ ih => intro e; have := ih e; cases e0 <;> simp_all [ExitIn, hasExit]
  | whileCondLeaves _ _ hb ih => intro e; exact .inl (ih e)
  | whileLeaves _ _ _ hb _ ih => intro e; exact .inr (ih e)
  | ensured _ _ ih _ => intro e; have := ih e; simp only [ExitIn, hasExit, Bool.or_eq_true] at *; tauto
  | _ => simp_all [ExitIn, hasExit, anyExit, optExit, Out.continues]

/-- The outcome is normal, an exception, or in the set. -/
def Within (es : ExitSet) (o : Out) : Prop := o = .done ∨ (∃ b, o = .raised b) ∨ ∃ k, o.kind = some k ∧ es k = true

theorem Within.of_quiet {es : ExitSet} {o : Out} (h : o = .done ∨ ∃ b, o = .raised b) : Within es o := by
  rcases h with h | h
  · exact .inl h
  · exact .inr (.inl h)

theorem Within.mono {a b : ExitSet} {o : Out} (h : Within a o) (hab : ∀ k, a k = true → b k = true) : Within b o := by
  rcases h with h | h | ⟨k, h1, h2⟩
  · exact .inl h
  · exact .inr (.inl h)
  · exact .inr (.inr ⟨k, h1, hab k h2⟩)

theorem join_sets {a b : Reach} {es : ExitSet} (h : join a b = .diverges es) :
    ∃ x y, a = .diverges x ∧ b = .diverges y ∧ es = x.union y := by
  cases a with
  | falls => simp [join] at h
  | diverges x =>
    cases b with
    | falls => simp [join] at h
    | diverges y => exact ⟨x, y, rfl, rfl, by simpa [join] using h.symm⟩

theorem clauses_sets {l : List (List Node × List Node)} {c b : List Node} (h : (c, b) ∈ l) :
    ∀ {es : ExitSet}, analyzeClauses l = .diverges es → ∃ x, analyzeStatements b = .diverges x ∧ ∀ k, x k = true → es k = true := by
  induction l with
  | nil => simp at h
  | cons p l ih =>
    obtain ⟨u, v⟩ := p
    intro es he
    rw [analyzeClauses] at he
    obtain ⟨x, y, hx, hy, rfl⟩ := join_sets he
    rcases List.mem_cons.1 h with e | h'
    · cases e
      exact ⟨x, hx, fun k hk => by simp [ExitSet.union, hk]⟩
    · obtain ⟨z, hz, hs⟩ := ih h' hy
      exact ⟨z, hz, fun k hk => by simp [ExitSet.union, hs k hk]⟩

theorem rescued_sets {r : Reach} {o : Option Reach} {es : ExitSet} (h : rescued r o = .diverges es) :
    (∃ x, r = .diverges x ∧ ∀ k, x k = true → es k = true) ∧
    ∀ z, o = some z → ∃ y, z = .diverges y ∧ ∀ k, y k = true → es k = true := by
  cases o with
  | none => exact ⟨⟨es, h, fun _ h => h⟩, by simp⟩
  | some z =>
    obtain ⟨x, y, hx, hy, rfl⟩ := join_sets h
    refine ⟨⟨x, hx, fun k hk => by simp [ExitSet.union, hk]⟩, ?_⟩
    intro z' hz
    cases hz
    exact ⟨y, hy, fun k hk => by simp [ExitSet.union, hk]⟩

theorem rescues_sets {l : List (List Node × List Node)} {c b : List Node} (h : (c, b) ∈ l) :
    ∀ {r : Reach} {es : ExitSet}, rescued r (analyzeRescues l) = .diverges es →
      ∃ x, analyzeStatements b = .diverges x ∧ ∀ k, x k = true → es k = true := by
  induction l with
  | nil => simp at h
  | cons p l ih =>
    obtain ⟨u, v⟩ := p
    intro r es he
    obtain ⟨y, hy, hs⟩ := (rescued_sets he).2 _ rfl
    rcases List.mem_cons.1 h with e | h'
    · cases e
      obtain ⟨⟨x, hx, hxs⟩, _⟩ := rescued_sets hy
      exact ⟨x, hx, fun k hk => hs k (hxs k hk)⟩
    · obtain ⟨z, hz, hzs⟩ := ih h' hy
      exact ⟨z, hz, fun k hk => hs k (hzs k hk)⟩

/-- `attempt` with parts that leave at their ends only. -/
def TidyAttempt (W : World) (b : List Node) (rs : List (List Node × List Node)) (e : List Node) : Prop :=
  ((TidySeq W b ∧ e = []) ∨ (Quiet W (.seq b) ∧ TidySeq W e)) ∧
  (∀ w ∈ rs, Quiet W (.seq w.1)) ∧ ∀ w ∈ rs, TidySeq W w.2

/-- The claim about exit sets. -/
def Exits (W : World) (o : Out) : Task → Prop
  | .node n => Tidy W n → ∀ es, analyze n = .diverges es → Within es o
  | .seq l => TidySeq W l → ∀ es, analyzeStatements l = .diverges es → Within es o
  | .attempt b rs e => TidyAttempt W b rs e → ∀ es, attemptReach b rs e = .diverges es → Within es o
  | _ => True

theorem tidy_begin {W : World} {b rs e n} (h : Tidy W (.beginN b rs e n)) :
    Quiet W (.node (.beginN b rs e n)) ∨ (TidyAttempt W b rs e ∧ Quiet W (.seq n)) := by
  cases h with
  | leaves hl => cases hl
  | quiet hq => exact .inl hq
  | begin h1 h2 h3 h4 => exact .inr ⟨⟨.inl ⟨h1, rfl⟩, h2, h3⟩, h4⟩
  | beginElse h1 h2 h3 h4 h5 => exact .inr ⟨⟨.inr ⟨h1, h4⟩, h2, h3⟩, h5⟩

theorem exits {W : World} (hW : W.Plain) {t : Task} {o : Out} (h : Run W t o) : Exits W o t := by
  induction h with
  | nil => intro _ es _; exact .inl rfl
  | @cons n l o _ _ ih1 ih2 =>
    intro ht es he
    cases ht with
    | last ht =>
      rename_i hl
      cases hl
      · exact .inl rfl
    | cons hq ht => exact ih2 ht es (by rw [analyzeStatements] at he; exact he)
  | @head n l o hr _ ih =>
    intro ht es he
    cases ht with
    | last ht => exact ih ht es (by rw [analyzeStatements] at he; exact he)
    | cons hq ht => exact .of_quiet (hq _ hr)
  | @leave n args o hl _ _ =>
    intro _ es he
    cases hl <;> (rw [analyze] at he; cases he; exact .inr (.inr ⟨_, rfl, by simp [ExitSet.one]⟩))
  | @leaveArg n args o o' hl hr hd _ =>
    intro ht es he
    cases ht with
    | leaves hl' hq => cases hl <;> (cases hl'; exact .of_quiet (hq _ hr))
    | quiet hq => exact .of_quiet (hq _ (.leaveArg hl hr hd))
    | _ => cases hl
  | ifCond hr hd _ =>
    intro ht es he
    cases ht with
    | leaves hl => cases hl
    | quiet hq => exact .of_quiet (hq _ (.ifCond hr hd))
    | ifN hq _ _ => exact .of_quiet (hq _ hr)
  | ifThen h1 h2 _ ih =>
    intro ht es he
    cases ht with
    | leaves hl => cases hl
    | quiet hq => exact .of_quiet (hq _ (.ifThen h1 h2))
    | ifN _ hb _ =>
      rw [analyze] at he
      obtain ⟨x, y, hx, hy, rfl⟩ := join_sets he
      exact (ih hb x hx).mono (fun k hk => by simp [ExitSet.union, hk])
  | ifElse h1 h2 _ ih =>
    intro ht es he
    cases ht with
    | leaves hl => cases hl
    | quiet hq => exact .of_quiet (hq _ (.ifElse h1 h2))
    | ifN _ _ hs =>
      rw [analyze] at he
      obtain ⟨x, y, hx, hy, rfl⟩ := join_sets he
      exact (ih hs y hy).mono (fun k hk => by simp [ExitSet.union, hk])
  | unlessCond hr hd _ =>
    intro ht es he
    cases ht with
    | leaves hl => cases hl
    | quiet hq => exact .of_quiet (hq _ (.unlessCond hr hd))
    | unlessN hq _ _ => exact .of_quiet (hq _ hr)
  | unlessThen h1 h2 _ ih =>
    intro ht es he
    cases ht with
    | leaves hl => cases hl
    | quiet hq => exact .of_quiet (hq _ (.unlessThen h1 h2))
    | unlessN _ hb _ =>
      rw [analyze] at he
      obtain ⟨x, y, hx, hy, rfl⟩ := join_sets he
      exact (ih hb x hx).mono (fun k hk => by simp [ExitSet.union, hk])
  | unlessElse h1 h2 _ ih =>
    intro ht es he
    cases ht with
    | leaves hl => cases hl
    | quiet hq => exact .of_quiet (hq _ (.unlessElse h1 h2))
    | unlessN _ _ hs =>
      rw [analyze] at he
      obtain ⟨x, y, hx, hy, rfl⟩ := join_sets he
      exact (ih hs y hy).mono (fun k hk => by simp [ExitSet.union, hk])
  | caseSubject hr hd _ =>
    intro ht es he
    cases ht with
    | leaves hl => cases hl
    | quiet hq => exact .of_quiet (hq _ (.caseSubject hr hd))
    | caseN hq _ _ _ => exact .of_quiet (hq _ hr)
  | caseCond h1 hm hr hd _ _ =>
    intro ht es he
    cases ht with
    | leaves hl => cases hl
    | quiet hq => exact .of_quiet (hq _ (.caseCond h1 hm hr hd))
    | caseN _ hq _ _ => exact .of_quiet (hq _ hm _ hr)
  | caseWhen h1 hm hr _ ih =>
    intro ht es he
    cases ht with
    | leaves hl => cases hl
    | quiet hq => exact .of_quiet (hq _ (.caseWhen h1 hm hr))
    | caseN _ _ hb _ =>
      rw [analyze] at he
      obtain ⟨x, y, hx, hy, rfl⟩ := join_sets he
      obtain ⟨z, hz, hzs⟩ := clauses_sets hm hx
      exact (ih (hb _ hm) z hz).mono (fun k hk => by simp [ExitSet.union, hzs k hk])
  | caseElse h1 h2 _ ih =>
    intro ht es he
    cases ht with
    | leaves hl => cases hl
    | quiet hq => exact .of_quiet (hq _ (.caseElse h1 h2))
    | caseN _ _ _ hs =>
      rw [analyze] at he
      obtain ⟨x, y, hx, hy, rfl⟩ := join_sets he
      exact (ih hs y hy).mono (fun k hk => by simp [ExitSet.union, hk])
  | matchSubject hr hd _ =>
    intro ht es he
    cases ht with
    | leaves hl => cases hl
    | quiet hq => exact .of_quiet (hq _ (.matchSubject hr hd))
    | caseMatch hq _ _ _ => exact .of_quiet (hq _ hr)
  | matchCond h1 hm hr hd _ _ =>
    intro ht es he
    cases ht with
    | leaves hl => cases hl
    | quiet hq => exact .of_quiet (hq _ (.matchCond h1 hm hr hd))
    | caseMatch _ hq _ _ => exact .of_quiet (hq _ hm _ hr)
  | matchIn h1 hm hr _ ih =>
    intro ht es he
    cases ht with
    | leaves hl => cases hl
    | quiet hq => exact .of_quiet (hq _ (.matchIn h1 hm hr))
    | caseMatch _ _ hb _ =>
      rw [analyze] at he
      obtain ⟨x, y, hx, hy, rfl⟩ := join_sets he
      obtain ⟨z, hz, hzs⟩ := clauses_sets hm hx
      exact (ih (hb _ hm) z hz).mono (fun k hk => by simp [ExitSet.union, hzs k hk])
  | matchElse h1 h2 _ ih =>
    intro ht es he
    cases ht with
    | leaves hl => cases hl
    | quiet hq => exact .of_quiet (hq _ (.matchElse h1 h2))
    | caseMatch _ _ _ hs =>
      rw [analyze] at he
      obtain ⟨x, y, hx, hy, rfl⟩ := join_sets he
      exact (ih hs y hy).mono (fun k hk => by simp [ExitSet.union, hk])
  | @ensured b rs e n o h1 h2 ih _ =>
    intro ht es he
    rcases tidy_begin ht with hq | ⟨ha, hq⟩
    · exact .of_quiet (hq _ (.ensured h1 h2))
    · rw [analyze_begin] at he
      cases hn : analyzeStatements n with
      | falls => rw [hn] at he; exact ih ha es he
      | diverges x => have := sound hW h2 rfl; simp [Div, hn, Reach.isDiverges] at this
  | ensureLeaves h1 h2 h3 _ _ =>
    intro ht es he
    rcases tidy_begin ht with hq | ⟨ha, hq⟩
    · exact .of_quiet (hq _ (.ensureLeaves h1 h2 h3))
    · exact .of_quiet (hq _ h2)
  | @noError b rs e o h1 h2 ih1 ih2 =>
    intro ht es he
    obtain ⟨⟨x, hx, hxs⟩, _⟩ := rescued_sets he
    cases hb : analyzeStatements b with
    | falls =>
      rw [hb] at hx
      rcases ht.1 with ⟨_, rfl⟩ | ⟨_, he'⟩
      · cases hx
      · exact (ih2 he' x hx).mono hxs
    | diverges y => have := sound hW h1 rfl; simp [Div, hb, Reach.isDiverges] at this
  | @bodyLeaves b rs e o h1 hd ih =>
    intro ht es he
    obtain ⟨⟨x, hx, hxs⟩, _⟩ := rescued_sets he
    rcases ht.1 with ⟨hb, rfl⟩ | ⟨hq, _⟩
    · cases hb' : analyzeStatements b with
      | falls => rw [hb'] at hx; cases hx
      | diverges y => rw [hb'] at hx; cases hx; exact (ih hb _ hb').mono hxs
    · exact .of_quiet (hq _ h1)
  | rescueCond _ hm hr _ _ _ => intro ht es he; exact .of_quiet (ht.2.1 _ hm _ hr)
  | rescue _ hm _ _ _ ih =>
    intro ht es he
    obtain ⟨z, hz, hzs⟩ := rescues_sets hm he
    exact (ih (ht.2.2 _ hm) z hz).mono hzs
  | retry _ _ _ _ _ _ ih => exact ih
  | stmts h ih =>
    intro ht es he
    cases ht with
    | leaves hl => cases hl
    | quiet hq => exact .of_quiet (hq _ (.stmts h))
    | stmts hb => exact ih hb es (by rw [analyze] at he; exact he)
  | elseN h ih =>
    intro ht es he
    cases ht with
    | leaves hl => cases hl
    | quiet hq => exact .of_quiet (hq _ (.elseN h))
    | elseN hb => exact ih hb es (by rw [analyze] at he; exact he)
  | callRecv h1 h2 _ =>
    intro ht es he
    cases ht with
    | leaves hl => cases hl
    | quiet hq => exact .of_quiet (hq _ (.callRecv h1 h2))
  | callArg h1 h2 _ =>
    intro ht es he
    cases ht with
    | leaves hl => cases hl
    | quiet hq => exact .of_quiet (hq _ (.callArg h1 h2))
  | callRaise h1 =>
    intro ht es he
    cases ht with
    | leaves hl => cases hl
    | quiet hq => exact .of_quiet (hq _ (.callRaise h1))
  | callLoop h1 h2 _ =>
    intro ht es he
    cases ht with
    | leaves hl => cases hl
    | quiet hq => exact .of_quiet (hq _ (.callLoop h1 h2))
  | callDone h1 =>
    intro ht es he
    cases ht with
    | leaves hl => cases hl
    | quiet hq => exact .of_quiet (hq _ (.callDone h1))
  | callBlock h1 h2 h3 _ =>
    intro ht es he
    cases ht with
    | leaves hl => cases hl
    | quiet hq => exact .of_quiet (hq _ (.callBlock h1 h2 h3))
  | ifNone => intro _ es he; exact .inl rfl
  | unlessNone => intro _ es he; exact .inl rfl
  | caseNone => intro _ es he; exact .inl rfl
  | matchNone => intro _ es he; exact .inr (.inl ⟨_, rfl⟩)
  | const => intro _ es he; exact .inl rfl
  | constRaise => intro _ es he; exact .inr (.inl ⟨_, rfl⟩)
  | whileN => intro _ es he; rw [analyze] at he; cases he
  | forCollBreak => intro _ es he; rw [analyze] at he; cases he
  | forColl => intro _ es he; rw [analyze] at he; cases he
  | forBody => intro _ es he; rw [analyze] at he; cases he
  | block => intro _ es he; rw [analyze] at he; cases he
  | lambda => intro _ es he; rw [analyze] at he; cases he
  | otherDone => intro _ es he; rw [analyze] at he; cases he
  | otherRaise => intro _ es he; rw [analyze] at he; cases he
  | otherChild => intro _ es he; rw [analyze] at he; cases he
  | _ => trivial

end Verif.ControlFlow
