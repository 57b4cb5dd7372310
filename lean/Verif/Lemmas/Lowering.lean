import Verif.Spec.Lowering
import Verif.Props.ControlFlow
import Verif.Props.CallableBody
/-!
Lemmas about lowering: what `control_flow` says about runs, what a lowered body keeps.
-/
namespace Verif.Lowering
open Verif.Types Verif.ShapeReads Verif.CallableBody

variable {W : World} {S : Sends W} {K : ControlFlow.World}

theorem Node.ind {P : Node → Prop} (stmts : ∀ l, (∀ n ∈ l, P n) → P (.stmts l)) (write : ∀ x n, P n → P (.write x n)) (read : ∀ x, P (.read x))
    (array : ∀ l, (∀ n ∈ l, P n) → P (.array l)) (hash : ∀ fs : List (Option Lit × Node), (∀ f ∈ fs, P f.2) → P (.hash fs))
    (ifN : ∀ c t e, P c → (∀ n ∈ t, P n) → (∀ n ∈ e, P n) → P (.ifN c t e))
    (elsif : ∀ c t n, P c → (∀ n ∈ t, P n) → P n → P (.elsif c t n))
    (unlessN : ∀ c t e, P c → (∀ n ∈ t, P n) → (∀ n ∈ e, P n) → P (.unlessN c t e))
    (ret : ∀ l, (∀ n ∈ l, P n) → P (.ret l)) (nxt : ∀ l, (∀ n ∈ l, P n) → P (.nxt l)) (beginN : ∀ l, (∀ n ∈ l, P n) → P (.beginN l))
    (call : ∀ r m args safe, P r → (∀ n ∈ args, P n) → P (.call r m args safe)) (lit : ∀ t key, P (.lit t key))
    (interp : ∀ t l, (∀ n ∈ l, P n) → P (.interp t l)) (other : ∀ n w, P (.other n w)) : ∀ n, P n := by
  intro n
  refine Node.rec (motive_1 := P) (motive_2 := fun l => ∀ n ∈ l, P n) (motive_3 := fun l => ∀ f ∈ l, P f.2) (motive_4 := fun f => P f.2)
    stmts write read array hash ifN elsif unlessN ret nxt beginN call lit interp other ?_ ?_ ?_ ?_ ?_ n
  · intro t h; simp at h
  · intro a l ha hl t ht
    rcases List.mem_cons.mp ht with rfl | ht
    · exact ha
    · exact hl t ht
  · intro t h; simp at h
  · intro a l ha hl t ht
    rcases List.mem_cons.mp ht with rfl | ht
    · exact ha
    · exact hl t ht
  · intro a b h; exact h

theorem cfFields_eq : ∀ fs : List (Option Lit × Node), cfFields fs = cfList (fs.map (·.2))
  | [] => rfl
  | (_, _) :: l => by simp only [cfFields, List.map_cons, cfList, cfFields_eq l]

/-! ### runs -/

/-- What `control_flow` sees of a task. -/
def cfTask : Task → ControlFlow.Task
  | .node n => .node (cf n)
  | .seq l => .seq (cfList l)
  | .args l => .seq (cfList l)

theorem seq_child {l : List ControlFlow.Node} {o : ControlFlow.Out} (h : ControlFlow.Run K (.seq l) o) (ho : o ≠ .done) :
    ∃ c ∈ l, ControlFlow.Run K (.node c) o := by
  induction l with
  | nil => cases h; exact absurd rfl ho
  | cons n l ih =>
    cases h with
    | cons _ h => obtain ⟨c, hc, h⟩ := ih h; exact ⟨c, by simp [hc], h⟩
    | head h _ => exact ⟨n, by simp, h⟩

theorem other_seq {l : List ControlFlow.Node} {o : ControlFlow.Out} (h : ControlFlow.Run K (.seq l) o) : ControlFlow.Run K (.node (.other l)) o := by
  by_cases ho : o = .done
  · subst ho; exact .otherDone
  · obtain ⟨c, hc, h⟩ := seq_child h ho; exact .otherChild hc h ho

theorem other_one {n : ControlFlow.Node} {o : ControlFlow.Out} (h : ControlFlow.Run K (.node n) o) : ControlFlow.Run K (.node (.other [n])) o := by
  by_cases ho : o = .done
  · subst ho; exact .otherDone
  · exact .otherChild (by simp) h ho

theorem seq_one {n : ControlFlow.Node} {o : ControlFlow.Out} (h : ControlFlow.Run K (.node n) o) : ControlFlow.Run K (.seq [n]) o := by
  by_cases ho : o = .done
  · subst ho; exact .cons h .nil
  · exact .head h ho

/-- A run is one of those of `ControlFlow`. -/
theorem erase {t : Task} {σ σ' : Vars W} {r : Res W} (h : Exec S K t σ r σ') : ControlFlow.Run K (cfTask t) r.kind := by
  induction h with
  | none _ => exact .nil
  | last _ ih => exact seq_one ih
  | step _ _ ih1 ih2 => exact .cons ih1 ih2
  | stop _ hr ih => exact .head ih hr
  | noArgs => exact .nil
  | arg _ _ ih1 ih2 => exact .cons ih1 ih2
  | argLeaves _ hr ih => exact .head ih hr
  | laterLeaves _ _ _ ih1 ih2 => exact .cons ih1 ih2
  | stmts _ ih => exact .stmts ih
  | write _ ih => exact other_one ih
  | writeLeaves _ _ ih => exact other_one ih
  | read => exact .otherDone
  | array _ _ _ ih => exact other_seq ih
  | arrayLeaves _ _ ih => exact other_seq ih
  | hash _ _ ih => exact .otherDone
  | hashLeaves _ _ ih =>
    simp only [cfTask, cf, cfFields_eq] at ih ⊢
    exact other_seq ih
  | ifCond _ hr ih => exact .ifCond ih hr
  | ifThen _ _ ih1 ih2 => exact .ifThen ih1 ih2
  | ifElse _ _ ih1 ih2 => exact .ifElse ih1 (.elseN ih2)
  | elsifCond _ hr ih => exact .ifCond ih hr
  | elsifThen _ _ ih1 ih2 => exact .ifThen ih1 ih2
  | elsifElse _ _ ih1 ih2 => exact .ifElse ih1 ih2
  | unlessCond _ hr ih => exact .unlessCond ih hr
  | unlessThen _ _ ih1 ih2 => exact .unlessThen ih1 ih2
  | unlessElse _ _ ih1 ih2 => exact .unlessElse ih1 ih2
  | retNil _ => exact .leave .ret .nil
  | ret _ ih => exact .leave .ret ih
  | retMany _ _ _ ih => exact .leave .ret ih
  | retLeaves _ hr ih => exact .leaveArg .ret ih hr
  | nxtNil _ => exact .leave .nxt .nil
  | nxt _ ih => exact .leave .nxt ih
  | nxtMany _ _ _ ih => exact .leave .nxt ih
  | nxtLeaves _ hr ih => exact .leaveArg .nxt ih hr
  | @beginN l σ r σ' _ ih =>
    refine .ensured ?_ .nil
    by_cases hr : r.kind = .done
    · simp only [cfTask] at ih
      rw [hr] at ih ⊢
      exact .noError ih .nil
    · exact .bodyLeaves ih hr
  | recvLeaves _ hr ih => exact .callRecv ih hr
  | argsLeave _ _ hr _ ih => exact .callArg ih hr
  | call _ _ _ hn _ _ => exact .callDone hn
  | callRaises _ _ _ _ => exact .callRaise (by simp)
  | skipped _ _ hn _ => exact .callDone hn
  | lit _ _ => exact .otherDone
  | interp _ _ ih => exact .otherDone
  | interpLeaves _ _ ih => exact other_seq ih
  | other h _ _ => exact h

/-- Code that `control_flow` says diverges does not end with a value. -/
theorem no_value {n : Node} (hK : K.Plain) (h : ControlFlow.diverges (cf n) = true) {σ σ' : Vars W} {r : Res W}
    (he : Exec S K (.node n) σ r σ') : r.kind ≠ .done := by
  intro hr
  have := erase he
  rw [hr] at this
  exact ControlFlow.c48_diverges_partial hK h this

theorem no_value_seq {l : List Node} (hK : K.Plain) {es} (h : ControlFlow.analyzeStatements (cfList l) = .diverges es) {σ σ' : Vars W} {r : Res W}
    (he : Exec S K (.seq l) σ r σ') : r.kind ≠ .done :=
  no_value hK (n := .stmts l) (by simp [ControlFlow.diverges, cf, ControlFlow.analyze, h, ControlFlow.Reach.isDiverges]) (.stmts he)

theorem node_val {n : Node} {σ σ' : Vars W} {r : Res W} (h : Exec S K (.node n) σ r σ') : ∀ vs, r ≠ .vals vs := by
  suffices ∀ t, Exec S K t σ r σ' → (∀ l, t ≠ .args l) → ∀ vs, r ≠ .vals vs from this _ h (by intro l h; cases h)
  clear h
  intro t h
  induction h with
  | none _ => simp
  | last _ ih => intro _; exact ih (by intro l h; cases h)
  | step _ _ _ ih => intro _; exact ih (by intro l h; cases h)
  | stop _ _ ih => intro _; exact ih (by intro l h; cases h)
  | noArgs => intro h; exact absurd rfl (h _)
  | arg => intro h; exact absurd rfl (h _)
  | argLeaves => intro h; exact absurd rfl (h _)
  | laterLeaves => intro h; exact absurd rfl (h _)
  | stmts _ ih => intro _; exact ih (by intro l h; cases h)
  | write _ ih => simp
  | writeLeaves _ _ ih => intro _; exact ih (by intro l h; cases h)
  | read => simp
  | array => simp
  | arrayLeaves _ hr ih => rintro - vs rfl; exact hr rfl
  | hash => simp
  | hashLeaves _ hr ih => rintro - vs rfl; exact hr rfl
  | ifCond _ hr ih => rintro - vs rfl; exact hr rfl
  | ifThen _ _ _ ih => intro _; exact ih (by intro l h; cases h)
  | ifElse _ _ _ ih => intro _; exact ih (by intro l h; cases h)
  | elsifCond _ hr ih => rintro - vs rfl; exact hr rfl
  | elsifThen _ _ _ ih => intro _; exact ih (by intro l h; cases h)
  | elsifElse _ _ _ ih => intro _; exact ih (by intro l h; cases h)
  | unlessCond _ hr ih => rintro - vs rfl; exact hr rfl
  | unlessThen _ _ _ ih => intro _; exact ih (by intro l h; cases h)
  | unlessElse _ _ _ ih => intro _; exact ih (by intro l h; cases h)
  | retNil _ => simp
  | ret => simp
  | retMany => simp
  | retLeaves _ hr _ => rintro - vs rfl; exact hr rfl
  | nxtNil _ => simp
  | nxt => simp
  | nxtMany => simp
  | nxtLeaves _ hr _ => rintro - vs rfl; exact hr rfl
  | beginN _ ih => intro _; exact ih (by intro l h; cases h)
  | recvLeaves _ hr _ => rintro - vs rfl; exact hr rfl
  | argsLeave _ _ hr _ _ => rintro - vs rfl; exact hr rfl
  | call => simp
  | callRaises => simp
  | skipped => simp
  | lit => simp
  | interp => simp
  | interpLeaves _ hr _ => rintro - vs rfl; exact hr rfl
  | other _ h _ => intro _; exact h

/-! ### exits -/

/-- `r` is left with `return` or `next`, and this is which. -/
def Jumps (r : Res W) (k : ControlFlow.Exit) : Prop := (r.kind = .ret ∧ k = .ret) ∨ (r.kind = .nxt ∧ k = .nxt)

theorem Jumps.kind_ne {r : Res W} {k : ControlFlow.Exit} (h : Jumps r k) : r.kind ≠ .done := by
  rcases h with ⟨h, -⟩ | ⟨h, -⟩ <;> rw [h] <;> simp

theorem pure_args {l : List Node} (h : ∀ n ∈ l, Pure S K n) {σ σ' : Vars W} {r : Res W} (he : Exec S K (.args l) σ r σ') :
    σ' = σ ∧ ∀ k, ¬ Jumps r k := by
  induction l generalizing σ σ' r with
  | nil => cases he with | noArgs => exact ⟨rfl, fun k h => by rcases h with ⟨h, -⟩ | ⟨h, -⟩ <;> cases h⟩
  | cons n l ih =>
    have hn := h n (by simp)
    cases he with
    | arg h1 h2 =>
      obtain ⟨e, -⟩ := hn _ _ _ h1
      obtain ⟨e', -⟩ := ih (fun n hn => h n (by simp [hn])) h2
      exact ⟨by rw [e', e], fun k h => by rcases h with ⟨h, -⟩ | ⟨h, -⟩ <;> cases h⟩
    | argLeaves h1 _ =>
      obtain ⟨e, h2, h3⟩ := hn _ _ _ h1
      exact ⟨e, fun k h => by rcases h with ⟨h, -⟩ | ⟨h, -⟩ <;> contradiction⟩
    | laterLeaves h1 h2 _ =>
      obtain ⟨e, -⟩ := hn _ _ _ h1
      obtain ⟨e', hj⟩ := ih (fun n hn => h n (by simp [hn])) h2
      exact ⟨by rw [e', e], hj⟩

theorem pure_jump {n : Node} (h : Pure S K n) {σ σ' : Vars W} {r : Res W} (he : Exec S K (.node n) σ r σ') {k} : ¬ Jumps r k := by
  obtain ⟨-, h1, h2⟩ := h _ _ _ he
  rintro (⟨h, -⟩ | ⟨h, -⟩) <;> contradiction

/-- In neat code `return` and `next` come last, and `control_flow` knows of them. -/
def JumpsLast (S : Sends W) (K : ControlFlow.World) : Task → Res W → Prop
  | .node n, r => ∀ b, Neat S K b n → ∀ k, Jumps r k → b = true ∧ ∀ es, ControlFlow.analyze (cf n) = .diverges es → es k = true
  | .seq l, r => ∀ b, NeatSeq S K b l → ∀ k, Jumps r k → b = true ∧ ∀ es, ControlFlow.analyzeStatements (cfList l) = .diverges es → es k = true
  | .args l, r => (∀ n ∈ l, Neat S K false n) → ∀ k, ¬ Jumps r k

theorem join_left {a b : ControlFlow.Reach} {es} (h : ControlFlow.join a b = .diverges es) :
    ∃ x y, a = .diverges x ∧ b = .diverges y ∧ es = x.union y := by
  cases a <;> cases b <;> simp only [ControlFlow.join] at h <;> cases h
  exact ⟨_, _, rfl, rfl, rfl⟩

theorem jumps_last {t : Task} {σ σ' : Vars W} {r : Res W} (h : Exec S K t σ r σ') : JumpsLast S K t r := by
  have noval : ∀ {v : W.V} {k}, ¬ Jumps (Res.val v) k := by rintro v k (⟨h, -⟩ | ⟨h, -⟩) <;> cases h
  have novals : ∀ {v : List W.V} {k}, ¬ Jumps (Res.vals v) k := by rintro v k (⟨h, -⟩ | ⟨h, -⟩) <;> cases h
  induction h with
  | none _ => intro b _ k hj; exact absurd hj noval
  | last _ ih =>
    intro b hb k hj
    cases hb with
    | last hn =>
      obtain ⟨h1, h2⟩ := ih b hn k hj
      refine ⟨h1, fun es h => h2 es ?_⟩
      simpa only [cfList, ControlFlow.analyzeStatements] using h
  | step _ _ _ ih =>
    intro b hb k hj
    cases hb with
    | cons _ hl =>
      obtain ⟨h1, h2⟩ := ih b hl k hj
      refine ⟨h1, fun es h => h2 es ?_⟩
      simpa only [cfList, ControlFlow.analyzeStatements] using h
  | stop _ _ ih =>
    intro b hb k hj
    cases hb with
    | cons hn _ => exact absurd (ih false hn k hj).1 (by simp)
  | noArgs => intro _ k; exact novals
  | arg => intro _ k; exact novals
  | argLeaves _ _ ih => intro hl k hj; exact absurd (ih false (hl _ (by simp)) k hj).1 (by simp)
  | laterLeaves _ _ _ _ ih => intro hl k hj; exact ih (fun n hn => hl n (by simp [hn])) k hj
  | stmts _ ih =>
    intro b hb k hj
    cases hb with
    | stmts hl =>
      obtain ⟨h1, h2⟩ := ih b hl k hj
      refine ⟨h1, fun es h => h2 es ?_⟩
      simpa only [cf, ControlFlow.analyze] using h
  | write => intro b _ k hj; exact absurd hj noval
  | writeLeaves _ _ ih =>
    intro b hb k hj
    cases hb with
    | write hn => exact absurd (ih false hn k hj).1 (by simp)
  | read => intro b _ k hj; exact absurd hj noval
  | array => intro b _ k hj; exact absurd hj noval
  | arrayLeaves _ _ ih =>
    intro b hb k hj
    cases hb with
    | array hn => exact absurd hj (ih hn k)
  | hash => intro b _ k hj; exact absurd hj noval
  | hashLeaves _ _ ih =>
    intro b hb k hj
    cases hb with
    | hash hn =>
      refine absurd hj (ih ?_ k)
      intro n hn'
      obtain ⟨f, hf, rfl⟩ := List.mem_map.mp hn'
      exact hn f hf
  | ifCond h _ _ =>
    intro b hb k hj
    cases hb with
    | ifN hc _ _ => exact absurd hj (pure_jump hc h)
  | ifThen _ _ _ ih =>
    intro b hb k hj
    cases hb with
    | ifN _ ht _ =>
      obtain ⟨h1, h2⟩ := ih b ht k hj
      refine ⟨h1, fun es h => ?_⟩
      simp only [cf, ControlFlow.analyze] at h
      obtain ⟨x, y, hx, hy, rfl⟩ := join_left h
      simp [ControlFlow.ExitSet.union, h2 x hx]
  | ifElse _ _ _ ih =>
    intro b hb k hj
    cases hb with
    | ifN _ _ ht =>
      obtain ⟨h1, h2⟩ := ih b ht k hj
      refine ⟨h1, fun es h => ?_⟩
      simp only [cf, ControlFlow.analyze] at h
      obtain ⟨x, y, hx, hy, rfl⟩ := join_left h
      simp [ControlFlow.ExitSet.union, h2 y hy]
  | elsifCond h _ _ =>
    intro b hb k hj
    cases hb with
    | elsif hc _ _ => exact absurd hj (pure_jump hc h)
  | elsifThen _ _ _ ih =>
    intro b hb k hj
    cases hb with
    | elsif _ ht _ =>
      obtain ⟨h1, h2⟩ := ih b ht k hj
      refine ⟨h1, fun es h => ?_⟩
      simp only [cf, ControlFlow.analyze] at h
      obtain ⟨x, y, hx, hy, rfl⟩ := join_left h
      simp [ControlFlow.ExitSet.union, h2 x hx]
  | elsifElse _ _ _ ih =>
    intro b hb k hj
    cases hb with
    | elsif _ _ ht =>
      obtain ⟨h1, h2⟩ := ih b ht k hj
      refine ⟨h1, fun es h => ?_⟩
      simp only [cf, ControlFlow.analyze] at h
      obtain ⟨x, y, hx, hy, rfl⟩ := join_left h
      simp [ControlFlow.ExitSet.union, h2 y hy]
  | unlessCond h _ _ =>
    intro b hb k hj
    cases hb with
    | unlessN hc _ _ => exact absurd hj (pure_jump hc h)
  | unlessThen _ _ _ ih =>
    intro b hb k hj
    cases hb with
    | unlessN _ ht _ =>
      obtain ⟨h1, h2⟩ := ih b ht k hj
      refine ⟨h1, fun es h => ?_⟩
      simp only [cf, ControlFlow.analyze] at h
      obtain ⟨x, y, hx, hy, rfl⟩ := join_left h
      simp [ControlFlow.ExitSet.union, h2 x hx]
  | unlessElse _ _ _ ih =>
    intro b hb k hj
    cases hb with
    | unlessN _ _ ht =>
      obtain ⟨h1, h2⟩ := ih b ht k hj
      refine ⟨h1, fun es h => ?_⟩
      simp only [cf, ControlFlow.analyze] at h
      obtain ⟨x, y, hx, hy, rfl⟩ := join_left h
      simp [ControlFlow.ExitSet.union, h2 y hy]
  | retNil _ | ret | retMany =>
    intro b hb k hj
    cases hb with
    | ret _ =>
      refine ⟨rfl, fun es h => ?_⟩
      simp only [cf, ControlFlow.analyze] at h
      cases h
      rcases hj with ⟨-, rfl⟩ | ⟨h, -⟩
      · rfl
      · cases h
  | retLeaves _ _ ih =>
    intro b hb k hj
    cases hb with
    | ret hn => exact absurd hj (ih hn k)
  | nxtNil _ | nxt | nxtMany =>
    intro b hb k hj
    cases hb with
    | nxt _ =>
      refine ⟨rfl, fun es h => ?_⟩
      simp only [cf, ControlFlow.analyze] at h
      cases h
      rcases hj with ⟨h, -⟩ | ⟨-, rfl⟩
      · cases h
      · rfl
  | nxtLeaves _ _ ih =>
    intro b hb k hj
    cases hb with
    | nxt hn => exact absurd hj (ih hn k)
  | beginN _ ih =>
    intro b hb k hj
    cases hb with
    | beginN hl =>
      obtain ⟨h1, h2⟩ := ih b hl k hj
      refine ⟨h1, fun es h => h2 es ?_⟩
      simp only [cf, ControlFlow.analyze, ControlFlow.analyzeStatements, ControlFlow.analyzeRescues, ControlFlow.ensured, ControlFlow.rescued,
        ControlFlow.happy] at h
      split at h
      · rename_i e; rw [e]; exact h
      · cases h
  | recvLeaves _ _ ih =>
    intro b hb k hj
    cases hb with
    | call hr _ => exact absurd (ih false hr k hj).1 (by simp)
  | argsLeave _ _ _ _ ih =>
    intro b hb k hj
    cases hb with
    | call _ ha => exact absurd hj (ih ha k)
  | call => intro b _ k hj; exact absurd hj noval
  | callRaises => intro b _ k hj; rcases hj with ⟨h, -⟩ | ⟨h, -⟩ <;> cases h
  | skipped => intro b _ k hj; exact absurd hj noval
  | lit => intro b _ k hj; exact absurd hj noval
  | interp => intro b _ k hj; exact absurd hj noval
  | interpLeaves h _ _ =>
    intro b hb k hj
    cases hb with
    | interp hp => exact absurd hj ((pure_args hp h).2 k)
  | other h _ _ =>
    intro b hb k hj
    cases hb with
    | other hq =>
      rcases hq _ h with h' | ⟨s, h'⟩ <;> rcases hj with ⟨h, -⟩ | ⟨h, -⟩ <;> rw [h] at h' <;> cases h'

end Verif.Lowering
