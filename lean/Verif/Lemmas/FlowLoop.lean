import Verif.Lemmas.FlowFine
/-!
The environment after a loop is a fixed point of the body when the types assigned in it do not change from round to round.
-/
namespace Verif.FlowTypes
open Verif.Types

variable {W : World} {s : Bool} {X : List Nat} {B : Env}

/-- The environments that the rounds of a loop start from: they differ from the first one only in the variables `X`. -/
def InC (W : World) (s : Bool) (X : List Nat) (B E : Env) : Prop := (∀ y, y ∉ X → E y = B y) ∧ FineEnv W s E

/-- What is known after a piece of code about the value of `x`: something fixed, and possibly what was known before. -/
def GK (W : World) (s : Bool) (X : List Nat) (B : Env) (x : Nat) (F : Env → W.V → Prop) : Prop :=
  ∃ (S : W.V → Prop) (k : Prop), ∀ E, InC W s X B E → ∀ v, F E v ↔ S v ∨ (¬ k ∧ DescOpt W (E x) v)

structure RegEnv (W : World) (s : Bool) (X : List Nat) (B : Env) (g : Env → Env) : Prop where
  cls : ∀ E, InC W s X B E → InC W s X B (g E)
  gk : ∀ x, GK W s X B x (fun E => DescOpt W (g E x))

structure RegObs (W : World) (s : Bool) (X : List Nat) (B : Env) (o : Env → List (Nat × Ty)) : Prop where
  fine : ∀ E, InC W s X B E → ∀ q ∈ o E, Fine W s q.2
  inX : ∀ E, InC W s X B E → ∀ q ∈ o E, q.1 ∈ X
  seen : ∀ x, ∃ P : Prop, ∀ E, InC W s X B E → ((∃ t, (x, t) ∈ o E) ↔ P)
  gk : ∀ x, GK W s X B x (fun E v => ∃ t, (x, t) ∈ o E ∧ Desc W.toWorld t v)

def RegRets (W : World) (s : Bool) (X : List Nat) (B : Env) (o : Env → List Ty) : Prop := ∃ l, ∀ E, InC W s X B E → o E = l

structure Reg (W : World) (s : Bool) (X : List Nat) (B : Env) (r : Env → Res) : Prop where
  env : RegEnv W s X B (fun E => (r E).env)
  obs : RegObs W s X B (fun E => (r E).obs)
  rets : RegRets W s X B (fun E => (r E).rets)

def ConstTy (W : World) (s : Bool) (X : List Nat) (B : Env) (r : Env → Res) : Prop := ∃ t, ∀ E, InC W s X B E → (r E).ty = t

/-! ### what is known -/

theorem gk_id {x : Nat} : GK W s X B x (fun E => DescOpt W (E x)) := ⟨fun _ => False, False, by simp⟩

theorem gk_const {x : Nat} {S : W.V → Prop} : GK W s X B x (fun _ => S) := ⟨S, True, by simp⟩

theorem gk_congr {x : Nat} {F G : Env → W.V → Prop} (h : GK W s X B x F) (e : ∀ E, InC W s X B E → ∀ v, G E v ↔ F E v) :
    GK W s X B x G := by
  obtain ⟨S, k, hF⟩ := h
  exact ⟨S, k, fun E hE v => (e E hE v).trans (hF E hE v)⟩

theorem gk_or {x : Nat} {F G : Env → W.V → Prop} (hF : GK W s X B x F) (hG : GK W s X B x G) :
    GK W s X B x (fun E v => F E v ∨ G E v) := by
  obtain ⟨S, k, hF⟩ := hF
  obtain ⟨S', k', hG⟩ := hG
  refine ⟨fun v => S v ∨ S' v, k ∧ k', ?_⟩
  intro E hE v
  simp only [hF E hE v, hG E hE v]
  tauto

theorem gk_comp {x : Nat} {F : Env → W.V → Prop} {g : Env → Env} (hF : GK W s X B x F) (hg : RegEnv W s X B g) :
    GK W s X B x (fun E v => F (g E) v) := by
  obtain ⟨S, k, hF⟩ := hF
  obtain ⟨S', k', hG⟩ := hg.gk x
  refine ⟨fun v => S v ∨ (¬ k ∧ S' v), k ∨ k', ?_⟩
  intro E hE v
  simp only [hF _ (hg.cls E hE) v, hG E hE v]
  tauto

theorem regEnv_id : RegEnv W s X B (fun E => E) := ⟨fun _ h => h, fun _ => gk_id⟩

theorem regEnv_comp {f g : Env → Env} (hf : RegEnv W s X B f) (hg : RegEnv W s X B g) : RegEnv W s X B (fun E => f (g E)) :=
  ⟨fun E hE => hf.cls _ (hg.cls E hE), fun x => gk_comp (hf.gk x) hg⟩

theorem regEnv_merge {f g : Env → Env} (hf : RegEnv W s X B f) (hg : RegEnv W s X B g) : RegEnv W s X B (fun E => merge (f E) (g E)) := by
  refine ⟨?_, ?_⟩
  · intro E hE
    refine ⟨?_, fine_merge (hf.cls E hE).2 (hg.cls E hE).2⟩
    intro y hy
    exact merge_same ((hf.cls E hE).1 y hy) ((hg.cls E hE).1 y hy)
  · intro x
    refine gk_congr (gk_or (hf.gk x) (hg.gk x)) ?_
    intro E hE v
    exact merge_exact (hf.cls E hE).2 (hg.cls E hE).2

theorem regObs_nil : RegObs W s X B (fun _ => []) :=
  ⟨by simp, by simp, fun _ => ⟨False, by simp⟩, fun _ => gk_congr (gk_const (S := fun _ => False)) (by simp)⟩

theorem regObs_append {o o' : Env → List (Nat × Ty)} (h : RegObs W s X B o) (h' : RegObs W s X B o') :
    RegObs W s X B (fun E => o E ++ o' E) := by
  refine ⟨fun E hE => all_append (h.fine E hE) (h'.fine E hE), fun E hE => all_append (h.inX E hE) (h'.inX E hE), ?_, ?_⟩
  · intro x
    obtain ⟨P, hP⟩ := h.seen x
    obtain ⟨Q, hQ⟩ := h'.seen x
    refine ⟨P ∨ Q, ?_⟩
    intro E hE
    rw [← hP E hE, ← hQ E hE]
    simp only [List.mem_append, exists_or]
  · intro x
    refine gk_congr (gk_or (h.gk x) (h'.gk x)) ?_
    intro E _ v
    simp only [List.mem_append, or_and_right, exists_or]

theorem regObs_comp {o : Env → List (Nat × Ty)} {g : Env → Env} (h : RegObs W s X B o) (hg : RegEnv W s X B g) :
    RegObs W s X B (fun E => o (g E)) := by
  refine ⟨fun E hE => h.fine _ (hg.cls E hE), fun E hE => h.inX _ (hg.cls E hE), ?_, fun x => gk_comp (h.gk x) hg⟩
  intro x
  obtain ⟨P, hP⟩ := h.seen x
  exact ⟨P, fun E hE => hP _ (hg.cls E hE)⟩

theorem regObs_one {x : Nat} {t : Env → Ty} (hx : x ∈ X) (hf : ∀ E, InC W s X B E → Fine W s (t E))
    (h : GK W s X B x (fun E v => Desc W.toWorld (t E) v)) : RegObs W s X B (fun E => [(x, t E)]) := by
  refine ⟨?_, ?_, ?_, ?_⟩
  · intro E hE q hq
    simp only [List.mem_singleton] at hq
    subst hq; exact hf E hE
  · intro E hE q hq
    simp only [List.mem_singleton] at hq
    subst hq; exact hx
  · intro y
    exact ⟨y = x, fun E _ => by simp⟩
  · intro y
    by_cases hy : y = x
    · subst hy
      exact gk_congr h (by simp)
    · exact gk_congr (gk_const (S := fun _ => False)) (by simp [hy])

theorem regRets_append {o o' : Env → List Ty} (h : RegRets W s X B o) (h' : RegRets W s X B o') : RegRets W s X B (fun E => o E ++ o' E) := by
  obtain ⟨l, hl⟩ := h
  obtain ⟨l', hl'⟩ := h'
  exact ⟨l ++ l', fun E hE => by simp only [hl E hE, hl' E hE]⟩

theorem regRets_nil : RegRets W s X B (fun _ => []) := ⟨[], by simp⟩

theorem regRets_comp {o : Env → List Ty} {g : Env → Env} (h : RegRets W s X B o) (hg : RegEnv W s X B g) : RegRets W s X B (fun E => o (g E)) := by
  obtain ⟨l, hl⟩ := h
  exact ⟨l, fun E hE => hl _ (hg.cls E hE)⟩

theorem reg_comp {r : Env → Res} {g : Env → Env} (h : Reg W s X B r) (hg : RegEnv W s X B g) : Reg W s X B (fun E => r (g E)) :=
  ⟨regEnv_comp h.env hg, regObs_comp h.obs hg, regRets_comp h.rets hg⟩

theorem const_comp {r : Env → Res} {g : Env → Env} (h : ConstTy W s X B r) (hg : RegEnv W s X B g) : ConstTy W s X B (fun E => r (g E)) := by
  obtain ⟨t, ht⟩ := h
  exact ⟨t, fun E hE => ht _ (hg.cls E hE)⟩

theorem reg_plain {t : Env → Ty} {l : Env → List (Nat × Ty)} : Reg W s X B (fun E => ⟨t E, E, [], [], l E⟩) :=
  ⟨regEnv_id, regObs_nil, regRets_nil⟩

theorem reg_andThen {a b : Env → Res} (ha : Reg W s X B a) (hb : Reg W s X B b) : Reg W s X B (fun E => andThen (a E) (b E)) :=
  ⟨hb.env, regObs_append ha.obs hb.obs, regRets_append ha.rets hb.rets⟩

theorem reg_withEnsure {a b : Env → Res} (ha : Reg W s X B a) (hb : Reg W s X B b) : Reg W s X B (fun E => withEnsure (a E) (b E)) :=
  ⟨hb.env, regObs_append ha.obs hb.obs, regRets_append ha.rets hb.rets⟩

/-! ### branches -/

theorem branchEnv_none {c : Expr} {b d₁ d₂ : Bool} (h : ((tests c).isNone || d₁ == d₂) = true) (before e₁ e₂ : Env) :
    branchEnv c b d₁ d₂ before e₁ e₂ = (match d₁, d₂ with
      | true, true => before | true, false => e₂ | false, true => e₁ | false, false => merge e₁ e₂) := by
  simp only [Bool.or_eq_true, Option.isNone_iff_eq_none, beq_iff_eq] at h
  unfold branchEnv
  cases d₁ <;> cases d₂ <;> simp only
  · rcases h with h | h
    · exact narrow_none h
    · cases h
  · rcases h with h | h
    · exact narrow_none h
    · cases h

theorem reg_branch {c : Expr} {b d₁ d₂ : Bool} {p r₁ r₂ : Env → Res} (hc : ((tests c).isNone || d₁ == d₂) = true) (hp : Reg W s X B p)
    (h₁ : Reg W s X B r₁) (h₂ : Reg W s X B r₂) : Reg W s X B (fun E => branchRes c b d₁ d₂ (p E) (r₁ E) (r₂ E)) := by
  refine ⟨?_, regObs_append (regObs_append hp.obs h₁.obs) h₂.obs, regRets_append (regRets_append hp.rets h₁.rets) h₂.rets⟩
  simp only [branchRes, branchEnv_none hc]
  cases d₁ <;> cases d₂ <;> simp only
  · exact regEnv_merge h₁.env h₂.env
  · exact h₁.env
  · exact h₂.env
  · exact hp.env

theorem const_branch {c : Expr} {b d₁ d₂ : Bool} {p r₁ r₂ : Env → Res} (h₁ : ConstTy W s X B r₁) (h₂ : ConstTy W s X B r₂) :
    ConstTy W s X B (fun E => branchRes c b d₁ d₂ (p E) (r₁ E) (r₂ E)) := by
  obtain ⟨t₁, h₁⟩ := h₁
  obtain ⟨t₂, h₂⟩ := h₂
  exact ⟨_, fun E hE => by simp only [branchRes, h₁ E hE, h₂ E hE]; rfl⟩

/-- Branches as functions of the environment. -/
abbrev Fam := List ((Env → Res) × Bool)

def famList (L : Fam) (E : Env) : List (Env × Ty × Bool) := L.map (fun f => ((f.1 E).env, (f.1 E).ty, f.2))

theorem regEnv_foldl {l : List (Env → Env)} : ∀ {g : Env → Env}, RegEnv W s X B g → (∀ f ∈ l, RegEnv W s X B f) →
    RegEnv W s X B (fun E => (l.map (fun f => f E)).foldl merge (g E)) := by
  induction l with
  | nil => intro g h _; exact h
  | cons f l ih => intro g h hl; exact ih (regEnv_merge h (hl f (.head _))) (fun a ha => hl a (.tail _ ha))

theorem regEnv_join {L : Fam} {before : Env → Env} (hb : RegEnv W s X B before) (h : ∀ f ∈ L, Reg W s X B f.1) :
    RegEnv W s X B (fun E => joinEnvs (before E) (famList L E)) := by
  have e : ∀ E, ((famList L E).filter (fun b => !b.2.2)).map Prod.fst =
      ((L.filter (fun f => !f.2)).map (fun f => fun E => (f.1 E).env)).map (fun g => g E) := by
    intro E
    unfold famList
    rw [List.filter_map, List.map_map, List.map_map]
    rfl
  have hm : ∀ g ∈ (L.filter (fun f => !f.2)).map (fun f => fun E => (f.1 E).env), RegEnv W s X B g := by
    intro g hg
    obtain ⟨f, hf, rfl⟩ := List.mem_map.mp hg
    exact (h f (List.mem_filter.mp hf).1).env
  unfold joinEnvs
  simp only [e]
  generalize (L.filter (fun f => !f.2)).map (fun f => fun E => (f.1 E).env) = l at hm
  cases l with
  | nil => exact hb
  | cons g l => exact regEnv_foldl (hm g (.head _)) (fun f hf => hm f (.tail _ hf))

theorem const_join {L : Fam} (h : ∀ f ∈ L, ConstTy W s X B f.1) :
    ∃ t, ∀ E, InC W s X B E → joinTypes ((famList L E).map Prod.snd) = t := by
  have : ∃ l, ∀ E, InC W s X B E → (famList L E).map Prod.snd = l := by
    unfold famList
    induction L with
    | nil => exact ⟨[], by simp⟩
    | cons f L ih =>
      obtain ⟨l, hl⟩ := ih (fun g hg => h g (.tail _ hg))
      obtain ⟨t, ht⟩ := h f (.head _)
      refine ⟨(t, f.2) :: l, ?_⟩
      intro E hE
      have := hl E hE
      simp only [List.map_map, List.map_cons, ht E hE] at this ⊢
      rw [this]
  obtain ⟨l, hl⟩ := this
  exact ⟨_, fun E hE => by rw [hl E hE]⟩

structure RegC (W : World) (s : Bool) (X : List Nat) (B : Env) (L : Fam) (bs : Env → Branches) : Prop where
  list : ∀ E, (bs E).list = famList L E
  all : ∀ f ∈ L, Reg W s X B f.1
  obs : RegObs W s X B (fun E => (bs E).obs)
  rets : RegRets W s X B (fun E => (bs E).rets)

theorem reg_case {L : Fam} {p last : Env → Res} {bs : Env → Branches} {d : Bool} (hp : Reg W s X B p) (hb : RegC W s X B L bs)
    (hl : Reg W s X B last) : Reg W s X B (fun E => caseRes (p E).env (p E) (bs E) (last E) d) := by
  refine ⟨?_, regObs_append (regObs_append hp.obs hb.obs) hl.obs, regRets_append (regRets_append hp.rets hb.rets) hl.rets⟩
  have := regEnv_join (L := L ++ [(last, d)]) hp.env (by
    intro f hf
    rcases List.mem_append.mp hf with h | h
    · exact hb.all f h
    · simp only [List.mem_singleton] at h; subst h; exact hl)
  have e : ∀ E, (caseRes (p E).env (p E) (bs E) (last E) d).env = joinEnvs (p E).env (famList (L ++ [(last, d)]) E) := by
    intro E
    simp only [caseRes, hb.list, famList, List.map_append, List.map_cons, List.map_nil]
  simp only [e]
  exact this

theorem const_case {L : Fam} {p last : Env → Res} {bs : Env → Branches} {d : Bool} (hb : RegC W s X B L bs)
    (h : ∀ f ∈ L, ConstTy W s X B f.1) (hl : ConstTy W s X B last) : ConstTy W s X B (fun E => caseRes (p E).env (p E) (bs E) (last E) d) := by
  obtain ⟨t, ht⟩ := const_join (L := L ++ [(last, d)]) (by
    intro f hf
    rcases List.mem_append.mp hf with h' | h'
    · exact h f h'
    · simp only [List.mem_singleton] at h'; subst h'; exact hl)
  refine ⟨t, fun E hE => ?_⟩
  rw [← ht E hE]
  simp only [caseRes, hb.list, famList, List.map_append, List.map_cons, List.map_nil]

theorem reg_begin {L : Fam} {n : Env → Res} {bs : Env → Branches} {d : Bool} (hn : Reg W s X B n) (hb : RegC W s X B L bs) :
    Reg W s X B (fun E => beginRes E (n E) d (bs E)) := by
  refine ⟨?_, regObs_append hn.obs hb.obs, regRets_append hn.rets hb.rets⟩
  have := regEnv_join (L := (n, d) :: L) regEnv_id (by
    intro f hf
    rcases List.mem_cons.mp hf with rfl | h
    · exact hn
    · exact hb.all f h)
  have e : ∀ E, (beginRes E (n E) d (bs E)).env = joinEnvs E (famList ((n, d) :: L) E) := by
    intro E
    simp only [beginRes, hb.list, famList, List.map_cons]
  simp only [e]
  exact this

theorem const_begin {L : Fam} {n : Env → Res} {bs : Env → Branches} {d : Bool} (hb : RegC W s X B L bs)
    (h : ∀ f ∈ L, ConstTy W s X B f.1) (hn : ConstTy W s X B n) : ConstTy W s X B (fun E => beginRes E (n E) d (bs E)) := by
  obtain ⟨t, ht⟩ := const_join (L := (n, d) :: L) (by
    intro f hf
    rcases List.mem_cons.mp hf with rfl | h'
    · exact hn
    · exact h f h')
  refine ⟨t, fun E hE => ?_⟩
  rw [← ht E hE]
  simp only [beginRes, hb.list, famList, List.map_cons]

theorem regEnv_rescue {r : Env → Res} (h : Reg W s X B r) : RegEnv W s X B (fun E => rescueEnv E (r E).obs) := by
  refine ⟨?_, ?_⟩
  · intro E hE
    refine ⟨?_, fine_rescueEnv hE.2 (h.obs.fine E hE)⟩
    intro y hy
    rw [rescueEnv_none (fun t ht => hy (h.obs.inX E hE _ ht))]
    exact hE.1 y hy
  · intro x
    obtain ⟨P, hP⟩ := h.obs.seen x
    by_cases hp : P
    · refine gk_congr (h.obs.gk x) ?_
      intro E hE v
      exact rescueEnv_exact (h.obs.fine E hE) ((hP E hE).mpr hp)
    · refine gk_congr gk_id ?_
      intro E hE v
      rw [rescueEnv_none (fun t ht => hp ((hP E hE).mp ⟨t, ht⟩))]

theorem regC_comp {L : Fam} {bs : Env → Branches} {g : Env → Env} (h : RegC W s X B L bs) (hg : RegEnv W s X B g) :
    RegC W s X B (L.map (fun f => (fun E => f.1 (g E), f.2))) (fun E => bs (g E)) := by
  refine ⟨?_, ?_, regObs_comp h.obs hg, regRets_comp h.rets hg⟩
  · intro E
    rw [h.list]
    simp only [famList, List.map_map]
    rfl
  · intro f hf
    obtain ⟨f', hf', rfl⟩ := List.mem_map.mp hf
    have := reg_comp (h.all f' hf') hg
    exact this

theorem constC_comp {L : Fam} {g : Env → Env} (h : ∀ f ∈ L, ConstTy W s X B f.1) (hg : RegEnv W s X B g) :
    ∀ f ∈ L.map (fun f => ((fun E => f.1 (g E), f.2) : (Env → Res) × Bool)), ConstTy W s X B f.1 := by
  intro f hf
  obtain ⟨f', hf', rfl⟩ := List.mem_map.mp hf
  have := const_comp (h f' hf') hg
  exact this

/-! ### short circuits, calls and loops -/

theorem reg_short {b : Bool} {l r : Env → Res} (hc : ConstTy W s X B l) (hl : Reg W s X B l) (hr : Reg W s X B r) :
    Reg W s X B (fun E => shortRes b (l E) (r E)) ∧ (ConstTy W s X B r → ConstTy W s X B (fun E => shortRes b (l E) (r E))) := by
  obtain ⟨t, ht⟩ := hc
  have both : Reg W s X B (fun E => andThen (l E) (r E)) := reg_andThen hl hr
  have congr : ∀ f : Env → Res, Reg W s X B f → (∀ E, InC W s X B E → shortRes b (l E) (r E) = f E) →
      Reg W s X B (fun E => shortRes b (l E) (r E)) := by
    intro f hf e
    refine ⟨⟨?_, ?_⟩, ⟨?_, ?_, ?_, ?_⟩, ?_⟩
    · intro E hE; simp only [e E hE]; exact hf.env.cls E hE
    · intro x; exact gk_congr (hf.env.gk x) (fun E hE v => by simp only [e E hE])
    · intro E hE; simp only [e E hE]; exact hf.obs.fine E hE
    · intro E hE; simp only [e E hE]; exact hf.obs.inX E hE
    · intro x
      obtain ⟨P, hP⟩ := hf.obs.seen x
      exact ⟨P, fun E hE => by simp only [e E hE]; exact hP E hE⟩
    · intro x; exact gk_congr (hf.obs.gk x) (fun E hE v => by simp only [e E hE])
    · obtain ⟨m, hm⟩ := hf.rets
      exact ⟨m, fun E hE => by simp only [e E hE]; exact hm E hE⟩
  have third : Reg W s X B (fun E => ⟨shortCircuit b (l E).ty (r E).ty, merge (l E).env (r E).env, (l E).obs ++ (r E).obs,
      (l E).rets ++ (r E).rets, (l E).reads ++ (r E).reads⟩) :=
    ⟨regEnv_merge hl.env hr.env, regObs_append hl.obs hr.obs, regRets_append hl.rets hr.rets⟩
  cases htr : truthiness t <;> cases b
  case truthy.false =>
    exact ⟨congr _ hl (fun E hE => by simp only [shortRes, ht E hE, htr]),
      fun _ => ⟨t, fun E hE => by simp only [shortRes, ht E hE, htr]⟩⟩
  case truthy.true =>
    refine ⟨congr _ both (fun E hE => by simp only [shortRes, ht E hE, htr]), ?_⟩
    rintro ⟨u, hu⟩
    exact ⟨u, fun E hE => by simp only [shortRes, ht E hE, htr, andThen, hu E hE]⟩
  case falsy.false =>
    refine ⟨congr _ both (fun E hE => by simp only [shortRes, ht E hE, htr]), ?_⟩
    rintro ⟨u, hu⟩
    exact ⟨u, fun E hE => by simp only [shortRes, ht E hE, htr, andThen, hu E hE]⟩
  case falsy.true =>
    exact ⟨congr _ hl (fun E hE => by simp only [shortRes, ht E hE, htr]),
      fun _ => ⟨t, fun E hE => by simp only [shortRes, ht E hE, htr]⟩⟩
  case conditional.false =>
    refine ⟨congr _ third (fun E hE => by simp only [shortRes, ht E hE, htr]), ?_⟩
    rintro ⟨u, hu⟩
    exact ⟨shortCircuit false t u, fun E hE => by simp only [shortRes, ht E hE, htr, hu E hE]⟩
  case conditional.true =>
    refine ⟨congr _ third (fun E hE => by simp only [shortRes, ht E hE, htr]), ?_⟩
    rintro ⟨u, hu⟩
    exact ⟨shortCircuit true t u, fun E hE => by simp only [shortRes, ht E hE, htr, hu E hE]⟩

theorem reg_infer {e : Expr} {r : Env → Res} (h : isExpr e = true → Reg W s X B r) : Reg W s X B (fun E => inferOf e E (r E)) := by
  unfold inferOf
  cases he : isExpr e with
  | true => simp only [if_true]; exact h he
  | false => simp only [Bool.false_eq_true, if_false]; exact reg_plain

theorem const_infer {e : Expr} {r : Env → Res} (h : isExpr e = true → ConstTy W s X B r) : ConstTy W s X B (fun E => inferOf e E (r E)) := by
  unfold inferOf
  cases he : isExpr e with
  | true => simp only [if_true]; exact h he
  | false => simp only [Bool.false_eq_true, if_false]; exact ⟨_, fun _ _ => rfl⟩

theorem reg_call {K : Know} {e : Expr} {m : String} {r : Env → Res} (h : Reg W s X B r) : Reg W s X B (fun E => callRes K e m E (r E)) := by
  by_cases hn : ∃ c, e = .const c ∧ m = "new"
  · obtain ⟨c, rfl, rfl⟩ := hn
    exact reg_plain
  · have e : ∀ E, callRes K e m E (r E) = { r E with ty := callTy K (r E).ty m } := by
      intro E
      rcases callRes_cases K e m E (r E) with ⟨c, h1, h2, _⟩ | h
      · exact absurd ⟨c, h1, h2⟩ hn
      · exact h
    simp only [e]
    exact ⟨h.env, h.obs, h.rets⟩

theorem const_call {K : Know} {e : Expr} {m : String} {r : Env → Res} (h : ConstTy W s X B r) :
    ConstTy W s X B (fun E => callRes K e m E (r E)) := by
  by_cases hn : ∃ c, e = .const c ∧ m = "new"
  · obtain ⟨c, rfl, rfl⟩ := hn
    exact ⟨_, fun _ _ => rfl⟩
  · obtain ⟨t, ht⟩ := h
    refine ⟨callTy K t m, fun E hE => ?_⟩
    rcases callRes_cases K e m E (r E) with ⟨c, h1, h2, _⟩ | h
    · exact absurd ⟨c, h1, h2⟩ hn
    · simp only [h, ht E hE]

theorem reg_repeat {f : Env → Res} (hf : Reg W s X B f) : ∀ (n : Nat) {r : Env → Res}, Reg W s X B r →
    Reg W s X B (fun E => repeatTrack f n (r E))
  | 0, _, h => h
  | n + 1, r, h => reg_repeat hf n (r := fun E => andThen (r E) (f (r E).env)) (reg_andThen h (reg_comp hf h.env))

/-! ### the induction -/

/-- The branches of clauses as functions of the environment. -/
def fam (K : Know) (d : Nat) : Clauses → Fam
  | .nil => []
  | .cons _ b l => (track K d b, diverges b) :: fam K d l

theorem desc_prior {E : Env} {x : Nat} {v : W.V} : Desc W.toWorld ((E x).getD nilTy) v ↔ DescOpt W (E x) v := by
  cases E x with
  | none => exact desc_nilTy
  | some t => exact Iff.rfl

mutual
theorem track_reg {K : Know} (hK : FineKnow W s K) : ∀ (e : Expr) (v : Bool), Supported W s v e → regular X e = true → ∀ (d : Nat),
    Reg W s X B (track K d e) ∧ (settled X e = true → ConstTy W s X B (track K d e))
  | .lit t, _, _, _, _ => ⟨reg_plain, fun _ => ⟨t, fun _ _ => rfl⟩⟩
  | .read x i, _, _, _, d => by
    refine ⟨reg_plain, fun h => ⟨(B x).getD .unknown, fun E hE => ?_⟩⟩
    simp only [settled, Bool.not_eq_true', List.contains_eq_mem, decide_eq_false_iff_not] at h
    simp only [track, hE.1 x h]
  | .write x e, _, h, r, d => by
    simp only [Supported] at h
    simp only [regular, Bool.and_eq_true, List.contains_eq_mem, decide_eq_true_eq] at r
    obtain ⟨g, c⟩ := track_reg hK e true h r.2 d
    obtain ⟨t, ht⟩ := c r.1.2
    have hf : ∀ E, InC W s X B E → Fine W s (track K d e E).ty := fun E hE => (track_fine hK e true h d E hE.2).ty
    refine ⟨⟨⟨?_, ?_⟩, ?_, g.rets⟩, fun _ => ⟨t, fun E hE => ht E hE⟩⟩
    · intro E hE
      refine ⟨?_, fine_set (g.env.cls E hE).2 (hf E hE)⟩
      intro y hy
      have : y ≠ x := fun e => hy (e ▸ r.1.1)
      simp only [track, writeRes, Env.set, this, if_false]
      exact (g.env.cls E hE).1 y hy
    · intro y
      by_cases hy : y = x
      · subst hy
        refine gk_congr (gk_const (S := fun v => Desc W.toWorld t v)) ?_
        intro E hE v
        simp only [track, writeRes, Env.set, if_true, DescOpt, ht E hE]
      · refine gk_congr (g.env.gk y) ?_
        intro E hE v
        simp only [track, writeRes, Env.set, hy, if_false]
    · have h1 : RegObs W s X B (fun E => [(x, (E x).getD nilTy)]) :=
        regObs_one r.1.1 (fun E hE => (fine_getD hE.2 x).1) (gk_congr gk_id (fun E _ v => desc_prior))
      have h2 : RegObs W s X B (fun E => [(x, (track K d e E).ty)]) :=
        regObs_one r.1.1 hf (gk_congr (gk_const (S := fun v => Desc W.toWorld t v)) (fun E hE v => by rw [ht E hE]))
      exact regObs_append (regObs_append h1 g.obs) h2
  | .const c, _, _, _, _ => ⟨reg_plain, fun _ => ⟨K.const c, fun _ _ => rfl⟩⟩
  | .self, _, _, _, _ => ⟨reg_plain, fun _ => ⟨K.self, fun _ _ => rfl⟩⟩
  | .call0 r m, _, h, g, d => by
    simp only [Supported] at h
    simp only [regular, Bool.or_eq_true, Bool.not_eq_true'] at g
    have ih : isExpr r = true → _ := fun hr => track_reg hK r true (h.1 hr) (by rw [hr] at g; simpa using g) d
    refine ⟨reg_call (reg_infer (fun hr => (ih hr).1)), fun hs => const_call (const_infer (fun hr => (ih hr).2 ?_))⟩
    simp only [settled, Bool.or_eq_true, Bool.not_eq_true'] at hs
    rw [hr] at hs; simpa using hs
  | .call r m a, _, h, g, d => by
    simp only [Supported] at h
    simp only [regular, Bool.or_eq_true, Bool.not_eq_true'] at g
    have ih : isExpr r = true → _ := fun hr => track_reg hK r true (h.1 hr) (by rw [hr] at g; simpa using g) d
    refine ⟨reg_call (reg_infer (fun hr => (ih hr).1)), fun hs => const_call (const_infer (fun hr => (ih hr).2 ?_))⟩
    simp only [settled, Bool.or_eq_true, Bool.not_eq_true'] at hs
    rw [hr] at hs; simpa using hs
  | .seq a b, v, h, g, d => by
    simp only [Supported] at h
    simp only [regular, Bool.and_eq_true] at g
    obtain ⟨ga, -⟩ := track_reg hK a false h.1 g.1 d
    obtain ⟨gb, cb⟩ := track_reg hK b v h.2 g.2 d
    refine ⟨reg_andThen ga (reg_comp gb ga.env), fun hs => ?_⟩
    obtain ⟨t, ht⟩ := const_comp (cb hs) ga.env
    exact ⟨t, ht⟩
  | .paren e, v, h, g, d => track_reg hK e v h g d
  | .ifE c a b, v, h, g, d => by
    simp only [Supported] at h
    simp only [regular, Bool.and_eq_true] at g
    obtain ⟨gc, -⟩ := track_reg hK c false h.1 g.1.1.1 d
    obtain ⟨ga, ca⟩ := track_reg hK a v h.2.1 g.1.1.2 d
    obtain ⟨gb, cb⟩ := track_reg hK b v h.2.2.1 g.1.2 d
    refine ⟨reg_branch g.2 gc (reg_comp ga gc.env) (reg_comp gb gc.env), fun hs => ?_⟩
    simp only [settled, Bool.and_eq_true] at hs
    exact const_branch (const_comp (ca hs.1) gc.env) (const_comp (cb hs.2) gc.env)
  | .unlessE c a b, v, h, g, d => by
    simp only [Supported] at h
    simp only [regular, Bool.and_eq_true] at g
    obtain ⟨gc, -⟩ := track_reg hK c false h.1 g.1.1.1 d
    obtain ⟨ga, ca⟩ := track_reg hK a v h.2.1 g.1.1.2 d
    obtain ⟨gb, cb⟩ := track_reg hK b v h.2.2.1 g.1.2 d
    refine ⟨reg_branch g.2 gc (reg_comp ga gc.env) (reg_comp gb gc.env), fun hs => ?_⟩
    simp only [settled, Bool.and_eq_true] at hs
    exact const_branch (const_comp (ca hs.1) gc.env) (const_comp (cb hs.2) gc.env)
  | .caseE e ws l, v, h, g, d => by
    simp only [Supported] at h
    simp only [regular, Bool.and_eq_true] at g
    obtain ⟨ge, -⟩ := track_reg hK e false h.1 g.1.1 d
    obtain ⟨gw, cw⟩ := trackClauses_reg hK ws v h.2.1 g.1.2 d
    obtain ⟨gl, cl⟩ := track_reg hK l v h.2.2 g.2 d
    have gw' := regC_comp gw ge.env
    refine ⟨reg_case ge gw' (reg_comp gl ge.env), fun hs => ?_⟩
    simp only [settled, Bool.and_eq_true] at hs
    exact const_case gw' (constC_comp (cw hs.1) ge.env) (const_comp (cl hs.2) ge.env)
  | .loopE w c b, v, h, g, d => by
    simp only [Supported] at h
    obtain ⟨-, -, -, hc, hb, -⟩ := h
    simp only [regular, Bool.and_eq_true] at g
    obtain ⟨gc, -⟩ := track_reg hK c false hc g.1 d
    obtain ⟨gb, -⟩ := track_reg hK b false hb g.2 (d + 1)
    have gl : Reg W s X B (fun E => repeatTrack (track K (d + 1) b) (passes d) ⟨nilTy, (track K d c E).env, [], [], []⟩) :=
      reg_repeat gb (passes d) (r := fun E => ⟨nilTy, (track K d c E).env, [], [], []⟩) ⟨gc.env, regObs_nil, regRets_nil⟩
    exact ⟨⟨regEnv_merge gc.env gl.env, regObs_append gc.obs gl.obs, regRets_append gc.rets gl.rets⟩, by simp [settled]⟩
  | .andE l r, v, h, g, d => by
    simp only [Supported] at h
    simp only [regular, Bool.and_eq_true] at g
    obtain ⟨gl, cl⟩ := track_reg hK l true h.2.1 g.1.2 d
    obtain ⟨gr, cr⟩ := track_reg hK r v h.2.2 g.2 d
    have := reg_short (b := true) (cl g.1.1) gl (reg_comp gr gl.env)
    refine ⟨this.1, fun hs => ?_⟩
    simp only [settled, Bool.and_eq_true] at hs
    exact this.2 (const_comp (cr hs.2) gl.env)
  | .orE l r, v, h, g, d => by
    simp only [Supported] at h
    simp only [regular, Bool.and_eq_true] at g
    obtain ⟨gl, cl⟩ := track_reg hK l true h.2.1 g.1.2 d
    obtain ⟨gr, cr⟩ := track_reg hK r v h.2.2 g.2 d
    have := reg_short (b := false) (cl g.1.1) gl (reg_comp gr gl.env)
    refine ⟨this.1, fun hs => ?_⟩
    simp only [settled, Bool.and_eq_true] at hs
    exact this.2 (const_comp (cr hs.2) gl.env)
  | .beginE b rs n, v, h, g, d => by
    simp only [Supported] at h
    obtain ⟨h1, -, h2, -, h3⟩ := h
    simp only [regular, Bool.and_eq_true] at g
    obtain ⟨gb, cb⟩ := track_reg hK b v h1 g.1.1.1 d
    obtain ⟨gw, cw⟩ := trackClauses_reg hK rs v h2 g.1.1.2 d
    obtain ⟨gn, -⟩ := track_reg hK n false h3 g.1.2 d
    have gr := regEnv_rescue gb
    have gw' := regC_comp gw gr
    have gg := reg_begin (d := diverges b) gb gw'
    refine ⟨reg_withEnsure gg (reg_comp gn gg.env), fun hs => ?_⟩
    simp only [settled, Bool.and_eq_true] at hs
    exact const_begin gw' (constC_comp (cw hs.2) gr) (cb hs.1)
  | .beginElse b rs l n, v, h, g, d => by
    simp only [Supported] at h
    obtain ⟨h1, hl, -, h2, -, h3⟩ := h
    simp only [regular, Bool.and_eq_true] at g
    obtain ⟨gb, -⟩ := track_reg hK b v h1 g.1.1.1.1 d
    obtain ⟨gw, cw⟩ := trackClauses_reg hK rs v h2 g.1.1.1.2 d
    obtain ⟨gl, cl⟩ := track_reg hK l v hl g.1.1.2 d
    obtain ⟨gn, -⟩ := track_reg hK n false h3 g.1.2 d
    have gr := regEnv_rescue gb
    have gw' := regC_comp gw gr
    have gg := reg_begin (d := diverges b || diverges l) (reg_andThen gb (reg_comp gl gb.env)) gw'
    refine ⟨reg_withEnsure gg (reg_comp gn gg.env), fun hs => ?_⟩
    simp only [settled, Bool.and_eq_true] at hs
    exact const_begin gw' (constC_comp (cw hs.2) gr) (const_comp (cl hs.1) gb.env)
  | .rescueMod e r, v, h, g, d => by
    simp only [Supported] at h
    simp only [regular, Bool.and_eq_true] at g
    obtain ⟨ge, ce⟩ := track_reg hK e v h.1 g.1.1 d
    obtain ⟨gr, cr⟩ := track_reg hK r v h.2.2 g.1.2 d
    have gr' := reg_comp gr (regEnv_rescue ge)
    refine ⟨⟨regEnv_merge ge.env gr'.env, regObs_append ge.obs gr'.obs, regRets_append ge.rets gr'.rets⟩, fun hs => ?_⟩
    simp only [settled, Bool.and_eq_true] at hs
    obtain ⟨t, ht⟩ := ce hs.1
    obtain ⟨u, hu⟩ := const_comp (cr hs.2) (regEnv_rescue ge)
    refine ⟨joinTypes [(t, diverges e), (u, diverges r)], fun E hE => ?_⟩
    have := hu E hE
    simp only [track, rescueModRes, ht E hE, this]
  | .ret e, _, h, g, d => by
    simp only [Supported] at h
    simp only [regular, Bool.or_eq_true, Bool.not_eq_true', Bool.and_eq_true] at g
    have ih : isExpr e = true → _ := fun hr => track_reg hK e true (h.1 hr) (by rw [hr] at g; simpa using (g.resolve_left (by simp)).2) d
    have gi : Reg W s X B (fun E => inferOf e E (track K d e E)) := reg_infer (fun hr => (ih hr).1)
    have ci : ConstTy W s X B (fun E => inferOf e E (track K d e E)) :=
      const_infer (fun hr => (ih hr).2 (by rw [hr] at g; exact (g.resolve_left (by simp)).1))
    obtain ⟨t, ht⟩ := ci
    exact ⟨⟨gi.env, gi.obs, regRets_append gi.rets ⟨[t], fun E hE => by have := ht E hE; simp only [this]⟩⟩, fun _ => ⟨t, ht⟩⟩
  | .brk, _, _, _, _ => ⟨reg_plain, fun _ => ⟨_, fun _ _ => rfl⟩⟩
  | .nxt, _, _, _, _ => ⟨reg_plain, fun _ => ⟨_, fun _ _ => rfl⟩⟩
  | .opWrite _ _, _, _, _, _ => ⟨reg_plain, fun _ => ⟨_, fun _ _ => rfl⟩⟩
  | .other _, _, _, _, _ => ⟨reg_plain, fun _ => ⟨_, fun _ _ => rfl⟩⟩
theorem trackClauses_reg {K : Know} (hK : FineKnow W s K) : ∀ (ws : Clauses) (v : Bool), SupportedC W s v ws → regularC X ws = true →
    ∀ (d : Nat), RegC W s X B (fam K d ws) (trackClauses K d ws) ∧ (settledC X ws = true → ∀ f ∈ fam K d ws, ConstTy W s X B f.1)
  | .nil, _, _, _, _ => ⟨⟨fun _ => rfl, by simp [fam], regObs_nil, regRets_nil⟩, by simp [fam]⟩
  | .cons c b l, v, h, g, d => by
    simp only [SupportedC] at h
    simp only [regularC, Bool.and_eq_true] at g
    obtain ⟨gb, cb⟩ := track_reg hK b v h.2.1 g.1 d
    obtain ⟨gl, cl⟩ := trackClauses_reg hK l v h.2.2 g.2 d
    refine ⟨⟨?_, ?_, regObs_append gb.obs gl.obs, regRets_append gb.rets gl.rets⟩, ?_⟩
    · intro E
      simp only [trackClauses, gl.list, fam, famList, List.map_cons]
    · intro f hf
      rcases List.mem_cons.mp hf with rfl | hf
      · exact gb
      · exact gl.all f hf
    · intro hs f hf
      simp only [settledC, Bool.and_eq_true] at hs
      rcases List.mem_cons.mp hf with rfl | hf
      · exact cb hs.1
      · exact cl hs.2 f hf
end

/-! ### a loop -/

theorem repeat_last {f : Env → Res} (hf : Reg W s X B f) : ∀ (n : Nat) {r : Res}, InC W s X B r.env →
    (∃ E, InC W s X B E ∧ (repeatTrack f (n + 1) r).env = (f E).env) ∧ ∀ t ∈ (f r.env).rets, t ∈ (repeatTrack f (n + 1) r).rets
  | 0, r, h => ⟨⟨r.env, h, rfl⟩, fun t ht => List.mem_append_right _ ht⟩
  | n + 1, r, h => by
    have hr : InC W s X B (f r.env).env := hf.env.cls _ h
    have ih := repeat_last hf n (r := andThen r (f r.env)) hr
    refine ⟨ih.1, fun t ht => ?_⟩
    have : (f (andThen r (f r.env)).env).rets = (f r.env).rets := by
      obtain ⟨l, hl⟩ := hf.rets
      have h1 := hl _ h
      have h2 := hl _ hr
      simp only at h1 h2
      rw [h1]
      exact h2
    exact ih.2 t (by rw [this]; exact ht)

theorem within_of_reg {f : Env → Res} (hf : Reg W s X B f) {M E : Env} (hM : InC W s X B M) (hE : InC W s X B E)
    (h : Within W (f E).env M) : Within W (f M).env M := by
  intro x v hv
  obtain ⟨S, k, hk⟩ := hf.env.gk x
  rcases (hk M hM v).mp hv with h1 | ⟨-, h1⟩
  · exact h x v ((hk E hE v).mpr (.inl h1))
  · exact h1

theorem passes_pos (d : Nat) : ∃ n, passes d = n + 1 := by
  unfold passes
  split
  · exact ⟨9, rfl⟩
  · exact ⟨0, rfl⟩

mutual
/-- Supported code is as the soundness proof needs it. -/
theorem supported_ok {K : Know} (hK : FineKnow W s K) : ∀ (e : Expr) (v : Bool), Supported W s v e → ∀ (d : Nat) (E : Env), FineEnv W s E →
    Ok W K v d e E
  | .lit _, _, _, _, _, _ => by simp [Ok]
  | .read _ _, _, _, _, _, _ => by simp [Ok]
  | .write x e, _, h, d, E, hE => by
    simp only [Supported] at h
    simp only [Ok]
    exact supported_ok hK e true h d E hE
  | .const _, _, _, _, _, _ => by simp [Ok]
  | .self, _, _, _, _, _ => by simp [Ok]
  | .call0 r m, _, h, d, E, hE => by
    simp only [Supported] at h
    simp only [Ok]
    exact ⟨fun hr => supported_ok hK r true (h.1 hr) d E hE, h.2.1, h.2.2.1⟩
  | .call r m a, _, h, d, E, hE => by
    simp only [Supported] at h
    simp only [Ok]
    exact ⟨fun hr => supported_ok hK r true (h.1 hr) d E hE, h.2.1, h.2.2.1, h.2.2.2.1⟩
  | .seq a b, v, h, d, E, hE => by
    simp only [Supported] at h
    simp only [Ok]
    exact ⟨supported_ok hK a false h.1 d E hE, supported_ok hK b v h.2 d _ (track_fine hK a false h.1 d E hE).env⟩
  | .paren e, v, h, d, E, hE => by
    simp only [Supported] at h
    simp only [Ok]
    exact supported_ok hK e v h d E hE
  | .ifE c a b, v, h, d, E, hE => by
    simp only [Supported] at h
    simp only [Ok]
    have g := (track_fine hK c false h.1 d E hE).env
    exact ⟨supported_ok hK c false h.1 d E hE, supported_ok hK a v h.2.1 d _ g, supported_ok hK b v h.2.2.1 d _ g, h.2.2.2.1⟩
  | .unlessE c a b, v, h, d, E, hE => by
    simp only [Supported] at h
    simp only [Ok]
    have g := (track_fine hK c false h.1 d E hE).env
    exact ⟨supported_ok hK c false h.1 d E hE, supported_ok hK a v h.2.1 d _ g, supported_ok hK b v h.2.2.1 d _ g, h.2.2.2.1⟩
  | .caseE e ws l, v, h, d, E, hE => by
    simp only [Supported] at h
    simp only [Ok]
    have g := (track_fine hK e false h.1 d E hE).env
    exact ⟨supported_ok hK e false h.1 d E hE, supportedC_ok hK ws v h.2.1 d _ g, supported_ok hK l v h.2.2 d _ g⟩
  | .loopE w c b, v, h, d, E, hE => by
    have hM := (track_fine hK _ v h d E hE).env
    have hL := h
    simp only [Supported] at h
    obtain ⟨hv, jc, jb, hc, hb, rc, rb⟩ := h
    have gc := (track_reg (X := written c ++ written b) (B := E) hK c false hc rc d).1
    have gb := (track_reg (X := written c ++ written b) (B := E) hK b false hb rb (d + 1)).1
    have hE' : InC W s (written c ++ written b) E E := ⟨fun _ _ => rfl, hE⟩
    have hC : InC W s (written c ++ written b) E (track K d c E).env := gc.env.cls E hE'
    obtain ⟨n, hn⟩ := passes_pos d
    obtain ⟨⟨E₁, hE₁, hl⟩, hr⟩ := repeat_last gb n (r := ⟨nilTy, (track K d c E).env, [], [], []⟩) hC
    have eM : (track K d (.loopE w c b) E).env = merge (track K d c E).env (track K (d + 1) b E₁).env := by
      simp only [track, loopRes, hn, hl]
    have eR : ∀ t, t ∈ (track K d c E).rets ∨ t ∈ (track K (d + 1) b (track K d c E).env).rets → t ∈ (track K d (.loopE w c b) E).rets := by
      intro t ht
      simp only [track, loopRes, hn]
      rcases ht with ht | ht
      · exact List.mem_append_left _ ht
      · exact List.mem_append_right _ (hr t ht)
    have hMC : InC W s (written c ++ written b) E (track K d (.loopE w c b) E).env := by
      refine ⟨?_, hM⟩
      intro y hy
      rw [eM]
      exact merge_same (hC.1 y hy) ((gb.env.cls _ hE₁).1 y hy)
    have w1 : Within W (track K d c E).env (track K d (.loopE w c b) E).env := by
      intro x v hv; rw [eM]; exact descOpt_merge (.inl hv)
    have w2 : Within W (track K (d + 1) b E₁).env (track K d (.loopE w c b) E).env := by
      intro x v hv; rw [eM]; exact descOpt_merge (.inr hv)
    simp only [Ok]
    refine ⟨hv, jc, jb, supported_ok hK c false hc d E hE, supported_ok hK c false hc d _ hM, supported_ok hK b false hb (d + 1) _ hM,
      within_of_reg gc hMC hE' w1, within_of_reg gb hMC hE₁ w2, ?_, ?_⟩
    · intro t ht u hu
      obtain ⟨l, hl⟩ := gc.rets
      have h1 := hl _ hMC
      have h2 := hl _ hE'
      simp only at h1 h2
      exact ⟨t, eR t (.inl (by rw [h2, ← h1]; exact ht)), hu⟩
    · intro t ht u hu
      obtain ⟨l, hl⟩ := gb.rets
      have h1 := hl _ hMC
      have h2 := hl _ hC
      simp only at h1 h2
      exact ⟨t, eR t (.inr (by rw [h2, ← h1]; exact ht)), hu⟩
  | .andE l r, v, h, d, E, hE => by
    simp only [Supported] at h
    simp only [Ok]
    have g := track_fine hK l true h.2.1 d E hE
    exact ⟨supported_ok hK l true h.2.1 d E hE, supported_ok hK r v h.2.2 d _ g.env, g.ty.2.2 h.1⟩
  | .orE l r, v, h, d, E, hE => by
    simp only [Supported] at h
    simp only [Ok]
    have g := track_fine hK l true h.2.1 d E hE
    exact ⟨supported_ok hK l true h.2.1 d E hE, supported_ok hK r v h.2.2 d _ g.env, g.ty.2.2 h.1⟩
  | .beginE b rs n, v, h, d, E, hE => by
    simp only [Supported] at h
    obtain ⟨h1, hp, h2, hr, h3⟩ := h
    simp only [Ok]
    have g := track_fine hK b v h1 d E hE
    have gr := fine_rescueEnv hE g.obs
    have g2 := fine_begin (d := diverges b) hE g (trackClauses_fine hK rs v h2 d _ gr)
    exact ⟨supported_ok hK b v h1 d E hE, hp, supportedC_ok hK rs v h2 d _ gr, hr, supported_ok hK n false h3 d _ g2.env⟩
  | .beginElse b rs l n, v, h, d, E, hE => by
    simp only [Supported] at h
    obtain ⟨h1, hl, hp, h2, hr, h3⟩ := h
    simp only [Ok]
    have g := track_fine hK b v h1 d E hE
    have gr := fine_rescueEnv hE g.obs
    have g2 := fine_begin (d := diverges b || diverges l) hE (fine_andThen g (track_fine hK l v hl d _ g.env))
      (trackClauses_fine hK rs v h2 d _ gr)
    exact ⟨supported_ok hK b v h1 d E hE, supported_ok hK l v hl d _ g.env, hp, supportedC_ok hK rs v h2 d _ gr, hr,
      supported_ok hK n false h3 d _ g2.env⟩
  | .rescueMod e r, v, h, d, E, hE => by
    simp only [Supported] at h
    simp only [Ok]
    have g := track_fine hK e v h.1 d E hE
    exact ⟨supported_ok hK e v h.1 d E hE, h.2.1, supported_ok hK r v h.2.2 d _ (fine_rescueEnv hE g.obs)⟩
  | .ret e, _, h, d, E, hE => by
    simp only [Supported] at h
    simp only [Ok]
    exact ⟨fun hr => supported_ok hK e true (h.1 hr) d E hE, h.2⟩
  | .brk, _, _, _, _, _ => by simp [Ok]
  | .nxt, _, _, _, _, _ => by simp [Ok]
  | .opWrite _ _, _, h, _, _, _ => by simp [Supported] at h
  | .other e, _, h, _, _, _ => by simpa only [Ok, Supported] using h
theorem supportedC_ok {K : Know} (hK : FineKnow W s K) : ∀ (ws : Clauses) (v : Bool), SupportedC W s v ws → ∀ (d : Nat) (E : Env),
    FineEnv W s E → OkC W K v d ws E
  | .nil, _, _, _, _, _ => by simp [OkC]
  | .cons c b l, v, h, d, E, hE => by
    simp only [SupportedC] at h
    simp only [OkC]
    exact ⟨h.1, supported_ok hK b v h.2.1 d E hE, supportedC_ok hK l v h.2.2 d E hE⟩
end

end Verif.FlowTypes
