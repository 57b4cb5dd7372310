import Verif.Lemmas.SnapshotBody
/-!
A checked body comes back, and what is restored is a checked body; no step panics but the one for parameters.
-/
namespace Verif.Snapshot

/-- What restoring needs of one node of an expression. -/
def Ready (u : Uni) (k : Nat) (x : Expr) : Prop :=
  k ≤ 8 ∧ (∀ t, x = .literal t → TyMade u t) ∧
    (∀ r m as ks, x = .call r m as ks → MethodMade u m ∧ as.length = ks.length) ∧ ∀ es, x = .union es → es.length ≤ 8

/-- The limit for one node. -/
def LitFits (_ : Nat) (x : Expr) : Prop := ∀ t, x = .literal t → TyFits 1 t

theorem keys_back (ks : List (Option Lit)) : (ks.map fun k => k.map snapLit).map (fun k => k.map restLit) = ks := by
  induction ks with
  | nil => rfl
  | cons k ks ih => simp only [List.map_cons, ih]; cases k <;> simp [lit_back]

theorem snapExprs_length (l : List Expr) : (snapExprs l).length = l.length := by
  induction l with
  | nil => rfl
  | cons e l ih => simp only [snapExprs, List.length_cons, ih]

theorem depth_ok {u : Uni} {d : Nat} {x : Expr} (h : Ready u d x) : ¬ d > maxBodyDepth := by
  have := h.1; unfold maxBodyDepth; omega

mutual
theorem expr_back {u : Uni} (hnul : u.upper '\x00' = false) : ∀ (e : Expr) (d : Nat), EGood (Ready u) d e →
    Outcome (EGood LitFits d e) (restExpr u (snapExpr e) d) e
  | .literal t, d, h => by
    rw [egood_literal] at h
    simp only [snapExpr, restExpr, if_neg (depth_ok h)]
    refine Outcome.iff (Outcome.map (ty_back hnul (h.2.1 t rfl) 1) rfl) ?_
    rw [egood_literal]
    exact ⟨fun h t' he => by cases he; exact h, fun h => h t rfl⟩
  | .param i, d, h => by
    rw [egood_param] at h
    simp only [snapExpr, restExpr, if_neg (depth_ok h)]
    exact Outcome.iff Outcome.ok (by rw [egood_param]; exact ⟨fun _ t he => (by cases he), fun _ => trivial⟩)
  | .capture i, d, h => by
    rw [egood_capture] at h
    simp only [snapExpr, restExpr, if_neg (depth_ok h)]
    exact Outcome.iff Outcome.ok (by rw [egood_capture]; exact ⟨fun _ t he => (by cases he), fun _ => trivial⟩)
  | .array es, d, h => by
    rw [egood_array] at h
    simp only [snapExpr, restExpr, if_neg (depth_ok h.1)]
    refine Outcome.iff (Outcome.map (exprs_back hnul es (d + 1) h.2) rfl) ?_
    rw [egood_array]
    exact ⟨fun h => ⟨fun t he => (by cases he), h⟩, fun h => h.2⟩
  | .shape fs, d, h => by
    rw [egood_shape] at h
    simp only [snapExpr, restExpr, if_neg (depth_ok h.1)]
    refine Outcome.iff (Outcome.map (bodyFields_back hnul fs (d + 1) h.2) rfl) ?_
    rw [egood_shape]
    exact ⟨fun h => ⟨fun t he => (by cases he), h⟩, fun h => h.2⟩
  | .call r m as ks, d, h => by
    rw [egood_call] at h
    obtain ⟨hm, hl⟩ := h.1.2.2.1 _ _ _ _ rfl
    have hl' : ¬ (snapExprs as).length ≠ (ks.map fun k => k.map snapLit).length := by
      rw [snapExprs_length, List.length_map]; simp [hl]
    simp only [snapExpr, restExpr, if_neg (depth_ok h.1), if_neg hl', method_back hm, Res.bind, keys_back]
    refine Outcome.iff (Outcome.bind (expr_back hnul r (d + 1) h.2.1) (Outcome.map (exprs_back hnul as (d + 1) h.2.2) rfl)) ?_
    rw [egood_call]
    exact ⟨fun h => ⟨fun t he => (by cases he), h⟩, fun h => h.2⟩
  | .union es, d, h => by
    rw [egood_union] at h
    have hl : ¬ (snapExprs es).length > maxBodyVariants := by
      have := h.1.2.2.2 es rfl
      rw [snapExprs_length]; unfold maxBodyVariants; omega
    simp only [snapExpr, restExpr, if_neg (depth_ok h.1), if_neg hl]
    refine Outcome.iff (Outcome.map (exprs_back hnul es (d + 1) h.2) rfl) ?_
    rw [egood_union]
    exact ⟨fun h => ⟨fun t he => (by cases he), h⟩, fun h => h.2⟩
theorem exprs_back {u : Uni} (hnul : u.upper '\x00' = false) : ∀ (l : List Expr) (d : Nat), (∀ e ∈ l, EGood (Ready u) d e) →
    Outcome (∀ e ∈ l, EGood LitFits d e) (restExprs u (snapExprs l) d) l
  | [], d, h => Outcome.iff Outcome.ok (by simp)
  | e :: l, d, h => by
    simp only [snapExprs, restExprs]
    refine Outcome.iff (Outcome.bind (expr_back hnul e d (h e (by simp)))
      (Outcome.map (exprs_back hnul l d fun x hx => h x (by simp [hx])) rfl)) ?_
    simp
theorem bodyFields_back {u : Uni} (hnul : u.upper '\x00' = false) : ∀ (l : List (Lit × Expr)) (d : Nat),
    (∀ f ∈ l, EGood (Ready u) d f.2) → Outcome (∀ f ∈ l, EGood LitFits d f.2) (restBodyFields u (snapBodyFields l) d) l
  | [], d, h => Outcome.iff Outcome.ok (by simp)
  | (k, e) :: l, d, h => by
    simp only [snapBodyFields, restBodyFields, lit_back]
    refine Outcome.iff (Outcome.bind (expr_back hnul e d (h (k, e) (by simp)))
      (Outcome.map (bodyFields_back hnul l d fun x hx => h x (by simp [hx])) rfl)) ?_
    simp
end

/-- What is known of one restored node. -/
def Back (u : Uni) (_ : Nat) (x : Expr) : Prop :=
  (∀ t, x = .literal t → TyMade u t ∧ TyFits 1 t) ∧ ∀ r m as ks, x = .call r m as ks → MethodMade u m

mutual
theorem expr_made {u : Uni} : ∀ (s : SExpr) (d : Nat) (e : Expr), restExpr u s d = .ok e → EGood (Back u) d e
  | .literal t, d, e, h => by
    simp only [restExpr] at h; split at h; · cases h
    simp only [bind_ok] at h; obtain ⟨x, hx, h⟩ := h; cases h
    rw [egood_literal]
    exact ⟨fun t he => (by cases he; exact ty_made _ _ _ hx), fun _ _ _ _ he => by cases he⟩
  | .param i, d, e, h => by
    simp only [restExpr] at h; split at h; · cases h
    cases h; rw [egood_param]
    exact ⟨fun t he => (by cases he), fun _ _ _ _ he => by cases he⟩
  | .capture i, d, e, h => by
    simp only [restExpr] at h; split at h; · cases h
    cases h; rw [egood_capture]
    exact ⟨fun t he => (by cases he), fun _ _ _ _ he => by cases he⟩
  | .array es, d, e, h => by
    simp only [restExpr] at h; split at h; · cases h
    simp only [bind_ok] at h; obtain ⟨x, hx, h⟩ := h; cases h
    rw [egood_array]
    exact ⟨⟨fun t he => (by cases he), fun _ _ _ _ he => by cases he⟩, exprs_made es (d + 1) x hx⟩
  | .shape fs, d, e, h => by
    simp only [restExpr] at h; split at h; · cases h
    simp only [bind_ok] at h; obtain ⟨x, hx, h⟩ := h; cases h
    rw [egood_shape]
    exact ⟨⟨fun t he => (by cases he), fun _ _ _ _ he => by cases he⟩, bodyFields_made fs (d + 1) x hx⟩
  | .call r m as ks, d, e, h => by
    simp only [restExpr] at h; split at h; · cases h
    split at h; · cases h
    simp only [bind_ok, ofOption_ok] at h; obtain ⟨x, hx, m', hm, as', ha, h⟩ := h; cases h
    rw [egood_call]
    exact ⟨⟨fun t he => (by cases he), fun _ _ _ _ he => by cases he; exact ⟨_, hm⟩⟩, expr_made r (d + 1) x hx,
      exprs_made as (d + 1) as' ha⟩
  | .union es, d, e, h => by
    simp only [restExpr] at h; split at h; · cases h
    split at h; · cases h
    simp only [bind_ok] at h; obtain ⟨x, hx, h⟩ := h; cases h
    rw [egood_union]
    exact ⟨⟨fun t he => (by cases he), fun _ _ _ _ he => by cases he⟩, exprs_made es (d + 1) x hx⟩
theorem exprs_made {u : Uni} : ∀ (l : List SExpr) (d : Nat) (m : List Expr), restExprs u l d = .ok m →
    ∀ e ∈ m, EGood (Back u) d e
  | [], d, m, h => by simp only [restExprs, Res.ok.injEq] at h; subst h; simp
  | s :: l, d, m, h => by
    simp only [restExprs, bind_ok] at h
    obtain ⟨t, ht, m', hm, h⟩ := h; cases h
    intro x hx
    rcases List.mem_cons.mp hx with rfl | hx
    · exact expr_made s d _ ht
    · exact exprs_made l d m' hm x hx
theorem bodyFields_made {u : Uni} : ∀ (l : List (SLit × SExpr)) (d : Nat) (m : List (Lit × Expr)), restBodyFields u l d = .ok m →
    ∀ f ∈ m, EGood (Back u) d f.2
  | [], d, m, h => by simp only [restBodyFields, Res.ok.injEq] at h; subst h; simp
  | (k, s) :: l, d, m, h => by
    simp only [restBodyFields, bind_ok] at h
    obtain ⟨t, ht, m', hm, h⟩ := h; cases h
    intro x hx
    rcases List.mem_cons.mp hx with rfl | hx
    · exact expr_made s d _ ht
    · exact bodyFields_made l d m' hm x hx
end

/-- The snapshot of a body that is written when the checks pass. -/
def plainBody (b : Body) : SBody :=
  ⟨snapFqn b.constant, ⟨b.summary.strict, b.summary.params.map snapBodyParam, b.summary.captures, snapExpr b.summary.result,
    b.summary.nodes⟩, snapRange b.range⟩

theorem snapBody_iff {b : Body} {s : SBody} :
    snapBody b = .ok s ↔ b.summary.captures = [] ∧ BodyOk b.summary ∧ s = plainBody b := by
  unfold snapBody snapSummary
  rw [← check_iff]
  cases hc : b.summary.captures with
  | cons c l => simp
  | nil =>
    cases hk : b.summary.check with
    | false => simp [Res.bind]
    | true =>
      simp only [List.isEmpty_nil, Bool.not_true, Bool.false_eq_true, if_false, Res.bind, true_and, Res.ok.injEq, plainBody, hc]
      exact eq_comm

theorem snapBody_err {b : Body} (h : ¬(b.summary.captures = [] ∧ BodyOk b.summary)) : snapBody b = .err := by
  unfold snapBody snapSummary
  rw [← check_iff] at h
  cases hc : b.summary.captures with
  | cons c l => simp
  | nil =>
    cases hk : b.summary.check with
    | false => simp [Res.bind]
    | true => exact absurd ⟨hc, hk⟩ h

theorem bodyOk_ready {u : Uni} {b : Body} (hm : BodyMade u b) (hb : BodyOk b.summary) :
    ∀ e ∈ b.summary.exprs, EGood (Ready u) 0 e := by
  intro e he n x hx
  obtain ⟨h1, h2⟩ := hb.nodes e he n x hx
  refine ⟨by omega, ?_, ?_, ?_⟩
  · rintro t rfl; exact hm.types e he n t hx
  · rintro r m as ks rfl; exact ⟨hm.methods e he n _ _ _ _ hx, h2⟩
  · rintro es rfl; exact h2.2

theorem bodyParam_back {u : Uni} (hnul : u.upper '\x00' = false) {p : BodyParam} (h : ∀ e ∈ p.dflt, EGood (Ready u) 0 e) :
    Outcome (∀ e ∈ p.dflt, EGood LitFits 0 e) (restBodyParam u (snapBodyParam p)) p := by
  obtain ⟨name, kind, dflt⟩ := p
  simp only [restBodyParam, snapBodyParam, bodyKind_back]
  cases dflt with
  | none => exact Outcome.iff Outcome.ok (by simp)
  | some e =>
    simp only [Option.map_some, optR]
    refine Outcome.iff (Outcome.map (Outcome.map (expr_back hnul e 0 (h e rfl)) rfl) rfl) ?_
    simp

theorem litFits_iff {e : Expr} : EGood LitFits 0 e ↔ ∀ n t, InsideE n e (.literal t) → TyFits 1 t := by
  constructor
  · intro h n t ht; exact h n _ ht t rfl
  · intro h n x hx t he; subst he; exact h n t hx

theorem body_back {u : Uni} (hnul : u.upper '\x00' = false) {b : Body} (hm : BodyMade u b) (hb : BodyOk b.summary)
    (hc : b.summary.captures = []) (file : Nat) :
    Outcome (FqnFits b.constant ∧ ∀ t, b.HasType t → TyFits 1 t) (restBody u (plainBody b) file) (b.inFile file) := by
  have hr := bodyOk_ready hm hb
  have hp : Outcome (∀ p ∈ b.summary.params, ∀ e ∈ p.dflt, EGood LitFits 0 e)
      (mapR (restBodyParam u) (b.summary.params.map snapBodyParam)) b.summary.params := by
    refine Outcome.mapR_self fun p hp => bodyParam_back hnul fun e he => hr e ?_
    unfold Summary.exprs
    rw [List.mem_append, List.mem_filterMap]
    exact Or.inl ⟨p, hp, he⟩
  have hres := expr_back hnul b.summary.result 0 (hr _ (by unfold Summary.exprs; simp))
  have hlim : ¬((b.summary.params.map snapBodyParam).length > maxBodyParams ∨ b.summary.captures.length > maxBodyCaptures ∨
      b.summary.nodes > maxBodyNodes) := by
    have h1 := hb.params
    have h2 := hb.captures
    have h3 := hb.bound
    rw [List.length_map]
    unfold maxBodyParams maxBodyCaptures maxBodyNodes; omega
  have hk := (check_iff b.summary).mpr hb
  have hsum : Outcome ((∀ p ∈ b.summary.params, ∀ e ∈ p.dflt, EGood LitFits 0 e) ∧ EGood LitFits 0 b.summary.result)
      (restSummary u (plainBody b).summary) b.summary := by
    unfold restSummary
    rw [if_neg (show ¬((plainBody b).summary.params.length > maxBodyParams ∨ (plainBody b).summary.captures.length > maxBodyCaptures ∨
      (plainBody b).summary.nodes > maxBodyNodes) from hlim)]
    simp only [plainBody, hc, List.isEmpty_nil, Bool.not_true, Bool.false_eq_true, if_false]
    refine Outcome.bind hp (Outcome.map hres ?_)
    have : (⟨b.summary.strict, b.summary.params, [], b.summary.result, b.summary.nodes⟩ : Summary) = b.summary := by rw [← hc]
    rw [this, hk]; rfl
  simp only [restBody]
  refine Outcome.iff (Outcome.bind hsum (b := b.inFile file) (Q := FqnFits b.constant) ?_) ?_
  · simp only [hc, List.isEmpty_nil, Bool.not_true, Bool.false_eq_true, if_false, plainBody, range_back hm.range]
    exact Outcome.map (fqn_back hnul hm.constant) rfl
  · constructor
    · rintro ⟨⟨h1, h2⟩, h3⟩
      refine ⟨h3, ?_⟩
      rintro t ⟨e, he, n, ht⟩
      unfold Summary.exprs at he
      rw [List.mem_append, List.mem_filterMap, List.mem_singleton] at he
      rcases he with ⟨p, hp, he⟩ | rfl
      · exact litFits_iff.mp (h1 p hp e he) n t ht
      · exact litFits_iff.mp h2 n t ht
    · rintro ⟨h1, h2⟩
      refine ⟨⟨fun p hp e he => litFits_iff.mpr fun n t ht => h2 t ⟨e, ?_, n, ht⟩,
        litFits_iff.mpr fun n t ht => h2 t ⟨b.summary.result, ?_, n, ht⟩⟩, h1⟩
      · unfold Summary.exprs; rw [List.mem_append, List.mem_filterMap]; exact Or.inl ⟨p, hp, he⟩
      · unfold Summary.exprs; simp

theorem body_made {u : Uni} {s : SBody} {file : Nat} {b : Body} (h : restBody u s file = .ok b) :
    BodyMade u b ∧ BodyOk b.summary ∧ b.summary.captures = [] ∧ (FqnFits b.constant ∧ ∀ t, b.HasType t → TyFits 1 t) ∧
      b.range.file = file := by
  simp only [restBody, bind_ok] at h
  obtain ⟨y, hy, h⟩ := h
  split at h; · cases h
  rename_i hcap
  simp only [bind_ok] at h
  obtain ⟨c, hc, r, hr, h⟩ := h
  cases h
  unfold restSummary at hy
  split at hy; · cases hy
  split at hy; · cases hy
  simp only [bind_ok] at hy
  obtain ⟨ps, hps, e, he, hy⟩ := hy
  split at hy; · cases hy
  rename_i hk
  cases hy
  have hall : ∀ x ∈ (⟨s.summary.strict, ps, s.summary.captures, e, s.summary.nodes⟩ : Summary).exprs, EGood (Back u) 0 x := by
    intro x hx
    unfold Summary.exprs at hx
    rw [List.mem_append, List.mem_filterMap, List.mem_singleton] at hx
    rcases hx with ⟨p, hp, hx⟩ | rfl
    · obtain ⟨q, -, hq⟩ := mapR_mem hps p hp
      simp only [restBodyParam, bind_ok] at hq
      obtain ⟨o, ho, hq⟩ := hq
      cases hq
      cases hd : q.dflt with
      | none => rw [hd] at ho; simp only [optR] at ho; cases ho; cases hx
      | some z =>
        rw [hd] at ho
        simp only [optR, bind_ok] at ho
        obtain ⟨w, hw, ho⟩ := ho
        cases ho; cases hx
        exact expr_made _ _ _ hw
    · exact expr_made _ _ _ he
  refine ⟨⟨(fqn_made hc).1, (range_made hr).1, ?_, ?_⟩, ?_, ?_, ⟨(fqn_made hc).2, ?_⟩, (range_made hr).2⟩
  · intro x hx n t ht; exact ((hall x hx n _ ht).1 t rfl).1
  · intro x hx n r m as ks ht; exact (hall x hx n _ ht).2 _ _ _ _ rfl
  · rw [← check_iff]; simpa using hk
  · simpa using hcap
  · rintro t ⟨x, hx, n, ht⟩; exact ((hall x hx n _ ht).1 t rfl).2

/-! ### no panic -/

theorem bind_panic {α β : Type} {x : Res α} {f : α → Res β} :
    x.bind f = .panic ↔ x = .panic ∨ ∃ a, x = .ok a ∧ f a = .panic := by
  cases x <;> simp [Res.bind]

theorem ofOption_panic {α : Type} {x : Option α} : ofOption x ≠ .panic := by cases x <;> simp [ofOption]

theorem mapR_panic {α β : Type} {f : α → Res β} {l : List α} (h : mapR f l = .panic) : ∃ a ∈ l, f a = .panic := by
  induction l with
  | nil => simp [mapR] at h
  | cons a l ih =>
    simp only [mapR, bind_panic] at h
    rcases h with h | ⟨b, hb, h | ⟨c, hc, h⟩⟩
    · exact ⟨a, by simp, h⟩
    · obtain ⟨x, hx, hf⟩ := ih h; exact ⟨x, by simp [hx], hf⟩
    · cases h

theorem optR_panic {α β : Type} {f : α → Res β} {o : Option α} (h : optR f o = .panic) : ∃ a, o = some a ∧ f a = .panic := by
  cases o with
  | none => simp [optR] at h
  | some a =>
    simp only [optR, bind_panic, reduceCtorEq, and_false, exists_false, or_false] at h
    exact ⟨a, rfl, h⟩

theorem range_panic {s : SRange} {file : Nat} : restRange s file ≠ .panic := by
  unfold restRange newRange
  split
  · simp
  · rw [if_pos (by omega)]; simp

theorem contained_panic {a b : Range} : contained a b ≠ .panic := by unfold contained; split <;> simp

theorem part_panic {u : Uni} {s : Str} : restPart u s ≠ .panic := by unfold restPart; split <;> exact ofOption_panic

theorem parts_panic {u : Uni} {s : List Str} : restParts u s ≠ .panic := by
  unfold restParts
  split
  · simp
  · intro h; obtain ⟨a, -, h⟩ := mapR_panic h; exact part_panic h

theorem fqn_panic {u : Uni} {s : SFqn} : restFqn u s ≠ .panic := by
  cases s <;> simp only [restFqn, ne_eq, bind_panic, parts_panic, ofOption_panic, reduceCtorEq, and_false, exists_false, or_false,
    not_false_eq_true] <;> (split <;> simp)

mutual
theorem ty_panic {u : Uni} : ∀ (s : STy) (d : Nat), restTy u s d ≠ .panic
  | .cls f, d => by simp only [restTy]; split <;> simp [bind_panic, fqn_panic]
  | .mod f, d => by simp only [restTy]; split <;> simp [bind_panic, fqn_panic]
  | .clsRef f, d => by simp only [restTy]; split <;> simp [bind_panic, fqn_panic]
  | .modRef f, d => by simp only [restTy]; split <;> simp [bind_panic, fqn_panic]
  | .lit v, d => by simp only [restTy]; split <;> simp
  | .unknown, d => by simp only [restTy]; split <;> simp
  | .array ts, d => by simp only [restTy]; split <;> simp [bind_panic, tys_panic ts]
  | .union ts, d => by simp only [restTy]; split <;> simp [bind_panic, tys_panic ts]
  | .hash ks vs, d => by simp only [restTy]; split <;> simp [bind_panic, tys_panic ks, tys_panic vs]
  | .shape fs r e s, d => by simp only [restTy]; split <;> simp [bind_panic, fields_panic fs, rest_panic r, ofOption_panic]
theorem tys_panic {u : Uni} : ∀ (l : List STy) (d : Nat), restTys u l d ≠ .panic
  | [], d => by simp [restTys]
  | s :: l, d => by simp [restTys, bind_panic, ty_panic s, tys_panic l]
theorem fields_panic {u : Uni} : ∀ (l : List (SLit × STy × SPresence)) (d : Nat), restFields u l d ≠ .panic
  | [], d => by simp [restFields]
  | (k, s, p) :: l, d => by simp [restFields, bind_panic, ty_panic s, fields_panic l]
theorem rest_panic {u : Uni} : ∀ (r : Option (STy × STy)) (d : Nat), restRest u r d ≠ .panic
  | none, d => by simp [restRest]
  | some (k, v), d => by simp [restRest, bind_panic, ty_panic k, ty_panic v]
end

mutual
theorem tmpl_panic {u : Uni} : ∀ s : STmpl, restTmpl u s ≠ .panic
  | .concrete t => by simp [restTmpl, bind_panic, ty_panic]
  | .receiver => by simp [restTmpl]
  | .var n => by simp [restTmpl]
  | .unconstrained => by simp [restTmpl]
  | .array t => by simp [restTmpl, bind_panic, tmpl_panic t]
  | .hash k v => by simp [restTmpl, bind_panic, tmpl_panic k, tmpl_panic v]
  | .union ts => by simp [restTmpl, bind_panic, tmpls_panic ts]
theorem tmpls_panic {u : Uni} : ∀ l : List STmpl, restTmpls u l ≠ .panic
  | [] => by simp [restTmpls]
  | s :: l => by simp [restTmpls, bind_panic, tmpl_panic s, tmpls_panic l]
end

theorem sig_panic {u : Uni} {s : SSig} : restSig u s ≠ .panic := by
  have : mapR (restSigParam u) s.params ≠ .panic := by
    intro h; obtain ⟨a, -, h⟩ := mapR_panic h
    simp [restSigParam, bind_panic, tmpl_panic] at h
  simp [restSig, bind_panic, this, tmpl_panic, tmpls_panic]

mutual
theorem expr_panic {u : Uni} : ∀ (s : SExpr) (d : Nat), restExpr u s d ≠ .panic
  | .literal t, d => by simp only [restExpr]; split <;> simp [bind_panic, ty_panic]
  | .param i, d => by simp only [restExpr]; split <;> simp
  | .capture i, d => by simp only [restExpr]; split <;> simp
  | .array es, d => by simp only [restExpr]; split <;> simp [bind_panic, exprs_panic es]
  | .shape fs, d => by simp only [restExpr]; split <;> simp [bind_panic, bodyFields_panic fs]
  | .call r m as ks, d => by
    simp only [restExpr]
    split
    · simp
    · split <;> simp [bind_panic, expr_panic r, exprs_panic as, ofOption_panic]
  | .union es, d => by
    simp only [restExpr]
    split
    · simp
    · split <;> simp [bind_panic, exprs_panic es]
theorem exprs_panic {u : Uni} : ∀ (l : List SExpr) (d : Nat), restExprs u l d ≠ .panic
  | [], d => by simp [restExprs]
  | s :: l, d => by simp [restExprs, bind_panic, expr_panic s, exprs_panic l]
theorem bodyFields_panic {u : Uni} : ∀ (l : List (SLit × SExpr)) (d : Nat), restBodyFields u l d ≠ .panic
  | [], d => by simp [restBodyFields]
  | (k, s) :: l, d => by simp [restBodyFields, bind_panic, expr_panic s, bodyFields_panic l]
end

theorem summary_panic {u : Uni} {s : SSummary} : restSummary u s ≠ .panic := by
  have hp : mapR (restBodyParam u) s.params ≠ .panic := by
    intro h; obtain ⟨a, -, h⟩ := mapR_panic h
    simp only [restBodyParam, bind_panic, reduceCtorEq, and_false, exists_false, or_false] at h
    obtain ⟨e, -, h⟩ := optR_panic h
    exact expr_panic _ _ h
  unfold restSummary
  split
  · simp
  · split
    · simp
    · simp only [ne_eq, bind_panic, hp, expr_panic, false_or, not_exists, not_and]
      intro _ _ _ _
      split <;> simp

theorem body_panic {u : Uni} {s : SBody} {file : Nat} : restBody u s file ≠ .panic := by
  simp only [restBody, ne_eq, bind_panic, summary_panic, false_or, not_exists, not_and]
  intro _ _
  split <;> simp [bind_panic, fqn_panic, range_panic]

theorem sym_panic {u : Uni} {s : SSym} {file : Nat} : restSym u s file ≠ .panic := by
  simp [restSym, bind_panic, fqn_panic, range_panic, contained_panic]
theorem node_panic {u : Uni} {s : SNode} {file : Nat} : restNode u s file ≠ .panic := by
  simp [restNode, bind_panic, fqn_panic, range_panic]
theorem edge_panic {u : Uni} {s : SEdge} {file : Nat} : restEdge u s file ≠ .panic := by
  simp [restEdge, bind_panic, fqn_panic, range_panic]
theorem unresolved_panic {u : Uni} {s : SUnresolved} {file : Nat} : restUnresolved u s file ≠ .panic := by
  simp [restUnresolved, bind_panic, fqn_panic, range_panic, parts_panic]
theorem override_panic {u : Uni} {s : SOverride} {file : Nat} : restOverride u s file ≠ .panic := by
  simp [restOverride, bind_panic, fqn_panic, range_panic, ofOption_panic]
theorem subject_panic {u : Uni} {s : SSubject} {file : Nat} : restSubject u file s ≠ .panic := by
  cases s <;> simp [restSubject, bind_panic, fqn_panic, range_panic]
theorem tyFact_panic {u : Uni} {s : STyFact} {file : Nat} : restTyFact u s file ≠ .panic := by
  simp [restTyFact, bind_panic, subject_panic, range_panic, ty_panic]

theorem method_panic {u : Uni} {s : SMethod} {file : Nat} (h : restMethod u s file = .panic) : ∃ p ∈ s.paramFacts, p.name = [] := by
  have hd : optR (fun n => ofOption (newMethod u n)) s.delegate ≠ .panic := by
    intro h; obtain ⟨a, -, h⟩ := optR_panic h; exact ofOption_panic h
  have hf : optR (restForwarded u) s.forwarded ≠ .panic := by
    intro h; obtain ⟨a, -, h⟩ := optR_panic h
    simp [restForwarded, bind_panic, ofOption_panic] at h
  have hs : mapR (restSig u) s.sigs ≠ .panic := by
    intro h; obtain ⟨a, -, h⟩ := mapR_panic h; exact sig_panic h
  have ha : restAvailability u s.availability ≠ .panic := by
    unfold restAvailability; split
    · simp
    · split <;> simp
    · split <;> simp
  simp only [restMethod, bind_panic, range_panic, contained_panic, hd, hf, hs, ha, fqn_panic, false_or, reduceCtorEq, and_false,
    exists_false, or_false] at h
  obtain ⟨_, _, _, _, _, _, h⟩ := h
  obtain ⟨p, hp, h⟩ := mapR_panic h
  refine ⟨p, hp, ?_⟩
  unfold restParam at h
  split at h
  · rename_i hn; simpa using hn
  · cases h

end Verif.Snapshot
