import Verif.Lemmas.Lowering
/-!
C67: a lambda or proc literal is summarised as what it does.
-/
namespace Verif.Lowering
open Verif.Types Verif.ShapeReads Verif.CallableBody

variable {W : World} {S : Sends W} {K : ControlFlow.World} {ok : String → Bool}

/-! ### the state of the lowering -/

/-- No local has the name of a parameter or of an outer variable. -/
def Clean (s : St) : Prop := ∀ p ∈ s.locals, p.1 ∉ s.params ∧ p.1 ∉ s.outer

/-- What lowering does to the state. -/
structure Ext (s s' : St) : Prop where
  params : s'.params = s.params
  outer : s'.outer = s.outer
  captures : ∀ x ∈ s.captures, x ∈ s'.captures
  clean : Clean s → Clean s'

theorem Ext.refl (s : St) : Ext s s := ⟨rfl, rfl, fun _ h => h, id⟩

theorem Ext.trans {a b c : St} (h : Ext a b) (h' : Ext b c) : Ext a c :=
  ⟨h'.params.trans h.params, h'.outer.trans h.outer, fun x hx => h'.captures x (h.captures x hx), fun hc => h'.clean (h.clean hc)⟩

theorem make_ok {e e' : Expr} {s s' : St} (h : make e s = .ok (e', s')) : e' = e ∧ s' = { s with count := s.count + 1 } ∧ s.count + 1 ≤ 64 := by
  unfold make at h
  split at h
  · cases h
  · rename_i hc
    cases h
    exact ⟨rfl, rfl, Nat.le_of_not_lt hc⟩

theorem make_ext {e e' : Expr} {s s' : St} (h : make e s = .ok (e', s')) : Ext s s' ∧ s'.locals = s.locals := by
  obtain ⟨-, rfl, -⟩ := make_ok h
  exact ⟨⟨rfl, rfl, fun _ h => h, id⟩, rfl⟩

theorem mergeName_ext {left right : List (String × Expr)} {x : String} {s s' : St} {e : Expr} (h : mergeName left right x s = .ok (e, s')) :
    Ext s s' ∧ s'.locals = s.locals := by
  simp only [mergeName] at h
  split at h
  · cases h; exact ⟨.refl _, rfl⟩
  · exact make_ext h

theorem mergeNames_ext {left right : List (String × Expr)} : ∀ {names : List String} {s s' : St} {l : List (String × Expr)},
    mergeNames left right names s = .ok (l, s') → Ext s s' ∧ s'.locals = s.locals ∧ l.map (·.1) = names := by
  intro names
  induction names with
  | nil => intro s s' l h; cases h; exact ⟨.refl _, rfl, rfl⟩
  | cons x names ih =>
    intro s s' l h
    simp only [mergeNames] at h
    obtain ⟨p, h1, h⟩ := bind_ok.mp h
    obtain ⟨q, h2, h⟩ := bind_ok.mp h
    cases h
    obtain ⟨a, b⟩ := mergeName_ext h1
    obtain ⟨a', b', c'⟩ := ih h2
    exact ⟨a.trans a', b'.trans b, by simp [c']⟩

theorem mem_keys {l : List (String × Expr)} {p : String × Expr} (h : p ∈ l) : p.1 ∈ l.map (·.1) := List.mem_map.mpr ⟨p, h, rfl⟩

theorem mergeLocals_ext {left right : List (String × Expr)} {s s' : St} (h : mergeLocals left right s = .ok s') :
    s'.params = s.params ∧ s'.outer = s.outer ∧ (∀ x ∈ s.captures, x ∈ s'.captures) ∧
    (∀ p ∈ s'.locals, ∃ q ∈ left ++ right, q.1 = p.1) := by
  unfold mergeLocals at h
  obtain ⟨p, h1, h⟩ := bind_ok.mp h
  cases h
  obtain ⟨a, b, c⟩ := mergeNames_ext h1
  refine ⟨a.params, a.outer, a.captures, fun q hq => ?_⟩
  have : q.1 ∈ ((left ++ right).map (·.1)).eraseDups := by rw [← c]; exact mem_keys hq
  rw [List.mem_eraseDups] at this
  obtain ⟨r, hr, e⟩ := List.mem_map.mp this
  exact ⟨r, hr, e⟩

/-- The state between the branches. -/
structure Between (s s' : St) (thenL : List (String × Expr)) : Prop where
  params : s'.params = s.params
  outer : s'.outer = s.outer
  captures : ∀ x ∈ s.captures, x ∈ s'.captures
  clean : Clean s → Clean s' ∧ Clean { s' with locals := thenL }

theorem joinBranches_ext {a b : Option Expr} {thenL : List (String × Expr)} {s s0 s' : St} {e : Expr} (hb : Between s0 s thenL)
    (h : joinBranches a thenL b s = .ok (e, s')) : Ext s0 s' := by
  unfold joinBranches at h
  split at h
  · obtain ⟨s1, h1, h⟩ := bind_ok.mp h
    obtain ⟨m1, -⟩ := make_ext h
    obtain ⟨p, o, c, l⟩ := mergeLocals_ext h1
    refine Ext.trans (b := s1) ⟨p.trans hb.params, o.trans hb.outer, fun x hx => c x (hb.captures x hx), fun hc => ?_⟩ m1
    obtain ⟨c1, c2⟩ := hb.clean hc
    intro q hq
    obtain ⟨r, hr, e⟩ := l q hq
    rw [p, o, ← e]
    rcases List.mem_append.mp hr with hr | hr
    · exact c2 r hr
    · exact c1 r hr
  · cases h
    exact ⟨hb.params, hb.outer, hb.captures, fun hc => (hb.clean hc).2⟩
  · cases h
    exact ⟨hb.params, hb.outer, hb.captures, fun hc => (hb.clean hc).1⟩
  · cases h

theorem setLocal_mem {x : String} {e : Expr} {l : List (String × Expr)} {p : String × Expr} (h : p ∈ setLocal x e l) : p = (x, e) ∨ p ∈ l := by
  rcases List.mem_cons.mp h with rfl | h
  · exact .inl rfl
  · exact .inr (List.mem_filter.mp h).1

/-- Lowering a node extends the state. -/
def ExtN (ok : String → Bool) (n : Node) : Prop := ∀ strict s e s', lower ok strict n s = .ok (e, s') → Ext s s'

theorem ext_seq {l : List Node} (ih : ∀ n ∈ l, ExtN ok n) : ∀ {strict s e s'}, lowerSeq ok strict l s = .ok (e, s') → Ext s s' := by
  induction l with
  | nil => intro strict s e s' h; rw [lowerSeq] at h; exact (make_ext h).1
  | cons n l ihl =>
    intro strict s e s' h
    rw [lowerSeq] at h
    obtain ⟨p, h1, h⟩ := bind_ok.mp h
    have e1 := ih n (by simp) _ _ p.1 p.2 h1
    cases l with
    | nil => cases h; exact e1
    | cons m k =>
      simp only at h
      split at h
      · cases h; exact e1
      · exact e1.trans (ihl (fun n hn => ih n (by simp [hn])) h)

theorem ext_branch {l : List Node} (ih : ∀ n ∈ l, ExtN ok n) {strict s o s'} (h : lowerBranch ok strict l s = .ok (o, s')) : Ext s s' := by
  unfold lowerBranch branch at h
  split at h
  · obtain ⟨p, h1, h⟩ := bind_ok.mp h
    cases h
    exact ext_seq ih h1
  · split at h
    · cases h
    · split at h
      · obtain ⟨p, h1, h⟩ := bind_ok.mp h
        cases h
        exact ext_seq ih h1
      · cases h; exact .refl _

theorem ext_args {l : List Node} (ih : ∀ n ∈ l, ExtN ok n) : ∀ {strict s es s'}, lowerArgs ok strict l s = .ok (es, s') → Ext s s' := by
  induction l with
  | nil => intro strict s e s' h; rw [lowerArgs] at h; cases h; exact .refl _
  | cons n l ihl =>
    intro strict s e s' h
    simp only [lowerArgs] at h
    obtain ⟨p, h1, h⟩ := bind_ok.mp h
    obtain ⟨q, h2, h⟩ := bind_ok.mp h
    cases h
    exact (ih n (by simp) _ _ p.1 p.2 h1).trans (ihl (fun n hn => ih n (by simp [hn])) h2)

theorem ext_fields {l : List (Option Lit × Node)} (ih : ∀ f ∈ l, ExtN ok f.2) : ∀ {strict fs s es s'},
    lowerFields ok strict l fs s = .ok (es, s') → Ext s s' := by
  induction l with
  | nil => intro strict fs s e s' h; rw [lowerFields] at h; cases h; exact .refl _
  | cons f l ihl =>
    obtain ⟨k, n⟩ := f
    intro strict fs s e s' h
    cases k with
    | none => simp only [lowerFields] at h; cases h
    | some k =>
      simp only [lowerFields] at h
      split at h
      · cases h
      · obtain ⟨p, h1, h⟩ := bind_ok.mp h
        exact (ih (some k, n) (by simp) _ _ p.1 p.2 h1).trans (ihl (fun n hn => ih n (by simp [hn])) h)

theorem ext_jump {l : List Node} (ih : ∀ n ∈ l, ExtN ok n) {strict s e s'} (h : lowerJump ok strict l s = .ok (e, s')) : Ext s s' := by
  match l, h with
  | [], h => rw [lowerJump] at h; exact (make_ext h).1
  | [n], h => rw [lowerJump] at h; exact ih n (by simp) _ _ _ _ h
  | _ :: _ :: _, h => simp only [lowerJump] at h; cases h

theorem between {s s1 s2 : St} (h1 : Ext s s1) (h2 : Ext { s1 with locals := s.locals } s2) : Between s s2 s1.locals := by
  refine ⟨h2.params.trans h1.params, h2.outer.trans h1.outer, fun x hx => h2.captures x (h1.captures x hx), fun hc => ?_⟩
  have hc1 := h1.clean hc
  refine ⟨h2.clean ?_, ?_⟩
  · intro p hp
    have := hc p hp
    simp only [h1.params, h1.outer]
    exact this
  · intro p hp
    have := hc1 p hp
    simp only [h2.params, h2.outer]
    exact this

theorem lower_ext (ok : String → Bool) : ∀ n, ExtN ok n := by
  refine Node.ind ?_ ?_ ?_ ?_ ?_ ?_ ?_ ?_ ?_ ?_ ?_ ?_ ?_ ?_ ?_
  · intro l ih strict s e s' h; exact ext_seq ih (by simpa only [lower] using h)
  · intro x n ih strict s e s' h
    simp only [lower] at h
    obtain ⟨p, h1, h⟩ := bind_ok.mp h
    have e1 := ih _ _ p.1 p.2 h1
    split at h
    · cases h
    · rename_i hx
      cases h
      simp only [Bool.or_eq_true, List.contains_iff_mem, not_or] at hx
      refine e1.trans ⟨rfl, rfl, fun _ h => h, fun hc q hq => ?_⟩
      rcases setLocal_mem hq with rfl | hq
      · exact hx
      · exact hc q hq
  · intro x strict s e s' h
    simp only [lower] at h
    split at h
    · exact (make_ext h).1
    · split at h
      · exact (make_ext h).1
      · exact Ext.trans (b := { s with captures := x :: s.captures }) ⟨rfl, rfl, fun _ h => by simp [h], id⟩ (make_ext h).1
  · intro l ih strict s e s' h
    simp only [lower] at h
    obtain ⟨p, h1, h⟩ := bind_ok.mp h
    exact (ext_args ih h1).trans (make_ext h).1
  · intro l ih strict s e s' h
    simp only [lower] at h
    obtain ⟨p, h1, h⟩ := bind_ok.mp h
    exact (ext_fields ih h1).trans (make_ext h).1
  · intro c t e _ iht ihe strict s x s' h
    simp only [lower] at h
    obtain ⟨p, h1, h⟩ := bind_ok.mp h
    obtain ⟨q, h2, h⟩ := bind_ok.mp h
    exact joinBranches_ext (between (ext_branch iht h1) (ext_branch ihe h2)) h
  · intro c t n _ iht ihe strict s x s' h
    simp only [lower] at h
    obtain ⟨p, h1, h⟩ := bind_ok.mp h
    obtain ⟨q, h2, h⟩ := bind_ok.mp h
    exact joinBranches_ext (between (ext_branch iht h1) (ihe _ _ q.1 q.2 h2)) h
  · intro c t e _ iht ihe strict s x s' h
    simp only [lower] at h
    obtain ⟨p, h1, h⟩ := bind_ok.mp h
    obtain ⟨q, h2, h⟩ := bind_ok.mp h
    exact joinBranches_ext (between (ext_branch iht h1) (ext_branch ihe h2)) h
  · intro l ih strict s e s' h
    simp only [lower] at h
    split at h
    · cases h
    · exact ext_jump ih h
  · intro l ih strict s e s' h
    simp only [lower] at h
    exact ext_jump ih h
  · intro l ih strict s e s' h; exact ext_seq ih (by simpa only [lower] using h)
  · intro r m args safe ihr iha strict s e s' h
    simp only [lower] at h
    obtain ⟨p, h1, h⟩ := bind_ok.mp h
    split at h
    · cases h
    · obtain ⟨q, h2, h⟩ := bind_ok.mp h
      exact ((ihr _ _ p.1 p.2 h1).trans (ext_args iha h2)).trans (make_ext h).1
  · intro t key strict s e s' h
    simp only [lower] at h
    split at h
    · cases h
    · exact (make_ext h).1
  · intro t l _ strict s e s' h
    simp only [lower] at h
    split at h
    · cases h
    · exact (make_ext h).1
  · intro n w strict s e s' h
    simp only [lower] at h
    cases h

/-! ### equality of expressions -/

theorem same_eq : ∀ e f, same e f = true → e = f := by
  have list : ∀ l : List Expr, (∀ e ∈ l, ∀ f, same e f = true → e = f) → ∀ k, sameList l k = true → l = k := by
    intro l
    induction l with
    | nil => intro _ k h; cases k <;> simp_all [sameList]
    | cons a l ih =>
      intro hl k h
      cases k with
      | nil => simp [sameList] at h
      | cons b k =>
        simp only [sameList, Bool.and_eq_true] at h
        rw [hl a (by simp) b h.1, ih (fun e he => hl e (by simp [he])) k h.2]
  have fields : ∀ l : List (Lit × Expr), (∀ e ∈ l, ∀ f, same e.2 f = true → e.2 = f) → ∀ k, sameFields l k = true → l = k := by
    intro l
    induction l with
    | nil => intro _ k h; cases k <;> simp_all [sameFields]
    | cons a l ih =>
      obtain ⟨x, a⟩ := a
      intro hl k h
      cases k with
      | nil => simp [sameFields] at h
      | cons b k =>
        obtain ⟨y, b⟩ := b
        simp only [sameFields, Bool.and_eq_true, decide_eq_true_eq] at h
        have e1 := hl (x, a) (by simp) b h.1.2
        simp only at e1
        rw [h.1.1, e1, ih (fun e he => hl e (by simp [he])) k h.2]
  refine Expr.ind ?_ ?_ ?_ ?_ ?_ ?_ ?_
  · intro t f h; cases f <;> simp_all [same]
  · intro t f h; cases f <;> simp_all [same]
  · intro t f h; cases f <;> simp_all [same]
  · intro es ih f h
    cases f <;> simp only [same] at h <;> first | (cases h; done) | skip
    rw [list es ih _ h]
  · intro es ih f h
    cases f <;> simp only [same] at h <;> first | (cases h; done) | skip
    rw [fields es ih _ h]
  · intro r m args keys ihr iha f h
    cases f <;> simp only [same] at h <;> first | (cases h; done) | skip
    simp only [Bool.and_eq_true, decide_eq_true_eq] at h
    rw [ihr _ h.1.1.1, h.1.1.2, list args iha _ h.1.2, h.2]
  · intro es ih f h
    cases f <;> simp only [same] at h <;> first | (cases h; done) | skip
    rw [list es ih _ h]

theorem same_refl : ∀ e, same e e = true := by
  have list : ∀ l : List Expr, (∀ e ∈ l, same e e = true) → sameList l l = true := by
    intro l
    induction l with
    | nil => intro _; rfl
    | cons a l ih => intro hl; simp only [sameList, hl a (by simp), ih (fun e he => hl e (by simp [he])), Bool.and_self]
  have fields : ∀ l : List (Lit × Expr), (∀ e ∈ l, same e.2 e.2 = true) → sameFields l l = true := by
    intro l
    induction l with
    | nil => intro _; rfl
    | cons a l ih =>
      obtain ⟨k, a⟩ := a
      intro hl
      have := hl (k, a) (by simp)
      simp only at this
      simp only [sameFields, this, ih (fun e he => hl e (by simp [he])), decide_true, Bool.and_self]
  refine Expr.ind ?_ ?_ ?_ ?_ ?_ ?_ ?_
  · intro t; simp [same]
  · intro t; simp [same]
  · intro t; simp [same]
  · intro es ih; rw [same]; exact list es ih
  · intro es ih; rw [same]; exact fields es ih
  · intro r m args keys ihr iha; simp only [same, ihr, list args iha, decide_true, Bool.and_self]
  · intro es ih; rw [same]; exact list es ih

instance : DecidableEq Expr := fun e f => if h : same e f = true then .isTrue (same_eq e f h) else .isFalse (fun he => h (he ▸ same_refl e))
deriving instance DecidableEq for Param
deriving instance DecidableEq for Summary

/-! ### values -/

variable {caps : String → W.V} {ps : List W.V}

/-- The variables have the values that the state says. -/
structure Inv (S : Sends W) (caps : String → W.V) (ps : List W.V) (xs ys : List String) (l : List (String × Expr)) (σ : Vars W) : Prop where
  params : ∀ (i : Nat) (x : String), xs[i]? = some x → ps[i]? = some (σ x)
  locals : ∀ x e, l.lookup x = some e → Val S caps ps e (σ x)
  free : ∀ x, x ∉ xs → l.lookup x = none → σ x = caps x
  unset : ∀ x, x ∉ ys → IsNil W (caps x)

/-- … of this state. -/
def Fits (S : Sends W) (caps : String → W.V) (ps : List W.V) (s : St) (σ : Vars W) : Prop := Inv S caps ps s.params s.outer s.locals σ

theorem lookup_none {l : List (String × Expr)} {x : String} : l.lookup x = none ↔ x ∉ l.map (·.1) := by
  induction l with
  | nil => simp
  | cons p l ih =>
    obtain ⟨y, e⟩ := p
    by_cases h : x = y
    · subst h; simp
    · have : (x == y) = false := by simpa using h
      simp only [List.lookup_cons, this, ih, List.map_cons, List.mem_cons, h, false_or]

theorem lookup_mem {l : List (String × Expr)} {x : String} {e : Expr} (h : l.lookup x = some e) : (x, e) ∈ l := by
  induction l with
  | nil => cases h
  | cons p l ih =>
    obtain ⟨y, f⟩ := p
    simp only [List.lookup_cons] at h
    split at h
    · rename_i hxy
      cases h
      have : x = y := by simpa using hxy
      simp [this]
    · exact List.mem_cons_of_mem _ (ih h)

theorem lookup_setLocal {x y : String} {e : Expr} {l : List (String × Expr)} :
    (setLocal x e l).lookup y = if y = x then some e else l.lookup y := by
  unfold setLocal
  by_cases h : y = x
  · subst h; simp
  · have hxy : (y == x) = false := by simpa using h
    simp only [List.lookup_cons, hxy, h, if_false]
    induction l with
    | nil => rfl
    | cons p l ih =>
      obtain ⟨z, f⟩ := p
      by_cases hz : z = x
      · subst hz
        rw [List.filter_cons_of_neg (by simp), ih, List.lookup_cons, hxy]
      · simp only [List.filter_cons, ne_eq, hz, not_false_eq_true, decide_true, if_true, List.lookup_cons, ih]

theorem mergeNames_lookup {left right : List (String × Expr)} : ∀ {names : List String} {s s' : St} {l : List (String × Expr)},
    mergeNames left right names s = .ok (l, s') → ∀ x e, l.lookup x = some e →
      (∀ v : W.V, Val S caps ps ((left.lookup x).getD nilE) v → Val S caps ps e v) ∧
      (∀ v : W.V, Val S caps ps ((right.lookup x).getD nilE) v → Val S caps ps e v) := by
  intro names
  induction names with
  | nil => intro s s' l h x e he; cases h; cases he
  | cons y names ih =>
    intro s s' l h x e he
    simp only [mergeNames] at h
    obtain ⟨p, h1, h⟩ := bind_ok.mp h
    obtain ⟨q, h2, h⟩ := bind_ok.mp h
    cases h
    simp only [List.lookup_cons] at he
    split at he
    · rename_i hxy
      have : x = y := by simpa using hxy
      subst this
      cases he
      simp only [mergeName] at h1
      split at h1
      · rename_i hs
        have := same_eq _ _ hs
        cases h1
        exact ⟨fun v h => h, fun v h => by rw [← this] at h; exact h⟩
      · obtain ⟨e, -, -⟩ := make_ok (e' := p.1) (s' := p.2) h1
        rw [e]
        exact ⟨fun v h => .inl h, fun v h => .inr (.inl h)⟩
    · exact ih h2 x e he

theorem val_nil {v : W.V} (h : IsNil W v) : Val S caps ps nilE v := h

/-- Merging keeps what is known, whichever branch was taken. -/
theorem merge_fits {left right : List (String × Expr)} {s s' : St} (h : mergeLocals left right s = .ok s') (hl : Clean { s with locals := left })
    (hr : Clean { s with locals := right }) {σ : Vars W} :
    (Inv S caps ps s.params s.outer left σ → Fits S caps ps s' σ) ∧ (Inv S caps ps s.params s.outer right σ → Fits S caps ps s' σ) := by
  obtain ⟨hp, ho, -, -⟩ := mergeLocals_ext h
  unfold mergeLocals at h
  obtain ⟨p, h1, h⟩ := bind_ok.mp h
  cases h
  obtain ⟨-, -, hkeys⟩ := mergeNames_ext (l := p.1) (s' := p.2) h1
  have hlook := mergeNames_lookup (S := S) (caps := caps) (ps := ps) (l := p.1) (s' := p.2) h1
  have names : ∀ x, p.1.lookup x = none ↔ x ∉ (left ++ right).map (·.1) := by
    intro x
    rw [lookup_none, hkeys, List.mem_eraseDups]
  have free : ∀ x, x ∈ (left ++ right).map (·.1) → x ∉ s.params ∧ x ∉ s.outer := by
    intro x hx
    obtain ⟨q, hq, rfl⟩ := List.mem_map.mp hx
    rcases List.mem_append.mp hq with hq | hq
    · exact hl q hq
    · exact hr q hq
  have known : ∀ x e, p.1.lookup x = some e → x ∈ (left ++ right).map (·.1) := by
    intro x e he
    refine Decidable.byContradiction fun hn => ?_
    rw [(names x).mpr hn] at he
    cases he
  have value : ∀ {side : List (String × Expr)}, Inv S caps ps s.params s.outer side σ → ∀ x, x ∉ s.params → x ∉ s.outer →
      Val S caps ps ((side.lookup x).getD nilE) (σ x) := by
    intro side hi x h1 h2
    cases he : side.lookup x with
    | none => rw [hi.free x h1 he]; exact val_nil (hi.unset x h2)
    | some e => exact hi.locals x e he
  have side_none : ∀ {x}, x ∉ (left ++ right).map (·.1) → left.lookup x = none ∧ right.lookup x = none := by
    intro x hx
    rw [List.map_append, List.mem_append, not_or] at hx
    exact ⟨lookup_none.mpr hx.1, lookup_none.mpr hx.2⟩
  simp only at hp ho
  constructor
  · intro hi
    refine ⟨by simpa only [hp] using hi.params, fun x e he => ?_, ?_, by simpa only [ho] using hi.unset⟩
    · obtain ⟨f1, f2⟩ := free x (known x e he)
      exact (hlook x e he).1 _ (value hi x f1 f2)
    · intro x h1 h3
      simp only [hp] at h1
      exact hi.free x h1 (side_none ((names x).mp h3)).1
  · intro hi
    refine ⟨by simpa only [hp] using hi.params, fun x e he => ?_, ?_, by simpa only [ho] using hi.unset⟩
    · obtain ⟨f1, f2⟩ := free x (known x e he)
      exact (hlook x e he).2 _ (value hi x f1 f2)
    · intro x h1 h3
      simp only [hp] at h1
      exact hi.free x h1 (side_none ((names x).mp h3)).2

theorem make_fits {e e' : Expr} {s s' : St} (h : make e s = .ok (e', s')) {σ : Vars W} (hf : Fits S caps ps s σ) : Fits S caps ps s' σ := by
  obtain ⟨-, rfl, -⟩ := make_ok h
  exact hf

/-- The value of a branch, and what is known behind it. -/
def Known (S : Sends W) (caps : String → W.V) (ps : List W.V) (e : Expr) (s : St) (r : Res W) (σ : Vars W) : Prop :=
  (∀ v, r = .val v → Val S caps ps e v ∧ Fits S caps ps s σ) ∧ (∀ v, r = .ret v ∨ r = .nxt v → Val S caps ps e v)

/-- The same for a branch that may have been left out. -/
def KnownOpt (S : Sends W) (caps : String → W.V) (ps : List W.V) (o : Option Expr) (s : St) (r : Res W) (σ : Vars W) : Prop :=
  (∀ v, r = .val v → ∃ e, o = some e ∧ Val S caps ps e v ∧ Fits S caps ps s σ) ∧ (∀ v, r = .ret v ∨ r = .nxt v → ∃ e, o = some e ∧ Val S caps ps e v)

theorem join_known {a b : Option Expr} {s s1 s2 s' : St} {e : Expr} (hb : Between s s2 s1.locals) (h1p : s1.params = s.params)
    (h1o : s1.outer = s.outer) (hc : Clean s) (h : joinBranches a s1.locals b s2 = .ok (e, s')) {r : Res W} {σ : Vars W} :
    (KnownOpt S caps ps a s1 r σ → Known S caps ps e s' r σ) ∧ (KnownOpt S caps ps b s2 r σ → Known S caps ps e s' r σ) := by
  obtain ⟨c1, c2⟩ := hb.clean hc
  unfold joinBranches at h
  split at h
  · obtain ⟨s3, h1, h⟩ := bind_ok.mp h
    obtain ⟨m1, m2⟩ := merge_fits (S := S) (caps := caps) (ps := ps) h1 c2 (by simpa using c1) (σ := σ)
    obtain ⟨rfl, -, -⟩ := make_ok h
    constructor
    · rintro ⟨k1, k2⟩
      refine ⟨fun v hv => ?_, fun v hv => ?_⟩
      · obtain ⟨x, hx, h3, h4⟩ := k1 v hv
        cases hx
        refine ⟨.inl h3, make_fits h (m1 ?_)⟩
        unfold Fits at h4
        rw [h1p, h1o] at h4
        rw [hb.params, hb.outer]
        exact h4
      · obtain ⟨x, hx, h3⟩ := k2 v hv
        cases hx
        exact .inl h3
    · rintro ⟨k1, k2⟩
      refine ⟨fun v hv => ?_, fun v hv => ?_⟩
      · obtain ⟨x, hx, h3, h4⟩ := k1 v hv
        cases hx
        exact ⟨.inr (.inl h3), make_fits h (m2 h4)⟩
      · obtain ⟨x, hx, h3⟩ := k2 v hv
        cases hx
        exact .inr (.inl h3)
  · cases h
    constructor
    · rintro ⟨k1, k2⟩
      refine ⟨fun v hv => ?_, fun v hv => ?_⟩
      · obtain ⟨x, hx, h3, h4⟩ := k1 v hv
        cases hx
        refine ⟨h3, ?_⟩
        unfold Fits at h4 ⊢
        rw [h1p, h1o] at h4
        simp only [hb.params, hb.outer]
        exact h4
      · obtain ⟨x, hx, h3⟩ := k2 v hv
        cases hx
        exact h3
    · rintro ⟨k1, k2⟩
      refine ⟨fun v hv => ?_, fun v hv => ?_⟩
      · obtain ⟨x, hx, -⟩ := k1 v hv; cases hx
      · obtain ⟨x, hx, -⟩ := k2 v hv; cases hx
  · cases h
    constructor
    · rintro ⟨k1, k2⟩
      refine ⟨fun v hv => ?_, fun v hv => ?_⟩
      · obtain ⟨x, hx, -⟩ := k1 v hv; cases hx
      · obtain ⟨x, hx, -⟩ := k2 v hv; cases hx
    · rintro ⟨k1, k2⟩
      refine ⟨fun v hv => ?_, fun v hv => ?_⟩
      · obtain ⟨x, hx, h3, h4⟩ := k1 v hv
        cases hx
        exact ⟨h3, h4⟩
      · obtain ⟨x, hx, h3⟩ := k2 v hv
        cases hx
        exact h3
  · cases h

/-- What a node is lowered to has its value. -/
def Good (S : Sends W) (K : ControlFlow.World) (ok : String → Bool) (caps : String → W.V) (ps : List W.V) (n : Node) : Prop :=
  ∀ b strict s e s' σ r σ', lower ok strict n s = .ok (e, s') → Clean s → Neat S K b n →
    Fits S caps ps s σ → Exec S K (.node n) σ r σ' → Known S caps ps e s' r σ'

theorem not_jump {r : Res W} (h : ∀ k, ¬ Jumps r k) (v : W.V) : ¬ (r = .ret v ∨ r = .nxt v) := by
  rintro (rfl | rfl)
  · exact h .ret (.inl ⟨rfl, rfl⟩)
  · exact h .nxt (.inr ⟨rfl, rfl⟩)

theorem jump_of {r : Res W} {v : W.V} (h : r = .ret v ∨ r = .nxt v) : ∃ k, Jumps r k ∧ (k = .ret ∨ k = .nxt) := by
  rcases h with rfl | rfl
  · exact ⟨.ret, .inl ⟨rfl, rfl⟩, .inl rfl⟩
  · exact ⟨.nxt, .inr ⟨rfl, rfl⟩, .inr rfl⟩

theorem leaves_known {e : Expr} {s : St} {r : Res W} {σ : Vars W} (hr : r.kind ≠ .done) (h : ∀ k, ¬ Jumps r k) : Known S caps ps e s r σ :=
  ⟨fun v hv => absurd (by rw [hv]; rfl) hr, fun v hv => absurd hv (not_jump h v)⟩

theorem neat_no_jump {n : Node} (h : Neat S K false n) {σ σ' : Vars W} {r : Res W} (he : Exec S K (.node n) σ r σ') (k) : ¬ Jumps r k := by
  intro hj
  exact absurd ((jumps_last he) false h k hj).1 (by simp)

theorem good_seq (hK : K.Plain) {l : List Node} (ih : ∀ n ∈ l, Good S K ok caps ps n) : ∀ {b strict s e s' σ r σ'},
    lowerSeq ok strict l s = .ok (e, s') → Clean s → NeatSeq S K b l → Fits S caps ps s σ →
    Exec S K (.seq l) σ r σ' → Known S caps ps e s' r σ' := by
  induction l with
  | nil =>
    intro b strict s e s' σ r σ' h hc hn hf he
    rw [lowerSeq] at h
    obtain ⟨rfl, -, -⟩ := make_ok h
    cases he with
    | none hnil =>
      refine ⟨fun v hv => ?_, fun v hv => by rcases hv with hv | hv <;> cases hv⟩
      cases hv
      exact ⟨val_nil hnil, make_fits h hf⟩
  | cons n l ihl =>
    intro b strict s e s' σ r σ' h hc hn hf he
    rw [lowerSeq] at h
    obtain ⟨p, h1, h⟩ := bind_ok.mp h
    have e1 := lower_ext ok n _ _ p.1 p.2 h1
    cases l with
    | nil =>
      cases h
      cases hn with
      | last hn =>
        cases he with
        | last he => exact ih n (by simp) _ _ _ _ _ _ _ _ h1 hc hn hf he
    | cons m k =>
      simp only at h
      split at h
      · rename_i hd
        cases h
        cases hn with
        | cons hn _ =>
          cases he with
          | step he _ => exact absurd rfl (no_value hK hd he)
          | stop he _ => exact ih n (by simp) _ _ _ _ _ _ _ _ h1 hc hn hf he
      · cases hn with
        | cons hn hl =>
          have e2 := ext_seq (fun n _ => lower_ext ok n) h
          cases he with
          | step he1 he2 =>
            have k1 := ih n (by simp) _ _ _ p.1 p.2 _ _ _ h1 hc hn hf he1
            exact ihl (fun n hn => ih n (by simp [hn])) h (e1.clean hc) hl (k1.1 _ rfl).2 he2
          | stop he hr => exact leaves_known hr (neat_no_jump hn he)

theorem good_branch (hK : K.Plain) {l : List Node} (ih : ∀ n ∈ l, Good S K ok caps ps n) {b strict s o s' σ r σ'}
    (h : lowerBranch ok strict l s = .ok (o, s')) (hc : Clean s) (hn : NeatSeq S K b l)
    (hf : Fits S caps ps s σ) (he : Exec S K (.seq l) σ r σ') : KnownOpt S caps ps o s' r σ' := by
  have seq : ∀ {e}, lowerSeq ok strict l s = .ok (e, s') → KnownOpt S caps ps (some e) s' r σ' := by
    intro e h
    obtain ⟨k1, k2⟩ := good_seq hK ih h hc hn hf he
    exact ⟨fun v hv => ⟨e, rfl, k1 v hv⟩, fun v hv => ⟨e, rfl, k2 v hv⟩⟩
  unfold lowerBranch branch at h
  split at h
  · obtain ⟨p, h1, h⟩ := bind_ok.mp h
    cases h
    exact seq h1
  · rename_i es hes
    split at h
    · cases h
    · split at h
      · obtain ⟨p, h1, h⟩ := bind_ok.mp h
        cases h
        exact seq h1
      · rename_i hx
        simp only [Bool.or_eq_true, not_or] at hx
        refine ⟨fun v hv => absurd (by rw [hv]; rfl) (no_value_seq hK hes he), fun v hv => ?_⟩
        obtain ⟨k, hj, hk⟩ := jump_of hv
        have := ((jumps_last he) b hn k hj).2 es hes
        rcases hk with rfl | rfl
        · exact absurd this hx.1
        · exact absurd this hx.2

theorem good_args {l : List Node} (ih : ∀ n ∈ l, Good S K ok caps ps n) : ∀ {strict s es s' σ vs σ'},
    lowerArgs ok strict l s = .ok (es, s') → Clean s → (∀ n ∈ l, Neat S K false n) → Fits S caps ps s σ →
    Exec S K (.args l) σ (.vals vs) σ' → Vals S caps ps es vs ∧ Fits S caps ps s' σ' := by
  induction l with
  | nil =>
    intro strict s es s' σ vs σ' h hc hn hf he
    rw [lowerArgs] at h
    cases h
    cases he with
    | noArgs => exact ⟨rfl, hf⟩
  | cons n l ihl =>
    intro strict s es s' σ vs σ' h hc hn hf he
    rw [lowerArgs] at h
    obtain ⟨p, h1, h⟩ := bind_ok.mp h
    obtain ⟨q, h2, h⟩ := bind_ok.mp h
    cases h
    have e1 := lower_ext ok n _ _ p.1 p.2 h1
    have e2 := ext_args (fun n _ => lower_ext ok n) (es := q.1) (s' := q.2) h2
    cases he with
    | arg he1 he2 =>
      obtain ⟨k1, k2⟩ := (ih n (by simp) _ _ _ p.1 p.2 _ _ _ h1 hc (hn n (by simp)) hf he1).1 _ rfl
      obtain ⟨k3, k4⟩ := ihl (fun n hn => ih n (by simp [hn])) h2 (e1.clean hc) (fun n h => hn n (by simp [h])) k2 he2
      exact ⟨⟨_, _, rfl, k1, k3⟩, k4⟩
    | argLeaves he hr => exact absurd rfl hr
    | laterLeaves _ _ hr => exact absurd rfl hr

theorem insert_vals {k : Lit} {e : Expr} {v : W.V} (hv : Val S caps ps e v) : ∀ {fs : List (Lit × Expr)} {ws : List W.V}, FieldVals S caps ps fs ws →
    ∃ us, FieldVals S caps ps (insertField k e fs) us ∧
      ∀ p, p ∈ ((insertField k e fs).map (·.1)).zip us ↔ p = (k, v) ∨ p ∈ (fs.map (·.1)).zip ws := by
  intro fs
  induction fs with
  | nil =>
    intro ws h
    refine ⟨[v], ⟨v, [], rfl, hv, rfl⟩, fun p => ?_⟩
    simp [insertField]
  | cons f fs ih =>
    obtain ⟨j, f⟩ := f
    intro ws h
    obtain ⟨w, ws, rfl, hw, hws⟩ := h
    simp only [insertField]
    split
    · exact ⟨v :: w :: ws, ⟨v, _, rfl, hv, w, ws, rfl, hw, hws⟩, fun p => by simp⟩
    · obtain ⟨us, h1, h2⟩ := ih hws
      refine ⟨w :: us, ⟨w, us, rfl, hw, h1⟩, fun p => ?_⟩
      simp only [List.map_cons, List.zip_cons_cons, List.mem_cons, h2]
      constructor
      · rintro (h | h | h)
        · exact .inr (.inl h)
        · exact .inl h
        · exact .inr (.inr h)
      · rintro (h | h | h)
        · exact .inr (.inl h)
        · exact .inl h
        · exact .inr (.inr h)

theorem insert_keys {k : Lit} {e : Expr} {fs : List (Lit × Expr)} {j : Lit} :
    j ∈ (insertField k e fs).map (·.1) ↔ j = k ∨ j ∈ fs.map (·.1) := by
  induction fs with
  | nil => simp [insertField]
  | cons f fs ih =>
    simp only [insertField]
    split
    · simp
    · simp only [List.map_cons, List.mem_cons, ih]
      constructor
      · rintro (h | h | h)
        · exact .inr (.inl h)
        · exact .inl h
        · exact .inr (.inr h)
      · rintro (h | h | h)
        · exact .inr (.inl h)
        · exact .inl h
        · exact .inr (.inr h)

theorem good_fields {l : List (Option Lit × Node)} (ih : ∀ f ∈ l, Good S K ok caps ps f.2) : ∀ {strict fs s gs s' σ ws vs σ'},
    lowerFields ok strict l fs s = .ok (gs, s') → Clean s → (∀ f ∈ l, Neat S K false f.2) → Fits S caps ps s σ →
    FieldVals S caps ps fs ws → Exec S K (.args (l.map (·.2))) σ (.vals vs) σ' →
    (∃ us, FieldVals S caps ps gs us ∧ ∃ ls : List Lit, l.map (·.1) = ls.map some ∧ ls.Nodup ∧ (∀ k ∈ ls, k ∉ fs.map (·.1)) ∧
      ∀ p, p ∈ (gs.map (·.1)).zip us ↔ p ∈ ls.zip vs ∨ p ∈ (fs.map (·.1)).zip ws) ∧ Fits S caps ps s' σ' := by
  induction l with
  | nil =>
    intro strict fs s gs s' σ ws vs σ' h hc hn hf hws he
    rw [lowerFields] at h
    cases h
    cases he with
    | noArgs => exact ⟨⟨ws, hws, [], rfl, by simp, by simp, by simp⟩, hf⟩
  | cons f l ihl =>
    obtain ⟨k, n⟩ := f
    intro strict fs s gs s' σ ws vs σ' h hc hn hf hws he
    cases k with
    | none => rw [lowerFields] at h; cases h
    | some k =>
      rw [lowerFields] at h
      split at h
      · cases h
      · rename_i hk
        obtain ⟨p, h1, h⟩ := bind_ok.mp h
        have e1 := lower_ext ok n _ _ p.1 p.2 h1
        have e2 := ext_fields (fun f _ => lower_ext ok f.2) h
        cases he with
        | arg he1 he2 =>
          rename_i v σ1 vs
          obtain ⟨k1, k2⟩ := (ih (some k, n) (by simp) _ _ _ p.1 p.2 _ _ _ h1 hc (hn (some k, n) (by simp)) hf he1).1 _ rfl
          obtain ⟨us, hus, hz⟩ := insert_vals (k := k) k1 hws
          obtain ⟨⟨us', hus', ls, hl, hnd, hdis, hz'⟩, k4⟩ :=
            ihl (fun n hn => ih n (by simp [hn])) h (e1.clean hc) (fun n h => hn n (by simp [h])) k2 hus he2
          refine ⟨⟨us', hus', k :: ls, by simp [hl], List.nodup_cons.mpr ⟨fun hm => hdis k hm (insert_keys.mpr (.inl rfl)), hnd⟩, ?_, fun q => ?_⟩, k4⟩
          · intro j hj
            rcases List.mem_cons.mp hj with rfl | hj
            · simpa [List.contains_iff_mem] using hk
            · exact fun hm => hdis j hj (insert_keys.mpr (.inr hm))
          · rw [hz', hz]
            simp only [List.zip_cons_cons, List.mem_cons]
            constructor
            · rintro (h | h | h)
              · exact .inl (.inr h)
              · exact .inl (.inl h)
              · exact .inr h
            · rintro ((h | h) | h)
              · exact .inr (.inl h)
              · exact .inl h
              · exact .inr (.inr h)
        | argLeaves he hr => exact absurd rfl hr
        | laterLeaves _ _ hr => exact absurd rfl hr

theorem keys_hold {l : List Node} {σ σ' : Vars W} {vs : List W.V} (he : Exec S K (.args l) σ (.vals vs) σ') : KeysHold (W := W) (l.map literalKey) vs := by
  induction l generalizing σ vs with
  | nil => intro i k h; simp at h
  | cons n l ih =>
    cases he with
    | arg he1 he2 =>
      intro i k h
      cases i with
      | zero =>
        cases n with
        | lit t key =>
          cases he1 with
          | lit _ hk =>
            simp only [List.map_cons, literalKey, List.getElem?_cons_zero, Option.some.injEq] at h
            simp [hk k h]
        | _ => simp [literalKey] at h
      | succ i => exact ih he2 i k (by simpa using h)
    | argLeaves he hr => exact absurd rfl hr
    | laterLeaves _ _ hr => exact absurd rfl hr

theorem args_no_jump {l : List Node} (h : ∀ n ∈ l, Neat S K false n) {σ σ' : Vars W} {r : Res W} (he : Exec S K (.args l) σ r σ') (k) : ¬ Jumps r k :=
  (jumps_last he) h k

theorem known_opt {e : Expr} {s : St} {r : Res W} {σ : Vars W} (h : Known S caps ps e s r σ) : KnownOpt S caps ps (some e) s r σ :=
  ⟨fun v hv => ⟨e, rfl, h.1 v hv⟩, fun v hv => ⟨e, rfl, h.2 v hv⟩⟩

theorem val_known {e : Expr} {s : St} {v : W.V} {σ : Vars W} (h1 : Val S caps ps e v) (h2 : Fits S caps ps s σ) : Known S caps ps e s (.val v) σ :=
  ⟨fun w hw => by cases hw; exact ⟨h1, h2⟩, fun w hw => by rcases hw with hw | hw <;> cases hw⟩

theorem exit_known {e : Expr} {s : St} {r : Res W} {v : W.V} {σ : Vars W} (hr : r = .ret v ∨ r = .nxt v) (h : Val S caps ps e v) : Known S caps ps e s r σ := by
  refine ⟨fun w hw => ?_, fun w hw => ?_⟩
  · rcases hr with rfl | rfl <;> cases hw
  · rcases hr with rfl | rfl
    · rcases hw with hw | hw <;> cases hw; exact h
    · rcases hw with hw | hw <;> cases hw; exact h

theorem fits_restore {s s1 : St} (h : Ext s s1) {σ : Vars W} (hf : Fits S caps ps s σ) : Fits S caps ps { s1 with locals := s.locals } σ := by
  unfold Fits
  simp only [h.params, h.outer]
  exact hf

theorem clean_restore {s s1 : St} (h : Ext s s1) (hc : Clean s) : Clean { s1 with locals := s.locals } := by
  intro p hp
  have := hc p hp
  simp only [h.params, h.outer]
  exact this

theorem good_jump {l : List Node} (ih : ∀ n ∈ l, Good S K ok caps ps n) {strict s e s' σ r σ'} (h : lowerJump ok strict l s = .ok (e, s'))
    (hc : Clean s) (hn : ∀ n ∈ l, Neat S K false n) (hf : Fits S caps ps s σ) :
    (Exec S K (.args l) σ r σ' → r.kind ≠ .done → Known S caps ps e s' r σ') ∧
    (∀ v, l = [] → IsNil W v → Val S caps ps e v) ∧ (∀ n v, l = [n] → Exec S K (.args [n]) σ (.vals [v]) σ' → Val S caps ps e v) ∧
    (∀ a b k, l ≠ a :: b :: k) := by
  refine ⟨fun he hr => leaves_known hr (args_no_jump hn he), ?_, ?_, ?_⟩
  · rintro v rfl hv
    rw [lowerJump] at h
    obtain ⟨rfl, -, -⟩ := make_ok h
    exact val_nil hv
  · rintro n v rfl he
    rw [lowerJump] at h
    cases he with
    | arg he1 he2 => exact ((ih n (by simp) _ _ _ _ _ _ _ _ h hc (hn n (by simp)) hf he1).1 _ rfl).1
    | argLeaves _ hr => exact absurd rfl hr
    | laterLeaves _ _ hr => exact absurd rfl hr
  · rintro a b k rfl
    rw [lowerJump] at h
    cases h

theorem lower_good (hK : K.Plain) : ∀ n, Good S K ok caps ps n := by
  refine Node.ind ?_ ?_ ?_ ?_ ?_ ?_ ?_ ?_ ?_ ?_ ?_ ?_ ?_ ?_ ?_
  · intro l ih b strict s e s' σ r σ' h hc hn hf he
    rw [lower] at h
    cases hn with
    | stmts hn => cases he with | stmts he => exact good_seq hK ih h hc hn hf he
  · intro x n ih b strict s e s' σ r σ' h hc hn hf he
    rw [lower] at h
    obtain ⟨p, h1, h⟩ := bind_ok.mp h
    split at h
    · cases h
    · rename_i hx
      simp only [Bool.or_eq_true, List.contains_iff_mem, not_or] at hx
      cases h
      cases hn with
      | write hn =>
        cases he with
        | write he =>
          obtain ⟨k1, k2⟩ := (ih _ _ _ p.1 p.2 _ _ _ h1 hc hn hf he).1 _ rfl
          refine val_known k1 ⟨fun i y hy => ?_, fun y f hy => ?_, fun y hy hl => ?_, k2.unset⟩
          · have : y ≠ x := fun h => hx.1 (h ▸ List.mem_of_getElem? hy)
            simp only [Vars.set, this, if_false]
            exact k2.params i y hy
          · rw [lookup_setLocal] at hy
            split at hy
            · rename_i e
              cases hy
              simp only [Vars.set, e, if_true]
              exact k1
            · rename_i e
              simp only [Vars.set, e, if_false]
              exact k2.locals y f hy
          · rw [lookup_setLocal] at hl
            split at hl
            · cases hl
            · rename_i e
              simp only [Vars.set, e, if_false]
              exact k2.free y hy hl
        | writeLeaves he hr => exact leaves_known hr (neat_no_jump hn he)
  · intro x b strict s e s' σ r σ' h hc hn hf he
    rw [lower] at h
    cases he with
    | read =>
      split at h
      · rename_i i hi
        obtain ⟨rfl, -, -⟩ := make_ok h
        refine val_known ?_ (make_fits h hf)
        obtain ⟨hl, hi, -⟩ := List.idxOf?_eq_some_iff.mp hi
        exact hf.params i x (by rw [List.getElem?_eq_getElem hl, hi])
      · rename_i hp
        rw [List.idxOf?_eq_none_iff] at hp
        split at h
        · rename_i f hl
          obtain ⟨rfl, -, -⟩ := make_ok h
          exact val_known (hf.locals x _ hl) (make_fits h hf)
        · obtain ⟨rfl, -, -⟩ := make_ok h
          exact val_known (hf.free x hp (by assumption)) (make_fits h hf)
  · intro l ih b strict s e s' σ r σ' h hc hn hf he
    rw [lower] at h
    obtain ⟨p, h1, h⟩ := bind_ok.mp h
    obtain ⟨rfl, -, -⟩ := make_ok h
    cases hn with
    | array hn =>
      cases he with
      | array he ha hel =>
        obtain ⟨k1, k2⟩ := good_args ih (es := p.1) (s' := p.2) h1 hc hn hf he
        exact val_known ⟨ha, _, k1, hel⟩ (make_fits h k2)
      | arrayLeaves he hr => exact leaves_known hr (args_no_jump hn he)
  · intro l ih b strict s e s' σ r σ' h hc hn hf he
    rw [lower] at h
    obtain ⟨p, h1, h⟩ := bind_ok.mp h
    obtain ⟨rfl, -, -⟩ := make_ok h
    cases hn with
    | hash hn =>
      cases he with
      | hash he hh =>
        obtain ⟨⟨us, k1, ls, hl, hnd, -, hz⟩, k2⟩ := good_fields ih (gs := p.1) (s' := p.2) (ws := []) h1 hc hn hf rfl he
        refine val_known ⟨hh.1, us, k1, fun k x => ?_⟩ (make_fits h k2)
        rw [hh.2 ls hl hnd]
        simp only [hz, List.map_nil, List.zip_nil_left, List.not_mem_nil, or_false]
      | hashLeaves he hr =>
        refine leaves_known hr (args_no_jump ?_ he)
        intro n hn'
        obtain ⟨f, hf, rfl⟩ := List.mem_map.mp hn'
        exact hn f hf
  · intro c t f _ iht ihe b strict s e s' σ r σ' h hc hn hf he
    rw [lower] at h
    obtain ⟨p, h1, h⟩ := bind_ok.mp h
    obtain ⟨q, h2, h⟩ := bind_ok.mp h
    have e1 := ext_branch (fun n _ => lower_ext ok n) (o := p.1) (s' := p.2) h1
    have e2 := ext_branch (fun n _ => lower_ext ok n) (o := q.1) (s' := q.2) h2
    obtain ⟨j1, j2⟩ := join_known (S := S) (caps := caps) (ps := ps) (between e1 e2) e1.params e1.outer hc h (r := r) (σ := σ')
    cases hn with
    | ifN hp ht hel =>
      cases he with
      | ifCond he hr => exact leaves_known hr (fun k => pure_jump hp he)
      | ifThen he1 he2 =>
        obtain ⟨rfl, -⟩ := hp _ _ _ he1
        exact j1 (good_branch hK iht h1 hc ht hf he2)
      | ifElse he1 he2 =>
        obtain ⟨rfl, -⟩ := hp _ _ _ he1
        exact j2 (good_branch hK ihe h2 (clean_restore e1 hc) hel (fits_restore e1 hf) he2)
  · intro c t f _ iht ihe b strict s e s' σ r σ' h hc hn hf he
    rw [lower] at h
    obtain ⟨p, h1, h⟩ := bind_ok.mp h
    obtain ⟨q, h2, h⟩ := bind_ok.mp h
    have e1 := ext_branch (fun n _ => lower_ext ok n) (o := p.1) (s' := p.2) h1
    have e2 := lower_ext ok f _ _ q.1 q.2 h2
    obtain ⟨j1, j2⟩ := join_known (S := S) (caps := caps) (ps := ps) (between e1 e2) e1.params e1.outer hc h (r := r) (σ := σ')
    cases hn with
    | elsif hp ht hel =>
      cases he with
      | elsifCond he hr => exact leaves_known hr (fun k => pure_jump hp he)
      | elsifThen he1 he2 =>
        obtain ⟨rfl, -⟩ := hp _ _ _ he1
        exact j1 (good_branch hK iht h1 hc ht hf he2)
      | elsifElse he1 he2 =>
        obtain ⟨rfl, -⟩ := hp _ _ _ he1
        exact j2 (known_opt (ihe _ _ _ q.1 q.2 _ _ _ h2 (clean_restore e1 hc) hel (fits_restore e1 hf) he2))
  · intro c t f _ iht ihe b strict s e s' σ r σ' h hc hn hf he
    rw [lower] at h
    obtain ⟨p, h1, h⟩ := bind_ok.mp h
    obtain ⟨q, h2, h⟩ := bind_ok.mp h
    have e1 := ext_branch (fun n _ => lower_ext ok n) (o := p.1) (s' := p.2) h1
    have e2 := ext_branch (fun n _ => lower_ext ok n) (o := q.1) (s' := q.2) h2
    obtain ⟨j1, j2⟩ := join_known (S := S) (caps := caps) (ps := ps) (between e1 e2) e1.params e1.outer hc h (r := r) (σ := σ')
    cases hn with
    | unlessN hp ht hel =>
      cases he with
      | unlessCond he hr => exact leaves_known hr (fun k => pure_jump hp he)
      | unlessThen he1 he2 =>
        obtain ⟨rfl, -⟩ := hp _ _ _ he1
        exact j1 (good_branch hK iht h1 hc ht hf he2)
      | unlessElse he1 he2 =>
        obtain ⟨rfl, -⟩ := hp _ _ _ he1
        exact j2 (good_branch hK ihe h2 (clean_restore e1 hc) hel (fits_restore e1 hf) he2)
  · intro l ih b strict s e s' σ r σ' h hc hn hf he
    rw [lower] at h
    split at h
    · cases h
    · cases hn with
      | ret hn =>
        obtain ⟨g1, g2, g3, g4⟩ := good_jump ih (r := r) (σ' := σ') h hc hn hf
        cases he with
        | retNil hv => exact exit_known (.inl rfl) (g2 _ rfl hv)
        | ret he => exact exit_known (.inl rfl) (g3 _ _ rfl he)
        | retMany he => exact absurd rfl (g4 _ _ _)
        | retLeaves he hr => exact g1 he hr
  · intro l ih b strict s e s' σ r σ' h hc hn hf he
    rw [lower] at h
    cases hn with
    | nxt hn =>
      obtain ⟨g1, g2, g3, g4⟩ := good_jump ih (r := r) (σ' := σ') h hc hn hf
      cases he with
      | nxtNil hv => exact exit_known (.inr rfl) (g2 _ rfl hv)
      | nxt he => exact exit_known (.inr rfl) (g3 _ _ rfl he)
      | nxtMany he => exact absurd rfl (g4 _ _ _)
      | nxtLeaves he hr => exact g1 he hr
  · intro l ih b strict s e s' σ r σ' h hc hn hf he
    rw [lower] at h
    cases hn with
    | beginN hn => cases he with | beginN he => exact good_seq hK ih h hc hn hf he
  · intro n m args safe ihr iha b strict s e s' σ r σ' h hc hn hf he
    rw [lower] at h
    obtain ⟨p, h1, h⟩ := bind_ok.mp h
    split at h
    · cases h
    · obtain ⟨q, h2, h⟩ := bind_ok.mp h
      obtain ⟨rfl, -, -⟩ := make_ok h
      have e1 := lower_ext ok n _ _ p.1 p.2 h1
      have e2 := ext_args (fun n _ => lower_ext ok n) (es := q.1) (s' := q.2) h2
      cases hn with
      | call hr ha =>
        cases he with
        | recvLeaves he hk => exact leaves_known hk (neat_no_jump hr he)
        | argsLeave _ he hk => exact leaves_known hk (args_no_jump ha he)
        | call he1 he2 hs _ =>
          obtain ⟨k1, k2⟩ := (ihr _ _ _ p.1 p.2 _ _ _ h1 hc hr hf he1).1 _ rfl
          obtain ⟨k3, k4⟩ := good_args iha (es := q.1) (s' := q.2) h2 (e1.clean hc) ha k2 he2
          exact val_known ⟨_, _, k1, k3, keys_hold he2, hs⟩ (make_fits h k4)
        | callRaises => exact leaves_known (by simp [Res.kind]) (by rintro k (⟨h, -⟩ | ⟨h, -⟩) <;> cases h)
  · intro t key b strict s e s' σ r σ' h hc hn hf he
    rw [lower] at h
    split at h
    · cases h
    · obtain ⟨rfl, -, -⟩ := make_ok h
      cases he with
      | lit hd _ => exact val_known hd (make_fits h hf)
  · intro t l _ b strict s e s' σ r σ' h hc hn hf he
    rw [lower] at h
    split at h
    · cases h
    · obtain ⟨rfl, -, -⟩ := make_ok h
      cases hn with
      | interp hp =>
        cases he with
        | interp he hd =>
          obtain ⟨rfl, -⟩ := pure_args hp he
          exact val_known hd (make_fits h hf)
        | interpLeaves he hr => exact leaves_known hr (pure_args hp he).2
  · intro n w b strict s e s' σ r σ' h
    rw [lower] at h
    cases h

/-! ### parameters -/

theorem merge_none {s s' : St} (h : mergeLocals [] [] s = .ok s') : s'.locals = [] := by
  unfold mergeLocals at h
  obtain ⟨p, h1, h⟩ := bind_ok.mp h
  cases h
  cases h1
  rfl

theorem join_none {a b : Option Expr} {s s' : St} {e : Expr} (h : joinBranches a [] b s = .ok (e, s')) (hs : s.locals = []) : s'.locals = [] := by
  unfold joinBranches at h
  split at h
  · obtain ⟨s1, h1, h⟩ := bind_ok.mp h
    rw [hs] at h1
    rw [(make_ext h).2]
    exact merge_none h1
  · cases h; rfl
  · cases h; exact hs
  · cases h

theorem writelessAll {l : List Node} : WritelessAll l ↔ ∀ n ∈ l, Writeless n := by
  induction l with
  | nil => simp [WritelessAll]
  | cons n l ih => simp [WritelessAll, ih]

theorem writelessFields {l : List (Option Lit × Node)} : WritelessFields l ↔ ∀ f ∈ l, Writeless f.2 := by
  induction l with
  | nil => simp [WritelessFields]
  | cons n l ih => obtain ⟨k, n⟩ := n; simp only [WritelessFields, ih, List.mem_cons, forall_eq_or_imp]

/-- Without assignments there are no locals. -/
def Bare (ok : String → Bool) (n : Node) : Prop := ∀ strict s e s', lower ok strict n s = .ok (e, s') → Writeless n → s.locals = [] → s'.locals = []

theorem bare_seq {l : List Node} (ih : ∀ n ∈ l, Bare ok n) : ∀ {strict s e s'}, lowerSeq ok strict l s = .ok (e, s') → (∀ n ∈ l, Writeless n) →
    s.locals = [] → s'.locals = [] := by
  induction l with
  | nil => intro strict s e s' h _ hs; rw [lowerSeq] at h; rw [(make_ext h).2, hs]
  | cons n l ihl =>
    intro strict s e s' h hw hs
    rw [lowerSeq] at h
    obtain ⟨p, h1, h⟩ := bind_ok.mp h
    have e1 := ih n (by simp) _ _ p.1 p.2 h1 (hw n (by simp)) hs
    cases l with
    | nil => cases h; exact e1
    | cons m k =>
      simp only at h
      split at h
      · cases h; exact e1
      · exact ihl (fun n hn => ih n (by simp [hn])) h (fun n hn => hw n (by simp [hn])) e1

theorem bare_branch {l : List Node} (ih : ∀ n ∈ l, Bare ok n) {strict s o s'} (h : lowerBranch ok strict l s = .ok (o, s')) (hw : ∀ n ∈ l, Writeless n)
    (hs : s.locals = []) : s'.locals = [] := by
  unfold lowerBranch branch at h
  split at h
  · obtain ⟨p, h1, h⟩ := bind_ok.mp h
    cases h
    exact bare_seq ih h1 hw hs
  · split at h
    · cases h
    · split at h
      · obtain ⟨p, h1, h⟩ := bind_ok.mp h
        cases h
        exact bare_seq ih h1 hw hs
      · cases h; exact hs

theorem bare_args {l : List Node} (ih : ∀ n ∈ l, Bare ok n) : ∀ {strict s es s'}, lowerArgs ok strict l s = .ok (es, s') → (∀ n ∈ l, Writeless n) →
    s.locals = [] → s'.locals = [] := by
  induction l with
  | nil => intro strict s e s' h _ hs; rw [lowerArgs] at h; cases h; exact hs
  | cons n l ihl =>
    intro strict s e s' h hw hs
    rw [lowerArgs] at h
    obtain ⟨p, h1, h⟩ := bind_ok.mp h
    obtain ⟨q, h2, h⟩ := bind_ok.mp h
    cases h
    exact ihl (fun n hn => ih n (by simp [hn])) h2 (fun n hn => hw n (by simp [hn])) (ih n (by simp) _ _ p.1 p.2 h1 (hw n (by simp)) hs)

theorem bare_fields {l : List (Option Lit × Node)} (ih : ∀ f ∈ l, Bare ok f.2) : ∀ {strict fs s es s'},
    lowerFields ok strict l fs s = .ok (es, s') → (∀ f ∈ l, Writeless f.2) → s.locals = [] → s'.locals = [] := by
  induction l with
  | nil => intro strict fs s e s' h _ hs; rw [lowerFields] at h; cases h; exact hs
  | cons f l ihl =>
    obtain ⟨k, n⟩ := f
    intro strict fs s e s' h hw hs
    cases k with
    | none => rw [lowerFields] at h; cases h
    | some k =>
      rw [lowerFields] at h
      split at h
      · cases h
      · obtain ⟨p, h1, h⟩ := bind_ok.mp h
        exact ihl (fun n hn => ih n (by simp [hn])) h (fun n hn => hw n (by simp [hn]))
          (ih (some k, n) (by simp) _ _ p.1 p.2 h1 (hw (some k, n) (by simp)) hs)

theorem bare_jump {l : List Node} (ih : ∀ n ∈ l, Bare ok n) {strict s e s'} (h : lowerJump ok strict l s = .ok (e, s')) (hw : ∀ n ∈ l, Writeless n)
    (hs : s.locals = []) : s'.locals = [] := by
  match l, h with
  | [], h => rw [lowerJump] at h; rw [(make_ext h).2, hs]
  | [n], h => rw [lowerJump] at h; exact ih n (by simp) _ _ _ _ h (hw n (by simp)) hs
  | _ :: _ :: _, h => rw [lowerJump] at h; cases h

theorem lower_bare (ok : String → Bool) : ∀ n, Bare ok n := by
  refine Node.ind ?_ ?_ ?_ ?_ ?_ ?_ ?_ ?_ ?_ ?_ ?_ ?_ ?_ ?_ ?_
  · intro l ih strict s e s' h hw hs; rw [lower] at h; exact bare_seq ih h (writelessAll.mp hw) hs
  · intro x n ih strict s e s' h hw; exact hw.elim
  · intro x strict s e s' h _ hs
    rw [lower] at h
    split at h
    · rw [(make_ext h).2, hs]
    · split at h
      · rw [(make_ext h).2, hs]
      · rw [(make_ext h).2]; exact hs
  · intro l ih strict s e s' h hw hs
    rw [lower] at h
    obtain ⟨p, h1, h⟩ := bind_ok.mp h
    rw [(make_ext h).2]
    exact bare_args ih (es := p.1) (s' := p.2) h1 (writelessAll.mp hw) hs
  · intro l ih strict s e s' h hw hs
    rw [lower] at h
    obtain ⟨p, h1, h⟩ := bind_ok.mp h
    rw [(make_ext h).2]
    exact bare_fields ih (es := p.1) (s' := p.2) h1 (writelessFields.mp hw) hs
  · intro c t e _ iht ihe strict s x s' h hw hs
    rw [lower] at h
    obtain ⟨p, h1, h⟩ := bind_ok.mp h
    obtain ⟨q, h2, h⟩ := bind_ok.mp h
    rw [bare_branch iht (o := p.1) (s' := p.2) h1 (writelessAll.mp hw.1) hs] at h
    exact join_none h (bare_branch ihe (o := q.1) (s' := q.2) h2 (writelessAll.mp hw.2) hs)
  · intro c t n _ iht ihe strict s x s' h hw hs
    rw [lower] at h
    obtain ⟨p, h1, h⟩ := bind_ok.mp h
    obtain ⟨q, h2, h⟩ := bind_ok.mp h
    rw [bare_branch iht (o := p.1) (s' := p.2) h1 (writelessAll.mp hw.1) hs] at h
    exact join_none h (ihe _ _ q.1 q.2 h2 hw.2 hs)
  · intro c t e _ iht ihe strict s x s' h hw hs
    rw [lower] at h
    obtain ⟨p, h1, h⟩ := bind_ok.mp h
    obtain ⟨q, h2, h⟩ := bind_ok.mp h
    rw [bare_branch iht (o := p.1) (s' := p.2) h1 (writelessAll.mp hw.1) hs] at h
    exact join_none h (bare_branch ihe (o := q.1) (s' := q.2) h2 (writelessAll.mp hw.2) hs)
  · intro l ih strict s e s' h hw hs
    rw [lower] at h
    split at h
    · cases h
    · exact bare_jump ih h (writelessAll.mp hw) hs
  · intro l ih strict s e s' h hw hs
    rw [lower] at h
    exact bare_jump ih h (writelessAll.mp hw) hs
  · intro l ih strict s e s' h hw hs; rw [lower] at h; exact bare_seq ih h (writelessAll.mp hw) hs
  · intro r m args safe ihr iha strict s e s' h hw hs
    rw [lower] at h
    obtain ⟨p, h1, h⟩ := bind_ok.mp h
    split at h
    · cases h
    · obtain ⟨q, h2, h⟩ := bind_ok.mp h
      rw [(make_ext h).2]
      exact bare_args iha (es := q.1) (s' := q.2) h2 (writelessAll.mp hw.2) (ihr _ _ p.1 p.2 h1 hw.1 hs)
  · intro t key strict s e s' h _ hs
    rw [lower] at h
    split at h
    · cases h
    · rw [(make_ext h).2, hs]
  · intro t l _ strict s e s' h _ hs
    rw [lower] at h
    split at h
    · cases h
    · rw [(make_ext h).2, hs]
  · intro n w strict s e s' h
    rw [lower] at h
    cases h

/-- One parameter after the other. -/
def lowerFormals (ok : String → Bool) : List Formal → St → Out (List Param × St)
  | [], s => .ok ([], s)
  | .required x :: l, s => (insertParam x s).bind fun s => (lowerFormals ok l s).bind fun p => .ok (⟨x, .required, none⟩ :: p.1, p.2)
  | .optional x n :: l, s => (lower ok true n s).bind fun d => (insertParam x d.2).bind fun s =>
      (lowerFormals ok l s).bind fun p => .ok (⟨x, .optional, some d.1⟩ :: p.1, p.2)
  | .rest x :: l, s => (insertParam x s).bind fun s => (lowerFormals ok l s).bind fun p => .ok (⟨x, .rest, none⟩ :: p.1, p.2)

theorem formals_append {a b : List Formal} : ∀ {s s1 s2 : St} {ps qs : List Param}, lowerFormals ok a s = .ok (ps, s1) →
    lowerFormals ok b s1 = .ok (qs, s2) → lowerFormals ok (a ++ b) s = .ok (ps ++ qs, s2) := by
  induction a with
  | nil => intro s s1 s2 ps qs h1 h2; rw [lowerFormals] at h1; cases h1; exact h2
  | cons f a ih =>
    intro s s1 s2 ps qs h1 h2
    cases f with
    | required x =>
      rw [lowerFormals] at h1
      obtain ⟨t, h3, h1⟩ := bind_ok.mp h1
      obtain ⟨p, h4, h1⟩ := bind_ok.mp h1
      cases h1
      rw [List.cons_append, lowerFormals]
      exact bind_ok.mpr ⟨t, h3, bind_ok.mpr ⟨_, ih h4 h2, rfl⟩⟩
    | optional x n =>
      rw [lowerFormals] at h1
      obtain ⟨d, h3, h1⟩ := bind_ok.mp h1
      obtain ⟨t, h4, h1⟩ := bind_ok.mp h1
      obtain ⟨p, h5, h1⟩ := bind_ok.mp h1
      cases h1
      rw [List.cons_append, lowerFormals]
      exact bind_ok.mpr ⟨d, h3, bind_ok.mpr ⟨t, h4, bind_ok.mpr ⟨_, ih h5 h2, rfl⟩⟩⟩
    | rest x =>
      rw [lowerFormals] at h1
      obtain ⟨t, h3, h1⟩ := bind_ok.mp h1
      obtain ⟨p, h4, h1⟩ := bind_ok.mp h1
      cases h1
      rw [List.cons_append, lowerFormals]
      exact bind_ok.mpr ⟨t, h3, bind_ok.mpr ⟨_, ih h4 h2, rfl⟩⟩

theorem formals_required : ∀ {req : List (Option String)} {s s' : St} {ps : List Param}, lowerRequired req s = .ok (ps, s') →
    ∃ xs : List String, req.mapM id = some xs ∧ lowerFormals ok (xs.map .required) s = .ok (ps, s') := by
  intro req
  induction req with
  | nil => intro s s' ps h; rw [lowerRequired] at h; cases h; exact ⟨[], rfl, rfl⟩
  | cons o req ih =>
    intro s s' ps h
    cases o with
    | none => rw [lowerRequired] at h; cases h
    | some x =>
      rw [lowerRequired] at h
      obtain ⟨t, h1, h⟩ := bind_ok.mp h
      obtain ⟨p, h2, h⟩ := bind_ok.mp h
      cases h
      obtain ⟨xs, h3, h4⟩ := ih h2
      refine ⟨x :: xs, by simp [List.mapM_cons, h3], ?_⟩
      rw [List.map_cons, lowerFormals]
      exact bind_ok.mpr ⟨t, h1, bind_ok.mpr ⟨_, h4, rfl⟩⟩

theorem formals_optional : ∀ {opts : List (String × Node)} {s s' : St} {ps : List Param}, lowerOptional ok opts s = .ok (ps, s') →
    lowerFormals ok (opts.map fun p => .optional p.1 p.2) s = .ok (ps, s') := by
  intro opts
  induction opts with
  | nil => intro s s' ps h; rw [lowerOptional] at h; cases h; rfl
  | cons o opts ih =>
    obtain ⟨x, n⟩ := o
    intro s s' ps h
    rw [lowerOptional] at h
    obtain ⟨d, h0, h⟩ := bind_ok.mp h
    obtain ⟨t, h1, h⟩ := bind_ok.mp h
    obtain ⟨p, h2, h⟩ := bind_ok.mp h
    cases h
    rw [List.map_cons, lowerFormals]
    exact bind_ok.mpr ⟨d, h0, bind_ok.mpr ⟨t, h1, bind_ok.mpr ⟨_, ih h2, rfl⟩⟩⟩

theorem formals_params {q : Params} {s s' : St} {ps : List Param} (h : lowerParams ok q s = .ok (ps, s')) {fs : List Formal}
    (hf : Formals q = some fs) : lowerFormals ok fs s = .ok (ps, s') := by
  cases q with
  | absent => cases hf; rw [lowerParams] at h; exact h
  | unsupported => cases hf
  | list req opts rest bs =>
    rw [lowerParams] at h
    generalize req.length + opts.length + (if rest.isSome then 1 else 0) = size at h
    split at h
    · cases h
    · obtain ⟨a, h1, h⟩ := bind_ok.mp h
      obtain ⟨b, h2, h⟩ := bind_ok.mp h
      obtain ⟨c, h3, h⟩ := bind_ok.mp h
      cases h
      obtain ⟨xs, h4, h5⟩ := formals_required (ok := ok) (ps := a.1) (s' := a.2) h1
      have h6 := formals_append h5 (formals_optional (ps := b.1) (s' := b.2) h2)
      simp only [Formals, h4] at hf
      match rest, h3, hf with
      | none, h3, hf =>
        cases hf
        rw [lowerRest] at h3
        cases h3
        simpa using h6
      | some none, h3, hf => cases hf
      | some (some x), h3, hf =>
        cases hf
        rw [lowerRest] at h3
        obtain ⟨t, h7, h3⟩ := bind_ok.mp h3
        cases h3
        refine formals_append h6 ?_
        rw [lowerFormals]
        exact bind_ok.mpr ⟨t, h7, rfl⟩

theorem insert_fits {x : String} {s s' : St} (h : insertParam x s = .ok s') (hs : s.locals = []) {ps : List W.V} {σ : Vars W}
    (hf : Fits S caps ps s σ) (hl : ps.length = s.params.length) (a : W.V) :
    Fits S caps (ps ++ [a]) s' (σ.set x a) ∧ (ps ++ [a]).length = s'.params.length ∧ s'.locals = [] := by
  unfold insertParam at h
  split at h
  · cases h
  · rename_i hx
    cases h
    rw [List.contains_iff_mem] at hx
    refine ⟨⟨fun i y hy => ?_, fun y e he => ?_, fun y hy _ => ?_, hf.unset⟩, by simp [hl], hs⟩
    · rw [List.getElem?_append] at hy
      split at hy
      · rename_i hi
        have : y ≠ x := fun h => hx (h ▸ List.mem_of_getElem? hy)
        rw [List.getElem?_append_left (by omega)]
        simp only [Vars.set, this, if_false]
        exact hf.params i y hy
      · rename_i hi
        have h0 : i - s.params.length = 0 := by
          rcases Nat.eq_zero_or_pos (i - s.params.length) with h | h
          · exact h
          · rw [List.getElem?_eq_none (by simp only [List.length_singleton]; omega)] at hy
            cases hy
        rw [h0] at hy
        cases hy
        rw [List.getElem?_append_right (by omega), hl, h0]
        simp [Vars.set]
    · simp only [hs] at he
      cases he
    · have hyx : y ≠ x := fun h => hy (by simp [h])
      simp only [Vars.set, hyx, if_false]
      exact hf.free y (fun h => hy (by simp [h])) (by rw [hs]; rfl)

theorem clean_none {s : St} (h : s.locals = []) : Clean s := by
  intro p hp
  rw [h] at hp
  cases hp

theorem take_fill (hK : K.Plain) {fs : List Formal} (hn : ∀ x d, Formal.optional x d ∈ fs → Neat S K false d ∧ Writeless d) :
    ∀ {s s' : St} {params : List Param} {ps given : List W.V} {σ σ1 : Vars W}, lowerFormals ok fs s = .ok (params, s') → s.locals = [] →
    Fits S caps ps s σ → ps.length = s.params.length → Take S K σ fs given σ1 →
    ∃ qs, Fill S caps ps params given qs ∧ Fits S caps qs s' σ1 ∧ s'.locals = [] := by
  induction fs with
  | nil =>
    intro s s' params ps given σ σ1 h hs hf hl ht
    rw [lowerFormals] at h
    cases h
    cases ht
    exact ⟨ps, .done, hf, hs⟩
  | cons f fs ih =>
    replace ih := @ih (fun x d h => hn x d (List.mem_cons_of_mem _ h))
    intro s s' params ps given σ σ1 h hs hf hl ht
    cases f with
    | required x =>
      rw [lowerFormals] at h
      obtain ⟨t, h1, h⟩ := bind_ok.mp h
      obtain ⟨p, h2, h⟩ := bind_ok.mp h
      cases h
      cases ht with
      | @required _ _ _ a args _ ht =>
        obtain ⟨f1, f2, f3⟩ := insert_fits h1 hs hf hl a
        obtain ⟨qs, g1, g2⟩ := ih h2 f3 f1 f2 ht
        exact ⟨qs, .required rfl g1, g2⟩
      | @missing _ _ _ a _ hnil ht =>
        obtain ⟨f1, f2, f3⟩ := insert_fits h1 hs hf hl a
        obtain ⟨qs, g1, g2⟩ := ih h2 f3 f1 f2 ht
        exact ⟨qs, .missing rfl hnil g1, g2⟩
    | optional x d =>
      rw [lowerFormals] at h
      obtain ⟨e, h0, h⟩ := bind_ok.mp h
      obtain ⟨t, h1, h⟩ := bind_ok.mp h
      obtain ⟨p, h2, h⟩ := bind_ok.mp h
      cases h
      obtain ⟨hneat, hw⟩ := hn x d (by simp)
      have hb := lower_bare ok d _ _ e.1 e.2 h0 hw hs
      have he := lower_ext ok d _ _ e.1 e.2 h0
      cases ht with
      | @optional _ _ _ _ a args _ ht =>
        have hf' : Fits S caps ps e.2 σ := by
          unfold Fits at hf ⊢
          rw [he.params, he.outer, hb]
          rw [hs] at hf
          exact hf
        obtain ⟨f1, f2, f3⟩ := insert_fits h1 hb hf' (by rw [he.params, hl]) a
        obtain ⟨qs, g1, g2⟩ := ih h2 f3 f1 f2 ht
        exact ⟨qs, .optional rfl g1, g2⟩
      | @default _ _ _ _ v σ2 _ hex ht =>
        obtain ⟨k1, k2⟩ := (lower_good hK d _ _ _ e.1 e.2 _ _ _ h0 (clean_none hs) hneat hf hex).1 _ rfl
        obtain ⟨f1, f2, f3⟩ := insert_fits h1 hb k2 (by rw [he.params, hl]) v
        obtain ⟨qs, g1, g2⟩ := ih h2 f3 f1 f2 ht
        exact ⟨qs, .default rfl rfl k1 g1, g2⟩
    | rest x =>
      rw [lowerFormals] at h
      obtain ⟨t, h1, h⟩ := bind_ok.mp h
      obtain ⟨p, h2, h⟩ := bind_ok.mp h
      cases h
      cases ht with
      | @rest _ _ _ args a _ ha hel ht =>
        obtain ⟨f1, f2, f3⟩ := insert_fits h1 hs hf hl a
        obtain ⟨qs, g1, g2⟩ := ih h2 f3 f1 f2 ht
        exact ⟨qs, .rest rfl ha hel g1, g2⟩

/-- The summary has as many parameters, of the same kinds. -/
theorem formals_shape : ∀ {fs : List Formal} {s s' : St} {ps : List Param}, lowerFormals ok fs s = .ok (ps, s') →
    ps.length = fs.length ∧ ((∃ p ∈ ps, p.kind = .required) → ∃ x, Formal.required x ∈ fs) := by
  intro fs
  induction fs with
  | nil => intro s s' ps h; rw [lowerFormals] at h; cases h; simp
  | cons f fs ih =>
    intro s s' ps h
    cases f with
    | required x =>
      rw [lowerFormals] at h
      obtain ⟨t, h1, h⟩ := bind_ok.mp h
      obtain ⟨p, h2, h⟩ := bind_ok.mp h
      cases h
      exact ⟨by simp [(ih h2).1], fun _ => ⟨x, by simp⟩⟩
    | optional x n =>
      rw [lowerFormals] at h
      obtain ⟨d, h3, h⟩ := bind_ok.mp h
      obtain ⟨t, h1, h⟩ := bind_ok.mp h
      obtain ⟨p, h2, h⟩ := bind_ok.mp h
      cases h
      refine ⟨by simp [(ih h2).1], fun ⟨q, hq, hk⟩ => ?_⟩
      rcases List.mem_cons.mp hq with rfl | hq
      · cases hk
      · obtain ⟨y, hy⟩ := (ih h2).2 ⟨q, hq, hk⟩
        exact ⟨y, by simp [hy]⟩
    | rest x =>
      rw [lowerFormals] at h
      obtain ⟨t, h1, h⟩ := bind_ok.mp h
      obtain ⟨p, h2, h⟩ := bind_ok.mp h
      cases h
      refine ⟨by simp [(ih h2).1], fun ⟨q, hq, hk⟩ => ?_⟩
      rcases List.mem_cons.mp hq with rfl | hq
      · cases hk
      · obtain ⟨y, hy⟩ := (ih h2).2 ⟨q, hq, hk⟩
        exact ⟨y, by simp [hy]⟩

theorem optional_mem {q : Params} {fs : List Formal} (hf : Formals q = some fs) {x : String} {d : Node} (h : Formal.optional x d ∈ fs) :
    ∃ req opts rest bs, q = .list req opts rest bs ∧ (x, d) ∈ opts := by
  cases q with
  | absent => cases hf; cases h
  | unsupported => cases hf
  | list req opts rest bs =>
    refine ⟨req, opts, rest, bs, rfl, ?_⟩
    simp only [Formals] at hf
    split at hf <;> cases hf <;> simp at h <;> exact h

/-! ### the property -/

/-- C67: for a literal that is neat, with `caps` the values variables have outside when it is called (nil where there is no variable),
every value that a call can give is a value of its summary: the parameters are filled as `Binds` says, and the value is one of the
result's. -/
theorem c67_lowered {lit : Literal} {outer : List String} {s : Summary} (hK : K.Plain) (h : lowerLiteral ok lit outer = .ok s)
    (hn : NeatLiteral S K lit outer) {caps : String → W.V} (hout : ∀ x, x ∉ outer → IsNil W (caps x)) {args : List W.V} {v : W.V}
    (hc : Called S K lit outer caps args v) : ∃ qs, Binds S caps s args qs ∧ Val S caps qs s.result v := by
  unfold lowerLiteral at h
  obtain ⟨p, h1, h⟩ := bind_ok.mp h
  obtain ⟨q, h2, h⟩ := bind_ok.mp h
  obtain ⟨hbody, hbl, hopt⟩ := hn
  obtain ⟨fs, σ, σ1, σ2, r, given, hfs, hbeg, hgiven, htake, hexec, hgives⟩ := hc
  have h3 := formals_params (ps := p.1) (s' := p.2) h1 hfs
  have hneat : ∀ x d, Formal.optional x d ∈ fs → Neat S K false d ∧ Writeless d := by
    intro x d hd
    obtain ⟨req, opts, rest, bs, e, hm⟩ := optional_mem hfs hd
    rw [e] at hopt
    exact hopt (x, d) hm
  have hstart : Fits S caps [] ⟨[], [], outer, [], 0⟩ σ := by
    refine ⟨fun i x hx => (by simp at hx), fun x e he => (by cases he), fun x _ _ => ?_, hout⟩
    have := hbeg x
    rwa [if_neg (fun hx => hbl x hx.1 hx.2)] at this
  obtain ⟨qs, hfill, hfits, hnone⟩ := take_fill hK hneat h3 rfl hstart rfl htake
  obtain ⟨k1, k2⟩ := good_seq hK (fun n _ => lower_good hK n) (e := q.1) (s' := q.2) h2 (clean_none hnone) hbody hfits hexec
  have hval : Val S caps qs q.1 v := by
    rcases hgives with hv | hv | ⟨-, hv⟩
    · exact (k1 v hv).1
    · exact k2 v (.inr hv)
    · exact k2 v (.inl hv)
  obtain ⟨hlen, hreq⟩ := formals_shape h3
  simp only at h
  split at h
  · cases h
  · split at h
    · cases h
    · obtain ⟨_, -, h⟩ := bind_ok.mp h
      cases h
      refine ⟨qs, ?_, hval⟩
      rcases hgiven with ⟨rfl, hno⟩ | ⟨⟨ha1, ha2, a, rfl, ha4⟩, hel⟩
      · refine .plain ?_ hfill
        rintro ⟨⟨hs1, hs2, hs3⟩, hr⟩
        exact hno ⟨⟨hs1, by simpa only [hlen] using hs2, hs3⟩, hreq hr⟩
      · exact .splat ⟨ha1, by simpa only [hlen] using ha2, a, rfl, ha4⟩ (hel a rfl) hfill

/-- C67, with C66: the type computed for a call of a neat literal describes every value the call can give. -/
theorem c67_sound {lit : Literal} {outer : List String} {s : Summary} (hK : K.Plain) (h : lowerLiteral ok lit outer = .ok s)
    (hn : NeatLiteral S K lit outer) {caps : String → W.V} (hout : ∀ x, x ∉ outer → IsNil W (caps x))
    {args : List Ty} {captureType : String → Option Ty} {resolveCapture : Nat → String → List Ty → Option (Except Reason Ty)}
    {resolveMethod : Nat → Ty → String → List Ty → Option Ty} {t : Ty} (hi : instantiate s args captureType resolveCapture resolveMethod = .ok t)
    (hw : NilApart W) (hres : Sane W s.result) (hdef : ∀ p ∈ s.params, ∀ e, p.dflt = some e → Sane W e)
    (hargs : ∀ a ∈ args, Tidy W a) (hcap : ∀ x u, captureType x = some u → Tidy W u ∧ Desc W u (caps x))
    (hm : MethodsRight S resolveMethod) (hc : CapturesRight S caps resolveCapture) (hsplat : NotSplat W s args)
    {vals : List W.V} (hv : List.Forall₂ (Desc W) args vals) {v : W.V} (hcall : Called S K lit outer caps vals v) : Desc W t v := by
  obtain ⟨qs, hb, hval⟩ := c67_lowered hK h hn hout hcall
  exact (c66_sound hi hw hres hdef hargs hcap hm hc hsplat hv hb hval).1

/-- What is lowered is a summary that can be called: it passes the validation, with the limits this has. -/
theorem c67_valid {lit : Literal} {outer : List String} {s : Summary} (h : lowerLiteral ok lit outer = .ok s) :
    validate s = .ok () ∧ s.strict = lit.strict ∧ ∃ fs, Formals lit.params = some fs ∧ s.params.length = fs.length := by
  unfold lowerLiteral at h
  obtain ⟨p, h1, h⟩ := bind_ok.mp h
  obtain ⟨q, h2, h⟩ := bind_ok.mp h
  have hf : ∃ fs, Formals lit.params = some fs := by
    cases hp : lit.params with
    | absent => exact ⟨_, rfl⟩
    | unsupported => rw [hp, lowerParams] at h1; cases h1
    | list req opts rest bs =>
      rw [hp, lowerParams] at h1
      generalize req.length + opts.length + (if rest.isSome then 1 else 0) = size at h1
      split at h1
      · cases h1
      · obtain ⟨a, h3, h1⟩ := bind_ok.mp h1
        obtain ⟨b, h4, h1⟩ := bind_ok.mp h1
        obtain ⟨c, h5, h1⟩ := bind_ok.mp h1
        obtain ⟨xs, h6, -⟩ := formals_required (ok := ok) (ps := a.1) (s' := a.2) h3
        match rest, h5 with
        | none, _ => exact ⟨_, by simp only [Formals, h6]; rfl⟩
        | some none, h5 => rw [lowerRest] at h5; cases h5
        | some (some x), _ => exact ⟨_, by simp only [Formals, h6]; rfl⟩
  obtain ⟨fs, hfs⟩ := hf
  have hlen := (formals_shape (formals_params (ps := p.1) (s' := p.2) h1 hfs)).1
  simp only at h
  split at h
  · cases h
  · split at h
    · cases h
    · obtain ⟨_, hval, h⟩ := bind_ok.mp h
      cases h
      exact ⟨hval, rfl, fs, hfs, hlen⟩

theorem mem_insertName {x y : String} {l : List String} : y ∈ insertName x l ↔ y = x ∨ y ∈ l := by
  induction l with
  | nil => simp [insertName]
  | cons a l ih =>
    rw [insertName]
    split
    · next h => subst h; simp
    · split
      · simp
      · simp only [List.mem_cons, ih]
        constructor <;> (rintro (h | h | h) <;> simp [h])

theorem strict_of {a b : String} (hne : a ≠ b) (h : strLe a b = true) : strLe b a = false := by
  simp only [strLe, decide_eq_true_eq, decide_eq_false_iff_not] at *
  exact fun h' => hne (String.le_antisymm h h')

theorem ascending_cons {x : String} {l : List String} (h : ascending strLe l = true) (hx : ∀ y ∈ l.head?, strLe y x = false) :
    ascending strLe (x :: l) = true := by
  cases l with
  | nil => rfl
  | cons y l => rw [ascending, hx y (by simp)]; simpa using h

theorem insert_ascending {x : String} {l : List String} (h : ascending strLe l = true) : ascending strLe (insertName x l) = true := by
  induction l with
  | nil => rfl
  | cons a l ih =>
    rw [insertName]
    split
    · exact h
    · next hne =>
      split
      · next hle => exact ascending_cons h (by intro y hy; cases hy; exact strict_of hne hle)
      · next hle =>
        have ht : ascending strLe l = true := by
          cases l with
          | nil => rfl
          | cons b l => rw [ascending] at h; simp only [Bool.and_eq_true] at h; exact h.2
        refine ascending_cons (ih ht) ?_
        intro y hy
        cases l with
        | nil => cases hy; simpa using hle
        | cons b l =>
          rw [insertName] at hy
          have hb : strLe b a = false := by rw [ascending] at h; simp only [Bool.and_eq_true, Bool.not_eq_true'] at h; exact h.1
          split at hy
          · cases hy; exact hb
          · split at hy
            · cases hy; simpa using hle
            · cases hy; exact hb

/-- The captures are listed once each, in order: no summary is refused because of their order. -/
theorem c67_captures (l : List String) : ascending strLe (captureList l) = true ∧ ∀ x, x ∈ captureList l ↔ x ∈ l := by
  unfold captureList
  induction l with
  | nil => exact ⟨rfl, by simp⟩
  | cons a l ih =>
    rw [List.foldr_cons]
    exact ⟨insert_ascending ih.1, fun x => by rw [mem_insertName, ih.2]; simp⟩

/-! ### examples -/

/-- Nothing special is defined. -/
def plainWorld : ControlFlow.World := { stop := False, own := fun _ => False }

theorem plainWorld_plain : plainWorld.Plain := ⟨id, fun _ => id⟩

def anyName : String → Bool := fun _ => true

def int1 : Node := .lit intTy none
def litS : Lit := ⟨true, [115]⟩
def strS : Node := .lit stringTy (some litS)

def params1 (x : String) : Params := .list [some x] [] none []

/-- `->(v) { x = v.to_s; [v, x] }`, `->(a, b = a.to_s, *c) { a ? x = b : x = c; { b: x, a: y } }` with `y` captured,
`->(v) { if v then return v else "s" end }`, `->(v) { if v then raise else "s" end }`. -/
theorem c67_example :
    lowerLiteral anyName ⟨true, params1 "v", [.write "x" (.call (.read "v") "to_s" [] false), .array [.read "v", .read "x"]]⟩ [] =
      .ok ⟨true, [req "v"], [], .array [.param 0, .call (.param 0) "to_s" [] []], 4⟩ ∧
    lowerLiteral anyName ⟨true, .list [some "a"] [("b", .call (.read "a") "to_s" [] false)] (some (some "c")) [],
        [.ifN (.read "a") [.write "x" (.read "b")] [.write "x" (.read "c")], .hash [(some symB, .read "x"), (some symA, .read "y")]]⟩ ["y"] =
      .ok ⟨true, [req "a", opt "b" (.call (.param 0) "to_s" [] []), restP "c"], ["y"],
        .shape [(symA, .capture "y"), (symB, .union [.param 1, .param 2])], 7⟩ ∧
    lowerLiteral anyName ⟨true, params1 "v", [.ifN (.read "v") [.ret [.read "v"]] [strS]]⟩ [] =
      .ok ⟨true, [req "v"], [], .union [.param 0, .lit stringTy], 3⟩ ∧
    lowerLiteral anyName ⟨true, params1 "v", [.ifN (.read "v") [.other (.call none "raise" [] none) false] [strS]]⟩ [] =
      .ok ⟨true, [req "v"], [], .lit stringTy, 1⟩ := by
  decide +kernel

def noCaps : String → world1.V := fun _ => V1.nil

theorem pure_read {x : String} : Pure S K (.read x) := by
  intro σ r σ' h
  cases h
  exact ⟨rfl, by simp [Res.kind], by simp [Res.kind]⟩

/-- The third of them is neat, and a call of it the theorem speaks of: with 1 it gives 1. -/
theorem c67_example_value :
    let lit : Literal := ⟨true, params1 "v", [.ifN (.read "v") [.ret [.read "v"]] [strS]]⟩
    NeatLiteral sends1 plainWorld lit [] ∧ Called sends1 plainWorld lit [] noCaps [V1.int] V1.int := by
  refine ⟨⟨.last (.ifN pure_read (.last (.ret ?_)) (.last .lit)), ?_, ?_⟩, [.required "v"], noCaps, Vars.set (W := world1) noCaps "v" V1.int, _,
    .ret V1.int, [V1.int], rfl, ?_, .inl ⟨rfl, ?_⟩, .required .done, .last (.ifThen .read (.last (.ret (.arg .read .noArgs)))), .inr (.inr ⟨rfl, rfl⟩)⟩
  · intro n hn
    rw [List.mem_singleton.mp hn]
    exact .read
  · intro x hx; cases hx
  · intro p hp; cases hp
  · intro x
    rw [if_neg (by rintro ⟨-, h⟩; cases h)]
  · rintro ⟨⟨h, -⟩, -⟩; cases h

/-- A literal is lowered, the type computed for a call describes the arguments, and does not describe what the call can give. -/
def Misjudged (lit : Literal) (outer : List String) (caps : String → world1.V) (captureType : String → Option Ty) (args : List Ty) (vals : List world1.V) : Prop :=
  ∃ s t v, lowerLiteral anyName lit outer = .ok s ∧ instantiate s args captureType noCall toS = .ok t ∧
    List.Forall₂ (Desc world1) args vals ∧ Called sends1 plainWorld lit outer caps vals v ∧ ¬ Desc world1 t v

theorem int_desc : Desc world1 intTy V1.int := .inl rfl
theorem int_not_string : ¬ Desc world1 stringTy V1.int := by
  intro h
  exact absurd (show nameOf "String" = className .int ∨ nameOf "String" = nameOf "Object" from h) (by simp only [className]; decide)
theorem nil_not_string : ¬ Desc world1 stringTy V1.nil := by
  intro h
  exact absurd (show nameOf "String" = className .nil ∨ nameOf "String" = nameOf "Object" from h) (by simp only [className]; decide)
theorem nil_not_int : ¬ Desc world1 intTy V1.nil := by
  intro h
  exact absurd (show nameOf "Integer" = className .nil ∨ nameOf "Integer" = nameOf "Object" from h) (by simp only [className]; decide)

/-- A run of a lambda with one parameter. -/
theorem called_one {body : List Node} {a v : world1.V} {r : Res world1} {σ' : Vars world1}
    (he : Exec sends1 plainWorld (.seq body) (Vars.set (W := world1) noCaps "v" a) r σ') (hr : Gives true r v) :
    Called sends1 plainWorld ⟨true, params1 "v", body⟩ [] noCaps [a] v := by
  refine ⟨[.required "v"], noCaps, Vars.set (W := world1) noCaps "v" a, _, r, [a], rfl, ?_, .inl ⟨rfl, ?_⟩, .required .done, he, hr⟩
  · intro x
    rw [if_neg (by rintro ⟨-, h⟩; cases h)]
  · rintro ⟨⟨h, -⟩, -⟩; cases h

theorem str_desc : Desc world1 stringTy (V1.lit litS) := .inl rfl

/-- An early `return` is forgotten: `->(v) { return 1 if v; "s" }` is said to give a String (callable_body.rs L264-276 keeps the value
of the last statement only). -/
theorem c67_early_return_fails :
    Misjudged ⟨true, params1 "v", [.ifN (.read "v") [.ret [int1]] [], strS]⟩ [] noCaps noCapture [intTy] [V1.int] :=
  ⟨⟨true, [req "v"], [], .lit stringTy, 1⟩, stringTy, V1.int, by decide +kernel, by decide +kernel, .cons int_desc .nil,
    called_one (.stop (.ifThen .read (.last (.ret (.arg (.lit int_desc (by simp)) .noArgs)))) (by simp [Res.kind])) (.inr (.inr ⟨rfl, rfl⟩)), int_not_string⟩

/-- … and an early `next`. -/
theorem c67_early_next_fails :
    Misjudged ⟨true, params1 "v", [.ifN (.read "v") [.nxt [int1]] [], strS]⟩ [] noCaps noCapture [intTy] [V1.int] :=
  ⟨⟨true, [req "v"], [], .lit stringTy, 1⟩, stringTy, V1.int, by decide +kernel, by decide +kernel, .cons int_desc .nil,
    called_one (.stop (.ifThen .read (.last (.nxt (.arg (.lit int_desc (by simp)) .noArgs)))) (by simp [Res.kind])) (.inr (.inl rfl)), int_not_string⟩

/-- An assignment in a condition is not seen: `->(v) { x = "s"; 1 if x = v; x }` (L327-399 do not lower the predicate). -/
theorem c67_condition_fails :
    Misjudged ⟨true, params1 "v", [.write "x" strS, .ifN (.write "x" (.read "v")) [int1] [], .read "x"]⟩ [] noCaps noCapture [intTy] [V1.int] :=
  ⟨⟨true, [req "v"], [], .lit stringTy, 1⟩, stringTy, V1.int, by decide +kernel, by decide +kernel, .cons int_desc .nil,
    called_one (.step (.write (.lit (v := V1.lit litS) str_desc (by rintro l h; cases h; rfl)))
      (.step (.ifThen (.write .read) (.last (.lit int_desc (by simp)))) (.last .read))) (.inl rfl), int_not_string⟩

/-- `&.` is lowered like `.`: `->(v) { v&.to_s }` with nil is said to give a String (L437-463 do not look at the operator). -/
theorem c67_safe_navigation_fails :
    Misjudged ⟨true, params1 "v", [.call (.read "v") "to_s" [] true]⟩ [] noCaps noCapture [nilTy] [V1.nil] := by
  refine ⟨⟨true, [req "v"], [], .call (.param 0) "to_s" [] [], 2⟩, stringTy, V1.nil, by decide +kernel, by decide +kernel, .cons (.inl rfl) .nil, called_one (.last (.skipped .read (.inl rfl) ?_)) (.inl rfl), nil_not_string⟩
  intro h
  cases h

/-- A variable behind `;` is taken for a captured one of the same name: `b = 1; ->(v; b) { b }` is said to give an Integer
(L195-201 read `parameters()` of the `BlockParametersNode` and not its `locals()`). -/
theorem c67_block_local_fails :
    Misjudged ⟨true, .list [some "v"] [] none ["b"], [.read "b"]⟩ ["b"] (fun _ => V1.int) (fun _ => some intTy) [intTy] [V1.int] := by
  refine ⟨⟨true, [req "v"], ["b"], .capture "b", 1⟩, intTy, V1.nil, by decide +kernel, by decide +kernel, .cons int_desc .nil, ⟨[.required "v"], Vars.set (W := world1) (fun _ => V1.int) "b" V1.nil, _, _, .val V1.nil, [V1.int], rfl, ?_,
    .inl ⟨rfl, ?_⟩, .required .done, .last .read, .inl rfl⟩, nil_not_int⟩
  · intro x
    by_cases h : x = "b"
    · subst h
      simp only [Params.blockLocals, List.mem_singleton, and_self, if_true, Vars.set]
      exact .inl rfl
    · rw [if_neg (by rintro ⟨-, hx⟩; exact h (List.mem_singleton.mp hx))]
      exact if_neg h
  · rintro ⟨⟨h, -⟩, -⟩; cases h

/-- A branch that always leaves, but not with a `return` at its end, is dropped with the early `return` in it:
`->(v) { if v then (return 1 if v; raise) else "s" end }` (L113-142). -/
theorem c67_dropped_branch_fails :
    Misjudged ⟨true, params1 "v", [.ifN (.read "v") [.ifN (.read "v") [.ret [int1]] [], .other (.call none "raise" [] none) false] [strS]]⟩ [] noCaps noCapture
      [intTy] [V1.int] :=
  ⟨⟨true, [req "v"], [], .lit stringTy, 1⟩, stringTy, V1.int, by decide +kernel, by decide +kernel, .cons int_desc .nil,
    called_one (.last (.ifThen .read (.stop (.ifThen .read (.last (.ret (.arg (.lit int_desc (by simp)) .noArgs)))) (by simp [Res.kind]))))
      (.inr (.inr ⟨rfl, rfl⟩)), int_not_string⟩

/-- An assignment in an interpolation is not seen: `->(v) { x = "s"; "#{x = v}"; x }`. -/
theorem c67_interpolation_fails :
    Misjudged ⟨true, params1 "v", [.write "x" strS, .interp stringTy [.write "x" (.read "v")], .read "x"]⟩ [] noCaps noCapture [intTy] [V1.int] :=
  ⟨⟨true, [req "v"], [], .lit stringTy, 1⟩, stringTy, V1.int, by decide +kernel, by decide +kernel, .cons int_desc .nil,
    called_one (.step (.write (.lit (v := V1.lit litS) str_desc (by rintro l h; cases h; rfl)))
      (.step (.interp (v := V1.lit litS) (.arg (.write .read) .noArgs) str_desc) (.last .read))) (.inl rfl), int_not_string⟩

/-- An assignment in a default is taken to happen in every call: `->(a = b = 1) { b }` with an argument gives nil. -/
theorem c67_default_fails :
    Misjudged ⟨true, .list [] [("a", .write "b" int1)] none [], [.read "b"]⟩ [] noCaps noCapture [intTy] [V1.int] := by
  refine ⟨⟨true, [opt "a" (.lit intTy)], [], .lit intTy, 2⟩, intTy, V1.nil, by decide +kernel, by decide +kernel, .cons int_desc .nil, ⟨[.optional "a" (.write "b" int1)], noCaps, _, _, .val V1.nil, [V1.int], rfl, ?_,
    .inl ⟨rfl, ?_⟩, .optional .done, .last .read, .inl rfl⟩, nil_not_int⟩
  · intro x
    rw [if_neg (by rintro ⟨-, h⟩; cases h)]
  · rintro ⟨⟨h, -⟩, -⟩; cases h

end Verif.Lowering
