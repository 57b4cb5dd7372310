import Verif.Lemmas.FlowSound
/-!
The types that the tracker computes are fine, and unions of fine types are exact.
-/
namespace Verif.FlowTypes
open Verif.Types

variable {W : World} {s : Bool}

theorem fine_unknown : Fine W s .unknown :=
  ⟨⟨_, .self (by simp)⟩, by rintro u h; cases h; exact ⟨(by intro us h; cases h), rfl⟩, fun _ => .inl rfl⟩

theorem fine_nil : Fine W s nilTy := by
  refine ⟨⟨_, .self (by simp [nilTy])⟩, ?_, fun _ => .inr ?_⟩
  · rintro u h; cases h; exact ⟨(by intro us h; cases h), rfl⟩
  · rintro u h; cases h; exact .inl rfl

theorem fine_getD {E : Env} (hE : FineEnv W s E) (x : Nat) : Fine W s ((E x).getD nilTy) ∧ Fine W s ((E x).getD .unknown) := by
  cases h : E x with
  | none => exact ⟨fine_nil, fine_unknown⟩
  | some t => exact ⟨hE x t h, hE x t h⟩

theorem no_shapes {l : List Ty} (h : ∀ t ∈ l, Fine W s t) : ¬ ManyShapes (· ∈ flatten l) := by
  rintro ⟨m, -, hl, hm⟩
  cases m with
  | nil => simp at hl
  | cons a m =>
    obtain ⟨h1, fs, r, o, z, d, rfl⟩ := hm a (.head _)
    obtain ⟨t, ht, hu⟩ := mem_flatten.mp h1
    have := ((h t ht).2.1 _ hu).2
    simp [Ty.isShape] at this

theorem flatten_ne_nil {l : List Ty} (h : ∀ t ∈ l, Fine W s t) (hl : l ≠ []) : flatten l ≠ [] := by
  obtain ⟨t, ht⟩ := List.exists_mem_of_ne_nil l hl
  obtain ⟨u, hu⟩ := (h t ht).1
  intro e
  have : u ∈ flatten l := mem_flatten.mpr ⟨t, ht, hu⟩
  rw [e] at this
  cases this

/-- A union of fine types describes exactly what its members describe. -/
theorem union_exact {l : List Ty} (h : ∀ t ∈ l, Fine W s t) (hl : l ≠ []) {v : W.V} :
    Desc W.toWorld (mkUnion l) v ↔ ∃ t ∈ l, Desc W.toWorld t v := by
  constructor
  · intro hd
    rw [← descAny_iff, ← desc_flatten, descAny_iff]
    rw [mkUnion_eq] at hd
    rcases finish_cases (flatten l) with ⟨e, h1 | h1 | h1⟩ | ⟨-, -, t, e, ht⟩ | ⟨-, -, -, e⟩
    · exact ⟨_, h1, by simp [Desc]⟩
    · exact absurd h1 (flatten_ne_nil h hl)
    · exact absurd h1 (no_shapes h)
    · rw [e] at hd
      exact ⟨t, (ht t).mpr rfl, hd⟩
    · rw [e] at hd
      obtain ⟨u, hu, hd⟩ := descAny_iff.mp hd
      exact ⟨u, mem_canon.mp hu, hd⟩
  · rintro ⟨t, ht, hd⟩
    exact desc_union_of_mem ht hd

/-- What a fine type needs of each alternative. -/
def FineAlt (W : World) (s : Bool) (u : Ty) : Prop :=
  u = .unknown ∨ (Simple u ∧ u.isShape = false ∧
    (s = true → u = nilTy ∨ u = .cls (nameOf "FalseClass") ∨ ∀ v, Desc W.toWorld u v → W.truthy v))

theorem fine_alt {t : Ty} (h : Fine W s t) {u : Ty} (hu : AltOf t u) : FineAlt W s u := by
  by_cases hn : u = .unknown
  · exact .inl hn
  · refine .inr ⟨(h.2.1 u hu).1, (h.2.1 u hu).2, fun hs => ?_⟩
    rcases h.2.2 hs with rfl | h3
    · cases hu; exact absurd rfl hn
    · exact h3 u hu

theorem fine_union_alts {l : List Ty} (h : ∀ u ∈ flatten l, FineAlt W s u) : Fine W s (mkUnion l) := by
  rw [mkUnion_eq]
  rcases finish_cases (flatten l) with ⟨e, -⟩ | ⟨hn, -, t, e, ht⟩ | ⟨hn, -, h2, e⟩
  · rw [e]; exact fine_unknown
  · rw [e]
    have hm : t ∈ flatten l := (ht t).mpr rfl
    rcases h t hm with rfl | ⟨a, b, c⟩
    · exact absurd hm hn
    · refine ⟨⟨t, .self a⟩, ?_, fun hs' => .inr ?_⟩
      · rintro u hu
        rw [altOf_simple a] at hu
        subst hu; exact ⟨a, b⟩
      · rintro u hu
        rw [altOf_simple a] at hu
        subst hu; exact c hs'
  · rw [e]
    refine ⟨?_, ?_, fun hs => .inr ?_⟩
    · cases hc : canon (flatten l) with
      | nil => rw [hc] at h2; simp at h2
      | cons a m => exact ⟨a, .member (.head _)⟩
    · intro u hu
      have hm := mem_canon.mp (altOf_union.mp hu)
      rcases h u hm with rfl | ⟨a, b, c⟩
      · exact absurd hm hn
      · exact ⟨a, b⟩
    · intro u hu
      have hm := mem_canon.mp (altOf_union.mp hu)
      rcases h u hm with rfl | ⟨a, b, c⟩
      · exact absurd hm hn
      · exact c hs

theorem fine_union {l : List Ty} (h : ∀ t ∈ l, Fine W s t) : Fine W s (mkUnion l) := by
  refine fine_union_alts ?_
  intro u hu
  obtain ⟨t, ht, ha⟩ := mem_flatten.mp hu
  exact fine_alt (h t ht) ha

/-- A union of some of the members of a fine union, and of fine types. -/
theorem fine_some {ts l : List Ty} (h : Fine W s (.union ts)) (hl : ∀ t ∈ l, t ∈ ts ∨ Fine W s t) : Fine W s (mkUnion l) := by
  refine fine_union_alts ?_
  intro u hu
  obtain ⟨t, ht, ha⟩ := mem_flatten.mp hu
  rcases hl t ht with h1 | h1
  · have h2 := fine_alt h (.member h1)
    have hs : Simple t := (h.2.1 t (.member h1)).1
    rw [altOf_simple hs] at ha
    subst ha
    exact h2
  · exact fine_alt h1 ha

theorem fine_joinTypes {bs : List (Ty × Bool)} (h : ∀ b ∈ bs, Fine W s b.1) : Fine W s (joinTypes bs) := by
  simp only [joinTypes]
  split
  · exact fine_unknown
  · refine fine_union ?_
    intro t ht
    obtain ⟨b, hb, rfl⟩ := List.mem_map.mp ht
    exact h b (List.mem_filter.mp hb).1

theorem fine_merge {a b : Env} (ha : FineEnv W s a) (hb : FineEnv W s b) : FineEnv W s (merge a b) := by
  intro x t h
  unfold merge at h
  split at h
  · next t₁ t₂ e₁ e₂ =>
    split at h
    · injection h with h; subst h; exact ha x _ e₁
    · injection h with h; subst h
      refine fine_union ?_
      intro t ht
      simp only [List.mem_cons, List.not_mem_nil, or_false] at ht
      rcases ht with rfl | rfl
      · exact ha x _ e₁
      · exact hb x _ e₂
  · next t₂ e₁ e₂ =>
    injection h with h; subst h
    refine fine_union ?_
    intro t ht
    simp only [List.mem_cons, List.not_mem_nil, or_false] at ht
    rcases ht with rfl | rfl
    · exact hb x _ e₂
    · exact fine_nil
  · next t₁ e₁ e₂ =>
    injection h with h; subst h
    refine fine_union ?_
    intro t ht
    simp only [List.mem_cons, List.not_mem_nil, or_false] at ht
    rcases ht with rfl | rfl
    · exact ha x _ e₁
    · exact fine_nil
  · cases h

theorem merge_exact {a b : Env} (ha : FineEnv W s a) (hb : FineEnv W s b) {x : Nat} {v : W.V} :
    DescOpt W (merge a b x) v ↔ DescOpt W (a x) v ∨ DescOpt W (b x) v := by
  refine ⟨?_, descOpt_merge⟩
  intro h
  unfold merge at h
  split at h
  · next t₁ t₂ e₁ e₂ =>
    rw [e₁, e₂]
    split at h
    · exact .inl h
    · have := (union_exact (s := s) (l := [t₁, t₂]) (by
        intro t ht
        simp only [List.mem_cons, List.not_mem_nil, or_false] at ht
        rcases ht with rfl | rfl
        · exact ha x _ e₁
        · exact hb x _ e₂) (by simp)).mp h
      simpa [DescOpt] using this
  · next t₂ e₁ e₂ =>
    rw [e₁, e₂]
    have := (union_exact (s := s) (l := [t₂, nilTy]) (by
        intro t ht
        simp only [List.mem_cons, List.not_mem_nil, or_false] at ht
        rcases ht with rfl | rfl
        · exact hb x _ e₂
        · exact fine_nil) (by simp)).mp h
    simp only [List.mem_cons, List.not_mem_nil, or_false, exists_eq_or_imp, exists_eq_left, desc_nilTy] at this
    exact this.symm
  · next t₁ e₁ e₂ =>
    rw [e₁, e₂]
    have := (union_exact (s := s) (l := [t₁, nilTy]) (by
        intro t ht
        simp only [List.mem_cons, List.not_mem_nil, or_false] at ht
        rcases ht with rfl | rfl
        · exact ha x _ e₁
        · exact fine_nil) (by simp)).mp h
    simp only [List.mem_cons, List.not_mem_nil, or_false, exists_eq_or_imp, exists_eq_left, desc_nilTy] at this
    exact this
  · next e₁ e₂ => rw [e₁]; exact .inl h

theorem fine_foldl {l : List Env} : ∀ {e : Env}, FineEnv W s e → (∀ a ∈ l, FineEnv W s a) → FineEnv W s (l.foldl merge e) := by
  induction l with
  | nil => intro e h _; exact h
  | cons a l ih => intro e h hl; exact ih (fine_merge h (hl a (.head _))) (fun b hb => hl b (.tail _ hb))

theorem fine_join {before : Env} {bs : List (Env × Ty × Bool)} (hb : FineEnv W s before) (h : ∀ b ∈ bs, FineEnv W s b.1) :
    FineEnv W s (joinEnvs before bs) := by
  unfold joinEnvs
  have hm : ∀ a ∈ (bs.filter (fun b => !b.2.2)).map Prod.fst, FineEnv W s a := by
    intro a ha
    obtain ⟨b, hb, rfl⟩ := List.mem_map.mp ha
    exact h b (List.mem_filter.mp hb).1
  split
  · exact hb
  · next e => rw [e] at hm; exact fine_foldl (hm _ (.head _)) (fun a ha => hm a (.tail _ ha))

theorem fine_set {E : Env} {x : Nat} {t : Ty} (hE : FineEnv W s E) (ht : Fine W s t) : FineEnv W s (E.set x t) := by
  intro y u h
  simp only [Env.set] at h
  split at h
  · injection h with h; subst h; exact ht
  · exact hE y u h

theorem fine_removeNil {t : Ty} (h : Fine W s t) : Fine W s (removeNil t) := by
  unfold removeNil
  split
  · exact fine_some h (fun u hu => .inl (List.mem_filter.mp hu).1)
  · split
    · exact fine_unknown
    · exact h

theorem fine_subtract {t u : Ty} (h : Fine W s t) : Fine W s (subtract t u) := by
  unfold subtract
  split
  · exact fine_some h (fun u hu => .inl (List.mem_filter.mp hu).1)
  · split
    · exact fine_unknown
    · exact h

theorem fine_narrow {c : Expr} : ∀ {E : Env} {b : Bool}, FineTest W s c → FineEnv W s E → FineEnv W s (narrow E c b) := by
  fun_induction FineTest W s c with
  | case1 p ih => intro E b h hE; simp only [narrow]; exact ih h hE
  | case2 x i m c =>
    intro E b h hE
    simp only [narrow]
    split
    · split
      · exact fine_set hE h
      · split
        · next t e => exact fine_set hE (fine_subtract (hE _ _ e))
        · exact hE
    · exact hE
  | case3 c h1 h2 =>
    intro E b _ hE
    unfold narrow
    split
    · exact absurd rfl (h1 _)
    · split
      · exact fine_set hE fine_nil
      · split
        · next t e => exact fine_set hE (fine_removeNil (hE _ _ e))
        · exact hE
    · exact absurd rfl (h2 _ _ _ _)
    · exact hE

theorem fine_callTy {K : Know} (hK : FineKnow W s K) {t : Ty} {m : String} : Fine W s (callTy K t m) := by
  have single : ∀ u, Fine W s ((K.resolve u m).getD .unknown) := by
    intro u
    cases e : K.resolve u m with
    | none => exact fine_unknown
    | some w => exact hK.resolve _ _ _ e
  cases t with
  | unknown => exact fine_unknown
  | union ts =>
    simp only [callTy]
    cases e : unionFromProven (ts.map (fun t => K.resolve t m)) with
    | none => exact fine_unknown
    | some u =>
      obtain ⟨us, h1, h2⟩ := proven_go _ _ _ e
      simp only [Option.getD_some]
      rw [h2]
      refine fine_union ?_
      intro w hw
      have : some w ∈ ts.map (fun t => K.resolve t m) := by
        rw [h1]
        exact List.mem_map.mpr ⟨w, by simpa using hw, rfl⟩
      obtain ⟨t, -, ht⟩ := List.mem_map.mp this
      exact hK.resolve _ _ _ ht
  | _ => exact single _

theorem fine_shortCircuit {b : Bool} {l r : Ty} (hl : Fine W s l) (hr : Fine W s r) : Fine W s (shortCircuit b l r) := by
  cases l with
  | union ts =>
    refine fine_some hl ?_
    intro t ht
    rcases List.mem_append.mp ht with h | h
    · exact .inl (List.mem_filter.mp h).1
    · simp only [List.mem_singleton] at h
      subst h
      exact .inr hr
  | _ => exact fine_unknown

theorem fine_foldl_union {l : List Ty} : ∀ {t : Ty}, Fine W s t → (∀ u ∈ l, Fine W s u) →
    Fine W s (l.foldl (fun a b => mkUnion [a, b]) t) := by
  induction l with
  | nil => intro t h _; exact h
  | cons a l ih =>
    intro t h hl
    refine ih (fine_union ?_) (fun u hu => hl u (.tail _ hu))
    intro u hu
    simp only [List.mem_cons, List.not_mem_nil, or_false] at hu
    rcases hu with rfl | rfl
    · exact h
    · exact hl _ (.head _)

theorem foldl_union_exact {l : List Ty} : ∀ {t : Ty} {v : W.V}, Fine W s t → (∀ u ∈ l, Fine W s u) →
    (Desc W.toWorld (l.foldl (fun a b => mkUnion [a, b]) t) v ↔ ∃ u ∈ t :: l, Desc W.toWorld u v) := by
  induction l with
  | nil => intro t v h _; simp
  | cons a l ih =>
    intro t v h hl
    have h2 : ∀ u ∈ [t, a], Fine W s u := by
      intro u hu
      simp only [List.mem_cons, List.not_mem_nil, or_false] at hu
      rcases hu with rfl | rfl
      · exact h
      · exact hl _ (.head _)
    rw [List.foldl_cons, ih (fine_union h2) (fun u hu => hl u (.tail _ hu))]
    simp only [List.mem_cons, exists_eq_or_imp, union_exact h2 (by simp : [t, a] ≠ []), List.not_mem_nil, exists_eq_left, or_false,
      or_assoc]

theorem fine_rescueEnv {E : Env} {obs : List (Nat × Ty)} (hE : FineEnv W s E) (ho : ∀ q ∈ obs, Fine W s q.2) : FineEnv W s (rescueEnv E obs) := by
  intro x t h
  have hm : ∀ u ∈ obsOf obs x, Fine W s u := fun u hu => ho _ (mem_obsOf.mp hu)
  unfold rescueEnv observed at h
  change (match (match obsOf obs x with | [] => none | t :: l => some (l.foldl (fun a b => mkUnion [a, b]) t)) with
    | some t => some t | none => E x) = some t at h
  cases e : obsOf obs x with
  | nil => rw [e] at h; exact hE x t h
  | cons a l =>
    rw [e] at h hm
    injection h with h
    subst h
    exact fine_foldl_union (hm _ (.head _)) (fun u hu => hm u (.tail _ hu))

theorem rescueEnv_exact {E : Env} {obs : List (Nat × Ty)} (ho : ∀ q ∈ obs, Fine W s q.2) {x : Nat} (hx : ∃ t, (x, t) ∈ obs) {v : W.V} :
    DescOpt W (rescueEnv E obs x) v ↔ ∃ t, (x, t) ∈ obs ∧ Desc W.toWorld t v := by
  have hm : ∀ u ∈ obsOf obs x, Fine W s u := fun u hu => ho _ (mem_obsOf.mp hu)
  unfold rescueEnv observed
  change DescOpt W (match (match obsOf obs x with | [] => none | t :: l => some (l.foldl (fun a b => mkUnion [a, b]) t)) with
    | some t => some t | none => E x) v ↔ _
  simp only [← mem_obsOf] at hx ⊢
  cases e : obsOf obs x with
  | nil => rw [e] at hx; simp at hx
  | cons a l =>
    rw [e] at hm
    simp only [DescOpt]
    rw [foldl_union_exact (hm _ (.head _)) (fun u hu => hm u (.tail _ hu))]

/-- Everything in the result is fine. -/
structure FineRes (W : World) (s : Bool) (r : Res) : Prop where
  ty : Fine W s r.ty
  env : FineEnv W s r.env
  obs : ∀ q ∈ r.obs, Fine W s q.2
  rets : ∀ t ∈ r.rets, Fine W s t

structure FineBranches (W : World) (s : Bool) (r : Branches) : Prop where
  list : ∀ b ∈ r.list, FineEnv W s b.1 ∧ Fine W s b.2.1
  obs : ∀ q ∈ r.obs, Fine W s q.2
  rets : ∀ t ∈ r.rets, Fine W s t

theorem all_append {α : Type} {P : α → Prop} {a b : List α} (ha : ∀ x ∈ a, P x) (hb : ∀ x ∈ b, P x) : ∀ x ∈ a ++ b, P x := by
  intro x hx
  rcases List.mem_append.mp hx with h | h
  · exact ha x h
  · exact hb x h

theorem fine_andThen {a b : Res} (ha : FineRes W s a) (hb : FineRes W s b) : FineRes W s (andThen a b) :=
  ⟨hb.ty, hb.env, all_append ha.obs hb.obs, all_append ha.rets hb.rets⟩

theorem fine_withEnsure {a b : Res} (ha : FineRes W s a) (hb : FineRes W s b) : FineRes W s (withEnsure a b) :=
  ⟨ha.ty, hb.env, all_append ha.obs hb.obs, all_append ha.rets hb.rets⟩

theorem fine_branch {c : Expr} {b d₁ d₂ : Bool} {p r₁ r₂ : Res} (hc : FineTest W s c) (hp : FineRes W s p) (h₁ : FineRes W s r₁)
    (h₂ : FineRes W s r₂) : FineRes W s (branchRes c b d₁ d₂ p r₁ r₂) := by
  refine ⟨fine_joinTypes ?_, ?_, all_append (all_append hp.obs h₁.obs) h₂.obs, all_append (all_append hp.rets h₁.rets) h₂.rets⟩
  · intro b hb
    simp only [List.mem_cons, List.not_mem_nil, or_false] at hb
    rcases hb with rfl | rfl
    · exact h₁.ty
    · exact h₂.ty
  · simp only [branchRes, branchEnv]
    split
    · exact hp.env
    · exact fine_narrow hc h₂.env
    · exact fine_narrow hc h₁.env
    · exact fine_merge h₁.env h₂.env

theorem fine_case {before : Env} {p last : Res} {bs : Branches} {d : Bool} (hE : FineEnv W s before) (hp : FineRes W s p)
    (hb : FineBranches W s bs) (hl : FineRes W s last) : FineRes W s (caseRes before p bs last d) := by
  have all : ∀ b ∈ bs.list ++ [(last.env, last.ty, d)], FineEnv W s b.1 ∧ Fine W s b.2.1 :=
    all_append hb.list (by intro b hb; simp only [List.mem_singleton] at hb; subst hb; exact ⟨hl.env, hl.ty⟩)
  refine ⟨fine_joinTypes ?_, fine_join hE (fun b hb => (all b hb).1), all_append (all_append hp.obs hb.obs) hl.obs,
    all_append (all_append hp.rets hb.rets) hl.rets⟩
  intro b hb
  obtain ⟨x, hx, rfl⟩ := List.mem_map.mp hb
  exact (all x hx).2

theorem fine_begin {before : Env} {n : Res} {bs : Branches} {d : Bool} (hE : FineEnv W s before) (hn : FineRes W s n)
    (hb : FineBranches W s bs) : FineRes W s (beginRes before n d bs) := by
  have all : ∀ b ∈ (n.env, n.ty, d) :: bs.list, FineEnv W s b.1 ∧ Fine W s b.2.1 := by
    intro b hm
    rcases List.mem_cons.mp hm with rfl | h
    · exact ⟨hn.env, hn.ty⟩
    · exact hb.list b h
  refine ⟨fine_joinTypes ?_, fine_join hE (fun b hb => (all b hb).1), all_append hn.obs hb.obs, all_append hn.rets hb.rets⟩
  intro b hb
  obtain ⟨x, hx, rfl⟩ := List.mem_map.mp hb
  exact (all x hx).2

theorem fine_short {b : Bool} {l r : Res} (hl : FineRes W s l) (hr : FineRes W s r) : FineRes W s (shortRes b l r) := by
  unfold shortRes
  split
  · exact fine_andThen hl hr
  · exact fine_andThen hl hr
  · exact hl
  · exact hl
  · exact ⟨fine_shortCircuit hl.ty hr.ty, fine_merge hl.env hr.env, all_append hl.obs hr.obs, all_append hl.rets hr.rets⟩

theorem fine_repeat {f : Env → Res} (hf : ∀ E, FineEnv W s E → FineRes W s (f E)) : ∀ (n : Nat) {r : Res}, FineRes W s r →
    FineRes W s (repeatTrack f n r)
  | 0, _, h => h
  | n + 1, r, h => by
    simp only [repeatTrack]
    refine fine_repeat hf n ?_
    have := hf _ h.env
    exact ⟨this.ty, this.env, all_append h.obs this.obs, all_append h.rets this.rets⟩

theorem fine_plain {t : Ty} {E : Env} {l : List (Nat × Ty)} (ht : Fine W s t) (hE : FineEnv W s E) : FineRes W s ⟨t, E, [], [], l⟩ :=
  ⟨ht, hE, by simp, by simp⟩

theorem fine_infer {e : Expr} {E : Env} {r : Res} (hE : FineEnv W s E) (h : isExpr e = true → FineRes W s r) : FineRes W s (inferOf e E r) := by
  unfold inferOf
  split
  · next he => exact h he
  · exact fine_plain fine_unknown hE

theorem fine_callRes {K : Know} (hK : FineKnow W s K) {r : Expr} {m : String} {E : Env} {R : Res} (hE : FineEnv W s E) (h : FineRes W s R)
    (hn : ∀ c, r = .const c → m = "new" → Fine W s (.cls (nameOf c))) : FineRes W s (callRes K r m E R) := by
  rcases callRes_cases K r m E R with ⟨c, h1, h2, e⟩ | e
  · rw [e]; exact fine_plain (hn c h1 h2) hE
  · rw [e]; exact ⟨fine_callTy hK, h.env, h.obs, h.rets⟩

mutual
theorem track_fine {K : Know} (hK : FineKnow W s K) : ∀ (e : Expr) (v : Bool), Supported W s v e → ∀ (d : Nat) (E : Env), FineEnv W s E →
    FineRes W s (track K d e E)
  | .lit t, _, h, _, E, hE => fine_plain (by simpa only [Supported] using h) hE
  | .read x i, _, _, _, E, hE => fine_plain (fine_getD hE x).2 hE
  | .write x e, _, h, d, E, hE => by
    simp only [Supported] at h
    have g := track_fine hK e true h d E hE
    refine ⟨g.ty, fine_set g.env g.ty, ?_, g.rets⟩
    refine all_append (a := (x, (E x).getD nilTy) :: (track K d e E).obs) ?_ ?_
    · intro q hq
      rcases List.mem_cons.mp hq with rfl | hq
      · exact (fine_getD hE x).1
      · exact g.obs q hq
    · intro q hq
      simp only [List.mem_singleton] at hq
      subst hq
      exact g.ty
  | .const c, _, _, _, E, hE => fine_plain (hK.const c) hE
  | .self, _, _, _, E, hE => fine_plain hK.self hE
  | .call0 r m, _, h, d, E, hE => by
    simp only [Supported] at h
    exact fine_callRes hK hE (fine_infer hE (fun hr => track_fine hK r true (h.1 hr) d E hE)) h.2.2.2
  | .call r m a, _, h, d, E, hE => by
    simp only [Supported] at h
    exact fine_callRes hK hE (fine_infer hE (fun hr => track_fine hK r true (h.1 hr) d E hE)) h.2.2.2.2
  | .seq a b, v, h, d, E, hE => by
    simp only [Supported] at h
    have g := track_fine hK a false h.1 d E hE
    exact fine_andThen g (track_fine hK b v h.2 d _ g.env)
  | .paren e, v, h, d, E, hE => track_fine hK e v h d E hE
  | .ifE c a b, v, h, d, E, hE => by
    simp only [Supported] at h
    have g := track_fine hK c false h.1 d E hE
    exact fine_branch h.2.2.2.2 g (track_fine hK a v h.2.1 d _ g.env) (track_fine hK b v h.2.2.1 d _ g.env)
  | .unlessE c a b, v, h, d, E, hE => by
    simp only [Supported] at h
    have g := track_fine hK c false h.1 d E hE
    exact fine_branch h.2.2.2.2 g (track_fine hK a v h.2.1 d _ g.env) (track_fine hK b v h.2.2.1 d _ g.env)
  | .caseE e ws l, v, h, d, E, hE => by
    simp only [Supported] at h
    have g := track_fine hK e false h.1 d E hE
    exact fine_case g.env g (trackClauses_fine hK ws v h.2.1 d _ g.env) (track_fine hK l v h.2.2 d _ g.env)
  | .loopE w c b, v, h, d, E, hE => by
    simp only [Supported] at h
    obtain ⟨-, -, -, hc, hb, -⟩ := h
    have g := track_fine hK c false hc d E hE
    have g' : FineRes W s (repeatTrack (track K (d + 1) b) (passes d) ⟨nilTy, (track K d c E).env, [], [], []⟩) :=
      fine_repeat (fun E hE => track_fine hK b false hb (d + 1) E hE) _ (fine_plain fine_nil g.env)
    exact ⟨g'.ty, fine_merge g.env g'.env, all_append g.obs g'.obs, all_append g.rets g'.rets⟩
  | .andE l r, v, h, d, E, hE => by
    simp only [Supported] at h
    have g := track_fine hK l true h.2.1 d E hE
    exact fine_short g (track_fine hK r v h.2.2 d _ g.env)
  | .orE l r, v, h, d, E, hE => by
    simp only [Supported] at h
    have g := track_fine hK l true h.2.1 d E hE
    exact fine_short g (track_fine hK r v h.2.2 d _ g.env)
  | .beginE b rs n, v, h, d, E, hE => by
    simp only [Supported] at h
    obtain ⟨h1, -, h2, -, h3⟩ := h
    have g := track_fine hK b v h1 d E hE
    have g2 := fine_begin (d := diverges b) hE g (trackClauses_fine hK rs v h2 d _ (fine_rescueEnv hE g.obs))
    exact fine_withEnsure g2 (track_fine hK n false h3 d _ g2.env)
  | .beginElse b rs l n, v, h, d, E, hE => by
    simp only [Supported] at h
    obtain ⟨h1, hl, -, h2, -, h3⟩ := h
    have g := track_fine hK b v h1 d E hE
    have g2 := fine_begin (d := diverges b || diverges l) hE (fine_andThen g (track_fine hK l v hl d _ g.env))
      (trackClauses_fine hK rs v h2 d _ (fine_rescueEnv hE g.obs))
    exact fine_withEnsure g2 (track_fine hK n false h3 d _ g2.env)
  | .rescueMod e r, v, h, d, E, hE => by
    simp only [Supported] at h
    have g := track_fine hK e v h.1 d E hE
    have g2 := track_fine hK r v h.2.2 d _ (fine_rescueEnv hE g.obs)
    refine ⟨fine_joinTypes ?_, fine_merge g.env g2.env, all_append g.obs g2.obs, all_append g.rets g2.rets⟩
    intro b hb
    simp only [List.mem_cons, List.not_mem_nil, or_false] at hb
    rcases hb with rfl | rfl
    · exact g.ty
    · exact g2.ty
  | .ret e, _, h, d, E, hE => by
    simp only [Supported] at h
    have g := fine_infer (e := e) hE (fun hr => track_fine hK e true (h.1 hr) d E hE)
    refine ⟨g.ty, g.env, g.obs, all_append g.rets ?_⟩
    intro t ht
    simp only [List.mem_singleton] at ht
    subst ht
    exact g.ty
  | .brk, _, _, _, E, hE => fine_plain fine_unknown hE
  | .nxt, _, _, _, E, hE => fine_plain fine_unknown hE
  | .opWrite _ _, _, _, _, E, hE => fine_plain fine_unknown hE
  | .other _, _, _, _, E, hE => fine_plain fine_unknown hE
theorem trackClauses_fine {K : Know} (hK : FineKnow W s K) : ∀ (ws : Clauses) (v : Bool), SupportedC W s v ws → ∀ (d : Nat) (E : Env),
    FineEnv W s E → FineBranches W s (trackClauses K d ws E)
  | .nil, _, _, _, _, _ => ⟨by simp [trackClauses], by simp [trackClauses], by simp [trackClauses]⟩
  | .cons c b l, v, h, d, E, hE => by
    simp only [SupportedC] at h
    have g := track_fine hK b v h.2.1 d E hE
    have g2 := trackClauses_fine hK l v h.2.2 d E hE
    refine ⟨?_, all_append g.obs g2.obs, all_append g.rets g2.rets⟩
    intro x hx
    rcases List.mem_cons.mp hx with rfl | hx
    · exact ⟨g.env, g.ty⟩
    · exact g2.list x hx
end

end Verif.FlowTypes
