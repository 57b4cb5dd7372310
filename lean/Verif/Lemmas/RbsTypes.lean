import Verif.Spec.RbsTypes
import Verif.Lemmas.HigherOrder
import Verif.Lemmas.YardConvert
import Mathlib.Data.List.Induction
/-!
Lemmas on the types read from RBS signatures.
-/
namespace Verif.RbsTypes
open Verif.Types
open Verif.HigherOrder (desc_union_of desc_of_union union_known list_unknown ne_unknown)
open Verif.Yard (Text Unicode splitPair isConstant Constant joinPath splitPair_path)

variable {W : World} {U : Unicode}

/-! ### unions -/

theorem members_cases (l : List Ty) : (l = [] ∧ members l = [.unknown]) ∨ (∃ t, l = [t] ∧ members l = [t]) ∨
    (∃ vs, mkUnion l = .union vs ∧ members l = vs) ∨ members l = [mkUnion l] := by
  unfold members
  split
  · exact .inl ⟨rfl, rfl⟩
  · split
    · next h => exact .inr (.inr (.inl ⟨_, h, rfl⟩))
    · exact .inr (.inr (.inr rfl))
  · exact .inr (.inl ⟨_, rfl, rfl⟩)
  · split
    · next h => exact .inr (.inr (.inl ⟨_, h, rfl⟩))
    · exact .inr (.inr (.inr rfl))

theorem desc_members_of {l : List Ty} {v : W.V} (h : DescAny W l v) : DescAny W (members l) v := by
  rcases members_cases l with ⟨rfl, -⟩ | ⟨t, rfl, e⟩ | ⟨vs, hu, e⟩ | e
  · simp [DescAny] at h
  · rw [e]; exact h
  · have := desc_union_of h
    rw [hu] at this
    rw [e]; simpa [Desc] using this
  · rw [e]; exact .inl (desc_union_of h)

theorem members_known {l : List Ty} (h : hasUnknownList (members l) = false) : ∀ t ∈ l, hasUnknown t = false := by
  rcases members_cases l with ⟨rfl, e⟩ | ⟨t, rfl, e⟩ | ⟨vs, hu, e⟩ | e
  · simp
  · rw [e] at h; exact list_unknown.mp h
  · refine union_known ?_
    rw [hu, hasUnknown]; rw [← e]; exact h
  · refine union_known ?_
    rw [e] at h; simpa [hasUnknownList] using h

theorem desc_of_members {l : List Ty} {v : W.V} (hu : hasUnknownList (members l) = false) (h : DescAny W (members l) v) : DescAny W l v := by
  rcases members_cases l with ⟨rfl, e⟩ | ⟨t, rfl, e⟩ | ⟨vs, hm, e⟩ | e
  · rw [e] at hu; simp [hasUnknownList, hasUnknown] at hu
  · rw [e] at h; exact h
  · refine desc_of_union (by rw [hm]; exact fun e => by cases e) ?_
    rw [hm, Desc, ← e]; exact h
  · rw [e] at hu h
    refine desc_of_union (ne_unknown (by simpa [hasUnknownList] using hu)) ?_
    simpa [DescAny] using h

theorem descAny_append {a b : List Ty} {v : W.V} : DescAny W (a ++ b) v ↔ DescAny W a v ∨ DescAny W b v := by
  induction a with
  | nil => simp [DescAny]
  | cons t a ih => simp [DescAny, ih, or_assoc]

theorem optional_cases (t : Ty) : (t = .unknown ∧ optional t = .unknown) ∨ (∃ ts, t = .union ts ∧ optional t = mkUnion (ts ++ [nilTy])) ∨
    (t = nilTy ∧ optional t = t) ∨ optional t = .union [t, nilTy] ∨ optional t = .union [nilTy, t] := by
  unfold Verif.Types.optional
  split
  · exact .inl ⟨rfl, rfl⟩
  · exact .inr (.inl ⟨_, rfl, rfl⟩)
  · split
    · next h => exact .inr (.inr (.inl ⟨h, rfl⟩))
    · split
      · exact .inr (.inr (.inr (.inl rfl)))
      · exact .inr (.inr (.inr (.inr rfl)))

theorem desc_optional {t : Ty} {v : W.V} (h : Desc W nilTy v ∨ Desc W t v) : Desc W (optional t) v := by
  rcases optional_cases t with ⟨rfl, e⟩ | ⟨ts, rfl, e⟩ | ⟨e', e⟩ | e | e
  · rw [e]; simp [Desc]
  · rw [e]
    refine desc_union_of (descAny_append.mpr ?_)
    rcases h with h | h
    · exact .inr (.inl h)
    · exact .inl (by simpa [Desc] using h)
  · rw [e]; subst e'; exact h.elim id id
  · rw [e]; simp only [Desc, DescAny, or_false] at h ⊢; exact h.elim .inr .inl
  · rw [e]; simp only [Desc, DescAny, or_false] at h ⊢; exact h

theorem optional_known {t : Ty} (h : hasUnknown (optional t) = false) : hasUnknown t = false := by
  rcases optional_cases t with ⟨rfl, e⟩ | ⟨ts, rfl, e⟩ | ⟨e', e⟩ | e | e
  · rw [e] at h; exact h
  · rw [e] at h
    have := union_known h
    rw [hasUnknown]
    exact list_unknown.mpr (fun t ht => this t (by simp [ht]))
  · rw [e] at h; exact h
  · rw [e] at h; simp [hasUnknown, hasUnknownList] at h; exact h.1
  · rw [e] at h; simp [hasUnknown, hasUnknownList] at h; exact h.2

theorem desc_of_optional {t : Ty} {v : W.V} (hu : hasUnknown (optional t) = false) (h : Desc W (optional t) v) : Desc W nilTy v ∨ Desc W t v := by
  rcases optional_cases t with ⟨rfl, e⟩ | ⟨ts, rfl, e⟩ | ⟨e', e⟩ | e | e
  · rw [e] at h; exact .inr h
  · rw [e] at h hu
    rcases descAny_append.mp (desc_of_union (ne_unknown hu) h) with h | h
    · exact .inr (by simpa [Desc] using h)
    · exact .inl (by simpa [DescAny] using h)
  · rw [e] at h; exact .inr h
  · rw [e] at h; simp only [Desc, DescAny, or_false] at h ⊢; exact h.elim .inr .inl
  · rw [e] at h; simp only [Desc, DescAny, or_false] at h ⊢; exact h

/-! ### names -/

theorem code_toList (s : String) : code s.toList = nameOf s := rfl

theorem joinPath_split (x : Text) (cur : Text) : joinPath (splitPair ':' ':' x cur) = cur ++ x := by
  fun_induction splitPair ':' ':' x cur with
  | case1 cur => simp [joinPath]
  | case2 c cur => simp [joinPath]
  | case3 c d s cur h ih =>
    obtain ⟨rfl, rfl⟩ := h
    cases e : splitPair ':' ':' s [] with
    | nil => have := Verif.Yard.splitPair_pos ':' ':' s []; rw [e] at this; simp at this
    | cons p l => rw [e] at ih; rw [joinPath, ih]; simp; intro h; cases h
  | case4 c d s cur h ih => rw [ih]; simp

theorem isConstant_iff {s : Text} : isConstant U s = true ↔ Constant U s := by
  cases s with
  | nil => simp [isConstant, Constant]
  | cons c r => simp [isConstant, Constant]

theorem constant_no_colon {s : Text} (h : Constant U s) : ':' ∉ s := by
  obtain ⟨c, r, rfl, hc, hr⟩ := h
  have key : U.cont ':' = false := by rw [U.contAscii _ (by decide)]; decide
  intro hm
  rcases List.mem_cons.mp hm with e | hm
  · have := U.contOfFirst _ hc; rw [← e, key] at this; cases this
  · have := hr _ hm; rw [key] at this; cases this

theorem strip_path {path : List Text} (hne : path ≠ []) (h : ∀ p ∈ path, Constant U p) : strip (joinPath path) = joinPath path := by
  cases path with
  | nil => exact absurd rfl hne
  | cons p l =>
    have hp := h p (by simp)
    have hc := constant_no_colon hp
    obtain ⟨c, r, rfl, -, -⟩ := hp
    have hcc : c ≠ ':' := fun e => hc (by simp [e])
    have : ∃ s, joinPath ((c :: r) :: l) = c :: s := by
      cases l with
      | nil => exact ⟨_, rfl⟩
      | cons q l => exact ⟨_, rfl⟩
    obtain ⟨s, e⟩ := this
    rw [e]
    unfold strip
    split
    · next h => injection h with h _; exact absurd h hcc
    · rfl

theorem strip_isPath {n : Text} {path : List Text} (h : IsPath U n path) : strip n = joinPath path := by
  obtain ⟨hne, hc, rfl | rfl⟩ := h
  · exact strip_path hne hc
  · rfl

theorem ascii_constant {s : Text} (h : s ≠ []) (h1 : ∀ c ∈ s.head?, c.toNat < 128 ∧ Verif.Yard.asciiUpper c = true)
    (h2 : ∀ c ∈ s, c.toNat < 128 ∧ Verif.Yard.asciiWord c = true) : isConstant U s = true := by
  cases s with
  | nil => exact absurd rfl h
  | cons c r =>
    have := h1 c rfl
    rw [isConstant, U.firstAscii c this.1, this.2, Bool.true_and, List.all_eq_true]
    intro d hd
    have := h2 d (by simp [hd])
    rw [U.contAscii d this.1]; exact this.2

theorem standard_constant {s : Text} (h : s ∈ standard) : isConstant U s = true := by
  refine ascii_constant ?_ ?_ ?_
  · rintro rfl; revert h; decide
  · have : ∀ s ∈ standard, ∀ c ∈ s.head?, c.toNat < 128 ∧ Verif.Yard.asciiUpper c = true := by decide
    exact this s h
  · have : ∀ s ∈ standard, ∀ c ∈ s, c.toNat < 128 ∧ Verif.Yard.asciiWord c = true := by decide
    exact this s h

/-- A name that is a path of constants is that class; any other name is unknown. -/
theorem className_path {n : Text} {path : List Text} (h : IsPath U n path) : className U n = .cls (code (joinPath path)) := by
  have hs := strip_isPath h
  obtain ⟨hne, hc, -⟩ := h
  rw [className, hs]
  split
  · rfl
  · rw [splitPair_path U hne hc, if_pos]
    rw [List.all_eq_true]
    exact fun p hp => isConstant_iff.mpr (hc p hp)

theorem isPath_of_strip {n : Text} (hc : ∀ p ∈ splitPair ':' ':' (strip n) [], Constant U p) : IsPath U n (splitPair ':' ':' (strip n) []) := by
  refine ⟨?_, hc, ?_⟩
  · intro e
    have := Verif.Yard.splitPair_pos ':' ':' (strip n) []
    rw [e] at this; simp at this
  · rw [joinPath_split, List.nil_append]
    unfold strip
    split
    · exact .inr rfl
    · exact .inl rfl

theorem className_cases (n : Text) : (∃ path, IsPath U n path ∧ className U n = .cls (code (joinPath path))) ∨
    ((∀ path, ¬ IsPath U n path) ∧ className U n = .unknown) := by
  by_cases h : ∃ path, IsPath U n path
  · obtain ⟨path, h⟩ := h
    exact .inl ⟨path, h, className_path h⟩
  · refine .inr ⟨fun path hp => h ⟨path, hp⟩, ?_⟩
    rw [className]
    split
    · next hs =>
      refine absurd ⟨_, isPath_of_strip ?_⟩ h
      have hcon : Constant U (strip n) := isConstant_iff.mp (standard_constant hs)
      rw [Verif.Yard.splitPair_end (constant_no_colon hcon)]
      simpa using hcon
    · split
      · next ha =>
        rw [List.all_eq_true] at ha
        exact absurd ⟨_, isPath_of_strip (fun p hp => isConstant_iff.mp (ha p hp))⟩ h
      · rfl

theorem strip_array {n : Text} : strip n = tArray ↔ Rbs.isArrayName n := by
  constructor
  · unfold strip
    split
    · intro e; subst e; exact .inr rfl
    · intro e; exact .inl e
  · rintro (rfl | rfl) <;> decide

theorem strip_hash {n : Text} : strip n = tHash ↔ Rbs.isHashName n := by
  constructor
  · unfold strip
    split
    · intro e; subst e; exact .inr rfl
    · intro e; exact .inl e
  · rintro (rfl | rfl) <;> decide

/-! ### lists -/

theorem convList_eq (ts : List Rbs) : convList U ts = ts.map (conv U) := by
  induction ts with
  | nil => simp [convList]
  | cons t ts ih => simp [convList, ih]

theorem convFields_eq (fs : List (Text × Bool × Rbs)) : convFields U fs = fs.map fun f => (⟨false, code f.1⟩, f.2.1, conv U f.2.2) := by
  induction fs with
  | nil => simp [convFields]
  | cons f fs ih => obtain ⟨n, o, t⟩ := f; simp [convFields, ih]

theorem convWithList_eq (σ : Text → Option Ty) (ts : List Rbs) : convWithList U σ ts = ts.map (convWith U σ) := by
  induction ts with
  | nil => simp [convWithList]
  | cons t ts ih => simp [convWithList, ih]

theorem convWithFields_eq (σ : Text → Option Ty) (fs : List (Text × Bool × Rbs)) :
    convWithFields U σ fs = fs.map fun f => (⟨false, code f.1⟩, f.2.1, convWith U σ f.2.2) := by
  induction fs with
  | nil => simp [convWithFields]
  | cons f fs ih => obtain ⟨n, o, t⟩ := f; simp [convWithFields, ih]

/-- Induction on types. -/
theorem Rbs.ind {P : Rbs → Prop} (leaf : ∀ t, (∀ n args, t ≠ .app n args) → (∀ ts, t ≠ .union ts) → (∀ ts, t ≠ .inter ts) → (∀ t', t ≠ .opt t') →
      (∀ ts, t ≠ .tuple ts) → (∀ fs, t ≠ .record fs) → P t)
    (app : ∀ n args, (∀ t ∈ args, P t) → P (.app n args)) (union : ∀ ts, (∀ t ∈ ts, P t) → P (.union ts))
    (inter : ∀ ts, P (.inter ts)) (opt : ∀ t, P t → P (.opt t)) (tuple : ∀ ts, (∀ t ∈ ts, P t) → P (.tuple ts))
    (record : ∀ fs, (∀ f ∈ fs, P f.2.2) → P (.record fs)) : ∀ t, P t := by
  intro t
  have lf : ∀ t, (∀ n args, t ≠ .app n args) ∧ (∀ ts, t ≠ .union ts) ∧ (∀ ts, t ≠ .inter ts) ∧ (∀ t', t ≠ .opt t') ∧
      (∀ ts, t ≠ .tuple ts) ∧ (∀ fs, t ≠ .record fs) → P t := fun t h => leaf t h.1 h.2.1 h.2.2.1 h.2.2.2.1 h.2.2.2.2.1 h.2.2.2.2.2
  refine Rbs.rec (motive_1 := P) (motive_2 := fun l => ∀ t ∈ l, P t) (motive_3 := fun l => ∀ f ∈ l, P f.2.2) (motive_4 := fun p => P p.2.2)
    (motive_5 := fun p => P p.2) ?_ ?_ ?_ ?_ ?_ ?_ ?_ ?_ ?_ ?_ ?_ ?_ ?_ ?_ ?_ ?_ ?_ ?_ ?_ ?_ ?_ ?_ ?_ ?_ ?_ ?_ ?_ ?_ ?_ ?_ t
  all_goals first
    | (intros; apply lf; simp; done)
    | (intro n args h; exact app n args h)
    | (intro ts h; exact union ts h)
    | (intro ts h; exact inter ts)
    | (intro ts h; exact opt ts h)
    | (intro ts h; exact tuple ts h)
    | (intro ts h; exact record ts h)
    | skip
  · intro t h; simp at h
  · intro t l h hl t' ht
    rcases List.mem_cons.mp ht with rfl | ht
    · exact h
    · exact hl t' ht
  · intro f h; simp at h
  · intro f l h hl f' hf
    rcases List.mem_cons.mp hf with rfl | hf
    · exact h
    · exact hl f' hf
  · intro _ _ h; exact h
  · intro _ _ h; exact h

/-! ### records -/

theorem descFields_iff {fs : List Field} {v : W.V} : DescFields W fs v ↔
    ∀ f ∈ fs, (f.2.1 = false → ∃ x, W.entry v (W.lit f.1) x) ∧ ∀ x, W.entry v (W.lit f.1) x → Desc W f.2.2 x := by
  induction fs with
  | nil => simp [DescFields]
  | cons f fs ih => obtain ⟨k, o, t⟩ := f; simp [DescFields, ih]

theorem recordTy_cases (fs : List Field) : recordTy fs = .unknown ∨
    ∃ gs d, recordTy fs = .shape gs none false false d ∧ gs.Perm fs ∧ (∀ f ∈ fs, hasUnknown f.2.2 = false) := by
  unfold recordTy
  split
  · next t h =>
    obtain ⟨gs, d, rfl, -, hp, -⟩ := c23_well_formed h
    have := (c23_try_new.mp h).2.2.2.1
    refine .inr ⟨gs, d, rfl, hp, fun f hf => ?_⟩
    by_contra hne
    exact this f hf ((hasUnknown_iff _).mp (by simpa using hne))
  · exact .inl rfl

theorem desc_record {R : Reading W} {fs : List (Text × Bool × Rbs)} {g : Rbs → Ty} {v : W.V}
    (hg : ∀ f ∈ fs, ∀ x, Sat R f.2.2 x → Desc W (g f.2.2) x) (h : Sat R (.record fs) v) :
    Desc W (recordTy (fs.map fun f => (⟨false, code f.1⟩, f.2.1, g f.2.2))) v := by
  rcases recordTy_cases (fs.map fun f => (⟨false, code f.1⟩, f.2.1, g f.2.2)) with e | ⟨gs, d, e, hp, -⟩
  · rw [e]; simp [Desc]
  · rw [e, Desc]
    cases h with
    | record hh hr ht ho =>
      refine ⟨hh, descFields_iff.mpr fun f hf => ?_, fun k x hx hk => ?_⟩
      · obtain ⟨f', hf', rfl⟩ := List.mem_map.mp (hp.mem_iff.mp hf)
        exact ⟨hr f' hf', fun x hx => hg f' hf' x (ht f' hf' x hx)⟩
      · obtain ⟨f, hf, rfl⟩ := ho k x hx
        exact absurd rfl (hk _ (hp.mem_iff.mpr (List.mem_map.mpr ⟨f, hf, rfl⟩)))

theorem desc_of_record {R : Reading W} {fs : List (Text × Bool × Rbs)} {g : Rbs → Ty} {v : W.V}
    (hg : ∀ f ∈ fs, ∀ x, hasUnknown (g f.2.2) = false → Desc W (g f.2.2) x → Sat R f.2.2 x)
    (hu : hasUnknown (recordTy (fs.map fun f => (⟨false, code f.1⟩, f.2.1, g f.2.2))) = false)
    (h : Desc W (recordTy (fs.map fun f => (⟨false, code f.1⟩, f.2.1, g f.2.2))) v) : Sat R (.record fs) v := by
  rcases recordTy_cases (fs.map fun f => (⟨false, code f.1⟩, f.2.1, g f.2.2)) with e | ⟨gs, d, e, hp, hk⟩
  · exact absurd e (ne_unknown hu)
  · rw [e, Desc] at h
    obtain ⟨hh, hf, ho⟩ := h
    rw [descFields_iff] at hf
    have hm : ∀ f ∈ fs, ((⟨false, code f.1⟩, f.2.1, g f.2.2) : Field) ∈ gs := fun f hf => hp.mem_iff.mpr (List.mem_map.mpr ⟨f, hf, rfl⟩)
    refine .record hh (fun f hf' => (hf _ (hm f hf')).1) (fun f hf' x hx => ?_) (fun k x hx => ?_)
    · exact hg f hf' x (hk _ (List.mem_map.mpr ⟨f, hf', rfl⟩)) ((hf _ (hm f hf')).2 x hx)
    · by_contra hne
      have := ho k x hx (fun f hf' e' => by
        obtain ⟨f', hf'', rfl⟩ := List.mem_map.mp (hp.mem_iff.mp hf')
        exact hne ⟨f', hf'', e'⟩)
      simp [DescRest] at this

/-! ### generic types -/

theorem sat_arr {params : Text → Prop} {R : Reading W} (hR : Rooted U W R params) {n : Text} {args : List Rbs} (hn : ¬ params n)
    (ha : Rbs.isArrayName n) {v : W.V} (h : Sat R (.app n args) v) : W.isArr v := by
  cases h with
  | bare h => exact hR.array n v hn ha h
  | array _ h _ => exact h
  | hash hh _ _ _ => exfalso; revert ha hh; unfold Rbs.isArrayName Rbs.isHashName; rintro (rfl | rfl) <;> decide
  | gen h _ _ _ => exact hR.array n v hn ha (hR.gen _ _ _ h)

theorem sat_hash {params : Text → Prop} {R : Reading W} (hR : Rooted U W R params) {n : Text} {args : List Rbs} (hn : ¬ params n)
    (ha : Rbs.isHashName n) {v : W.V} (h : Sat R (.app n args) v) : W.isHash v := by
  cases h with
  | bare h => exact hR.hash n v hn ha h
  | array hh _ _ => exfalso; revert ha hh; unfold Rbs.isArrayName Rbs.isHashName; rintro (rfl | rfl) <;> decide
  | hash _ h _ _ => exact h
  | gen h _ _ _ => exact hR.hash n v hn ha (hR.gen _ _ _ h)

theorem sat_name {params : Text → Prop} {R : Reading W} (hR : Rooted U W R params) {n : Text} {args : List Rbs}
    (ha : ¬ Rbs.isArrayName n) (hh : ¬ Rbs.isHashName n) {v : W.V} (h : Sat R (.app n args) v) : R.name n v := by
  cases h with
  | bare h => exact h
  | array h _ _ => exact absurd h ha
  | hash h _ _ _ => exact absurd h hh
  | gen h _ _ _ => exact hR.gen _ _ _ h

theorem desc_name {params : Text → Prop} {R : Reading W} (hR : Rooted U W R params) {n : Text} (hn : ¬ params n) {v : W.V}
    (h : R.name n v) : Desc W (className U n) v := by
  rcases className_cases (U := U) n with ⟨path, hp, e⟩ | ⟨-, e⟩
  · rw [e, Desc]; exact hR.name n path v hn hp h
  · rw [e]; simp [Desc]

theorem strip_root (s : Text) : strip (':' :: ':' :: s) = s := rfl

theorem strip_other {s : Text} (h : ∀ r, s ≠ ':' :: ':' :: r) : strip s = s := by
  unfold strip
  split
  · next r => exact absurd rfl (h r)
  · rfl

theorem className_strip {n : Text} (h : OneRoot n) : className U (strip n) = className U n := by
  have : strip (strip n) = strip n := by
    by_cases hn : ∃ r, n = ':' :: ':' :: r
    · obtain ⟨r, rfl⟩ := hn
      rw [strip_root]
      exact strip_other (fun r' e => h r' (by rw [e]; rfl))
    · have := strip_other (fun r e => hn ⟨r, e⟩)
      rw [this, this]
  simp only [className, this]

/-- The conversion of a generic type, given that of its arguments. -/
theorem desc_app {params : Text → Prop} {R : Reading W} (hR : Rooted U W R params) {n : Text} {args : List Rbs} (hn : ¬ params n)
    (h1 : OneRoot n) {g : Rbs → Ty} (hg : ∀ t ∈ args, ∀ x, Sat R t x → Desc W (g t) x) {v : W.V} (h : Sat R (.app n args) v) :
    Desc W (appTy U (strip n) (args.map g)) v := by
  unfold appTy
  split
  · next ha =>
    rw [strip_array] at ha
    have harr := sat_arr hR hn ha h
    split
    · next e he =>
      obtain ⟨t, rfl, rfl⟩ : ∃ t, args = [t] ∧ g t = e := by
        cases args with
        | nil => simp at he
        | cons a l => cases l <;> simp_all
      rw [Desc]
      refine ⟨harr, fun x hx => .inl (hg t (by simp) x ?_)⟩
      cases h with
      | array _ _ h => exact h x hx
      | gen _ h _ _ => exact absurd rfl (h ha)
    · rw [Desc]; exact ⟨harr, fun x _ => .inl (by simp [Desc])⟩
  · next ha =>
    split
    · next hh =>
      rw [strip_hash] at hh
      have hhash := sat_hash hR hn hh h
      split
      · next k e he =>
        obtain ⟨k', t, rfl, rfl, rfl⟩ : ∃ k' t, args = [k', t] ∧ g k' = k ∧ g t = e := by
          cases args with
          | nil => simp at he
          | cons a l =>
            cases l with
            | nil => simp at he
            | cons b l => cases l <;> simp_all
        rw [Desc]
        cases h with
        | hash _ _ hk ht => exact ⟨hhash, fun x y hx => ⟨.inl (hg k' (by simp) x (hk x y hx)), .inl (hg t (by simp) y (ht x y hx))⟩⟩
        | gen _ _ h _ => exact absurd rfl (h hh)
      · rw [Desc]; exact ⟨hhash, fun x y _ => ⟨.inl (by simp [Desc]), .inl (by simp [Desc])⟩⟩
    · next hh =>
      rw [className_strip h1]
      exact desc_name hR hn (sat_name hR (fun h => ha (strip_array.mpr h)) (fun h => hh (strip_hash.mpr h)) h)

theorem desc_of_name {params : Text → Prop} {R : Reading W} (hR : Exactly U W R params) {n : Text} (hn : ¬ params n) {v : W.V}
    (hu : hasUnknown (className U n) = false) (h : Desc W (className U n) v) : R.name n v := by
  rcases className_cases (U := U) n with ⟨path, hp, e⟩ | ⟨-, e⟩
  · rw [e, Desc] at h; exact hR n path v hn hp h
  · exact absurd e (ne_unknown hu)

theorem not_both {n : Text} (ha : Rbs.isArrayName n) : ¬ Rbs.isHashName n := by
  unfold Rbs.isArrayName Rbs.isHashName at *
  rcases ha with rfl | rfl <;> decide

theorem desc_of_app {params : Text → Prop} {R : Reading W} (hR : Exactly U W R params) {n : Text} {args : List Rbs} (hn : ¬ params n)
    (h1 : OneRoot n) (hc : Crisp (.app n args)) {g : Rbs → Ty} (hg : ∀ t ∈ args, ∀ x, hasUnknown (g t) = false → Desc W (g t) x → Sat R t x)
    {v : W.V} (hu : hasUnknown (appTy U (strip n) (args.map g)) = false) (h : Desc W (appTy U (strip n) (args.map g)) v) :
    Sat R (.app n args) v := by
  cases hc with
  | bare =>
    unfold appTy at h hu
    split at h
    · next ha => rw [if_pos ha] at hu; simp [hasUnknown, hasUnknownList] at hu
    · next ha =>
      rw [if_neg ha] at hu
      split at h
      · next hh => rw [if_pos hh] at hu; simp [hasUnknown, hasUnknownList] at hu
      · next hh =>
        rw [if_neg hh, className_strip h1] at hu
        rw [className_strip h1] at h
        exact .bare (desc_of_name hR hn hu h)
  | @array _ t ha =>
    unfold appTy at h hu
    rw [if_pos (strip_array.mpr ha)] at h hu
    simp only [List.map_cons, List.map_nil] at h hu
    rw [Desc] at h
    refine .array ha h.1 fun x hx => hg t (by simp) x ?_ ?_
    · simpa [hasUnknown, hasUnknownList] using hu
    · simpa [DescAny] using h.2 x hx
  | @hash _ k t ha =>
    unfold appTy at h hu
    rw [if_neg (fun e => not_both (strip_array.mp e) ha), if_pos (strip_hash.mpr ha)] at h hu
    simp only [List.map_cons, List.map_nil] at h hu
    rw [Desc] at h
    simp only [hasUnknown, hasUnknownList, Bool.or_false, Bool.or_eq_false_iff] at hu
    refine .hash ha h.1 (fun x y hx => hg k (by simp) x hu.1 ?_) (fun x y hx => hg t (by simp) y hu.2 ?_)
    · simpa [DescAny] using (h.2 x y hx).1
    · simpa [DescAny] using (h.2 x y hx).2

/-! ### types -/

theorem iface_unknown {n : Text} (h : n.head? = some '_') : isConstant U n = false := by
  cases n with
  | nil => cases h
  | cons c r =>
    simp only [List.head?_cons, Option.some.injEq] at h
    subst h
    rw [isConstant, U.firstAscii _ (by decide), show Verif.Yard.asciiUpper '_' = false by decide, Bool.false_and]

theorem descAny_map {ts : List Rbs} {g : Rbs → Ty} {v : W.V} : DescAny W (ts.map g) v ↔ ∃ t ∈ ts, Desc W (g t) v := by
  rw [descAny_iff]
  simp

/-- Without type parameters. -/
theorem conv_sound {params : Text → Prop} {R : Reading W} (hR : Rooted U W R params) : ∀ t, Closed params t → ∀ v, Sat R t v → Desc W (conv U t) v := by
  refine Rbs.ind ?_ ?_ ?_ ?_ ?_ ?_ ?_
  · intro t _ _ _ _ _ _ hc v h
    cases h with
    | cls h => cases hc with | cls hn => rw [conv]; exact desc_name hR hn h
    | iface h => cases hc with | iface hn => simp [conv, iface_unknown hn, Desc]
    | void => cases hc
    | litInt h => rw [conv, integerTy, Desc]; exact hR.int _ _ h
    | true h => simp only [conv, booleanTy, Desc, DescAny, trueTy, falseTy]; exact .inr (.inl h)
    | false h => simp only [conv, booleanTy, Desc, DescAny, trueTy, falseTy]; exact .inl h
    | _ => first | contradiction | (simp_all [conv, Desc, trueTy, falseTy, nilTy]; done)
  · intro n args ih hc v h
    cases hc with
    | app hn h1 ha =>
      rw [conv, convList_eq]
      exact desc_app hR hn h1 (fun t ht x hx => ih t ht (ha t ht) x hx) h
  · intro ts ih hc v h
    cases hc with
    | union ha =>
      cases h with
      | union ht h =>
        rw [conv, convList_eq]
        exact desc_union_of (descAny_map.mpr ⟨_, ht, ih _ ht (ha _ ht) v h⟩)
  · intro ts _ v _
    simp [conv, Desc]
  · intro t ih hc v h
    cases hc with
    | opt hc =>
      rw [conv]
      refine desc_optional ?_
      cases h with
      | optNil h => exact .inl h
      | opt h => exact .inr (ih hc v h)
  · intro ts ih hc v h
    cases hc with
    | tuple ha =>
      cases h with
      | tuple harr h =>
        rw [conv, convList_eq, Desc]
        refine ⟨harr, fun x hx => desc_members_of ?_⟩
        cases h x hx with
        | any ht h => exact descAny_map.mpr ⟨_, ht, ih _ ht (ha _ ht) x h⟩
  · intro fs ih hc v h
    cases hc with
    | record ha =>
      rw [conv, convFields_eq]
      exact desc_record (fun f hf x hx => ih f hf (ha f hf) x hx) h

theorem conv_exact {params : Text → Prop} {R : Reading W} (hR : Exactly U W R params) : ∀ t, Closed params t → Crisp t → ∀ v,
    hasUnknown (conv U t) = false → Desc W (conv U t) v → Sat R t v := by
  refine Rbs.ind ?_ ?_ ?_ ?_ ?_ ?_ ?_
  · intro t _ _ _ _ _ _ hc hcr v hu h
    cases hcr with
    | cls => cases hc with | cls hn => rw [conv] at h hu; exact .cls (desc_of_name hR hn hu h)
    | var => simp [conv, hasUnknown] at hu
    | bool =>
      simp only [conv, booleanTy, Desc, DescAny, trueTy, falseTy, or_false] at h
      exact h.elim .false .true
    | proc => exact .proc (by simpa [conv, Desc] using h)
    | litStr => simp only [conv, Desc] at h; subst h; exact .litStr
    | litSym => simp only [conv, Desc] at h; subst h; exact .litSym
    | litTrue => exact .litTrue (by simpa [conv, Desc, trueTy] using h)
    | litFalse => exact .litFalse (by simpa [conv, Desc, falseTy] using h)
    | nil => exact .nil (by simpa [conv, Desc, nilTy] using h)
    | _ => simp_all
  · intro n args ih hc hcr v hu h
    have hcr' := hcr
    cases hc with
    | app hn h1 ha =>
      rw [conv, convList_eq] at h hu
      refine desc_of_app hR hn h1 hcr (fun t ht x hx => ih t ht (ha t ht) ?_ x hx) hu h
      cases hcr with
      | bare => simp at ht
      | array _ hc1 => rw [List.mem_singleton.mp ht]; exact hc1
      | hash _ hc1 hc2 => simp at ht; rcases ht with rfl | rfl; exacts [hc1, hc2]
  · intro ts ih hc hcr v hu h
    cases hc with
    | union ha =>
      cases hcr with
      | union hcr =>
        rw [conv, convList_eq] at h hu
        obtain ⟨t, ht, h⟩ := descAny_map.mp (desc_of_union (ne_unknown hu) h)
        exact .union ht (ih t ht (ha t ht) (hcr t ht) v (union_known hu _ (List.mem_map.mpr ⟨t, ht, rfl⟩)) h)
  · intro ts _ _ v hu _
    simp [conv, hasUnknown] at hu
  · intro t ih hc hcr v hu h
    cases hc with
    | opt hc =>
      cases hcr with
      | opt hcr =>
        rw [conv] at h hu
        rcases desc_of_optional hu h with h | h
        · exact .optNil h
        · exact .opt (ih hc hcr v (optional_known hu) h)
  · intro ts ih hc hcr v hu h
    cases hc with
    | tuple ha =>
      cases hcr with
      | tuple hcr =>
        rw [conv, convList_eq] at hu h
        rw [Desc] at h
        rw [hasUnknown] at hu
        refine .tuple h.1 fun x hx => ?_
        obtain ⟨t, ht, hd⟩ := descAny_map.mp (desc_of_members hu (h.2 x hx))
        exact .any ht (ih t ht (ha t ht) (hcr t ht) x (members_known hu _ (List.mem_map.mpr ⟨t, ht, rfl⟩)) hd)
  · intro fs ih hc hcr v hu h
    cases hc with
    | record ha =>
      cases hcr with
      | record hcr =>
        rw [conv, convFields_eq] at hu h
        exact desc_of_record (fun f hf x hx => ih f hf (ha f hf) (hcr f hf) x hx) hu h

/-- The cases of `convWith` that leave the type to `conv`. -/
theorem convWith_other {σ : Text → Option Ty} {t : Rbs} (h1 : ∀ n, t ≠ .cls n) (h2 : ∀ n args, t ≠ .app n args) (h3 : ∀ n, t ≠ .var n)
    (h4 : ∀ ts, t ≠ .union ts) (h5 : ∀ t', t ≠ .opt t') (h6 : ∀ fs, t ≠ .record fs) : convWith U σ t = conv U t := by
  unfold convWith
  split <;> first | rfl | simp_all

theorem convWith_app {σ : Text → Option Ty} {n : Text} {args : List Rbs} (h : args ≠ []) :
    convWith U σ (.app n args) = appTy U (strip n) (args.map (convWith U σ)) := by
  cases args with
  | nil => exact absurd rfl h
  | cons a l => simp [convWith, convWithList_eq]

theorem convWith_bare_some {σ : Text → Option Ty} {n : Text} {u : Ty} (h : σ (strip n) = some u) : convWith U σ (.app n []) = u := by
  unfold convWith
  split
  · next h' => rw [h] at h'; injection h' with h'; exact h'.symm
  · next h' => exact absurd h (h' u rfl)

theorem convWith_bare_none {σ : Text → Option Ty} {n : Text} (h : σ (strip n) = none) : convWith U σ (.app n []) = appTy U (strip n) [] := by
  unfold convWith
  split
  · next h' => rw [h] at h'; cases h'
  · rw [convWithList]

theorem convWith_sound {params : Text → Prop} {R : Reading W} (hR : Rooted U W R params) {σ : Text → Option Ty} (hσ : Binds W R σ) :
    ∀ t, Bounded params (fun n => σ n ≠ none) t → ∀ v, Sat R t v → Desc W (convWith U σ t) v := by
  have other : ∀ t, Bounded params (fun n => σ n ≠ none) t → (∀ n, t ≠ .cls n) → (∀ n args, t ≠ .app n args) → (∀ n, t ≠ .var n) →
      (∀ ts, t ≠ .union ts) → (∀ t', t ≠ .opt t') → (∀ fs, t ≠ .record fs) → ∀ v, Sat R t v → Desc W (convWith U σ t) v := by
    intro t hb h1 h2 h3 h4 h5 h6 v h
    rw [convWith_other h1 h2 h3 h4 h5 h6]
    cases hb with
    | closed hc => exact conv_sound hR t hc v h
    | _ => simp_all
  refine Rbs.ind ?_ ?_ ?_ ?_ ?_ ?_ ?_
  · intro t h1 h2 h3 h4 h5 h6 hb v h
    by_cases hcls : ∃ n, t = .cls n
    · obtain ⟨n, rfl⟩ := hcls
      cases h with
      | cls h =>
        rw [convWith]
        cases hb with
        | cls hb =>
          cases hs : σ n with
          | some u => exact hσ n u v hs (.inl h)
          | none => exact desc_name hR (fun hp => hb.mp hp hs) h
        | closed _ h => exact absurd rfl (h n)
    · by_cases hvar : ∃ n, t = .var n
      · obtain ⟨n, rfl⟩ := hvar
        cases h with
        | var h =>
          rw [convWith]
          cases hs : σ n with
          | some u => exact hσ n u v hs (.inr h)
          | none => simp [Desc]
      · exact other t hb (fun n e => hcls ⟨n, e⟩) h1 (fun n e => hvar ⟨n, e⟩) h2 h4 h6 v h
  · intro n args ih hb v h
    cases hb with
    | bare hb hp h1 =>
      cases hs : σ (strip n) with
      | some u =>
        rw [convWith_bare_some hs]
        have hpn : params n := hb.mpr (by rw [hs]; simp)
        cases h with
        | bare h => exact hσ (strip n) u v hs (.inl (by rw [hp hpn]; exact h))
        | gen _ _ _ h => exact absurd rfl h
      | none =>
        have hpn : ¬ params n := fun hp => hb.mp hp hs
        rw [convWith_bare_none hs]
        exact desc_app (g := fun _ => .unknown) hR hpn h1 (fun t ht => by simp at ht) h
    | app hn hne h1 ha =>
      rw [convWith_app hne]
      exact desc_app hR hn h1 (fun t ht x hx => ih t ht (ha t ht) x hx) h
    | closed _ _ h => exact absurd rfl (h n args)
  · intro ts ih hb v h
    cases hb with
    | union ha =>
      cases h with
      | union ht h =>
        rw [convWith, convWithList_eq]
        exact desc_union_of (descAny_map.mpr ⟨_, ht, ih _ ht (ha _ ht) v h⟩)
    | closed _ _ _ _ h => exact absurd rfl (h ts)
  · intro ts hb v h
    exact other _ hb (by simp) (by simp) (by simp) (by simp) (by simp) (by simp) v h
  · intro t ih hb v h
    cases hb with
    | opt hc =>
      rw [convWith]
      refine desc_optional ?_
      cases h with
      | optNil h => exact .inl h
      | opt h => exact .inr (ih hc v h)
    | closed _ _ _ _ _ h => exact absurd rfl (h t)
  · intro ts ih hb v h
    exact other _ hb (by simp) (by simp) (by simp) (by simp) (by simp) (by simp) v h
  · intro fs ih hb v h
    cases hb with
    | record ha =>
      rw [convWith, convWithFields_eq]
      exact desc_record (fun f hf x hx => ih f hf (ha f hf) x hx) h
    | closed _ _ _ _ _ _ h => exact absurd rfl (h fs)

theorem convWith_exact {params : Text → Prop} {R : Reading W} (hR : Exactly U W R params) {σ : Text → Option Ty} (hσ : BindsExactly W R σ) :
    ∀ t, Bounded params (fun n => σ n ≠ none) t → Crisp t → ∀ v, hasUnknown (convWith U σ t) = false → Desc W (convWith U σ t) v → Sat R t v := by
  have other : ∀ t, Bounded params (fun n => σ n ≠ none) t → Crisp t → (∀ n, t ≠ .cls n) → (∀ n args, t ≠ .app n args) → (∀ n, t ≠ .var n) →
      (∀ ts, t ≠ .union ts) → (∀ t', t ≠ .opt t') → (∀ fs, t ≠ .record fs) → ∀ v, hasUnknown (convWith U σ t) = false →
      Desc W (convWith U σ t) v → Sat R t v := by
    intro t hb hcr h1 h2 h3 h4 h5 h6 v hu h
    rw [convWith_other h1 h2 h3 h4 h5 h6] at hu h
    cases hb with
    | closed hc => exact conv_exact hR t hc hcr v hu h
    | _ => simp_all
  refine Rbs.ind ?_ ?_ ?_ ?_ ?_ ?_ ?_
  · intro t h1 h2 h3 h4 h5 h6 hb hcr v hu h
    by_cases hcls : ∃ n, t = .cls n
    · obtain ⟨n, rfl⟩ := hcls
      rw [convWith] at hu h
      cases hb with
      | cls hb =>
        cases hs : σ n with
        | some u => rw [hs] at h; exact .cls (hσ n u v hs h).1
        | none => rw [hs] at h hu; exact .cls (desc_of_name hR (fun hp => hb.mp hp hs) hu h)
      | closed _ h => exact absurd rfl (h n)
    · by_cases hvar : ∃ n, t = .var n
      · obtain ⟨n, rfl⟩ := hvar
        rw [convWith] at hu h
        cases hs : σ n with
        | some u => rw [hs] at h; exact .var (hσ n u v hs h).2
        | none => rw [hs] at hu; simp [hasUnknown] at hu
      · exact other t hb hcr (fun n e => hcls ⟨n, e⟩) h1 (fun n e => hvar ⟨n, e⟩) h2 h4 h6 v hu h
  · intro n args ih hb hcr v hu h
    cases hb with
    | bare hb hp h1 =>
      cases hs : σ (strip n) with
      | some u =>
        rw [convWith_bare_some hs] at h
        have hpn : params n := hb.mpr (by rw [hs]; simp)
        exact .bare (by have := (hσ (strip n) u v hs h).1; rwa [hp hpn] at this)
      | none =>
        rw [convWith_bare_none hs] at h hu
        have hpn : ¬ params n := fun hp => hb.mp hp hs
        exact desc_of_app (g := fun _ => .unknown) hR hpn h1 hcr (fun t ht => by simp at ht) hu h
    | app hn hne h1 ha =>
      rw [convWith_app hne] at hu h
      refine desc_of_app hR hn h1 hcr (fun t ht x hx => ih t ht (ha t ht) ?_ x hx) hu h
      cases hcr with
      | bare => simp at ht
      | array _ hc1 => rw [List.mem_singleton.mp ht]; exact hc1
      | hash _ hc1 hc2 => simp at ht; rcases ht with rfl | rfl; exacts [hc1, hc2]
    | closed _ _ h => exact absurd rfl (h n args)
  · intro ts ih hb hcr v hu h
    cases hb with
    | union ha =>
      cases hcr with
      | union hcr =>
        rw [convWith, convWithList_eq] at h hu
        obtain ⟨t, ht, h⟩ := descAny_map.mp (desc_of_union (ne_unknown hu) h)
        exact .union ht (ih t ht (ha t ht) (hcr t ht) v (union_known hu _ (List.mem_map.mpr ⟨t, ht, rfl⟩)) h)
    | closed _ _ _ _ h => exact absurd rfl (h ts)
  · intro ts hb hcr v hu h
    exact other _ hb hcr (by simp) (by simp) (by simp) (by simp) (by simp) (by simp) v hu h
  · intro t ih hb hcr v hu h
    cases hb with
    | opt hc =>
      cases hcr with
      | opt hcr =>
        rw [convWith] at h hu
        rcases desc_of_optional hu h with h | h
        · exact .optNil h
        · exact .opt (ih hc hcr v (optional_known hu) h)
    | closed _ _ _ _ _ h => exact absurd rfl (h t)
  · intro ts ih hb hcr v hu h
    exact other _ hb hcr (by simp) (by simp) (by simp) (by simp) (by simp) (by simp) v hu h
  · intro fs ih hb hcr v hu h
    cases hb with
    | record ha =>
      cases hcr with
      | record hcr =>
        rw [convWith, convWithFields_eq] at hu h
        exact desc_of_record (fun f hf x hx => ih f hf (ha f hf) (hcr f hf) x hx) hu h
    | closed _ _ _ _ _ _ h => exact absurd rfl (h fs)

/-! ### substitutions -/

theorem convWith_none : ∀ t, convWith U (fun _ => none) t = conv U t := by
  refine Rbs.ind ?_ ?_ ?_ ?_ ?_ ?_ ?_
  · intro t h1 h2 _ h4 _ h6
    by_cases hcls : ∃ n, t = .cls n
    · obtain ⟨n, rfl⟩ := hcls; simp [convWith, conv]
    · by_cases hvar : ∃ n, t = .var n
      · obtain ⟨n, rfl⟩ := hvar; simp [convWith, conv]
      · exact convWith_other (fun n e => hcls ⟨n, e⟩) h1 (fun n e => hvar ⟨n, e⟩) h2 h4 h6
  · intro n args ih
    cases args with
    | nil => rw [convWith_bare_none rfl, conv, convList]
    | cons a l => rw [convWith_app (by simp), conv, convList_eq]; congr 1; exact List.map_congr_left ih
  · intro ts ih
    rw [convWith, conv, convWithList_eq, convList_eq]; congr 1; exact List.map_congr_left ih
  · intro ts; exact convWith_other (by simp) (by simp) (by simp) (by simp) (by simp) (by simp)
  · intro t ih; rw [convWith, conv, ih]
  · intro ts _; exact convWith_other (by simp) (by simp) (by simp) (by simp) (by simp) (by simp)
  · intro fs ih
    rw [convWith, conv, convWithFields_eq, convFields_eq]
    congr 1
    exact List.map_congr_left (fun f hf => by rw [ih f hf])

theorem returnTyWith_eq (L : Loader) (c m : Name) (s : Bool) (args : List Ty) :
    returnTyWith U L c m s args = (L.returnType c m s).map (convWith U (substitution (L.params c) args)) := by
  unfold returnTyWith
  congr 1
  funext t
  split
  · next h =>
    have : substitution (L.params c) args = fun _ => none := by
      funext n
      simp [substitution, h]
    rw [this, convWith_none]
  · rfl

theorem paramName_plain {n : Text} (h : ' ' ∉ n) : paramName n = n := by
  unfold paramName
  have := List.takeWhile_append_of_pos (p := fun c => decide (c ≠ ' ')) (l₁ := n.reverse) (l₂ := []) (fun c hc => by
    simp only [List.mem_reverse] at hc
    exact decide_eq_true (fun e => h (e ▸ hc)))
  simp only [List.append_nil, List.takeWhile_nil] at this
  rw [this, List.reverse_reverse]

theorem paramName_modified {n : Text} (h : ' ' ∉ n) (mods : Text) : paramName (mods ++ ' ' :: n) = n := by
  unfold paramName
  rw [List.reverse_append, List.reverse_cons, List.append_assoc, List.takeWhile_append_of_pos]
  · simp
  · intro c hc
    simp only [List.mem_reverse] at hc
    exact decide_eq_true (fun e => h (e ▸ hc))

/-- With distinct names every parameter has its argument. -/
theorem substitution_iff {params : List Text} {args : List Ty} (hd : (params.map paramName).Nodup) {n : Text} {t : Ty} :
    substitution params args n = some t ↔ ∃ p, (p, t) ∈ params.zip args ∧ paramName p = n := by
  unfold substitution
  have key : ∀ a b, a ∈ params.zip args → b ∈ params.zip args → paramName a.1 = paramName b.1 → a = b := by
    intro a b ha hb e
    obtain ⟨i, hi, rfl⟩ := List.getElem_of_mem ha
    obtain ⟨j, hj, rfl⟩ := List.getElem_of_mem hb
    simp only [List.length_zip] at hi hj
    have : i = j := by
      have h2 := (List.nodup_iff_injective_getElem.mp hd) (a₁ := ⟨i, by simp; omega⟩) (a₂ := ⟨j, by simp; omega⟩)
      simp only [List.getElem_map, Fin.mk.injEq] at h2
      exact h2 (by simpa using e)
    subst this; rfl
  constructor
  · intro h
    obtain ⟨p, hp, rfl⟩ := Option.map_eq_some_iff.mp h
    have h1 := List.mem_of_find?_eq_some hp
    have h2 := List.find?_some hp
    exact ⟨p.1, by simpa using h1, by simpa using h2⟩
  · rintro ⟨p, hp, rfl⟩
    cases hf : (params.zip args).reverse.find? (fun q => decide (paramName q.1 = paramName p)) with
    | none =>
      have := List.find?_eq_none.mp hf (p, t) (by simpa using hp)
      simp at this
    | some q =>
      have h1 := List.mem_of_find?_eq_some hf
      have h2 := List.find?_some hf
      have := key q (p, t) (by simpa using h1) hp (by simpa using h2)
      rw [this]; rfl

/-! ### the index -/

theorem addMethods (c c' : Name) (s : Bool) (n : Name) (ms : List Method) : ∀ (M : Name → Bool → Name → Option Method),
    ms.foldl (addMethod c) M c' s n =
      if c' = c then ((ms.reverse.find? fun m => decide (s = m.singleton ∧ n = m.name)).or (M c' s n)) else M c' s n := by
  induction ms with
  | nil => intro M; simp
  | cons m ms ih =>
    intro M
    rw [List.foldl_cons, ih]
    by_cases h : c' = c
    · simp only [h, if_true, List.reverse_cons, List.find?_append]
      cases hf : ms.reverse.find? (fun m => decide (s = m.singleton ∧ n = m.name)) with
      | some x => simp
      | none =>
        by_cases h2 : s = m.singleton ∧ n = m.name
        · simp [addMethod, h2]
        · have h3 : ¬ (s = m.singleton ∧ n = m.name) := h2
          simp [addMethod, h3]
    · simp [h, addMethod]

theorem find_reverse {α : Type} {p : α → Bool} {l : List α} {a : α} :
    l.reverse.find? p = some a ↔ ∃ pre post, l = pre ++ a :: post ∧ p a = true ∧ ∀ b ∈ post, p b = false := by
  rw [List.find?_eq_some_iff_append]
  constructor
  · rintro ⟨h, as, bs, e, hn⟩
    refine ⟨bs.reverse, as.reverse, ?_, h, fun b hb => by simpa using hn b (by simpa using hb)⟩
    have := congrArg List.reverse e
    simpa using this
  · rintro ⟨pre, post, rfl, h, hn⟩
    exact ⟨h, post.reverse, pre.reverse, by simp, fun b hb => by simpa using hn b (by simpa using hb)⟩

theorem declares_iff {d : Decl} {c : Name} {s : Bool} {m : Name} {meth : Method} : Declares d c s m meth ↔
    (if d.kind ≠ .other ∧ d.name = c then d.methods.reverse.find? (fun x => decide (s = x.singleton ∧ m = x.name)) else none) = some meth := by
  by_cases h : d.kind ≠ .other ∧ d.name = c
  · rw [if_pos h, find_reverse]
    unfold Declares
    constructor
    · rintro ⟨-, -, pre, post, e, h1, h2, h3⟩
      exact ⟨pre, post, e, by simp [h1, h2], fun b hb => decide_eq_false (fun hh => h3 b hb ⟨hh.1.symm, hh.2.symm⟩)⟩
    · rintro ⟨pre, post, e, h1, h2⟩
      have h1 := of_decide_eq_true h1
      exact ⟨h.1, h.2, pre, post, e, h1.1.symm, h1.2.symm, fun b hb hh => of_decide_eq_false (h2 b hb) ⟨hh.1.symm, hh.2.symm⟩⟩
  · rw [if_neg h]
    simp only [reduceCtorEq, iff_false]
    exact fun hd => h ⟨hd.1, hd.2.1⟩

theorem index_methods (L : Loader) (d : Decl) (c : Name) (s : Bool) (m : Name) : (L.index d).methods c s m =
    ((if d.kind ≠ .other ∧ d.name = c then d.methods.reverse.find? (fun x => decide (s = x.singleton ∧ m = x.name)) else none).or
      (L.methods c s m)) := by
  unfold Loader.index
  simp only
  by_cases hk : d.kind = .other
  · simp [hk]
  · rw [if_neg hk, addMethods]
    by_cases h : c = d.name
    · subst h; simp [hk]
    · have : ¬ d.name = c := fun e => h e.symm
      simp [h, this]

theorem load_methods (ds : List Decl) {c : Name} {s : Bool} {m : Name} {meth : Method} : (load ds).methods c s m = some meth ↔
    ∃ pre d post, ds = pre ++ d :: post ∧ Declares d c s m meth ∧ ∀ d' ∈ post, ∀ m', ¬ Declares d' c s m m' := by
  induction ds using List.reverseRecOn with
  | nil => simp [load, Loader.empty]
  | append_singleton ds d ih =>
    have e : load (ds ++ [d]) = (load ds).index d := by simp [load]
    rw [e, index_methods]
    cases hf : (if d.kind ≠ .other ∧ d.name = c then d.methods.reverse.find? (fun x => decide (s = x.singleton ∧ m = x.name)) else none) with
    | some x =>
      simp only [Option.some_or, Option.some.injEq]
      constructor
      · rintro rfl
        exact ⟨ds, d, [], rfl, declares_iff.mpr hf, by simp⟩
      · rintro ⟨pre, d', post, e, hd, hn⟩
        rcases List.eq_nil_or_concat post with rfl | ⟨post', last, rfl⟩
        · have := List.append_inj_right' e (by simp)
          injection this with this _
          subst this
          have := declares_iff.mp hd
          rw [hf] at this
          injection this
        · have : d = last := by
            have : ds ++ [d] = (pre ++ d' :: post') ++ [last] := by rw [e]; simp
            have := List.append_inj_right' this (by simp)
            injection this
          subst this
          exact absurd (declares_iff.mpr hf) (hn d (by simp) x)
    | none =>
      have hno : ∀ m', ¬ Declares d c s m m' := fun m' hd => by rw [declares_iff, hf] at hd; cases hd
      rw [Option.none_or, ih]
      constructor
      · rintro ⟨pre, d', post, rfl, hd, hn⟩
        refine ⟨pre, d', post ++ [d], by simp, hd, fun d'' h'' => ?_⟩
        rcases List.mem_append.mp h'' with h'' | h''
        · exact hn d'' h''
        · rw [List.mem_singleton.mp h'']; exact hno
      · rintro ⟨pre, d', post, e, hd, hn⟩
        rcases List.eq_nil_or_concat post with rfl | ⟨post', last, rfl⟩
        · have := List.append_inj_right' e (by simp)
          injection this with this _
          subst this
          exact absurd hd (hno _)
        · refine ⟨pre, d', post', ?_, hd, fun d'' h'' => hn d'' (by simp [h''])⟩
          have : ds ++ [d] = (pre ++ d' :: post') ++ [last] := by rw [e]; simp
          exact List.append_inj_left' this (by simp)

theorem load_decls (ds : List Decl) {c : Name} {d : Decl} : (load ds).decls c = some d ↔
    ∃ pre post, ds = pre ++ d :: post ∧ d.name = c ∧ ∀ d' ∈ post, d'.name ≠ c := by
  have key : (load ds).decls c = ds.reverse.find? (fun d => decide (c = d.name)) := by
    induction ds using List.reverseRecOn with
    | nil => simp [load, Loader.empty]
    | append_singleton ds d ih =>
      have e : load (ds ++ [d]) = (load ds).index d := by simp [load]
      rw [e]
      simp only [Loader.index, List.reverse_append, List.reverse_cons, List.reverse_nil, List.nil_append, List.singleton_append,
        List.find?_cons]
      by_cases h : c = d.name
      · simp [h]
      · simp [h, ih]
  rw [key, find_reverse]
  constructor
  · rintro ⟨pre, post, e, h, hn⟩
    exact ⟨pre, post, e, (of_decide_eq_true h).symm, fun d' hd' e' => of_decide_eq_false (hn d' hd') e'.symm⟩
  · rintro ⟨pre, post, e, h, hn⟩
    exact ⟨pre, post, e, decide_eq_true h.symm, fun d' hd' => decide_eq_false (fun e' => hn d' hd' e'.symm)⟩

/-! ### written types -/

theorem ascii_path {s : Text} (h : s ≠ []) (h1 : ∀ c ∈ s.head?, c.toNat < 128 ∧ Verif.Yard.asciiUpper c = true)
    (h2 : ∀ c ∈ s, c.toNat < 128 ∧ Verif.Yard.asciiWord c = true) : IsPath U s [s] :=
  ⟨by simp, by simpa using isConstant_iff.mp (ascii_constant h h1 h2), .inl rfl⟩

theorem ascii_class {s : Text} (h : s ≠ []) (h1 : ∀ c ∈ s.head?, c.toNat < 128 ∧ Verif.Yard.asciiUpper c = true)
    (h2 : ∀ c ∈ s, c.toNat < 128 ∧ Verif.Yard.asciiWord c = true) : className U s = .cls (code s) :=
  className_path (ascii_path h h1 h2)

/-! ### depth -/

mutual
theorem nest_of_depth : ∀ t : Ty, depthIn t ≠ 0 → ShapeNest t 1
  | .cls _, h => absurd rfl h
  | .mod _, h => absurd rfl h
  | .clsRef _, h => absurd rfl h
  | .modRef _, h => absurd rfl h
  | .lit _, h => absurd rfl h
  | .unknown, h => absurd rfl h
  | .shape _ _ _ _ _, _ => .leaf
  | .array ts, h => by
    obtain ⟨t, ht, hn⟩ := nest_of_depthList ts h
    exact .array ht hn
  | .union ts, h => by
    obtain ⟨t, ht, hn⟩ := nest_of_depthList ts h
    exact .union ht hn
  | .hash ks vs, h => by
    by_cases hk : depthList ks = 0
    · have : depthList vs ≠ 0 := by
        intro hv
        apply h
        simp [depthIn, hk, hv]
      obtain ⟨t, ht, hn⟩ := nest_of_depthList vs this
      exact .value ht hn
    · obtain ⟨t, ht, hn⟩ := nest_of_depthList ks hk
      exact .key ht hn
theorem nest_of_depthList : ∀ ts : List Ty, depthList ts ≠ 0 → ∃ t ∈ ts, ShapeNest t 1
  | [], h => absurd rfl h
  | t :: l, h => by
    by_cases ht : depthIn t = 0
    · have : depthList l ≠ 0 := by
        intro hl
        apply h
        simp [depthList, ht, hl]
      obtain ⟨t', ht', hn⟩ := nest_of_depthList l this
      exact ⟨t', by simp [ht'], hn⟩
    · exact ⟨t, by simp, nest_of_depth t ht⟩
end

end Verif.RbsTypes
