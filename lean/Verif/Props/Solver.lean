import Verif.Lemmas.Solver
/-! C32: inferred method return types solve their equations. -/
namespace Verif.Solver
open Verif.Types Verif.Tarjan

/-! ### what is kept about a solved method -/

/-- An outcome of a method solved so far. -/
structure Good (eqs : List Equation) (s : Nat → Option Out) (m : Nat) : Prop where
  sure : ∀ t, s m = some (.proven t) → Sure t
  proven : ∀ t, s m = some (.proven t) → (∀ r, ¬ HasBase eqs m (.unknown r)) ∧
    (∀ d, Depends eqs m d → ∃ u, s d = some (.proven u)) ∧
    ∃ ts, (∀ u, u ∈ ts ↔ HasBase eqs m (.proven u) ∨ ∃ d, Depends eqs m d ∧ s d = some (.proven u)) ∧ t = mkUnion ts
  least : CanonicalBases eqs → ∀ t, s m = some (.proven t) → ∀ x, AltOf t x → From eqs m x
  unknown : CanonicalBases eqs → ∀ r, s m = some (.unknown r) → ∃ d, Needs eqs m d ∧ Obstacle eqs d

theorem Good.mono {eqs : List Equation} {s s' : Nat → Option Out} {m : Nat} (h : Good eqs s m) (hm : s m ≠ none)
    (he : ∀ x o, s x = some o → s' x = some o) : Good eqs s' m := by
  have hs : s' m = s m := by
    cases hx : s m with
    | none => exact absurd hx hm
    | some o => rw [he m o hx]
  refine ⟨fun t ht => h.sure t (hs ▸ ht), fun t ht => ?_, fun hc t ht => h.least hc t (hs ▸ ht), fun hc r hr => h.unknown hc r (hs ▸ hr)⟩
  obtain ⟨h1, h2, ts, h3, h4⟩ := h.proven t (hs ▸ ht)
  refine ⟨h1, fun d hd => ?_, ts, fun u => (h3 u).trans (or_congr_right ?_), h4⟩
  · obtain ⟨u, hu⟩ := h2 d hd
    exact ⟨u, he d _ hu⟩
  · constructor
    · rintro ⟨d, hd, hu⟩; exact ⟨d, hd, he d _ hu⟩
    · rintro ⟨d, hd, hu⟩
      obtain ⟨w, hw⟩ := h2 d hd
      rw [he d _ hw] at hu; cases hu
      exact ⟨d, hd, hw⟩

theorem from_simple {eqs : List Equation} (hc : CanonicalBases eqs) {m : Nat} {x : Ty} (h : From eqs m x) : Simple x := by
  obtain ⟨d, b, _, hb, hx⟩ := h
  exact canonical_flat (hc d b hb) x hx

theorem from_dep {eqs : List Equation} {m d : Nat} {x : Ty} (h : Depends eqs m d) (hf : From eqs d x) : From eqs m x := by
  obtain ⟨d', b, hn, hb, hx⟩ := hf
  exact ⟨d', b, .head h hn, hb, hx⟩

theorem from_needs {eqs : List Equation} {m d : Nat} {x : Ty} (h : Needs eqs m d) (hf : From eqs d x) : From eqs m x := by
  obtain ⟨d', b, hn, hb, hx⟩ := hf
  exact ⟨d', b, h.trans hn, hb, hx⟩

theorem from_base {eqs : List Equation} {m : Nat} {b x : Ty} (h : HasBase eqs m (.proven b)) (hx : AltOf b x) : From eqs m x :=
  ⟨m, b, .refl, h, hx⟩

/-- If all methods solved so far are good, a proven type has all the alternatives. -/
theorem good_most {eqs : List Equation} {s : Nat → Option Out} (hc : CanonicalBases eqs) (hg : ∀ m, s m ≠ none → Good eqs s m) {m : Nat}
    {x : Ty} (hf : From eqs m x) : ∀ t, s m = some (.proven t) → AltOf t x := by
  obtain ⟨d, b, hn, hb, hx⟩ := hf
  have alts : ∀ (m : Nat) (t : Ty), s m = some (.proven t) → ∀ y, (HasBase eqs m (.proven y) ∨ ∃ d, Depends eqs m d ∧ s d = some (.proven y)) →
      ∀ x, AltOf y x → AltOf t x := by
    intro m t ht y hy x hx
    have hm : s m ≠ none := by rw [ht]; simp
    obtain ⟨_, _, ts, h3, h4⟩ := (hg m hm).proven t ht
    have hflat : ∀ z, Alts ts z → Simple z := by
      rintro z ⟨u, hu, hz⟩
      rcases (h3 u).mp hu with hu | ⟨d, hd, hu⟩
      · exact from_simple hc (from_base hu hz)
      · exact from_simple hc ((hg d (by rw [hu]; simp)).least hc u hu z hz)
    rw [h4]
    have hne : mkUnion ts ≠ .unknown := h4 ▸ ((hg m hm).sure t ht).1
    exact ((c21_alternatives hflat).2 hne x).mpr ⟨y, (h3 y).mpr hy, hx⟩
  induction hn using Relation.ReflTransGen.head_induction_on with
  | refl => intro t ht; exact alts d t ht b (.inl hb) x hx
  | @head a c e _ ih =>
    intro t ht
    obtain ⟨_, h2, _⟩ := (hg a (by rw [ht]; simp)).proven t ht
    obtain ⟨u, hu⟩ := h2 c e
    exact alts a t ht u (.inr ⟨c, e, hu⟩) x (ih u hu)

/-! ### values -/

theorem join_ne_bottom {ts : List Ty} {t : Ty} (h : t ∈ ts) : join ts ≠ .bottom := by
  unfold join
  have : ts.isEmpty = false := by cases ts <;> simp_all
  rw [this]
  simp only [Bool.false_eq_true, if_false]
  split <;> simp

theorem join_proven {ts : List Ty} {t : Ty} (h : join ts = .proven t) : t = mkUnion ts ∧ mkUnion ts ≠ .unknown := by
  unfold join at h
  split at h
  · cases h
  · split at h
    · cases h
    · cases h; exact ⟨rfl, by assumption⟩

theorem outer_ne_bottom (s : Nat → Option Out) (d : Nat) : outer s d ≠ .bottom := by
  unfold outer
  cases s d with
  | none => simp
  | some o => cases o <;> simp

theorem outer_proven {s : Nat → Option Out} {d : Nat} {t : Ty} : outer s d = .proven t ↔ s d = some (.proven t) := by
  unfold outer
  cases s d with
  | none => simp
  | some o => cases o <;> simp

/-- Values of methods: sure, with alternatives of bases they need. -/
structure Fine (eqs : List Equation) (V : Nat → Approx) (d : Nat) : Prop where
  sure : ∀ t, V d = .proven t → Sure t
  least : CanonicalBases eqs → ∀ t, V d = .proven t → ∀ x, AltOf t x → From eqs d x

theorem fine_value {eqs : List Equation} (ha : Admissible eqs) {V : Nat → Approx} {m : Nat} (h : ∀ d, Depends eqs m d → Fine eqs V d) :
    Fine eqs (value eqs V) m := by
  have E := value_eval eqs V m
  by_cases hb : Bad eqs V m
  · obtain ⟨r, hr⟩ := E.bad hb
    exact ⟨fun t ht => by simp [hr] at ht, fun _ t ht => by simp [hr] at ht⟩
  · obtain ⟨ts, h1, h2⟩ := E.good hb
    have sure : ∀ u ∈ ts, Sure u := by
      intro u hu
      rcases (h1 u).mp hu with hu | ⟨d, hd, hu⟩
      · exact ha m u hu
      · exact (h d hd).sure u hu
    refine ⟨fun t ht => ?_, fun hc t ht x hx => ?_⟩
    · rw [h2] at ht
      obtain ⟨rfl, hne⟩ := join_proven ht
      exact sure_mkUnion sure hne
    · rw [h2] at ht
      obtain ⟨rfl, hne⟩ := join_proven ht
      have hfrom : ∀ z, Alts ts z → From eqs m z := by
        rintro z ⟨u, hu, hz⟩
        rcases (h1 u).mp hu with hu | ⟨d, hd, hu⟩
        · exact from_base hu hz
        · exact from_dep hd ((h d hd).least hc u hu z hz)
      exact hfrom x (((c21_alternatives (fun z hz => from_simple hc (hfrom z hz))).2 hne x).mp hx)

theorem fine_outer {eqs : List Equation} {s : Nat → Option Out} (hg : ∀ m, s m ≠ none → Good eqs s m) (d : Nat) : Fine eqs (outer s) d := by
  refine ⟨fun t ht => ?_, fun hc t ht => ?_⟩
  · rw [outer_proven] at ht; exact (hg d (by rw [ht]; simp)).sure t ht
  · rw [outer_proven] at ht; exact (hg d (by rw [ht]; simp)).least hc t ht

theorem mix_in {comp : List Nat} {s : Nat → Option Out} {A : Nat → Approx} {d : Nat} (h : d ∈ comp) : mix comp s A d = A d := by simp [mix, h]
theorem mix_out {comp : List Nat} {s : Nat → Option Out} {A : Nat → Approx} {d : Nat} (h : d ∉ comp) : mix comp s A d = outer s d := by simp [mix, h]

theorem fine_congr {eqs : List Equation} {V W : Nat → Approx} {d : Nat} (h : V d = W d) (hf : Fine eqs V d) : Fine eqs W d :=
  ⟨fun t ht => hf.sure t (h ▸ ht), fun hc t ht => hf.least hc t (h ▸ ht)⟩

theorem fine_mix {eqs : List Equation} {comp : List Nat} {s : Nat → Option Out} (hg : ∀ m, s m ≠ none → Good eqs s m) {A : Nat → Approx}
    (hA : ∀ m ∈ comp, Fine eqs A m) (d : Nat) : Fine eqs (mix comp s A) d := by
  by_cases h : d ∈ comp
  · exact fine_congr (mix_in h).symm (hA d h)
  · exact fine_congr (mix_out h).symm (fine_outer hg d)

theorem fine_iterates {eqs : List Equation} (ha : Admissible eqs) {comp : List Nat} {s : Nat → Option Out}
    (hg : ∀ m, s m ≠ none → Good eqs s m) (j : Nat) (m : Nat) : Fine eqs ((step eqs comp s)^[j] fun _ => .bottom) m := by
  induction j generalizing m with
  | zero => exact ⟨by simp, by simp⟩
  | succ j ih =>
    rw [Function.iterate_succ_apply']
    exact fine_value ha (fun d _ => fine_mix hg (fun m _ => ih m) d)

/-! ### one component -/

/-- What is known when a component is about to be solved. -/
structure Ready (eqs : List Equation) (s : Nat → Option Out) (comp : List Nat) : Prop where
  isComp : IsComponent (graph eqs) comp
  nodup : comp.Nodup
  eqn : ∀ x ∈ comp, HasEquation eqs x
  fresh : ∀ x ∈ comp, s x = none
  good : ∀ m, s m ≠ none → Good eqs s m
  deps : ∀ x ∈ comp, ∀ d, Depends eqs x d → HasEquation eqs d → d ∈ comp ∨ s d ≠ none

theorem Ready.between {eqs : List Equation} {s : Nat → Option Out} {comp : List Nat} (R : Ready eqs s comp) {x y m : Nat} (hx : x ∈ comp)
    (hm : m ∈ comp) (hy : y ∈ graph eqs x) (hr : Reach (graph eqs) y m) : y ∈ comp := by
  refine (R.isComp.2 x hx y).mpr ⟨.single hy, hr.trans ?_⟩
  exact ((R.isComp.2 m hm x).mp hx).1

/-- At a fixed point of a component with one proven method, no method is at the bottom. -/
theorem fixed_no_bottom {eqs : List Equation} {s : Nat → Option Out} {comp : List Nat} (R : Ready eqs s comp) {A : Nat → Approx}
    (hfix : ∀ m ∈ comp, step eqs comp s A m = A m) {m : Nat} (hm : m ∈ comp) (hne : A m ≠ .bottom) {x : Nat} (hx : x ∈ comp) :
    A x ≠ .bottom := by
  have hr : Reach (graph eqs) x m := ((R.isComp.2 x hx m).mp hm).1
  revert hx
  induction hr using Relation.ReflTransGen.head_induction_on with
  | refl => intro _; exact hne
  | @head a c e hr ih =>
    intro ha
    have hc : c ∈ comp := R.between ha hm e hr
    have hcv : mix comp s A c ≠ .bottom := by rw [mix_in hc]; exact ih hc
    rw [← hfix a ha]
    have E := value_eval eqs (mix comp s A) a
    show value eqs (mix comp s A) a ≠ .bottom
    have hdep := (mem_graph.mp e).1
    by_cases hb : Bad eqs (mix comp s A) a
    · obtain ⟨r, hr⟩ := E.bad hb
      rw [hr]; simp
    · obtain ⟨ts, h1, h2⟩ := E.good hb
      rw [h2]
      cases hv : mix comp s A c with
      | bottom => exact absurd hv hcv
      | proven t => exact join_ne_bottom ((h1 t).mpr (.inr ⟨c, hdep, hv⟩))
      | unknown r => exact absurd ⟨r, .inr ⟨c, hdep, hv⟩⟩ hb

/-! ### how far alternatives have come -/

/-- Alternatives of a method that do not come from its own component. -/
def Own (eqs : List Equation) (s : Nat → Option Out) (comp : List Nat) (m : Nat) (x : Ty) : Prop :=
  (∃ b, HasBase eqs m (.proven b) ∧ AltOf b x) ∨ ∃ d u, Depends eqs m d ∧ d ∉ comp ∧ s d = some (.proven u) ∧ AltOf u x

/-- Alternatives that arrive within `k` rounds. -/
def Within (eqs : List Equation) (s : Nat → Option Out) (comp : List Nat) : Nat → Nat → Ty → Prop
  | 0, _, _ => False
  | k + 1, m, x => Own eqs s comp m x ∨ ∃ d ∈ comp, Depends eqs m d ∧ Within eqs s comp k d x

theorem within_mono {eqs : List Equation} {s : Nat → Option Out} {comp : List Nat} : ∀ (k m : Nat) (x : Ty),
    Within eqs s comp k m x → Within eqs s comp (k + 1) m x
  | 0, _, _, h => h.elim
  | _ + 1, _, _, .inl h => .inl h
  | k + 1, _, x, .inr ⟨d, hd, hdep, h⟩ => .inr ⟨d, hd, hdep, within_mono k d x h⟩

theorem within_le {eqs : List Equation} {s : Nat → Option Out} {comp : List Nat} {k k' m : Nat} {x : Ty} (hk : k ≤ k')
    (h : Within eqs s comp k m x) : Within eqs s comp k' m x := by
  induction hk with
  | refl => exact h
  | step _ ih => exact within_mono _ _ _ ih

theorem within_stable {eqs : List Equation} {s : Nat → Option Out} {comp : List Nat} {x : Ty} {k : Nat}
    (h : ∀ m ∈ comp, Within eqs s comp (k + 1) m x → Within eqs s comp k m x) :
    ∀ m ∈ comp, Within eqs s comp (k + 2) m x → Within eqs s comp (k + 1) m x := by
  rintro m hm (ho | ⟨d, hd, hdep, hw⟩)
  · exact .inl ho
  · exact .inr ⟨d, hd, hdep, h d hd hw⟩

open Classical in
/-- After as many rounds as the component has methods, nothing new arrives. -/
theorem within_bound {eqs : List Equation} {s : Nat → Option Out} {comp : List Nat} (x : Ty) : ∀ k : Nat,
    (∀ m ∈ comp, Within eqs s comp (k + 1) m x → Within eqs s comp k m x) ∨
      k < (comp.filter fun m => decide (Within eqs s comp (k + 1) m x)).length := by
  intro k
  induction k with
  | zero =>
    by_cases h : ∀ m ∈ comp, Within eqs s comp 1 m x → Within eqs s comp 0 m x
    · exact .inl h
    · push Not at h
      obtain ⟨m, hm, h1, -⟩ := h
      exact .inr (List.length_pos_of_mem (List.mem_filter.mpr ⟨hm, by simpa using h1⟩))
  | succ k ih =>
    by_cases h : ∀ m ∈ comp, Within eqs s comp (k + 2) m x → Within eqs s comp (k + 1) m x
    · exact .inl h
    · right
      push Not at h
      obtain ⟨m, hm, h1, h2⟩ := h
      have hlt : k < (comp.filter fun m => decide (Within eqs s comp (k + 1) m x)).length := by
        rcases ih with ih | ih
        · exact absurd (within_stable ih m hm h1) h2
        · exact ih
      have hsub : (comp.filter fun m => decide (Within eqs s comp (k + 1) m x)).Sublist
          (comp.filter fun m => decide (Within eqs s comp (k + 1 + 1) m x)) := by
        refine List.monotone_filter_right comp (fun a ha => ?_)
        simp only [decide_eq_true_eq] at ha ⊢
        exact within_mono _ _ _ ha
      rcases Nat.lt_or_ge (comp.filter fun m => decide (Within eqs s comp (k + 1) m x)).length
        (comp.filter fun m => decide (Within eqs s comp (k + 1 + 1) m x)).length with hl | hl
      · omega
      · have he := hsub.eq_of_length_le hl
        have : m ∈ comp.filter fun m => decide (Within eqs s comp (k + 1 + 1) m x) := List.mem_filter.mpr ⟨hm, by simpa using h1⟩
        rw [← he] at this
        exact absurd (by simpa using (List.mem_filter.mp this).2) h2

theorem within_length {eqs : List Equation} {s : Nat → Option Out} {comp : List Nat} {x : Ty} {k : Nat} (hk : comp.length ≤ k) :
    ∀ m ∈ comp, Within eqs s comp (k + 1) m x → Within eqs s comp k m x := by
  classical
  rcases within_bound (eqs := eqs) (s := s) (comp := comp) x k with h | h
  · exact h
  · have := List.length_filter_le (fun m => decide (Within eqs s comp (k + 1) m x)) comp
    omega

/-! ### a component without obstacles is solved -/

/-- Nothing a method of the component needs is an obstacle. -/
structure Clear (eqs : List Equation) (s : Nat → Option Out) (comp : List Nat) : Prop where
  canonical : CanonicalBases eqs
  clear : ∀ m ∈ comp, ∀ d, Needs eqs m d → ¬ Obstacle eqs d

section
variable {eqs : List Equation} {s : Nat → Option Out} {comp : List Nat}

theorem Clear.outer (C : Clear eqs s comp) (R : Ready eqs s comp) {m d : Nat} (hm : m ∈ comp) (hd : Depends eqs m d) (hdc : d ∉ comp) :
    ∃ u, s d = some (.proven u) ∧ ∀ x, AltOf u x ↔ From eqs d x := by
  have he : HasEquation eqs d := by
    by_contra h
    exact C.clear m hm d (.single hd) (.noEquation h)
  have hs : s d ≠ none := (R.deps m hm d hd he).resolve_left hdc
  cases ho : s d with
  | none => exact absurd ho hs
  | some o =>
    cases o with
    | proven u => exact ⟨u, rfl, fun x => ⟨(R.good d hs).least C.canonical u ho x, fun hf => good_most C.canonical R.good hf u ho⟩⟩
    | unknown r =>
      obtain ⟨d', h1, h2⟩ := (R.good d hs).unknown C.canonical r ho
      exact absurd h2 (C.clear m hm d' (.head hd h1))

theorem within_from (C : Clear eqs s comp) (R : Ready eqs s comp) : ∀ (k m : Nat) (x : Ty), m ∈ comp → Within eqs s comp k m x → From eqs m x
  | 0, _, _, _, h => h.elim
  | k + 1, m, x, hm, .inl (.inl ⟨b, hb, hx⟩) => from_base hb hx
  | k + 1, m, x, hm, .inl (.inr ⟨d, u, hd, hdc, hu, hx⟩) => by
    obtain ⟨u', hu', hx'⟩ := C.outer R hm hd hdc
    rw [hu] at hu'; cases hu'
    exact from_dep hd ((hx' x).mp hx)
  | k + 1, m, x, hm, .inr ⟨d, hd, hdep, h⟩ => from_dep hdep (within_from C R k d x hd h)

theorem from_within (C : Clear eqs s comp) (R : Ready eqs s comp) {m : Nat} {x : Ty} (hm : m ∈ comp) (h : From eqs m x) :
    ∃ k, Within eqs s comp k m x := by
  obtain ⟨d, b, hn, hb, hx⟩ := h
  revert hm
  induction hn using Relation.ReflTransGen.head_induction_on with
  | refl => intro _; exact ⟨1, .inl (.inl ⟨b, hb, hx⟩)⟩
  | @head a c e hn ih =>
    intro ha
    by_cases hc : c ∈ comp
    · obtain ⟨k, hk⟩ := ih hc
      exact ⟨k + 1, .inr ⟨c, hc, e, hk⟩⟩
    · obtain ⟨u, hu, hux⟩ := C.outer R ha e hc
      exact ⟨1, .inl (.inr ⟨c, u, e, hc, hu, (hux x).mpr ⟨d, b, hn, hb, hx⟩⟩)⟩

theorem from_known (ha : Admissible eqs) {m : Nat} {x : Ty} (h : From eqs m x) : x ≠ .unknown := by
  obtain ⟨d, b, _, hb, hx⟩ := h
  exact (sure_alt (ha d b hb) hx).1

theorem canonical_alt {t : Ty} (h : Canonical t) : ∃ x, AltOf t x := by
  cases h with
  | simple hs => exact ⟨t, .self hs⟩
  | @union us hm hl _ _ =>
    cases us with
    | nil => simp at hl
    | cons a l => exact ⟨a, .member List.mem_cons_self⟩

/-- The value of a method whose alternatives are known: the union of them, or nothing if there are none. -/
structure Shows (a : Approx) (P : Ty → Prop) : Prop where
  none : (∀ x, ¬ P x) → a = .bottom
  some : (∃ x, P x) → ∃ ts, a = .proven (mkUnion ts) ∧ mkUnion ts ≠ .unknown ∧ ∀ x, Alts ts x ↔ P x

theorem Shows.ext {a b : Approx} {P Q : Ty → Prop} (ha : Shows a P) (hb : Shows b Q) (h : ∀ x, P x ↔ Q x) : a = b := by
  by_cases hp : ∃ x, P x
  · obtain ⟨ts, h1, _, h2⟩ := ha.some hp
    obtain ⟨us, h3, _, h4⟩ := hb.some (hp.imp fun x hx => (h x).mp hx)
    rw [h1, h3, c21_union_depends_on_alternatives (ts := ts) (us := us) (fun x => by rw [h2, h4, h])]
  · push Not at hp
    rw [ha.none hp, hb.none (fun x hx => hp x ((h x).mpr hx))]

/-- One evaluation under values that show their alternatives. -/
theorem shows_value (ha : Admissible eqs) (C : Clear eqs s comp) (R : Ready eqs s comp) {A : Nat → Approx} {k : Nat}
    (hA : ∀ m ∈ comp, Shows (A m) (Within eqs s comp k m)) {m : Nat} (hm : m ∈ comp) :
    Shows (step eqs comp s A m) (Within eqs s comp (k + 1) m) := by
  have clear := C.clear m hm m .refl
  have hbad : ¬ Bad eqs (mix comp s A) m := by
    rintro ⟨r, hb | ⟨d, hd, hv⟩⟩
    · exact clear (.unknownBase r hb)
    · by_cases hdc : d ∈ comp
      · rw [mix_in hdc] at hv
        by_cases hx : ∃ x, Within eqs s comp k d x
        · obtain ⟨ts, h1, _⟩ := (hA d hdc).some hx
          rw [h1] at hv; cases hv
        · push Not at hx
          rw [(hA d hdc).none hx] at hv; cases hv
      · rw [mix_out hdc] at hv
        obtain ⟨u, hu, _⟩ := C.outer R hm hd hdc
        rw [outer_proven.mpr hu] at hv; cases hv
  obtain ⟨ts, h1, h2⟩ := (value_eval eqs (mix comp s A) m).good hbad
  -- the values of the component are unions of what has arrived
  have inner : ∀ d ∈ comp, ∀ u, A d = .proven u → (∃ x, Within eqs s comp k d x) ∧ ∀ x, AltOf u x ↔ Within eqs s comp k d x := by
    intro d hd u hu
    by_cases hx : ∃ x, Within eqs s comp k d x
    · refine ⟨hx, ?_⟩
      obtain ⟨us, h3, h4, h5⟩ := (hA d hd).some hx
      rw [h3] at hu; cases hu
      intro x
      rw [(c21_alternatives (fun z hz => from_simple C.canonical (within_from C R k d z hd ((h5 z).mp hz)))).2 h4 x]
      exact h5 x
    · push Not at hx
      rw [(hA d hd).none hx] at hu; cases hu
  have alts : ∀ x, Alts ts x ↔ Within eqs s comp (k + 1) m x := by
    intro x
    constructor
    · rintro ⟨u, hu, hx⟩
      rcases (h1 u).mp hu with hu | ⟨d, hd, hu⟩
      · exact .inl (.inl ⟨u, hu, hx⟩)
      · by_cases hdc : d ∈ comp
        · rw [mix_in hdc] at hu
          exact .inr ⟨d, hdc, hd, ((inner d hdc u hu).2 x).mp hx⟩
        · rw [mix_out hdc, outer_proven] at hu
          exact .inl (.inr ⟨d, u, hd, hdc, hu, hx⟩)
    · rintro ((⟨b, hb, hx⟩ | ⟨d, u, hd, hdc, hu, hx⟩) | ⟨d, hdc, hd, hw⟩)
      · exact ⟨b, (h1 b).mpr (.inl hb), hx⟩
      · exact ⟨u, (h1 u).mpr (.inr ⟨d, hd, by rw [mix_out hdc, outer_proven]; exact hu⟩), hx⟩
      · obtain ⟨us, h3, _, _⟩ := (hA d hdc).some ⟨x, hw⟩
        exact ⟨_, (h1 _).mpr (.inr ⟨d, hd, by rw [mix_in hdc]; exact h3⟩), ((inner d hdc _ h3).2 x).mpr hw⟩
  have nonempty : ∀ u ∈ ts, ∃ x, AltOf u x := by
    intro u hu
    rcases (h1 u).mp hu with hu | ⟨d, hd, hu⟩
    · exact canonical_alt (C.canonical m u hu)
    · by_cases hdc : d ∈ comp
      · rw [mix_in hdc] at hu
        obtain ⟨⟨x, hx⟩, h⟩ := inner d hdc u hu
        exact ⟨x, (h x).mpr hx⟩
      · obtain ⟨u', hu', hx⟩ := C.outer R hm hd hdc
        rw [mix_out hdc, outer_proven, hu'] at hu
        cases hu
        have hno := C.clear m hm d (.single hd)
        by_contra hn
        push Not at hn
        exact hno (.noBase fun x hf => hn x ((hx x).mpr hf))
  have hstep : step eqs comp s A m = join ts := h2
  constructor
  · intro hno
    rw [hstep]
    have : ts = [] := by
      cases ts with
      | nil => rfl
      | cons u l =>
        obtain ⟨x, hx⟩ := nonempty u List.mem_cons_self
        exact absurd ((alts x).mp ⟨u, List.mem_cons_self, hx⟩) (hno x)
    rw [this]; rfl
  · rintro ⟨x, hx⟩
    have hne : mkUnion ts ≠ .unknown := by
      rw [Ne, c21_unknown_iff]
      rintro (h | h | ⟨l, hl1, hl2, hl3⟩)
      · exact from_known ha (within_from C R _ _ _ hm ((alts _).mp h)) rfl
      · exact h x ((alts x).mpr hx)
      · exact clear (.manyShapes ⟨l, hl1, hl2, fun y hy => ⟨within_from C R _ _ _ hm ((alts y).mp (hl3 y hy).1), (hl3 y hy).2⟩⟩)
    refine ⟨ts, ?_, hne, alts⟩
    rw [hstep]
    obtain ⟨u, hu, _⟩ := (alts x).mpr hx
    have : ts.isEmpty = false := by cases ts <;> simp_all
    simp [join, this, hne]

theorem shows_iterates (ha : Admissible eqs) (C : Clear eqs s comp) (R : Ready eqs s comp) (k : Nat) {m : Nat} (hm : m ∈ comp) :
    Shows ((step eqs comp s)^[k] (fun _ => .bottom) m) (Within eqs s comp k m) := by
  induction k generalizing m with
  | zero => exact ⟨fun _ => rfl, fun ⟨_, h⟩ => h.elim⟩
  | succ k ih =>
    rw [Function.iterate_succ_apply']
    exact shows_value ha C R (fun m hm => ih hm) hm

theorem iterates_fixed {A : Nat → Approx} (h : ∀ m ∈ comp, step eqs comp s A m = A m) (k : Nat) :
    ∀ m ∈ comp, (step eqs comp s)^[k] A m = A m := by
  induction k with
  | zero => intro m _; rfl
  | succ k ih =>
    intro m hm
    rw [Function.iterate_succ_apply']
    show value eqs (mix comp s _) m = A m
    rw [mix_congr ih]
    exact h m hm

/-- A component without obstacles has proven types at its fixed point. -/
theorem fixed_proven (ha : Admissible eqs) (C : Clear eqs s comp) (R : Ready eqs s comp) (j : Nat)
    (hfix : ∀ m ∈ comp, step eqs comp s ((step eqs comp s)^[j] fun _ => .bottom) m = (step eqs comp s)^[j] (fun _ => .bottom) m)
    {m : Nat} (hm : m ∈ comp) : ∃ t, (step eqs comp s)^[j] (fun _ => .bottom) m = .proven t := by
  have hno := C.clear m hm m .refl
  have : ∃ x, From eqs m x := by
    by_contra h
    push Not at h
    exact hno (.noBase h)
  obtain ⟨x, hx⟩ := this
  obtain ⟨k, hk⟩ := from_within C R hm hx
  have hS := shows_iterates ha C R (k + j) hm
  obtain ⟨ts, h1, _⟩ := hS.some ⟨x, within_le (by omega) hk⟩
  rw [Function.iterate_add_apply, iterates_fixed hfix k m hm] at h1
  exact ⟨_, h1⟩

/-- The iteration of a component without obstacles converges in time. -/
theorem converges (ha : Admissible eqs) (C : Clear eqs s comp) (R : Ready eqs s comp) :
    ∀ m ∈ comp, step eqs comp s ((step eqs comp s)^[7] fun _ => .bottom) m = (step eqs comp s)^[7] (fun _ => .bottom) m := by
  have hl : comp.length ≤ 7 := by
    by_contra h
    have hne := R.isComp.1
    obtain ⟨m, hm⟩ := List.exists_mem_of_ne_nil comp hne
    refine C.clear m hm m .refl (.bigCycle ⟨comp.take 8, R.nodup.sublist (List.take_sublist _ _), by simp; omega, fun x hx => ?_⟩)
    have hx := List.mem_of_mem_take hx
    exact ⟨reach_needs ((R.isComp.2 m hm x).mp hx).1, reach_needs ((R.isComp.2 m hm x).mp hx).2⟩
  intro m hm
  have h8 := shows_value ha C R (fun m hm => shows_iterates ha C R 7 hm) hm
  exact h8.ext (shows_iterates ha C R 7 hm) (fun x => ⟨within_length hl m hm, within_mono _ _ _⟩)

theorem clear_of {m : Nat} (hc : CanonicalBases eqs) (R : Ready eqs s comp) (hm : m ∈ comp) (h : ¬ ∃ d, Needs eqs m d ∧ Obstacle eqs d) :
    Clear eqs s comp :=
  ⟨hc, fun x hx d hd ho => h ⟨d, (reach_needs ((R.isComp.2 m hm x).mp hx).1).trans hd, ho⟩⟩

/-- The outcomes at a fixed point are good. -/
theorem fixed_good (ha : Admissible eqs) (R : Ready eqs s comp) (j : Nat)
    (hfix : ∀ m ∈ comp, step eqs comp s ((step eqs comp s)^[j] fun _ => .bottom) m = (step eqs comp s)^[j] (fun _ => .bottom) m)
    {s' : Nat → Option Out} {rec : Bool}
    (hin : ∀ m ∈ comp, s' m = ((step eqs comp s)^[j] (fun _ => .bottom) m).intoOutcome rec) (hout : ∀ m, m ∉ comp → s' m = s m) :
    ∀ m ∈ comp, Good eqs s' m := by
  intro m hm
  have hF : ∀ m, Fine eqs ((step eqs comp s)^[j] fun _ => .bottom) m := fine_iterates ha R.good j
  have hprov : ∀ (C : Clear eqs s comp), ∃ t, (step eqs comp s)^[j] (fun _ => .bottom) m = .proven t := fun C => fixed_proven ha C R j hfix hm
  generalize (step eqs comp s)^[j] (fun _ => .bottom) = A at hfix hin hF hprov
  have into : ∀ (a : Approx) (t : Ty), a.intoOutcome rec = some (.proven t) → a = .proven t := by
    intro a t h
    cases a with
    | bottom => cases rec <;> simp [Approx.intoOutcome] at h
    | unknown r => cases rec <;> simp [Approx.intoOutcome] at h
    | proven u =>
      simp only [Approx.intoOutcome, Out.ofProven] at h
      split at h
      · cases h
      · cases h; rfl
  have back : ∀ d ∈ comp, ∀ t, A d = .proven t → s' d = some (.proven t) := by
    intro d hd t ht
    rw [hin d hd, ht]
    have := unionUnknown_false.mpr ((hF d).sure t ht)
    simp [Approx.intoOutcome, Out.ofProven, this]
  have same : ∀ d u, s' d = some (.proven u) ↔ mix comp s A d = .proven u := by
    intro d u
    by_cases hd : d ∈ comp
    · rw [mix_in hd]
      exact ⟨fun h => into _ _ (hin d hd ▸ h), back d hd u⟩
    · rw [mix_out hd, outer_proven, hout d hd]
  refine ⟨fun t ht => ?_, fun t ht => ?_, fun hc t ht => ?_, fun hc r hr => ?_⟩
  · exact (hF m).sure t (into _ _ (hin m hm ▸ ht))
  · have hA : A m = .proven t := into _ _ (hin m hm ▸ ht)
    have hv : value eqs (mix comp s A) m = .proven t := by rw [← hA]; exact hfix m hm
    have E := value_eval eqs (mix comp s A) m
    have hbad : ¬ Bad eqs (mix comp s A) m := by
      intro hb
      obtain ⟨r, hr⟩ := E.bad hb
      rw [hr] at hv; cases hv
    obtain ⟨ts, h1, h2⟩ := E.good hbad
    rw [h2] at hv
    refine ⟨fun r hb => hbad ⟨r, .inl hb⟩, fun d hd => ?_, ts, fun u => (h1 u).trans ?_, (join_proven hv).1⟩
    · cases hd' : mix comp s A d with
      | proven u => exact ⟨u, (same d u).mpr hd'⟩
      | unknown r => exact absurd ⟨r, .inr ⟨d, hd, hd'⟩⟩ hbad
      | bottom =>
        by_cases hdc : d ∈ comp
        · rw [mix_in hdc] at hd'
          exact absurd hd' (fixed_no_bottom R hfix hm (by rw [hA]; simp) hdc)
        · rw [mix_out hdc] at hd'
          exact absurd hd' (outer_ne_bottom s d)
    · simp only [Alt, same]
  · exact (hF m).least hc t (into _ _ (hin m hm ▸ ht))
  · by_contra h
    obtain ⟨t, ht⟩ := hprov (clear_of hc R hm h)
    rw [back m hm t ht] at hr
    cases hr

theorem component_spec (ha : Admissible eqs) (R : Ready eqs s comp) : ∃ s', solveComponent eqs s comp = some s' ∧
    (∀ x o, s x = some o → s' x = some o) ∧ (∀ x, s' x ≠ none ↔ s x ≠ none ∨ x ∈ comp) ∧ ∀ x ∈ comp, Good eqs s' x := by
  have hext : ∀ s' : Nat → Option Out, (∀ m ∈ comp, s' m ≠ none) → (∀ m, m ∉ comp → s' m = s m) →
      (∀ x o, s x = some o → s' x = some o) ∧ (∀ x, s' x ≠ none ↔ s x ≠ none ∨ x ∈ comp) := by
    intro s' h1 h2
    refine ⟨fun x o ho => ?_, fun x => ?_⟩
    · have : x ∉ comp := fun hx => by rw [R.fresh x hx] at ho; cases ho
      rw [h2 x this, ho]
    · by_cases hx : x ∈ comp
      · simp [hx, h1 x hx]
      · simp [hx, h2 x hx]
  have into_some : ∀ (j : Nat) (m : Nat) (rec : Bool), ((step eqs comp s)^[j] (fun _ => .bottom) m).intoOutcome rec ≠ none := by
    intro j m rec
    have hF := fine_iterates (comp := comp) (s := s) ha R.good j m
    cases hA : (step eqs comp s)^[j] (fun _ => .bottom) m with
    | bottom => simp [Approx.intoOutcome]
    | unknown r => simp [Approx.intoOutcome]
    | proven t =>
      have := unionUnknown_false.mpr (hF.sure t hA)
      simp [Approx.intoOutcome, Out.ofProven, this]
  unfold solveComponent
  simp only
  by_cases hrec : (decide (comp.length > 1) || comp.any fun m => (graph eqs m).contains m) = true
  · rw [hrec]
    simp only [Bool.not_true, Bool.false_eq_true, if_false]
    obtain ⟨r, hr, h1, h2⟩ := iterate_spec eqs comp s maxIterations (fun _ => .bottom)
    rw [show comp.map (fun m => (m, Approx.bottom)) = tab comp (fun _ => .bottom) from rfl, hr]
    simp only [Option.bind_some]
    cases r with
    | none =>
      obtain ⟨s', e, hi, ho⟩ := storeAll_spec (value := fun _ => some (.unknown unprovenCycle)) (v := fun _ => .unknown unprovenCycle) comp s (fun _ _ => rfl)
      refine ⟨s', e, ?_⟩
      obtain ⟨h3, h4⟩ := hext s' (fun m hm => by rw [hi m hm]; simp) ho
      refine ⟨h3, h4, fun m hm => ⟨fun t ht => ?_, fun t ht => ?_, fun _ t ht => ?_, fun hc _ _ => ?_⟩⟩
      · rw [hi m hm] at ht; cases ht
      · rw [hi m hm] at ht; cases ht
      · rw [hi m hm] at ht; cases ht
      · by_contra h
        obtain ⟨x, hx, hne⟩ := h2 rfl 7 (by simp [maxIterations])
        exact hne (converges ha (clear_of hc R hm h) R x hx)
    | some l =>
      obtain ⟨j, hj, hl, hfix⟩ := h1 l rfl
      obtain ⟨V, hV⟩ : ∃ V : Nat → Out, ∀ m, ((step eqs comp s)^[j] (fun _ => .bottom) m).intoOutcome true = some (V m) := by
        have : ∀ m, ∃ o, ((step eqs comp s)^[j] (fun _ => .bottom) m).intoOutcome true = some o :=
          fun m => Option.ne_none_iff_exists'.mp (into_some j m true)
        exact ⟨fun m => (this m).choose, fun m => (this m).choose_spec⟩
      obtain ⟨s', e, hi, ho⟩ := storeAll_spec (v := V) comp s (value := fun m =>
          match some l with
          | none => some (.unknown unprovenCycle)
          | some approx => ((approx.find? (fun p => decide (p.1 = m))).map (·.2)).bind fun a => a.intoOutcome true)
        (fun m hm => by simp only [hl, find_tab hm, Option.bind_some, hV])
      refine ⟨s', e, ?_⟩
      obtain ⟨h3, h4⟩ := hext s' (fun m hm => by rw [hi m hm]; simp) ho
      exact ⟨h3, h4, fixed_good ha R j hfix (rec := true) (fun m hm => by rw [hi m hm, hV]) ho⟩
  · rw [Bool.not_eq_true] at hrec
    rw [hrec]
    simp only [Bool.not_false, if_true]
    rw [Bool.or_eq_false_iff] at hrec
    obtain ⟨m, rfl⟩ : ∃ m, comp = [m] := by
      have hne := R.isComp.1
      cases comp with
      | nil => exact absurd rfl hne
      | cons a l =>
        cases l with
        | nil => exact ⟨a, rfl⟩
        | cons b l => simp at hrec
    have hself : ¬ Depends eqs m m := by
      intro hd
      have : m ∈ graph eqs m := mem_graph.mpr ⟨hd, R.eqn m List.mem_cons_self⟩
      simp [this] at hrec
    have hval : ∀ A, step eqs [m] s A m = value eqs (outer s) m := by
      intro A
      unfold step value
      rw [evalWith_congr]
      intro d hd
      rw [mix_out]
      simp only [List.mem_singleton]
      exact fun e => hself (e ▸ hd)
    have hev : evaluate eqs [m] [] s m = some (value eqs (outer s) m) := by
      refine evalWith_value (f := depValue [m] [] s) (fun d hd => ?_)
      have : d ≠ m := fun e => hself (e ▸ hd)
      unfold depValue outer
      simp only [List.contains_eq_mem, List.mem_singleton, this, decide_false, Bool.false_eq_true, if_false]
      cases s d with
      | none => rfl
      | some o => cases o <;> rfl
    show ∃ s', ((evaluate eqs [m] [] s m).bind fun a => (a.intoOutcome false).map fun o => put s m (some o)) = some s' ∧ _
    rw [hev]
    simp only [Option.bind_some]
    have hone : (step eqs [m] s)^[1] (fun _ => .bottom) m = value eqs (outer s) m := hval _
    have hs := into_some 1 m false
    rw [hone] at hs
    obtain ⟨o, ho⟩ := Option.ne_none_iff_exists'.mp hs
    rw [ho]
    refine ⟨_, rfl, ?_⟩
    have hi : ∀ x ∈ [m], put s m (some o) x = some o := by
      intro x hx
      simp only [List.mem_singleton] at hx
      simp [put, hx]
    have hout : ∀ x, x ∉ [m] → put s m (some o) x = s x := by
      intro x hx
      simp only [List.mem_singleton] at hx
      simp [put, hx]
    obtain ⟨h3, h4⟩ := hext _ (fun x hx => by rw [hi x hx]; simp) hout
    refine ⟨h3, h4, fixed_good ha R 1 (rec := false) (fun x hx => ?_) (fun x hx => ?_) hout⟩
    · rw [List.mem_singleton.mp hx, hone]; exact hval _
    · refine (hi x hx).trans ?_
      rw [List.mem_singleton.mp hx, hone, ho]

end

/-! ### all of them -/

theorem solveAll_spec {eqs : List Equation} (ha : Admissible eqs) (cs : List (List Nat)) : ∀ (done rest : List (List Nat)) (s : Nat → Option Out),
    cs = done ++ rest → cs.flatten.Nodup → (∀ c ∈ cs, IsComponent (graph eqs) c) → (∀ x, x ∈ cs.flatten ↔ HasEquation eqs x) →
    (∀ a c b, cs = a ++ c :: b → ∀ x ∈ c, ∀ y ∈ graph eqs x, y ∈ a.flatten ∨ y ∈ c) →
    (∀ x, s x ≠ none ↔ x ∈ done.flatten) → (∀ m, s m ≠ none → Good eqs s m) →
    ∃ s', solveAll eqs rest s = some s' ∧ (∀ x, s' x ≠ none ↔ x ∈ cs.flatten) ∧ ∀ m, s' m ≠ none → Good eqs s' m
  | done, [], s, e, _, _, _, _, hd, hg => ⟨s, rfl, by rw [e, List.append_nil]; exact hd, hg⟩
  | done, c :: rest, s, e, hn, hc, hm, ho, hd, hg => by
    have hn' := hn
    rw [e, List.flatten_append, List.flatten_cons, List.nodup_append] at hn'
    have R : Ready eqs s c := by
      refine ⟨hc c (by rw [e]; simp), (List.nodup_append.mp hn'.2.1).1, fun x hx => (hm x).mp ?_, fun x hx => ?_, hg, fun x hx d hdep he => ?_⟩
      · rw [e]; simp [hx]
      · by_contra h
        exact hn'.2.2 x ((hd x).mp h) x (List.mem_append.mpr (.inl hx)) rfl
      · rcases ho done c rest e x hx d (mem_graph.mpr ⟨hdep, he⟩) with h | h
        · exact .inr ((hd d).mpr h)
        · exact .inl h
    obtain ⟨s1, h1, h2, h3, h4⟩ := component_spec ha R
    have hg1 : ∀ m, s1 m ≠ none → Good eqs s1 m := by
      intro m hm
      rcases (h3 m).mp hm with h | h
      · exact (hg m h).mono h h2
      · exact h4 m h
    obtain ⟨s', h5, h6⟩ := solveAll_spec ha cs (done ++ [c]) rest s1 (by rw [e]; simp) hn hc hm ho
      (fun x => by rw [h3 x, hd x]; simp) hg1
    refine ⟨s', ?_, h6⟩
    unfold solveAll
    rw [h1]
    exact h5

theorem solve_spec {eqs : List Equation} (ha : Admissible eqs) : ∃ out, solve eqs = some out ∧ (∀ m, out m ≠ none ↔ HasEquation eqs m) ∧
    ∀ m, out m ≠ none → Good eqs out m := by
  obtain ⟨cs, h1, h2, h3, h4, h5⟩ := components_spec (graph eqs) (methods eqs) (fun x _ y hy => mem_methods.mpr (mem_graph.mp hy).2)
  obtain ⟨out, h6, h7, h8⟩ := solveAll_spec ha cs [] cs (fun _ => none) rfl h3 h4 (fun x => (h2 x).trans mem_methods) h5 (by simp) (by simp)
  refine ⟨out, ?_, fun m => (h7 m).trans ((h2 m).trans mem_methods), h8⟩
  unfold solve
  rw [h1]
  exact h6

/-! ### the property -/

/-- **C32**: the solver gives an outcome to exactly the methods with an equation and does not panic. -/
theorem c32_total {eqs : List Equation} (ha : Admissible eqs) : ∃ out, solve eqs = some out ∧ ∀ m, (out m).isSome ↔ HasEquation eqs m := by
  obtain ⟨out, h1, h2, _⟩ := solve_spec ha
  exact ⟨out, h1, fun m => by rw [← h2 m, Option.isSome_iff_ne_none]⟩

/-- **C32**: a proven type solves the equations of its method: nothing the method returns is unknown, everything it depends on is
proven too, and the type is the union of the bases and of those types. -/
theorem c32_proven {eqs : List Equation} (ha : Admissible eqs) {out : Nat → Option Out} (h : solve eqs = some out) {m : Nat} {t : Ty}
    (ht : out m = some (.proven t)) : t ≠ .unknown ∧ ¬ UnknownMember t ∧ (∀ r, ¬ HasBase eqs m (.unknown r)) ∧
      (∀ d, Depends eqs m d → ∃ u, out d = some (.proven u)) ∧
      ∃ ts, (∀ u, u ∈ ts ↔ HasBase eqs m (.proven u) ∨ ∃ d, Depends eqs m d ∧ out d = some (.proven u)) ∧ t = mkUnion ts := by
  obtain ⟨out', h1, _, h3⟩ := solve_spec ha
  rw [h] at h1; cases h1
  have G := h3 m (by rw [ht]; simp)
  exact ⟨(G.sure t ht).1, (G.sure t ht).2, G.proven t ht⟩

/-- **C32**: a proven type is the least solution: its alternatives are those of the proven bases of the method and of the methods it
needs. -/
theorem c32_least {eqs : List Equation} (ha : Admissible eqs) (hc : CanonicalBases eqs) {out : Nat → Option Out} (h : solve eqs = some out)
    {m : Nat} {t : Ty} (ht : out m = some (.proven t)) : Canonical t ∧ ∀ x, AltOf t x ↔ From eqs m x := by
  obtain ⟨out', h1, _, h3⟩ := solve_spec ha
  rw [h] at h1; cases h1
  have G := h3 m (by rw [ht]; simp)
  refine ⟨?_, fun x => ⟨G.least hc t ht x, fun hf => good_most hc h3 hf t ht⟩⟩
  obtain ⟨_, _, ts, h4, h5⟩ := G.proven t ht
  rw [h5]
  refine (c21_alternatives ?_).1
  rintro x ⟨u, hu, hx⟩
  rcases (h4 u).mp hu with hu | ⟨d, hd, hu⟩
  · exact from_simple hc (from_base hu hx)
  · exact from_simple hc ((h3 d (by rw [hu]; simp)).least hc u hu x hx)

/-- **C32**: an unknown outcome has a cause: something the method needs has no equation or an unknown base, or no base at all can be
reached from it, or there are more shapes than a union keeps, or it is on a cycle of at least eight methods. -/
theorem c32_unknown {eqs : List Equation} (ha : Admissible eqs) (hc : CanonicalBases eqs) {out : Nat → Option Out} (h : solve eqs = some out)
    {m r : Nat} (hr : out m = some (.unknown r)) : ∃ d, Needs eqs m d ∧ Obstacle eqs d := by
  obtain ⟨out', h1, _, h3⟩ := solve_spec ha
  rw [h] at h1; cases h1
  exact (h3 m (by rw [hr]; simp)).unknown hc r hr

theorem needs_proven {eqs : List Equation} (ha : Admissible eqs) {out : Nat → Option Out} (h : solve eqs = some out) {m d : Nat}
    (hn : Needs eqs m d) : ∀ {t : Ty}, out m = some (.proven t) → ∃ u, out d = some (.proven u) := by
  induction hn using Relation.ReflTransGen.head_induction_on with
  | refl => intro t ht; exact ⟨t, ht⟩
  | @head a c e _ ih =>
    intro t ht
    obtain ⟨u, hu⟩ := (c32_proven ha h ht).2.2.2.1 c e
    exact ih hu

/-- **C32**: conversely no proven type is given to a method that needs one without an equation, with an unknown base, without
any base in reach, or with more shapes in reach than a union keeps. -/
theorem c32_obstacle {eqs : List Equation} (ha : Admissible eqs) (hc : CanonicalBases eqs) {out : Nat → Option Out} (h : solve eqs = some out)
    {m d : Nat} (hm : HasEquation eqs m) (hn : Needs eqs m d) (ho : Obstacle eqs d) (hb : ¬ BigCycle eqs d) : ∃ r, out m = some (.unknown r) := by
  obtain ⟨out', h1, h2⟩ := c32_total ha
  rw [h] at h1; cases h1
  cases hom : out m with
  | none => have := (h2 m).mpr hm; rw [hom] at this; cases this
  | some o =>
    cases o with
    | unknown r => exact ⟨r, rfl⟩
    | proven t =>
      exfalso
      obtain ⟨u, hu⟩ := needs_proven ha h hn hom
      obtain ⟨u1, _, u2, _, _, _, _⟩ := c32_proven ha h hu
      obtain ⟨u3, u4⟩ := c32_least ha hc h hu
      cases ho with
      | noEquation hno => exact hno ((h2 d).mp (by rw [hu]; rfl))
      | unknownBase r hr => exact u2 r hr
      | noBase hno =>
        obtain ⟨x, hx⟩ := canonical_alt u3
        exact hno x ((u4 x).mp hx)
      | manyShapes hs =>
        have := (c21_unknown_iff [u]).mpr (.inr (.inr ?_))
        · rw [mkUnion_canonical u3] at this; exact u1 this
        · obtain ⟨l, l1, l2, l3⟩ := hs
          exact ⟨l, l1, l2, fun x hx => ⟨⟨u, List.mem_singleton.mpr rfl, (u4 x).mpr (l3 x hx).1⟩, (l3 x hx).2⟩⟩
      | bigCycle hbc => exact hb hbc

/-- **C32**: the types do not depend on the order of the equations, nor on the order or repetition of dependencies. -/
theorem c32_order {eqs eqs' : List Equation} (ha : Admissible eqs) (hc : CanonicalBases eqs) (he : ∀ m, HasEquation eqs m ↔ HasEquation eqs' m)
    (hb : ∀ m b, HasBase eqs m b ↔ HasBase eqs' m b) (hd : ∀ m d, Depends eqs m d ↔ Depends eqs' m d) (hs : ∀ m, ¬ BigCycle eqs m)
    {out out' : Nat → Option Out} (h : solve eqs = some out) (h' : solve eqs' = some out') (m : Nat) (t : Ty) :
    out m = some (.proven t) ↔ out' m = some (.proven t) := by
  have hdep : Depends eqs = Depends eqs' := by funext a b; exact propext (hd a b)
  have hneed : Needs eqs = Needs eqs' := by unfold Needs; rw [hdep]
  have hfrom : From eqs = From eqs' := by
    funext a x
    simp only [From, hneed, hb]
  have ha' : Admissible eqs' := fun m t hm => ha m t ((hb m _).mpr hm)
  have hc' : CanonicalBases eqs' := fun m t hm => hc m t ((hb m _).mpr hm)
  have hbig : ∀ m, BigCycle eqs m ↔ BigCycle eqs' m := by intro m; simp only [BigCycle, hneed]
  have key : ∀ (e1 e2 : List Equation) (o1 o2 : Nat → Option Out), Admissible e1 → CanonicalBases e1 → Admissible e2 → CanonicalBases e2 →
      (∀ m, HasEquation e1 m → HasEquation e2 m) → (∀ m b, HasBase e2 m b → HasBase e1 m b) → Needs e2 = Needs e1 → From e2 = From e1 →
      (∀ m, HasEquation e2 m ↔ HasEquation e1 m) → (∀ m, ¬ BigCycle e1 m) →
      (∀ m, ¬ BigCycle e2 m) → solve e1 = some o1 → solve e2 = some o2 → o1 m = some (.proven t) → o2 m = some (.proven t) := by
    intro e1 e2 o1 o2 a1 c1 a2 c2 hq hb hn hf hq' hs1 hs2 s1 s2 ht
    obtain ⟨o1', w1, w2⟩ := c32_total a1
    rw [s1] at w1; cases w1
    obtain ⟨o2', w3, w4⟩ := c32_total a2
    rw [s2] at w3; cases w3
    have hm1 : HasEquation e1 m := (w2 m).mp (by rw [ht]; rfl)
    have hm2 := (w4 m).mpr (hq m hm1)
    cases ho : o2 m with
    | none => rw [ho] at hm2; cases hm2
    | some o =>
      cases o with
      | proven u =>
        obtain ⟨p1, p2⟩ := c32_least a1 c1 s1 ht
        obtain ⟨p3, p4⟩ := c32_least a2 c2 s2 ho
        have : mkUnion [t] = mkUnion [u] := c21_union_depends_on_alternatives (fun x => by simp [Alts, p2, p4, hf])
        rw [mkUnion_canonical p1, mkUnion_canonical p3] at this
        rw [this]
      | unknown r =>
        exfalso
        obtain ⟨d, d1, d2⟩ := c32_unknown a2 c2 s2 ho
        have : Obstacle e1 d := by
          cases d2 with
          | noEquation h => exact .noEquation fun h' => h (hq d h')
          | unknownBase r h => exact .unknownBase r (hb d _ h)
          | noBase h => exact .noBase (hf ▸ h)
          | manyShapes h => exact .manyShapes (hf ▸ h)
          | bigCycle h => exact absurd h (hs2 d)
        obtain ⟨r', hr'⟩ := c32_obstacle a1 c1 s1 hm1 (hn ▸ d1) this (hs1 d)
        rw [ht] at hr'; cases hr'
  constructor
  · exact key eqs eqs' out out' ha hc ha' hc' (fun m => (he m).mp) (fun m b => (hb m b).mpr) hneed.symm hfrom.symm (fun m => (he m).symm) hs
      (fun m hm => hs m ((hbig m).mpr hm)) h h'
  · exact key eqs' eqs out' out ha' hc' ha hc (fun m => (he m).mpr) (fun m b => (hb m b).mp) hneed hfrom he
      (fun m hm => hs m ((hbig m).mpr hm)) hs h' h

/-! ### examples -/

def cls (n : Nat) : Ty := .cls [n]

/-- Two methods that call each other, one that calls them, one that calls itself only, and one that calls something unknown. -/
def exampleEqs : List Equation :=
  [⟨3, .bottom, [1]⟩, ⟨1, .proven (cls 10), [2]⟩, ⟨2, .proven (cls 11), [1]⟩, ⟨4, .bottom, [4]⟩, ⟨5, .proven (cls 12), [99]⟩,
    ⟨1, .proven (cls 13), []⟩]

def outcomes (eqs : List Equation) (ms : List Nat) : Option (List (Option Out)) := (solve eqs).map fun out => ms.map out

set_option maxRecDepth 100000 in
theorem c32_example : outcomes exampleEqs [1, 2, 3, 4, 5, 6] = some [some (.proven (.union [cls 10, cls 11, cls 13])),
    some (.proven (.union [cls 10, cls 11, cls 13])), some (.proven (.union [cls 10, cls 11, cls 13])), some (.unknown unprovenCycle),
    some (.unknown unresolvedReturn), none] := by decide

/-- A ring of methods, each with a base of its own and a call to the next. -/
def ring (n : Nat) : List Equation := (List.range n).map fun i => ⟨i, if i = 0 then .proven (cls 10) else .bottom, [(i + 1) % n]⟩

set_option maxRecDepth 100000 in
/-- Seven methods in a ring are solved, eight are not though every type is proven: the iteration is cut short. -/
theorem c32_ring : (outcomes (ring 7) [0, 3] = some [some (.proven (cls 10)), some (.proven (cls 10))]) ∧
    (outcomes (ring 8) [0, 3] = some [some (.unknown unprovenCycle), some (.unknown unprovenCycle)]) := by decide

set_option maxRecDepth 100000 in
/-- What is left out of `Admissible`: a base that is a union with an unknown member makes the solver panic. -/
theorem c32_unknown_member_panics : solve [⟨1, .proven (.array [.union [cls 10, .unknown]]), []⟩] = none := by decide

end Verif.Solver
