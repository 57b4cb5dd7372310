import Verif.Lemmas.FlowShapesRun
/-!
Names agree with their identities, and the number of aliases is bounded.
-/
namespace Verif.FlowShapes
open Verif.Types

variable {n : Nat}

/-! ### alternatives -/

theorem deepAlt_simple {t u : Ty} (h : DeepAlt t u) : Simple u := by
  induction h with
  | self h => exact h
  | member _ _ ih => exact ih

theorem deepAlt_of_simple {t u : Ty} (h : Simple t) : DeepAlt t u ↔ u = t := by
  constructor
  · intro a
    cases a with
    | self _ => rfl
    | member h1 _ => exact absurd rfl (h _)
  · rintro rfl; exact .self h

theorem deepAlt_union {us : List Ty} {u : Ty} : DeepAlt (.union us) u ↔ ∃ t ∈ us, DeepAlt t u := by
  constructor
  · intro a
    cases a with
    | self h => exact absurd rfl (h us)
    | member h1 h2 => exact ⟨_, h1, h2⟩
  · rintro ⟨t, h1, h2⟩; exact .member h1 h2

theorem deepAlt_mkUnion {ts : List Ty} {u : Ty} (h : mkUnion ts ≠ .unknown) : DeepAlt (mkUnion ts) u ↔ ∃ t ∈ ts, DeepAlt t u := by
  have hfl : (∃ x ∈ flatten ts, DeepAlt x u) ↔ ∃ t ∈ ts, DeepAlt t u := by
    constructor
    · rintro ⟨x, hx, hd⟩
      obtain ⟨t, ht, ha⟩ := mem_flatten.mp hx
      refine ⟨t, ht, ?_⟩
      rcases simple_or_union t with hs | ⟨us, rfl⟩
      · rw [altOf_simple hs] at ha; exact ha ▸ hd
      · exact deepAlt_union.mpr ⟨x, altOf_union.mp ha, hd⟩
    · rintro ⟨t, ht, hd⟩
      rcases simple_or_union t with hs | ⟨us, rfl⟩
      · exact ⟨t, mem_flatten.mpr ⟨t, ht, (altOf_simple hs).mpr rfl⟩, hd⟩
      · obtain ⟨x, hx, hd⟩ := deepAlt_union.mp hd
        exact ⟨x, mem_flatten.mpr ⟨_, ht, altOf_union.mpr hx⟩, hd⟩
  rw [← hfl]
  rw [mkUnion_eq] at h ⊢
  rcases finish_cases (flatten ts) with ⟨h1, _⟩ | ⟨_, _, t, h1, h2⟩ | ⟨_, _, h2, h1⟩
  · exact absurd h1 h
  · rw [h1]
    constructor
    · exact fun hd => ⟨t, (h2 t).mpr rfl, hd⟩
    · rintro ⟨x, hx, hd⟩; exact (h2 x).mp hx ▸ hd
  · rw [h1, deepAlt_union]
    simp only [mem_canon]

theorem shape_simple {t : Ty} (h : t.isShape = true) : Simple t := by
  rintro us rfl; simp [Ty.isShape] at h

theorem mem_shapeAlts {t : Ty} : ∀ {l : List Ty}, shapeAlts t = .ok l → ∀ u, u ∈ l ↔ DeepAlt t u := by
  induction t using Ty.ind with
  | shape fs r o z d _ _ =>
    intro l h u
    simp only [shapeAlts, Except.ok.injEq] at h
    subst h
    rw [deepAlt_of_simple (by rintro us ⟨⟩)]; simp
  | union ts ih =>
    have key : ∀ l : List Ty, (∀ t ∈ l, t ∈ ts) → ∀ r, shapeAltsList l = .ok r → ∀ u, u ∈ r ↔ ∃ t ∈ l, DeepAlt t u := by
      intro l
      induction l with
      | nil => intro _ r h u; simp only [shapeAltsList, Except.ok.injEq] at h; subst h; simp
      | cons t l ihl =>
        intro hl r h u
        simp only [shapeAltsList] at h
        cases ha : shapeAlts t with
        | error e => simp [ha] at h
        | ok a =>
          cases hb : shapeAltsList l with
          | error e => simp [ha, hb] at h
          | ok b =>
            simp only [ha, hb, Except.ok.injEq] at h
            subst h
            rw [List.mem_append, ih t (hl t List.mem_cons_self) ha, ihl (fun u hu => hl u (List.mem_cons_of_mem _ hu)) b hb]
            simp
    intro l h u
    rw [deepAlt_union]
    exact key ts (fun _ h => h) l (by simpa [shapeAlts] using h) u
  | _ => intro l h; simp [shapeAlts] at h

theorem mem_nonShape {t : Ty} : ∀ u, u ∈ nonShape t ↔ DeepAlt t u ∧ u.isShape = false := by
  induction t using Ty.ind with
  | shape fs r o z d _ _ =>
    intro u
    rw [deepAlt_of_simple (by rintro us ⟨⟩)]
    simp only [nonShape, List.not_mem_nil, false_iff, not_and]
    rintro rfl; simp [Ty.isShape]
  | union ts ih =>
    have key : ∀ l : List Ty, (∀ t ∈ l, t ∈ ts) → ∀ u, u ∈ nonShapeList l ↔ (∃ t ∈ l, DeepAlt t u) ∧ u.isShape = false := by
      intro l
      induction l with
      | nil => intro _ u; simp [nonShapeList]
      | cons t l ihl =>
        intro hl u
        rw [nonShapeList, List.mem_append, ih t (hl t List.mem_cons_self), ihl fun u hu => hl u (List.mem_cons_of_mem _ hu)]
        simp only [List.mem_cons, exists_eq_or_imp]
        constructor
        · rintro (⟨a, b⟩ | ⟨a, b⟩)
          · exact ⟨.inl a, b⟩
          · exact ⟨.inr a, b⟩
        · rintro ⟨a | a, b⟩
          · exact .inl ⟨a, b⟩
          · exact .inr ⟨a, b⟩
    intro u
    rw [deepAlt_union, nonShape]
    exact key ts (fun _ h => h) u
  | _ =>
    intro u
    rw [deepAlt_of_simple (by rintro us ⟨⟩)]
    simp only [nonShape, List.mem_singleton]
    constructor
    · rintro rfl; exact ⟨rfl, rfl⟩
    · exact And.left

theorem mem_collect {states : Id → Option State} {l : List Id} : ∀ {ts : List Ty}, collect states l = some (.ok ts) →
    (∀ i ∈ l, ∃ s, states i = some (.proven s)) ∧ ∀ u, u ∈ ts ↔ ∃ i ∈ l, ∃ s, states i = some (.proven s) ∧ DeepAlt s u := by
  induction l with
  | nil => intro ts h; cases h; simp
  | cons i l ih =>
    intro ts h
    unfold collect at h
    cases hs : states i with
    | none => simp [hs] at h
    | some st =>
      cases st with
      | invalid r => simp [hs] at h
      | proven t =>
        simp only [hs] at h
        cases ha : shapeAlts t with
        | error e => simp [ha] at h
        | ok a =>
          cases hc : collect states l with
          | none => simp [ha, hc] at h
          | some r =>
            cases r with
            | error e => simp [ha, hc] at h
            | ok b =>
              simp only [ha, hc, Option.some.injEq, Except.ok.injEq] at h
              subst h
              obtain ⟨h1, h2⟩ := ih hc
              refine ⟨?_, fun u => ?_⟩
              · intro j hj
                rcases List.mem_cons.mp hj with rfl | hj
                · exact ⟨t, hs⟩
                · exact h1 j hj
              · rw [List.mem_append, mem_shapeAlts ha, h2 u]
                simp only [List.mem_cons, exists_eq_or_imp, hs, Option.some.injEq, State.proven.injEq, exists_eq_left']

theorem collect_shapes {states : Id → Option State} {l : List Id} : ∀ {ts : List Ty}, collect states l = some (.ok ts) → ∀ u ∈ ts, u.isShape = true := by
  have key : ∀ (t : Ty) (l : List Ty), shapeAlts t = .ok l → ∀ u ∈ l, u.isShape = true := by
    intro t
    induction t using Ty.ind with
    | shape fs r o z d _ _ => intro l h; simp only [shapeAlts, Except.ok.injEq] at h; subst h; simp [Ty.isShape]
    | union ts ih =>
      have : ∀ l : List Ty, (∀ t ∈ l, t ∈ ts) → ∀ r, shapeAltsList l = .ok r → ∀ u ∈ r, u.isShape = true := by
        intro l
        induction l with
        | nil => intro _ r h; simp only [shapeAltsList, Except.ok.injEq] at h; subst h; simp
        | cons t l ihl =>
          intro hl r h
          simp only [shapeAltsList] at h
          cases ha : shapeAlts t with
          | error e => simp [ha] at h
          | ok a =>
            cases hb : shapeAltsList l with
            | error e => simp [ha, hb] at h
            | ok b =>
              simp only [ha, hb, Except.ok.injEq] at h
              subst h
              intro u hu
              rcases List.mem_append.mp hu with hu | hu
              · exact ih t (hl t List.mem_cons_self) a ha u hu
              · exact ihl (fun u hu => hl u (List.mem_cons_of_mem _ hu)) b hb u hu
      intro l h
      exact this ts (fun _ h => h) l (by simpa [shapeAlts] using h)
    | _ => intro l h; simp [shapeAlts] at h
  induction l with
  | nil => intro ts h; cases h; simp
  | cons i l ih =>
    intro ts h
    unfold collect at h
    cases hs : states i with
    | none => simp [hs] at h
    | some st =>
      cases st with
      | invalid r => simp [hs] at h
      | proven t =>
        simp only [hs] at h
        cases ha : shapeAlts t with
        | error e => simp [ha] at h
        | ok a =>
          cases hc : collect states l with
          | none => simp [ha, hc] at h
          | some r =>
            cases r with
            | error e => simp [ha, hc] at h
            | ok b =>
              simp only [ha, hc, Option.some.injEq, Except.ok.injEq] at h
              subst h
              intro u hu
              rcases List.mem_append.mp hu with hu | hu
              · exact key t a ha u hu
              · exact ih hc u hu

/-- What a name becomes. -/
theorem typeForIds_ok {states : Id → Option State} {cur t : Ty} {ids : Finset Id} (h : typeForIds states cur ids = some (.ok t)) :
    t ≠ .unknown ∧ (∀ i ∈ ids, ∃ s, states i = some (.proven s)) ∧
    (∀ u, u.isShape = true → (DeepAlt t u ↔ ∃ i ∈ ids, ∃ s, states i = some (.proven s) ∧ DeepAlt s u)) ∧
    ∀ u, u.isShape = false → (DeepAlt t u ↔ DeepAlt cur u) := by
  unfold typeForIds at h
  obtain ⟨r, h1, h2⟩ := Option.map_eq_some_iff.mp h
  cases r with
  | error e => cases h2
  | ok a =>
    simp only [joined] at h2
    split at h2
    · cases h2
    · rename_i hne
      cases h2
      obtain ⟨h3, h4⟩ := mem_collect h1
      have hmem : ∀ u, (∃ x ∈ nonShape cur ++ a, DeepAlt x u) ↔ u ∈ nonShape cur ∨ u ∈ a := by
        intro u
        have hs : ∀ x ∈ nonShape cur ++ a, Simple x := by
          intro x hx
          rcases List.mem_append.mp hx with hx | hx
          · exact deepAlt_simple ((mem_nonShape x).mp hx).1
          · exact shape_simple (collect_shapes h1 x hx)
        rw [← List.mem_append]
        constructor
        · rintro ⟨x, hx, hd⟩
          rw [deepAlt_of_simple (hs x hx)] at hd
          exact hd ▸ hx
        · exact fun hu => ⟨u, hu, (deepAlt_of_simple (hs u hu)).mpr rfl⟩
      refine ⟨hne, fun i hi => h3 i (mem_asc.mpr hi), fun u hu => ?_, fun u hu => ?_⟩
      · rw [deepAlt_mkUnion hne, hmem, mem_nonShape, h4]
        simp only [hu, Bool.true_eq_false, and_false, false_or, mem_asc]
      · rw [deepAlt_mkUnion hne, hmem, mem_nonShape]
        simp only [hu, and_true]
        constructor
        · rintro (h | h)
          · exact h
          · have := collect_shapes h1 u h; simp [hu] at this
        · exact .inl

/-! ### synchronization -/

/-- Names lead to identities that exist, and are not positions of an array at the same time. -/
structure Base (E : Env n) : Prop where
  live : ∀ x ids, E.binds x = some ids → ∀ i ∈ ids, Live E i
  child : ∀ l ∈ E.links, Live E l.child
  apart : ∀ x a, E.arrays x = some a → E.binds x = none

variable {q : Prop}

/-- Also the types agree, if that is asked for. -/
structure Tidy (q : Prop) (E : Env n) : Prop extends Base E where
  agrees : q → Agrees E

theorem Pre.base {E : Env n} (h : Pre E) : Base E :=
  ⟨fun x ids hb => (h.bound x ids hb).2, fun l hl => (h.links l hl).2.1, fun x a ha => (h.arrays x a ha).2.1⟩

theorem Base.frame {E E' : Env n} (h : Base E) (hf : Frame E E') : Base E' := by
  refine ⟨fun x ids hb i hi => ?_, fun l hl => ?_, fun x a ha => ?_⟩
  · exact (hf.live i).mpr (h.live x ids (hf.binds ▸ hb) i hi)
  · exact (hf.live _).mpr (h.child l (hf.links ▸ hl))
  · rw [hf.binds]; exact h.apart x a (hf.arrays ▸ ha)

theorem sync_tidy {E E' : Env n} (h : Base E) (hs : sync E = some E') : Tidy q E' := by
  refine ⟨h.frame (sync_frame hs).1, ?_⟩
  intro _ x ids t hb ht
  obtain ⟨hf, hst⟩ := sync_frame hs
  unfold sync at hs
  obtain ⟨F, h1, h2⟩ := Option.bind_eq_some_iff.mp hs
  obtain ⟨_, a1, a2, a3, a4, _, a6, a7⟩ := applyResult_some h1
  obtain ⟨b0, b1, b2, b3, b4, b5, _, _⟩ := applyResult_some h2
  rw [hf.binds] at hb
  have ha : E.arrays x = none := by
    cases ha : E.arrays x with
    | none => rfl
    | some a => have := h.apart x a ha; simp [hb] at this
  rw [(b5 x (by rw [arrayResult, a2, ha])).1] at ht
  have hsome : (bindResult E x).isSome = true := (applyResult_some h1).1 x
  obtain ⟨r, hr⟩ := Option.isSome_iff_exists.mp hsome
  have hr' := hr
  rw [bindResult, hb] at hr'
  simp only at hr'
  obtain ⟨c, hc, hr'⟩ := Option.bind_eq_some_iff.mp hr'
  obtain ⟨q, hq, rfl⟩ := Option.map_eq_some_iff.mp hr'
  cases q with
  | error e =>
    left
    rw [(a7 x e hr).1] at ht
    exact (Option.some.inj ht).symm
  | ok u =>
    right
    rw [(a6 x u hr).1] at ht
    cases ht
    rw [hst]
    exact (typeForIds_ok hq).2.2.1

theorem invalidate_base {E E' : Env n} {ids : Finset Id} {r : Reason} (h : Base E) (hi : invalidate E ids r = some E') : Tidy q E' := by
  unfold invalidate at hi
  simp only at hi
  split at hi
  case isFalse => cases hi
  case isTrue hl =>
    refine sync_tidy ?_ hi
    refine h.frame ⟨rfl, rfl, rfl, fun i => ?_⟩
    unfold Live
    dsimp only
    split
    · rename_i hm; exact ⟨fun _ => hl i hm, fun _ => rfl⟩
    · exact .rfl

/-- What invalidation does to the rest. -/
theorem invalidate_rest {E E' : Env n} {ids : Finset Id} {r : Reason} (hi : invalidate E ids r = some E') :
    E'.binds = E.binds ∧ E'.links = E.links ∧ E'.arrays = E.arrays ∧ E'.states = fun i => if i ∈ closure E.links ids then some (.invalid r) else E.states i := by
  unfold invalidate at hi
  simp only at hi
  split at hi
  case isFalse => cases hi
  case isTrue hl =>
    obtain ⟨hf, hs⟩ := sync_frame hi
    exact ⟨hf.binds, hf.links, hf.arrays, hs⟩

/-! ### few aliases -/

theorem few_iff {E : Env n} : Few E ↔ ∀ i t, E.states i = some (.proven t) → aliasCount E i ≤ maxAliases := by
  unfold Few aliasCount maxAliases
  simp only [Option.mem_def]

theorem aliasCount_le {E E' : Env n} (hb : ∀ x s, E'.binds x = some s → ∃ s', E.binds x = some s' ∧ s ⊆ s') (hl : E'.links.Sublist E.links) (i : Id) :
    aliasCount E' i ≤ aliasCount E i := by
  unfold aliasCount
  refine Nat.add_le_add (Finset.card_le_card ?_) (hl.filter _).length_le
  intro x hx
  obtain ⟨_, s, hs, hi⟩ := Finset.mem_filter.mp hx
  obtain ⟨s', h1, h2⟩ := hb x s hs
  exact Finset.mem_filter.mpr ⟨Finset.mem_univ _, s', h1, h2 hi⟩

theorem Few.mono {E E' : Env n} (h : Few E) (hb : ∀ x s, E'.binds x = some s → ∃ s', E.binds x = some s' ∧ s ⊆ s') (hl : E'.links.Sublist E.links)
    (hs : ∀ i t, E'.states i = some (.proven t) → ∃ u, E.states i = some (.proven u)) : Few E' := by
  rw [few_iff] at h ⊢
  intro i t hi
  obtain ⟨u, hu⟩ := hs i t hi
  exact Nat.le_trans (aliasCount_le hb hl i) (h i u hu)

theorem Few.same {E E' : Env n} (h : Few E) (hb : E'.binds = E.binds) (hl : E'.links = E.links)
    (hs : ∀ i t, E'.states i = some (.proven t) → ∃ u, E.states i = some (.proven u)) : Few E' :=
  h.mono (fun x s hx => ⟨s, by rw [← hb]; exact hx, Finset.Subset.refl _⟩) (by rw [hl]) hs

theorem sync_few {E E' : Env n} (h : Few E) (hs : sync E = some E') : Few E' := by
  obtain ⟨hf, hst⟩ := sync_frame hs
  exact h.same hf.binds hf.links fun i t hi => ⟨t, by rw [← hst]; exact hi⟩

theorem invalidate_few {E E' : Env n} {ids : Finset Id} {r : Reason} (h : Few E) (hi : invalidate E ids r = some E') : Few E' := by
  obtain ⟨h1, h2, _, h3⟩ := invalidate_rest hi
  refine h.same h1 h2 fun i t ht => ⟨t, ?_⟩
  rw [h3] at ht
  dsimp only at ht
  split at ht
  · cases ht
  · exact ht

theorem mem_aliased {E : Env n} {i : Id} (h : aliasCount E i ≠ 0) : i ∈ aliased E := by
  unfold aliased
  rw [Finset.mem_union]
  by_contra hn
  rw [not_or] at hn
  apply h
  unfold aliasCount
  rw [Nat.add_eq_zero_iff, Finset.card_eq_zero, List.length_eq_zero_iff]
  refine ⟨?_, ?_⟩
  · rw [Finset.filter_eq_empty_iff]
    rintro x _ ⟨s, hs, hi⟩
    exact hn.1 (Finset.mem_biUnion.mpr ⟨x, Finset.mem_univ _, by rw [Option.mem_def.mp hs]; exact hi⟩)
  · rw [List.filter_eq_nil_iff]
    intro l hl he
    exact hn.2 (List.mem_toFinset.mpr (List.mem_map.mpr ⟨l, hl, by simpa using he⟩))

theorem enforce_few {E E' : Env n} (h : enforce E = some E') : Few E' := by
  unfold enforce at h
  simp only at h
  have key : ∀ i, Live E i → aliasCount E i > maxAliases → i ∈ (aliased E).filter fun i => (E.states i).isSome ∧ aliasCount E i > maxAliases := by
    intro i hl hc
    exact Finset.mem_filter.mpr ⟨mem_aliased (by omega), hl, hc⟩
  split at h
  · rename_i he
    cases h
    rw [few_iff]
    intro i t hi
    by_contra hc
    have := key i (by simp [Live, hi]) (by omega)
    rw [he] at this
    simp at this
  · obtain ⟨h1, h2, _, h3⟩ := invalidate_rest h
    rw [few_iff]
    intro i t hi
    rw [h3] at hi
    dsimp only at hi
    split at hi
    · cases hi
    · rename_i hn
      have e : aliasCount E' i = aliasCount E i := by unfold aliasCount; rw [h1, h2]
      rw [e]
      by_contra hc
      exact hn (closure_sub _ _ (key i (by simp [Live, hi]) (by omega)))

theorem enforce_tidy {E E' : Env n} (h : Tidy q E) (he : enforce E = some E') : Tidy q E' := by
  unfold enforce at he
  simp only at he
  split at he
  · cases he; exact h
  · exact invalidate_base h.toBase he

theorem enforce_base {E E' : Env n} (h : Base E) (he : enforce E = some E') : Base E' := by
  unfold enforce at he
  simp only at he
  split at he
  · cases he; exact h
  · exact (invalidate_base (q := True) h he).toBase

/-- Both. -/
structure Fit (q : Prop) (E : Env n) : Prop extends Tidy q E where
  few : Few E

theorem Fit.invalidate {E E' : Env n} {ids : Finset Id} {r : Reason} (h : Fit q E) (hi : invalidate E ids r = some E') : Fit q E' :=
  ⟨invalidate_base h.toBase hi, invalidate_few h.few hi⟩

theorem Fit.enforce {E E' : Env n} (h : Tidy q E) (he : enforce E = some E') : Fit q E' := ⟨enforce_tidy h he, enforce_few he⟩

theorem Fit.sync {E E' : Env n} (h : Base E) (hf : Few E) (hs : sync E = some E') : Fit q E' := ⟨sync_tidy h hs, sync_few hf hs⟩

theorem fit_enforce_sync {E E' : Env n} (h : Base E) (he : ((FlowShapes.enforce E).bind fun F => FlowShapes.sync F) = some E') : Fit q E' := by
  obtain ⟨F, h1, h2⟩ := Option.bind_eq_some_iff.mp he
  exact Fit.sync (enforce_base h h1) (enforce_few h1) h2

/-! ### identities and edges -/

theorem allocate_rest {S S' : Tracker n} {t : Ty} {i : Id} (h : allocate S t = some (i, S')) :
    i = S.next ∧ S.env.states S.next = none ∧ isShapeOnly t = true ∧
      S' = ⟨{ S.env with states := put S.env.states S.next (some (.proven t)) }, S.next + 1⟩ := by
  unfold allocate at h
  split at h
  · cases h
  · rename_i ht
    split at h
    · cases h
    · rename_i hn
      cases h
      exact ⟨rfl, by simpa using hn, by simpa using ht, rfl⟩

theorem fresh_count {E : Env n} (h : Base E) {i : Id} (hi : E.states i = none) : aliasCount E i = 0 := by
  unfold aliasCount
  rw [Nat.add_eq_zero_iff, Finset.card_eq_zero, List.length_eq_zero_iff]
  constructor
  · rw [Finset.filter_eq_empty_iff]
    rintro x _ ⟨s, hs, hm⟩
    have := h.live x s hs i hm
    simp [Live, hi] at this
  · rw [List.filter_eq_nil_iff]
    intro l hl he
    have := h.child l hl
    rw [show l.child = i by simpa using he] at this
    simp [Live, hi] at this

theorem allocate_tidy {S S' : Tracker n} {t : Ty} {i : Id} (h : Tidy q S.env) (ha : allocate S t = some (i, S')) : Tidy q S'.env ∧ Live S'.env i := by
  obtain ⟨rfl, h1, h2, rfl⟩ := allocate_rest ha
  have hl : ∀ j, Live S.env j → put S.env.states S.next (some (.proven t)) j = S.env.states j := by
    intro j hj
    refine put_other ?_
    rintro rfl
    simp [Live, h1] at hj
  refine ⟨⟨⟨fun x ids hb j hj => ?_, fun l hm => ?_, h.apart⟩, fun hq x ids u hb hu => ?_⟩, by simp [Live, put]⟩
  · unfold Live; dsimp only; rw [hl j (h.live x ids hb j hj)]; exact h.live x ids hb j hj
  · unfold Live; dsimp only; rw [hl _ (h.child l hm)]; exact h.child l hm
  · refine (h.agrees hq x ids u hb hu).imp id fun hd w hw => ?_
    rw [hd w hw]
    constructor
    · rintro ⟨j, hj, s, hs, hd⟩
      exact ⟨j, hj, s, by dsimp only; rw [hl j (h.live x ids hb j hj)]; exact hs, hd⟩
    · rintro ⟨j, hj, s, hs, hd⟩
      exact ⟨j, hj, s, by dsimp only at hs; rw [hl j (h.live x ids hb j hj)] at hs; exact hs, hd⟩

theorem allocate_fit {S S' : Tracker n} {t : Ty} {i : Id} (h : Fit q S.env) (ha : allocate S t = some (i, S')) : Fit q S'.env ∧ Live S'.env i := by
  refine ⟨⟨(allocate_tidy h.toTidy ha).1, ?_⟩, (allocate_tidy h.toTidy ha).2⟩
  obtain ⟨rfl, h1, h2, rfl⟩ := allocate_rest ha
  rw [few_iff]
  intro j u hj
  change aliasCount S.env j ≤ _
  by_cases e : j = S.next
  · rw [e, fresh_count h.toBase h1]; exact Nat.zero_le _
  · dsimp only at hj
    rw [put_other e] at hj
    exact few_iff.mp h.few j u hj

theorem link_rest {E E' : Env n} {p c : Id} {k : Lit} (h : link E p k c = some E') :
    (E' = E ∨ E' = { E with links := ⟨p, k, c⟩ :: E.links }) ∧ Live E c := by
  unfold link at h
  split at h
  · cases h
  · split at h
    · cases h
    · rename_i hn
      rw [not_or] at hn
      have hl : Live E c := by
        unfold Live
        cases hs : E.states c with
        | none => simp [hs] at hn
        | some s => rfl
      obtain ⟨e, h1, h2⟩ := Option.bind_eq_some_iff.mp h
      cases e with
      | none => cases h2; exact ⟨.inr rfl, hl⟩
      | some e =>
        simp only at h2
        split at h2
        · cases h2; exact ⟨.inl rfl, hl⟩
        · cases h2

theorem link_tidy {E E' : Env n} {p c : Id} {k : Lit} (h : Tidy q E) (hl : link E p k c = some E') : Tidy q E' := by
  obtain ⟨rfl | rfl, hc⟩ := link_rest hl
  · exact h
  · refine ⟨⟨h.live, fun l hm => ?_, h.apart⟩, h.agrees⟩
    rcases List.mem_cons.mp hm with rfl | hm
    · exact hc
    · exact h.child l hm

theorem materializeAll_tidy {p : Id} {fs : List Field} : ∀ {S S' : Tracker n}, Tidy q S.env → materializeAll p fs S = some S' → Tidy q S'.env := by
  induction fs with
  | nil => intro S S' h hm; cases hm; exact h
  | cons f l ih =>
    intro S S' h hm
    unfold materializeAll at hm
    obtain ⟨c, _, h2⟩ := Option.bind_eq_some_iff.mp hm
    cases c with
    | some c => exact ih h h2
    | none =>
      obtain ⟨a, h3, h4⟩ := Option.bind_eq_some_iff.mp h2
      obtain ⟨E, h5, h6⟩ := Option.bind_eq_some_iff.mp h4
      exact ih (link_tidy (allocate_tidy h h3).1 h5) h6

theorem materialize_fit {S S' : Tracker n} {p : Id} {r : Except Reason Unit} (h : Fit q S.env) (hm : materialize S p = some (r, S')) : Fit q S'.env := by
  unfold materialize at hm
  split at hm
  · cases hm
  · cases hm; exact h
  · obtain ⟨T, h1, h2⟩ := Option.bind_eq_some_iff.mp hm
    obtain ⟨E, h3, h4⟩ := Option.map_eq_some_iff.mp h2
    cases h4
    exact Fit.enforce (materializeAll_tidy h.toTidy h1) h3
  · cases hm; exact h

/-- Only children of `p` may have too many aliases. -/
def FewBut (p : Id) (E : Env n) : Prop := ∀ i t, E.states i = some (.proven t) → aliasCount E i ≤ maxAliases ∨ ∃ l ∈ E.links, l.parent = p ∧ l.child = i

theorem invalidate_fewBut {E E' : Env n} {p : Id} {r : Reason} (h : FewBut p E) (hi : invalidate E {p} r = some E') : Few E' := by
  obtain ⟨h1, h2, _, h3⟩ := invalidate_rest hi
  rw [few_iff]
  intro i t ht
  rw [h3] at ht
  dsimp only at ht
  split at ht
  · cases ht
  · rename_i hn
    have e : aliasCount E' i = aliasCount E i := by unfold aliasCount; rw [h1, h2]
    rw [e]
    rcases h i t ht with h | ⟨l, hl, h4, h5⟩
    · exact h
    · exact absurd (h5 ▸ (closure_fixed E.links {p} hl (.inl (by rw [h4]; exact closure_sub _ _ (Finset.mem_singleton_self p)))).2) hn

theorem link_fewBut {E E' : Env n} {p c : Id} {k : Lit} (h : FewBut p E) (hl : link E p k c = some E') : FewBut p E' := by
  obtain ⟨rfl | rfl, hc⟩ := link_rest hl
  · exact h
  · intro i t hi
    by_cases e : c = i
    · exact .inr ⟨_, List.mem_cons_self, rfl, e⟩
    · rcases h i t hi with h | ⟨l, h1, h2⟩
      · left
        have : aliasCount { E with links := ⟨p, k, c⟩ :: E.links } i = aliasCount E i := by
          unfold aliasCount
          dsimp only
          rw [List.filter_cons_of_neg (by simpa using e)]
        rw [this]; exact h
      · exact .inr ⟨l, List.mem_cons_of_mem _ h1, h2⟩

theorem linkAll_fit {p : Id} {links : List (Lit × Id)} : ∀ {E E' : Env n}, Tidy q E → FewBut p E → linkAll p links E = some E' → Fit q E' := by
  induction links with
  | nil => intro E E' h _ hl; exact Fit.enforce h hl
  | cons f l ih =>
    intro E E' h hf hl
    unfold linkAll at hl
    obtain ⟨t, _, h2⟩ := Option.bind_eq_some_iff.mp hl
    split at h2
    · split at h2
      · obtain ⟨F, h3, h4⟩ := Option.bind_eq_some_iff.mp h2
        exact ih (link_tidy h h3) (link_fewBut hf h3) h4
      · exact ⟨invalidate_base h.toBase h2, invalidate_fewBut hf h2⟩
    · exact ⟨invalidate_base h.toBase h2, invalidate_fewBut hf h2⟩

theorem linkLiteral_fit {p : Id} {fields : List (Lit × Part n)} {E E' : Env n} (h : Fit q E) (hl : linkLiteral E p fields = some E') : Fit q E' := by
  unfold linkLiteral at hl
  split at hl
  · exact h.invalidate hl
  · exact linkAll_fit h.toTidy (fun i t hi => .inl (few_iff.mp h.few i t hi)) hl

theorem arrayAliases_fit {es : List (Elem n)} : ∀ {i : Nat} {a b : Arrays} {S S' : Tracker n}, Fit q S.env → arrayAliases i es a S = some (b, S') → Fit q S'.env := by
  induction es with
  | nil => intro i a b S S' h ha; cases ha; exact h
  | cons e l ih =>
    intro i a b S S' h ha
    unfold arrayAliases at ha
    simp only at ha
    have hadd : ∀ (ids : Finset Id) (T : Tracker n), Fit q T.env → (if (a.add i ids).positions.length > maxAliases ∨ (a.add i ids).contained.card > maxAliases then
        (invalidate T.env (a.add i ids).contained .boundExceeded).map fun E => ((⟨(a.add i ids).length, [], ∅, some .boundExceeded⟩ : Arrays), (⟨E, T.next⟩ : Tracker n))
      else arrayAliases (i + 1) l (a.add i ids) T) = some (b, S') → Fit q S'.env := by
      intro ids T hT hh
      split at hh
      · obtain ⟨E, h1, h2⟩ := Option.map_eq_some_iff.mp hh
        cases h2
        exact hT.invalidate h1
      · exact ih hT hh
    cases e with
    | part p => exact hadd _ _ h ha
    | hash fs =>
      simp only at ha
      cases hh : hashLiteral S.env fs with
      | error e => rw [hh] at ha; exact hadd _ _ h ha
      | ok t =>
        rw [hh] at ha
        simp only at ha
        split at ha
        · obtain ⟨al, h1, h2⟩ := Option.bind_eq_some_iff.mp ha
          obtain ⟨E, h3, h4⟩ := Option.bind_eq_some_iff.mp h2
          obtain ⟨m, h5, h6⟩ := Option.bind_eq_some_iff.mp h4
          have f2 := linkLiteral_fit (allocate_fit h h1).1 h3
          obtain ⟨r, T⟩ := m
          have f3 := materialize_fit (S := ⟨E, al.2.next⟩) f2 h5
          cases r with
          | ok _ => exact hadd _ _ f3 h6
          | error r =>
            obtain ⟨E', h7, h8⟩ := Option.map_eq_some_iff.mp h6
            cases h8
            exact f3.invalidate h7
        · exact hadd _ _ h ha

theorem child_fit {S T : Tracker n} {E : Env n} {t : Ty} {p c : Id} {k : Lit} (h : Fit q S.env) (ha : allocate S t = some (c, T)) (hl : link T.env p k c = some E) : Fit q E := by
  obtain ⟨h1, h2⟩ := allocate_fit h ha
  refine ⟨link_tidy h1.toTidy hl, ?_⟩
  obtain ⟨rfl | rfl, hc⟩ := link_rest hl
  · exact h1.few
  · obtain ⟨rfl, h3, _, rfl⟩ := allocate_rest ha
    rw [few_iff]
    intro i u hi
    by_cases e : S.next = i
    · subst e
      have := fresh_count h.toBase h3
      unfold aliasCount at this ⊢
      dsimp only at this ⊢
      rw [List.filter_cons_of_pos (by simp)]
      simp only [List.length_cons]
      unfold maxAliases
      omega
    · have hle := few_iff.mp h1.few i u hi
      unfold aliasCount at hle ⊢
      dsimp only at hle ⊢
      rw [List.filter_cons_of_neg (by simpa using e)]
      exact hle

theorem allocateChildren_fit {k : Lit} {l : List (Id × Ty)} : ∀ {cs ds : Finset Id} {S S' : Tracker n}, Fit q S.env → allocateChildren k l cs S = some (ds, S') → Fit q S'.env := by
  induction l with
  | nil => intro cs ds S S' h ha; cases ha; exact h
  | cons x l ih =>
    intro cs ds S S' h ha
    unfold allocateChildren at ha
    obtain ⟨al, h1, h2⟩ := Option.bind_eq_some_iff.mp ha
    obtain ⟨E, h3, h4⟩ := Option.bind_eq_some_iff.mp h2
    exact ih (S := ⟨E, _⟩) (child_fit h h1 h3) h4

theorem keyedIds_fit {S S' : Tracker n} {y : Fin n} {k : Lit} {t : Ty} {ids : Finset Id} (h : Fit q S.env) (hk : keyedIds S y k t = some (ids, S')) : Fit q S'.env := by
  have hgive : ∀ {T : Tracker n} {r : Finset Id}, Fit q T.env → ((invalidate T.env r .invalidated).map fun E => ((∅ : Finset Id), (⟨E, T.next⟩ : Tracker n))) = some (ids, S') → Fit q S'.env := by
    intro T r hT hh
    obtain ⟨E, h1, h2⟩ := Option.map_eq_some_iff.mp hh
    cases h2
    exact hT.invalidate h1
  unfold keyedIds at hk
  simp only at hk
  split at hk
  · cases hk; exact h
  · obtain ⟨r, h1, h2⟩ := Option.bind_eq_some_iff.mp hk
    cases r with
    | none => exact hgive h h2
    | some q =>
      obtain ⟨a, h3, h4⟩ := Option.bind_eq_some_iff.mp h2
      obtain ⟨ds, T⟩ := a
      have hT := allocateChildren_fit h h3
      simp only at h4
      split at h4
      · cases h4; exact hT
      · obtain ⟨u, h5, h6⟩ := Option.bind_eq_some_iff.mp h4
        cases u with
        | ok u =>
          simp only at h6
          split at h6
          · cases h6; exact hT
          · exact hgive hT h6
        | error e =>
          simp only at h6
          split at h6
          · cases h6; exact hT
          · exact hgive hT h6

/-! ### binding -/

theorem Fit.synced {E E' : Env n} (hi : Inv E') (hf : Few E) (hs : FlowShapes.sync E = some E') : Fit q E' := by
  obtain ⟨f, _⟩ := sync_frame hs
  exact Fit.sync (hi.toPre.base.frame ⟨f.binds.symm, f.arrays.symm, f.links.symm, fun i => (f.live i).symm⟩) hf hs

theorem insert_fit {E : Env n} (h : Fit q E) (x : Fin n) (t : Ty) : Fit q (insert E x t) := by
  have hb : ∀ y s, (insert E x t).binds y = some s → y ≠ x ∧ E.binds y = some s := by
    intro y s hy
    dsimp only [insert, put] at hy
    split at hy
    · cases hy
    · rename_i e; exact ⟨e, hy⟩
  refine ⟨⟨⟨?_, h.child, ?_⟩, ?_⟩, h.few.mono (fun y s hy => ⟨s, (hb y s hy).2, Finset.Subset.refl _⟩) (List.Sublist.refl _) fun i t hi => ⟨t, hi⟩⟩
  · exact fun y s hy => h.live y s (hb y s hy).2
  · intro y a ha
    dsimp only [insert, put] at ha ⊢
    split at ha
    · cases ha
    · rename_i e; rw [if_neg e]; exact h.apart y a ha
  · intro hq y s u hy hu
    obtain ⟨h1, h2⟩ := hb y s hy
    dsimp only [insert] at hu
    rw [put_other h1] at hu
    exact h.agrees hq y s u h2 hu

theorem insertUnknown_fit {E : Env n} (h : Fit q E) (x : Fin n) (r : Reason) : Fit q (insertUnknown E x r) := by
  have := insert_fit h x .unknown
  exact ⟨⟨⟨this.live, this.child, this.apart⟩, this.agrees⟩, this.few⟩

theorem bindIds_fit {E E' : Env n} (h : Fit q E) {x : Fin n} {t : Ty} {ids : Finset Id} (hl : ∀ i ∈ ids, Live E i)
    (hb : ((bindIds E x t ids).bind fun F => FlowShapes.sync F) = some E') : Fit q E' := by
  unfold bindIds at hb
  split at hb
  · cases hb
  · refine fit_enforce_sync ?_ hb
    refine ⟨?_, h.child, ?_⟩
    · intro y s hy
      dsimp only [put] at hy
      split at hy
      · cases hy; exact hl
      · exact h.live y s hy
    · intro y a ha
      dsimp only [put] at ha ⊢
      split at ha
      · cases ha
      · rename_i e; rw [if_neg e]; exact h.apart y a ha

theorem freshIds_fit {S S' : Tracker n} {v : Value n} {t : Ty} {ids : Finset Id} (h : Fit q S.env) (hf : freshIds S v t = some (ids, S')) : Fit q S'.env := by
  unfold freshIds at hf
  obtain ⟨a, h1, h2⟩ := Option.bind_eq_some_iff.mp hf
  obtain ⟨E, h3, h4⟩ := Option.bind_eq_some_iff.mp h2
  have f1 := (allocate_fit h h1).1
  have f2 : Fit q E := by
    cases v with
    | hash fs => exact linkLiteral_fit f1 h3
    | _ => cases h3; exact f1
  split at h4
  · obtain ⟨m, h5, h6⟩ := Option.bind_eq_some_iff.mp h4
    obtain ⟨r, T⟩ := m
    have f3 := materialize_fit (S := ⟨E, a.2.next⟩) f2 h5
    cases r with
    | ok _ => cases h6; exact f3
    | error e =>
      obtain ⟨F, h7, h8⟩ := Option.map_eq_some_iff.mp h6
      cases h8
      exact f3.invalidate h7
  · cases h4; exact f2

theorem bindValue_fit {S S' : Tracker n} (hg : Good S) (h : Fit q S.env) {x : Fin n} {v : Value n} {t : Ty} {r : Option Reason} {ids : Finset Id}
    (hl : ∀ i ∈ ids, Live S.env i) (hb : bindValue S x v t r ids = some S') : Fit q S'.env := by
  unfold bindValue at hb
  split at hb
  · obtain ⟨E, h1, h2⟩ := Option.bind_eq_some_iff.mp hb
    obtain ⟨F, h3, h4⟩ := Option.map_eq_some_iff.mp h2
    cases h4
    exact bindIds_fit h hl (by rw [h1]; exact h3)
  · split at hb
    · rename_i ht
      obtain ⟨a, h1, h2⟩ := Option.bind_eq_some_iff.mp hb
      obtain ⟨b, h3, h4⟩ := Option.bind_eq_some_iff.mp h2
      obtain ⟨E, h5, h6⟩ := Option.bind_eq_some_iff.mp h4
      obtain ⟨F, h7, h8⟩ := Option.map_eq_some_iff.mp h6
      cases h8
      obtain ⟨ids1, S1⟩ := a
      have k1 : Good S1 ∧ Fit q S1.env ∧ ∀ i ∈ ids1, Live S1.env i := by
        cases v with
        | keyed y k u =>
          obtain ⟨ids', S'', a1, a2, _, a4⟩ := keyedIds_ok hg y k t
          have h1' : keyedIds S y k t = some (ids1, S1) := h1
          rw [a1] at h1'
          cases h1'
          exact ⟨a2, keyedIds_fit h a1, a4⟩
        | _ => cases h1; exact ⟨hg, h, by simp⟩
      obtain ⟨g1, f1, l1⟩ := k1
      obtain ⟨ids2, S2⟩ := b
      have k2 : Fit q S2.env ∧ ∀ i ∈ ids2, Live S2.env i := by
        simp only at h3
        split at h3
        · obtain ⟨ids', S'', a1, _, _, _, a5⟩ := freshIds_ok g1 v ht
          rw [a1] at h3
          cases h3
          exact ⟨freshIds_fit f1 a1, a5⟩
        · cases h3; exact ⟨f1, l1⟩
      exact bindIds_fit k2.1 k2.2 (by rw [h5]; exact h7)
    · cases r with
      | some r => cases hb; exact insertUnknown_fit h x r
      | none => cases hb; exact insert_fit h x t

theorem valueArrays_fit {S S' : Tracker n} {v : Value n} {a : Option Arrays} (hg : Good S) (h : Fit q S.env) (hv : v.arrays S = some (a, S')) :
    Fit q S'.env ∧ Good S' ∧ Ext S S' := by
  cases v with
  | array es =>
    obtain ⟨b, S1, h1, h2, h3, _⟩ := arrayAliases_ok (es := es) (i := 0) (a := ⟨es.length, [], ∅, none⟩) hg (by simp [Arrays.Ok])
    simp only [Value.arrays, h1, Option.map_some, Option.some.injEq, Prod.mk.injEq] at hv
    obtain ⟨_, rfl⟩ := hv
    exact ⟨arrayAliases_fit h h1, h2, h3⟩
  | _ =>
    simp only [Value.arrays, Option.some.injEq, Prod.mk.injEq] at hv
    obtain ⟨_, rfl⟩ := hv
    exact ⟨h, hg, Ext.refl _⟩

theorem assign_fit {S S' : Tracker n} (hg : Good S) (h : Fit q S.env) {x : Fin n} {v : Value n} (hs : Good S') (ha : assign S x v = some S') : Fit q S'.env := by
  unfold assign at ha
  simp only at ha
  obtain ⟨a, h1, h2⟩ := Option.bind_eq_some_iff.mp ha
  obtain ⟨T, h3, h4⟩ := Option.bind_eq_some_iff.mp h2
  obtain ⟨a, S1⟩ := a
  obtain ⟨f1, g1, e1⟩ := valueArrays_fit hg h h1
  have f2 := bindValue_fit g1 f1 (fun i hi => e1.live i (valueIds_live hg.inv.toPre v i hi)) h3
  cases a with
  | none => cases h4; exact f2
  | some b =>
    simp only at h4
    split at h4
    · obtain ⟨E, h5, h6⟩ := Option.map_eq_some_iff.mp h4
      cases h6
      unfold bindArrays at h5
      split at h5
      · exact Fit.synced hs.inv (E := { T.env with arrays := put T.env.arrays x none }) f2.few h5
      · exact Fit.synced hs.inv (E := { T.env with arrays := put T.env.arrays x (some b) }) f2.few h5
    · cases h4

/-! ### mutation -/

theorem mem_transitions {f : Ty → Except Reason Ty} {l : List Ty} : ∀ {ts : Transitions}, transitionsOf f l = .ok ts →
    ∀ b a, (b, a) ∈ ts ↔ b ∈ l ∧ f b = .ok a := by
  induction l with
  | nil => intro ts h b a; cases h; simp
  | cons c l ih =>
    intro ts h b a
    unfold transitionsOf at h
    cases hc : f c with
    | error r => simp [hc] at h
    | ok d =>
      simp only [hc] at h
      split at h
      · cases h
      · cases hr : transitionsOf f l with
        | error r => simp [hr] at h
        | ok rs =>
          simp only [hr, Except.ok.injEq] at h
          subst h
          rw [List.mem_cons, ih hr b a, List.mem_cons, Prod.mk.injEq]
          constructor
          · rintro (⟨rfl, rfl⟩ | ⟨h1, h2⟩)
            · exact ⟨.inl rfl, hc⟩
            · exact ⟨.inr h1, h2⟩
          · rintro ⟨rfl | h1, h2⟩
            · rw [hc] at h2; cases h2; exact .inl ⟨rfl, rfl⟩
            · exact .inr ⟨h1, h2⟩

/-- The function makes one shape of one shape. -/
def ToShape (f : Ty → Except Reason Ty) : Prop := ∀ t u, f t = .ok u → u.isShape = true

theorem withField_toShape (k : Lit) (v : Ty) : ToShape (withField k v) := by
  intro t u h
  unfold withField at h
  split at h
  case h_2 => cases h
  case h_1 =>
    split at h
    · cases h; rfl
    · split at h
      · cases h; rename_i h; exact tryNew_shape h
      · cases h

theorem mutation_toShape (m : Mutation) : ToShape m.apply := by
  intro t u h
  unfold Mutation.apply at h
  split at h
  case h_2 => cases h
  case h_1 =>
    cases m with
    | freeze =>
      simp only at h
      split at h
      · cases h; rename_i h; exact tryNew_shape h
      · cases h
    | _ =>
      simp only at h
      split at h
      · cases h; rfl
      · split at h
        · cases h; rename_i h; exact tryNew_shape h
        · cases h

/-- If it succeeds, all alternatives of all identities are changed, and nothing else. -/
theorem transformAll_exact {ids : Finset Id} {f : Ty → Except Reason Ty} (hf : ToShape f) {l : List Id} (hn : l.Nodup) :
    ∀ {acc out : List (Id × Transitions)} {E E' : Env n}, transformAll ids f l acc E = some (.ok out, E') →
      E'.binds = E.binds ∧ E'.links = E.links ∧ E'.arrays = E.arrays ∧ (∀ j, j ∉ l → E'.states j = E.states j) ∧
      (∀ i ∈ l, ∃ t u, E.states i = some (.proven t) ∧ E'.states i = some (.proven u) ∧ ∀ w, DeepAlt u w ↔ ∃ b, DeepAlt t b ∧ f b = .ok w) := by
  induction l with
  | nil => intro acc out E E' h; cases h; simp
  | cons i l ih =>
    intro acc out E E' h
    obtain ⟨hil, hn⟩ := List.nodup_cons.mp hn
    unfold transformAll at h
    split at h
    · cases h
    · cases h
    · rename_i t hst
      split at h
      · cases h
      · rename_i alts hal
        split at h
        · obtain ⟨F, _, h2⟩ := Option.map_eq_some_iff.mp h; cases h2
        · rename_i ts hts
          split at h
          · obtain ⟨F, _, h2⟩ := Option.map_eq_some_iff.mp h; cases h2
          · rename_i hne
            obtain ⟨a1, a2, a3, a4, a5⟩ := ih hn h
            refine ⟨a1, a2, a3, ?_, ?_⟩
            · intro j hj
              rw [List.mem_cons, not_or] at hj
              rw [a4 j hj.2]
              exact put_other hj.1
            · intro j hj
              rcases List.mem_cons.mp hj with rfl | hj
              · refine ⟨t, _, hst, by rw [a4 j hil]; exact put_same _ _ _, fun w => ?_⟩
                rw [deepAlt_mkUnion hne]
                constructor
                · rintro ⟨a, ha, hd⟩
                  obtain ⟨⟨b, a'⟩, hm, rfl⟩ := List.mem_map.mp ha
                  obtain ⟨h1, h2⟩ := (mem_transitions hts b a').mp hm
                  rw [deepAlt_of_simple (shape_simple (hf _ _ h2))] at hd
                  subst hd
                  exact ⟨b, (mem_shapeAlts hal b).mp h1, h2⟩
                · rintro ⟨b, h1, h2⟩
                  exact ⟨w, List.mem_map.mpr ⟨(b, w), (mem_transitions hts b w).mpr ⟨(mem_shapeAlts hal b).mpr h1, h2⟩, rfl⟩,
                    (deepAlt_of_simple (shape_simple (hf _ _ h2))).mpr rfl⟩
              · obtain ⟨t', u', b1, b2, b3⟩ := a5 j hj
                refine ⟨t', u', ?_, b2, b3⟩
                rw [← b1]
                have hij : j ≠ i := fun e => hil (by rw [← e]; exact hj)
                exact (put_other hij).symm

/-- If it does not succeed although all identities are known, they are invalidated. -/
theorem transformAll_error {ids : Finset Id} {f : Ty → Except Reason Ty} {l : List Id} (hn : l.Nodup) :
    ∀ {acc : List (Id × Transitions)} {E E' : Env n} {e : Reason}, Base E → Few E → (∀ i t, E.states i = some (.proven t) → isShapeOnly t = true) →
      MapsShapes f → (∀ i ∈ l, ∃ t, E.states i = some (.proven t)) → transformAll ids f l acc E = some (.error e, E') → Fit q E' := by
  induction l with
  | nil => intro acc E E' e _ _ _ _ _ h; cases h
  | cons i l ih =>
    intro acc E E' e hb hfew hsh hmap hp h
    obtain ⟨hil, hn⟩ := List.nodup_cons.mp hn
    obtain ⟨t, hst⟩ := hp i List.mem_cons_self
    obtain ⟨alts, hal, _, hash⟩ := shapeAlts_ok t (hsh i t hst)
    unfold transformAll at h
    simp only [hst, hal] at h
    split at h
    · obtain ⟨F, h1, h2⟩ := Option.map_eq_some_iff.mp h
      cases h2
      exact ⟨invalidate_base hb h1, invalidate_few hfew h1⟩
    · rename_i ts hts
      split at h
      · obtain ⟨F, h1, h2⟩ := Option.map_eq_some_iff.mp h
        cases h2
        exact ⟨invalidate_base hb h1, invalidate_few hfew h1⟩
      · rename_i hne
        have hso := mkUnion_shapeOnly (ts := ts.map Prod.snd) (fun u hu => by
            obtain ⟨x, hx, rfl⟩ := List.mem_map.mp hu
            exact transitionsOf_ok hmap hash hts x hx) hne
        refine ih hn (E := { E with states := put E.states i (some (.proven (mkUnion (ts.map Prod.snd)))) }) ?_ ?_ ?_ hmap ?_ h
        · refine hb.frame ⟨rfl, rfl, rfl, fun j => ?_⟩
          unfold Live put
          dsimp only
          split
          · rename_i e; subst e; simp [hst]
          · exact .rfl
        · refine hfew.same rfl rfl fun j u hj => ?_
          dsimp only [put] at hj
          split at hj
          · rename_i e; subst e; exact ⟨t, hst⟩
          · exact ⟨u, hj⟩
        · intro j u hj
          dsimp only [put] at hj
          split at hj
          · cases hj; exact hso
          · exact hsh j u hj
        · intro j hj
          obtain ⟨u, hu⟩ := hp j (List.mem_cons_of_mem _ hj)
          have hij : j ≠ i := fun e => hil (by rw [← e]; exact hj)
          exact ⟨u, by dsimp only; rw [put_other hij]; exact hu⟩

theorem asc_empty : asc (∅ : Finset Id) = [] := by
  unfold asc
  rw [List.filter_eq_nil_iff]
  simp

theorem propagate_nothing {changed : List (Id × Transitions)} {E : Env n} (h : ∀ l ∈ E.links, l.child ∉ changed.map Prod.fst) :
    propagate maxRounds changed E = some (.ok (), E) := by
  have hl : (E.links.filter fun l => l.child ∈ changed.map Prod.fst) = [] := by
    rw [List.filter_eq_nil_iff]
    intro l hl
    simpa using h l hl
  unfold maxRounds propagate
  split
  · rfl
  · simp only [hl, List.map_nil, List.toFinset_nil, asc_empty, propagateParents, Option.bind_some]
    unfold propagate
    simp

/-- A change of hashes that no other hash contains. -/
theorem transform_fit {E E' : Env n} (hi : Inv E) (h : Fit q E) {ids : Finset Id} (hl : ∀ i ∈ ids, Live E i) {f : Ty → Except Reason Ty} (hm : MapsShapes f)
    (hf : ToShape f) (hs : (∀ i ∈ ids, ∃ t, E.states i = some (.proven t)) ∨ ids.card ≤ 1) (hc : ∀ l ∈ E.links, l.child ∉ ids) {r : Except Reason Unit}
    (ht : transform E ids f = some (r, E')) : Fit q E' ∧ E'.binds = E.binds ∧ E'.links = E.links ∧ E'.arrays = E.arrays ∧ (∀ u, r = .ok u → (∀ j, j ∉ ids → E'.states j = E.states j) ∧
      ∀ i ∈ ids, ∃ t u, E.states i = some (.proven t) ∧ E'.states i = some (.proven u) ∧ ∀ w, DeepAlt u w ↔ ∃ b, DeepAlt t b ∧ f b = .ok w) := by
  obtain ⟨r', E0, h0, hi0, hf0⟩ := transform_ok hi hl hm
  rw [ht] at h0
  cases h0
  refine ⟨?_, hf0.binds, hf0.links, hf0.arrays, ?_⟩
  · obtain ⟨q, E1, h1, h2, h3, h4⟩ := transformAll_ok hm (ids := ids) (l := asc ids) (fun i hi => mem_asc.mp hi) (acc := []) hi hl (by simp)
    unfold transform at ht
    rw [h1] at ht
    simp only [Option.bind_some] at ht
    cases q with
    | error e =>
      simp only [Option.some.injEq, Prod.mk.injEq] at ht
      obtain ⟨_, rfl⟩ := ht
      rcases hs with hs | hs
      · exact transformAll_error (asc_nodup ids) h.toBase h.few hi.shapes hm (fun i hi => hs i (mem_asc.mp hi)) h1
      · by_cases hall : ∀ i ∈ ids, ∃ t, E.states i = some (.proven t)
        · exact transformAll_error (asc_nodup ids) h.toBase h.few hi.shapes hm (fun i hi => hall i (mem_asc.mp hi)) h1
        · simp only [not_forall] at hall
          obtain ⟨i, him, hp⟩ := hall
          have : asc ids = [i] := by
            have e : ids = {i} := by
              refine Finset.eq_singleton_iff_unique_mem.mpr ⟨him, fun j hj => ?_⟩
              exact Finset.card_le_one.mp hs j hj i him
            have hm : ∀ j, j ∈ asc ids ↔ j = i := fun j => by rw [mem_asc, e, Finset.mem_singleton]
            have hn := asc_nodup ids
            generalize asc ids = m at hm hn
            match m, hm, hn with
            | [], hm, _ => exact absurd ((hm i).mpr rfl) (by simp)
            | [a], hm, _ => rw [(hm a).mp (by simp)]
            | a :: b :: m, hm, hn =>
              have h1 := (hm a).mp (by simp)
              have h2 := (hm b).mp (by simp)
              rw [h1, h2] at hn
              simp at hn
          rw [this] at h1
          unfold transformAll at h1
          obtain ⟨st, hst⟩ := Option.isSome_iff_exists.mp (hl i him)
          cases st with
          | proven t => exact absurd ⟨t, hst⟩ hp
          | invalid r => simp only [hst, Option.some.injEq, Prod.mk.injEq] at h1; rw [← h1.2]; exact h
    | ok changed =>
      have hno : ∀ l ∈ E1.links, l.child ∉ changed.map Prod.fst := by
        intro l hlm hcm
        obtain ⟨c, hc1, hc2⟩ := List.mem_map.mp hcm
        exact hc l (h3.links ▸ hlm) (hc2 ▸ h4 changed rfl c hc1)
      simp only [propagate_nothing hno, Option.bind_some] at ht
      obtain ⟨F, h5, h6⟩ := Option.bind_eq_some_iff.mp ht
      obtain ⟨t, h7, h8⟩ := Option.map_eq_some_iff.mp h6
      obtain ⟨b1, b2, _, b4, b5⟩ := transformAll_exact hf (asc_nodup ids) h1
      have hfew : Few E1 := h.few.same b1 b2 fun j u hj => by
        by_cases hm : j ∈ ids
        · obtain ⟨t, _, ht, _⟩ := b5 j (mem_asc.mpr hm); exact ⟨t, ht⟩
        · exact ⟨u, by rw [← b4 j (fun h => hm (mem_asc.mp h))]; exact hj⟩
      have e : F = E' := by cases t <;> (simp only [Prod.mk.injEq] at h8; exact h8.2)
      subst e
      exact Fit.sync h2.toPre.base hfew h5
  · rintro ⟨⟩ rfl
    obtain ⟨q, E1, h1, h2, h3, h4⟩ := transformAll_ok hm (ids := ids) (l := asc ids) (fun i hi => mem_asc.mp hi) (acc := []) hi hl (by simp)
    unfold transform at ht
    rw [h1] at ht
    simp only [Option.bind_some] at ht
    cases q with
    | error e => cases ht
    | ok changed =>
      have hno : ∀ l ∈ E1.links, l.child ∉ changed.map Prod.fst := by
        intro l hlm hcm
        obtain ⟨c, hc1, hc2⟩ := List.mem_map.mp hcm
        exact hc l (h3.links ▸ hlm) (hc2 ▸ h4 changed rfl c hc1)
      simp only [propagate_nothing hno, Option.bind_some] at ht
      obtain ⟨F, h5, h6⟩ := Option.bind_eq_some_iff.mp ht
      obtain ⟨t, h7, h8⟩ := Option.map_eq_some_iff.mp h6
      obtain ⟨_, _, _, b4, b5⟩ := transformAll_exact hf (asc_nodup ids) h1
      have e : F = E' := by cases t <;> (simp only [Prod.mk.injEq] at h8; exact h8.2)
      subst e
      have hst := (sync_frame h5).2
      rw [hst]
      exact ⟨fun j hj => b4 j (fun h => hj (mem_asc.mp h)), fun i hi => b5 i (mem_asc.mpr hi)⟩

theorem Few.put {E : Env n} (h : Few E) {i : Id} {t u : Ty} (hi : E.states i = some (.proven t)) : Few { E with states := FlowShapes.put E.states i (some (.proven u)) } := by
  refine h.same rfl rfl fun j v hj => ?_
  dsimp only [FlowShapes.put] at hj
  split at hj
  · rename_i e; subst e; exact ⟨t, hi⟩
  · exact ⟨v, hj⟩

theorem transformAll_few {ids : Finset Id} {f : Ty → Except Reason Ty} {l : List Id} : ∀ {acc : List (Id × Transitions)} {E E' : Env n}
    {r : Except Reason (List (Id × Transitions))}, Few E → transformAll ids f l acc E = some (r, E') → Few E' := by
  induction l with
  | nil => intro acc E E' r h ht; cases ht; exact h
  | cons i l ih =>
    intro acc E E' r h ht
    unfold transformAll at ht
    split at ht
    · cases ht
    · cases ht; exact h
    · rename_i t hst
      split at ht
      · cases ht; exact h
      · split at ht
        · obtain ⟨F, h1, h2⟩ := Option.map_eq_some_iff.mp ht; cases h2; exact invalidate_few h h1
        · split at ht
          · obtain ⟨F, h1, h2⟩ := Option.map_eq_some_iff.mp ht; cases h2; exact invalidate_few h h1
          · exact ih (h.put hst) ht

theorem propagateParents_few {changed : List (Id × Transitions)} {links : List Link} {l : List Id} : ∀ {acc : List (Id × Transitions)} {E E' : Env n}
    {r : Except Reason (List (Id × Transitions))}, Few E → propagateParents changed links l acc E = some (r, E') → Few E' := by
  induction l with
  | nil => intro acc E E' r h ht; cases ht; exact h
  | cons i l ih =>
    intro acc E E' r h ht
    unfold propagateParents at ht
    split at ht
    · cases ht
    · cases ht; exact h
    · rename_i t hst
      split at ht
      · cases ht; exact h
      · split at ht
        · cases ht
        · cases ht; exact h
        · split at ht
          · obtain ⟨F, h1, h2⟩ := Option.map_eq_some_iff.mp ht; cases h2; exact invalidate_few h h1
          · exact ih (h.put hst) ht

theorem propagate_few {k : Nat} : ∀ {changed : List (Id × Transitions)} {E E' : Env n} {r : Except Reason Unit}, Few E →
    propagate k changed E = some (r, E') → Few E' := by
  induction k with
  | zero =>
    intro changed E E' r h ht
    unfold propagate at ht
    obtain ⟨F, h1, h2⟩ := Option.map_eq_some_iff.mp ht; cases h2; exact invalidate_few h h1
  | succ k ih =>
    intro changed E E' r h ht
    unfold propagate at ht
    simp only at ht
    split at ht
    · cases ht; exact h
    · obtain ⟨⟨a, F⟩, h1, h2⟩ := Option.bind_eq_some_iff.mp ht
      have := propagateParents_few h h1
      cases a with
      | ok _ => exact ih this h2
      | error _ => cases h2; exact this

theorem transform_few {E E' : Env n} {ids : Finset Id} {f : Ty → Except Reason Ty} {r : Except Reason Unit} (h : Few E) (ht : transform E ids f = some (r, E')) : Few E' := by
  unfold transform at ht
  obtain ⟨⟨a, F⟩, h1, h2⟩ := Option.bind_eq_some_iff.mp ht
  have f1 := transformAll_few h h1
  cases a with
  | error e => cases h2; exact f1
  | ok changed =>
    obtain ⟨⟨b, G⟩, h3, h4⟩ := Option.bind_eq_some_iff.mp h2
    have f2 := propagate_few f1 h3
    cases b with
    | error e => cases h4; exact f2
    | ok _ =>
      obtain ⟨H, h5, h6⟩ := Option.bind_eq_some_iff.mp h4
      obtain ⟨t, _, h8⟩ := Option.map_eq_some_iff.mp h6
      have e : H = E' := by cases t <;> (simp only [Prod.mk.injEq] at h8; exact h8.2)
      exact e ▸ sync_few f2 h5

theorem transform_fit' {E E' : Env n} (hi : Inv E) (h : Fit q E) {ids : Finset Id} (hl : ∀ i ∈ ids, Live E i) {f : Ty → Except Reason Ty} (hm : MapsShapes f)
    (hf : ToShape f) (hs : q → ((∀ i ∈ ids, ∃ t, E.states i = some (.proven t)) ∨ ids.card ≤ 1) ∧ ∀ l ∈ E.links, l.child ∉ ids) {r : Except Reason Unit}
    (ht : transform E ids f = some (r, E')) : Fit q E' := by
  by_cases hq : q
  · exact (transform_fit hi h hl hm hf (hs hq).1 (hs hq).2 ht).1
  · obtain ⟨r', E0, h0, hi0, _⟩ := transform_ok hi hl hm
    rw [ht] at h0
    cases h0
    exact ⟨⟨hi0.toPre.base, fun h => absurd h hq⟩, transform_few h.few ht⟩

theorem detach_fit {E : Env n} (h : Fit q E) (ids : Finset Id) (k : Option Lit) : Fit q (detach E ids k) :=
  ⟨⟨⟨h.live, fun l hl => h.child l (List.mem_filter.mp hl).1, h.apart⟩, h.agrees⟩,
    h.few.mono (fun _ s hs => ⟨s, hs, Finset.Subset.refl _⟩) List.filter_sublist fun _ t ht => ⟨t, ht⟩⟩

theorem linkParents_tidy {k : Lit} {c : Id} {l : List Id} : ∀ {E E' : Env n}, Tidy q E → linkParents k c l E = some E' → Tidy q E' := by
  induction l with
  | nil => intro E E' h hl; cases hl; exact h
  | cons p l ih =>
    intro E E' h hl
    unfold linkParents at hl
    obtain ⟨F, h1, h2⟩ := Option.bind_eq_some_iff.mp hl
    exact ih (link_tidy h h1) h2

theorem linkAssigned_fit {E E' : Env n} (h : Fit q E) {parents children : Finset Id} {k : Lit} {t : Ty} {b : Bool}
    (hl : linkAssigned E parents k children t = some (b, E')) : Fit q E' := by
  unfold linkAssigned at hl
  split at hl
  case h_2 => cases hl; exact h
  case h_1 =>
    split at hl
    · cases hl; exact h
    · obtain ⟨u, _, h2⟩ := Option.bind_eq_some_iff.mp hl
      cases u with
      | error e => cases h2; exact h
      | ok u =>
        simp only at h2
        split at h2
        · cases h2; exact h
        · split at h2
          · cases h2
          · split at h2
            · cases h2; exact h
            · obtain ⟨F, h3, h4⟩ := Option.bind_eq_some_iff.mp h2
              obtain ⟨G, h5, h6⟩ := Option.bind_eq_some_iff.mp h4
              obtain ⟨H, h7, h8⟩ := Option.map_eq_some_iff.mp h6
              cases h8
              exact fit_enforce_sync (linkParents_tidy h.toTidy h3).toBase (by rw [h5]; exact h7)

theorem setField_fit {E E' : Env n} (hi : Inv E) (h : Fit q E) {y : Fin n} (hsep : q → Separate E y) {k : Lit} {v : Part n} (hs : setField E y k v = some E') : Fit q E' := by
  unfold setField at hs
  simp only at hs
  split at hs
  · split at hs
    · cases hs; exact h
    · exact h.invalidate hs
  · split at hs
    · exact h.invalidate hs
    · rename_i hne _
      cases hb : E.binds y with
      | none => simp [hb] at hne
      | some ids =>
        simp only [hb, Option.getD_some] at hs
        obtain ⟨r, h1, h2⟩ := Option.bind_eq_some_iff.mp hs
        obtain ⟨r, F⟩ := r
        have f := transform_fit' (detach_inv hi ids (some k)) (detach_fit h ids (some k)) (ids := ids) ((hi.bound y ids hb).2) (withField_maps k (v.type E)) (withField_toShape k (v.type E)) (fun hq => ⟨(hsep hq ids hb).1, fun l hl => (hsep hq ids hb).2 l (List.mem_filter.mp hl).1⟩) h1
        cases r with
        | error e => cases h2; exact f
        | ok u =>
          simp only at h2
          split at h2
          · cases h2; exact f
          · obtain ⟨q, h3, h4⟩ := Option.bind_eq_some_iff.mp h2
            obtain ⟨b, G⟩ := q
            have f2 := linkAssigned_fit f h3
            simp only at h4
            split at h4
            · cases h4; exact f2
            · exact f2.invalidate h4

theorem change_fit {E E' : Env n} (hi : Inv E) (h : Fit q E) {y : Fin n} (hsep : q → Separate E y) {m : Mutation} (hs : change E y m = some E') : Fit q E' := by
  unfold change at hs
  simp only at hs
  split at hs
  · cases hs; exact h
  · rename_i hne
    cases hb : E.binds y with
    | none => simp [hb] at hne
    | some ids =>
      simp only [hb, Option.getD_some] at hs
      obtain ⟨⟨r, F⟩, h1, h2⟩ := Option.map_eq_some_iff.mp hs
      cases h2
      cases m with
      | delete k => exact transform_fit' (detach_inv hi ids (some k)) (detach_fit h ids (some k)) (ids := ids) ((hi.bound y ids hb).2) (mutation_maps _) (mutation_toShape _) (fun hq => ⟨(hsep hq ids hb).1, fun l hl => (hsep hq ids hb).2 l (List.mem_filter.mp hl).1⟩) h1
      | clear => exact transform_fit' (detach_inv hi ids none) (detach_fit h ids none) (ids := ids) ((hi.bound y ids hb).2) (mutation_maps _) (mutation_toShape _) (fun hq => ⟨(hsep hq ids hb).1, fun l hl => (hsep hq ids hb).2 l (List.mem_filter.mp hl).1⟩) h1
      | freeze => exact transform_fit' hi h (ids := ids) ((hi.bound y ids hb).2) (mutation_maps _) (mutation_toShape _) (fun hq => hsep hq ids hb) h1

theorem guardAll_known {f : Ty → Except Reason (Option Ty)} {states : Id → Option State} {l : List Id} : ∀ {q : Finset Id × List (Id × Ty)},
    guardAll f states l = some (.ok q) → ∀ u ∈ q.2, ∃ t, states u.1 = some (.proven t) := by
  induction l with
  | nil => intro q h; cases h; simp
  | cons i l ih =>
    intro q h
    unfold guardAll at h
    split at h
    · cases h
    · obtain ⟨r, h1, h2⟩ := Option.map_eq_some_iff.mp h
      cases r with
      | error e => cases h2
      | ok r => cases h2; exact fun u hu => ih h1 u hu
    · rename_i t hst
      split at h
      · cases h
      · exact ih h
      · obtain ⟨r, h1, h2⟩ := Option.map_eq_some_iff.mp h
        cases r with
        | error e => cases h2
        | ok r =>
          cases h2
          intro u hu
          rcases List.mem_cons.mp hu with rfl | hu
          · exact ⟨t, hst⟩
          · exact ih h1 u hu

theorem guardVar_fit {S S' : Tracker n} (h : Fit q S.env) {y : Fin n} {f : Ty → Except Reason (Option Ty)} {E : Env n} (hS : Good S') (hE : S'.env = E)
    (hs : guardVar S.env y f = some E) : Fit q E := by
  unfold guardVar at hs
  simp only at hs
  split at hs
  · cases hs; exact h
  · obtain ⟨r, h1, h2⟩ := Option.bind_eq_some_iff.mp hs
    cases r with
    | error e => exact h.invalidate h2
    | ok q =>
      simp only at h2
      split at h2
      · cases h2; exact h
      · refine Fit.synced (hE ▸ hS.inv) ?_ h2
        refine h.few.mono ?_ (List.Sublist.refl _) ?_
        · intro x s hx
          obtain ⟨s', h3, rfl⟩ := Option.map_eq_some_iff.mp hx
          exact ⟨s', h3, Finset.filter_subset _ _⟩
        · intro i t hi
          dsimp only at hi
          split at hi
          · rename_i u hu
            have e : u.1 = i := by simpa using List.find?_some hu
            exact e ▸ guardAll_known h1 u (List.mem_of_find?_eq_some hu)
          · exact ⟨t, hi⟩

theorem merge_fit {A B E : Env n} {c : Nat} (hg : Good ⟨E, c⟩) (h : merge A B = some E) : Fit q E := by
  unfold merge at h
  simp only at h
  obtain ⟨F, _, h2⟩ := Option.bind_eq_some_iff.mp h
  obtain ⟨G, h3, h4⟩ := Option.bind_eq_some_iff.mp h2
  exact Fit.synced hg.inv (enforce_few h3) h4

theorem run_fit (c : Code n) : ∀ {S S' : Tracker n}, Good S → Fit q S.env → Safe c S → (q → Regular c S) → run c S = some S' → Fit q S'.env := by
  induction c with
  | skip => intro S S' _ h _ _ hr; cases hr; exact h
  | assign x v =>
    intro S S' hg h hs _ hr
    obtain ⟨T, h1, h2, _⟩ := run_ok _ hg hs
    rw [hr] at h1; cases h1
    exact assign_fit hg h h2 hr
  | insert x t => intro S S' _ h _ _ hr; cases hr; exact insert_fit h x t
  | setField y k v =>
    intro S S' hg h _ hreg hr
    obtain ⟨E, h1, h2⟩ := Option.map_eq_some_iff.mp hr
    cases h2
    exact setField_fit hg.inv h hreg h1
  | change y m =>
    intro S S' hg h _ hreg hr
    obtain ⟨E, h1, h2⟩ := Option.map_eq_some_iff.mp hr
    cases h2
    exact change_fit hg.inv h hreg h1
  | escape p =>
    intro S S' _ h _ _ hr
    obtain ⟨E, h1, h2⟩ := Option.map_eq_some_iff.mp hr
    cases h2
    split at h1
    · cases h1; exact h
    · exact h.invalidate h1
  | guard y f =>
    intro S S' hg h hs _ hr
    obtain ⟨T, h1, h2, _⟩ := run_ok _ hg hs
    rw [hr] at h1; cases h1
    obtain ⟨E, h3, h4⟩ := Option.map_eq_some_iff.mp hr
    exact guardVar_fit h h2 rfl (by rw [h3, ← h4])
  | narrow x t =>
    intro S S' _ h _ hreg hr
    cases hr
    refine ⟨⟨⟨h.live, h.child, h.apart⟩, ?_⟩, h.few⟩
    intro hq y ids u hb hu
    have e : y ≠ x := by rintro rfl; simp only at hb; rw [show S.env.binds y = none from hreg hq] at hb; cases hb
    dsimp only at hu
    rw [put_other e] at hu
    exact h.agrees hq y ids u hb hu
  | seq a b iha ihb =>
    intro S S' hg h hs hreg hr
    obtain ⟨T, h1, h2⟩ := Option.bind_eq_some_iff.mp hr
    obtain ⟨T', h3, h4, _⟩ := run_ok a hg hs.1
    rw [h1] at h3; cases h3
    exact ihb h4 (iha hg h hs.1 (fun hq => (hreg hq).1) h1) (hs.2 T h1) (fun hq => (hreg hq).2 T h1) h2
  | branch a b iha ihb =>
    intro S S' hg h hs hreg hr
    obtain ⟨T, h1, h2, _⟩ := run_ok _ hg hs
    rw [hr] at h1; cases h1
    obtain ⟨A, h3, h4⟩ := Option.bind_eq_some_iff.mp hr
    obtain ⟨B, h5, h6⟩ := Option.bind_eq_some_iff.mp h4
    obtain ⟨E, h7, h8⟩ := Option.map_eq_some_iff.mp h6
    cases h8
    exact merge_fit h2 h7
  | scratch a iha =>
    intro S S' _ h _ _ hr
    obtain ⟨A, _, h2⟩ := Option.map_eq_some_iff.mp hr
    cases h2
    exact h

theorem fit_empty : Fit q (Env.empty : Env n) := by
  refine ⟨⟨⟨?_, ?_, ?_⟩, ?_⟩, ?_⟩
  all_goals simp [Env.empty, Agrees, Few]

end Verif.FlowShapes
