import Verif.Lemmas.Types
/-!
C21: unions are a canonical join.
-/
namespace Verif.Types
open Verif.Store

/-- C21: the result depends only on the set of alternatives: not on order, repetition or one level of grouping. -/
theorem c21_union_depends_on_alternatives {ts us : List Ty} (h : ∀ x, Alts ts x ↔ Alts us x) : mkUnion ts = mkUnion us := by
  rw [mkUnion_eq, mkUnion_eq]
  exact finish_ext (fun x => by rw [mem_flatten, mem_flatten, h x])

/-- C21: order does not matter. -/
theorem c21_union_order {ts us : List Ty} (h : ts.Perm us) : mkUnion ts = mkUnion us :=
  c21_union_depends_on_alternatives (fun x => by simp only [Alts, h.mem_iff])

/-- C21: grouping members into a union first does not matter. -/
theorem c21_union_grouping {ts us : List Ty} (h : ∀ t ∈ ts, Simple t) : mkUnion (.union ts :: us) = mkUnion (ts ++ us) := by
  refine c21_union_depends_on_alternatives (fun x => ?_)
  simp only [Alts, List.mem_cons, List.mem_append]
  constructor
  · rintro ⟨t, rfl | ht, hx⟩
    · exact ⟨x, .inl (altOf_union.mp hx), .self (h x (altOf_union.mp hx))⟩
    · exact ⟨t, .inr ht, hx⟩
  · rintro ⟨t, ht | ht, hx⟩
    · refine ⟨_, .inl rfl, altOf_union.mpr ?_⟩
      rw [altOf_simple (h t ht)] at hx
      exact hx ▸ ht
    · exact ⟨t, .inr ht, hx⟩

theorem simple_cls (n : Name) : Simple (.cls n) := fun _ h => by cases h
theorem simple_unknown : Simple .unknown := fun _ h => by cases h

theorem alts_nil_iff {ts : List Ty} : flatten ts = [] ↔ ∀ x, ¬ Alts ts x := by
  rw [List.eq_nil_iff_forall_not_mem]
  exact ⟨fun h x => by rw [← mem_flatten]; exact h x, fun h x => by rw [mem_flatten]; exact h x⟩

theorem many_flatten {ts : List Ty} : ManyShapes (· ∈ flatten ts) ↔ ManyShapes (Alts ts) :=
  manyShapes_congr (fun _ => mem_flatten)

/-- C21: the result is unknown exactly when an alternative is, there are none, or there are more than eight shapes. -/
theorem c21_unknown_iff (ts : List Ty) :
    mkUnion ts = .unknown ↔ Alts ts .unknown ∨ (∀ x, ¬ Alts ts x) ∨ ManyShapes (Alts ts) := by
  rw [mkUnion_eq, ← mem_flatten, ← alts_nil_iff, ← many_flatten]
  rcases finish_cases (flatten ts) with ⟨h, h'⟩ | ⟨h1, h2, t, ht, hm⟩ | ⟨h1, h2, hl, h⟩
  · exact ⟨fun _ => h', fun _ => h⟩
  · constructor
    · intro h
      exact absurd ((hm .unknown).mpr (h.symm.trans ht)) h1
    · rintro (h | h | h)
      · exact absurd h h1
      · have := (hm t).mpr rfl
        rw [h] at this; simp at this
      · exact absurd h h2
  · constructor
    · intro h'; rw [h] at h'; cases h'
    · rintro (h' | h' | h')
      · exact absurd h' h1
      · rw [h'] at hl; simp [canon, stableSort, dedupAdj] at hl
      · exact absurd h' h2

/-- C21: a union that is not unknown has exactly the given alternatives, and if none of these is itself a union it is canonical:
never nested, strictly ascending, with at least two members. -/
theorem c21_alternatives {ts : List Ty} (hflat : ∀ x, Alts ts x → Simple x) :
    Canonical (mkUnion ts) ∧ (mkUnion ts ≠ .unknown → ∀ x, AltOf (mkUnion ts) x ↔ Alts ts x) := by
  rw [mkUnion_eq]
  rcases finish_cases (flatten ts) with ⟨h, -⟩ | ⟨h1, h2, t, ht, hm⟩ | ⟨h1, h2, hl, h⟩
  · rw [h]
    exact ⟨.simple (fun _ h => by cases h), fun h => absurd rfl h⟩
  · have hs : Simple t := hflat t (mem_flatten.mp ((hm t).mpr rfl))
    rw [ht]
    refine ⟨.simple hs, fun _ x => ?_⟩
    rw [altOf_simple hs, ← mem_flatten, hm]
  · rw [h]
    refine ⟨.union ?_ hl ?_ ?_, fun _ x => ?_⟩
    · intro x hx
      have hx := mem_canon.mp hx
      exact ⟨hflat x (mem_flatten.mp hx), fun e => h1 (e ▸ hx)⟩
    · exact ((canon_sorted _).and (canon_nodup _)).imp (fun h => h)
    · rwa [manyShapes_congr (fun _ => mem_canon)]
    · rw [altOf_union, mem_canon, mem_flatten]

/-- Only one level is flattened: a union inside a union inside a union survives. -/
theorem c21_two_levels_nest :
    ∃ a b, Simple a ∧ Simple b ∧ mkUnion [.union [.union [a, b], a]] = .union [a, .union [a, b]] :=
  ⟨.cls [1], .cls [2], simple_cls _, simple_cls _, by decide⟩

/-- C21: joining a union with one of its own members, or with all of them again, changes nothing. -/
theorem c21_join_own_member {ts : List Ty} (hflat : ∀ x, Alts ts x → Simple x) (ms : List Ty) (hm : ∀ m ∈ ms, Alts ts m) :
    mkUnion (mkUnion ts :: ms) = mkUnion ts := by
  by_cases hu : mkUnion ts = .unknown
  · rw [hu, c21_unknown_iff]
    exact .inl ⟨.unknown, List.mem_cons_self, .self (fun _ h => by cases h)⟩
  · refine c21_union_depends_on_alternatives (fun x => ?_)
    have ha := (c21_alternatives hflat).2 hu
    constructor
    · rintro ⟨t, ht, hx⟩
      rcases List.mem_cons.mp ht with rfl | ht
      · exact (ha x).mp hx
      · have := hm t ht
        rw [altOf_simple (hflat t this)] at hx
        exact hx ▸ this
    · intro hx
      exact ⟨_, List.mem_cons_self, (ha x).mpr hx⟩

/-! ### `union_with` on canonical types -/

theorem canonical_flat {t : Ty} (h : Canonical t) : Flat t := by
  intro x hx
  cases h with
  | simple hs => rw [altOf_simple hs] at hx; exact hx ▸ hs
  | union hm _ _ _ => exact (hm x (altOf_union.mp hx)).1

theorem alts_singleton {t x : Ty} : Alts [t] x ↔ AltOf t x := by simp [Alts]

theorem flat_pair {a b : Ty} (ha : Flat a) (hb : Flat b) : ∀ x, Alts [a, b] x → Simple x := by
  rintro x ⟨t, ht, hx⟩
  simp only [List.mem_cons, List.not_mem_nil, or_false] at ht
  rcases ht with rfl | rfl
  · exact ha x hx
  · exact hb x hx

/-- A canonical type is the union of itself. -/
theorem mkUnion_canonical {t : Ty} (h : Canonical t) : mkUnion [t] = t := by
  rw [mkUnion_eq]
  cases h with
  | simple hs =>
    have hf : flatten [t] = [t] := by
      cases t <;> first | exact absurd rfl (hs _) | rfl
    rw [hf]
    have := finish_cases [t]
    rcases this with ⟨h, h'⟩ | ⟨h1, h2, u, hu, hm⟩ | ⟨h1, h2, hl, h⟩
    · rw [h]
      rcases h' with h' | h' | ⟨l, hn, hl, hm⟩
      · simpa using h'
      · simp at h'
      · have := nodup_length_le hn (m := [t]) (fun x hx => (hm x hx).1)
        simp [hl] at this
    · rw [hu]; exact ((hm t).mp (by simp)).symm
    · simp [canon, stableSort, insertSorted, dedupAdj] at hl
  | union hm h2 hp hs =>
    rename_i us
    have hf : flatten [.union us] = us := by simp [flatten]
    rw [hf]
    have hc : canon us = us := canon_of_strict (hp.imp And.left) (hp.imp And.right)
    rcases finish_cases us with ⟨h, h'⟩ | ⟨h1, -, u, hu, hm'⟩ | ⟨-, -, -, h⟩
    · rcases h' with h' | h' | h'
      · exact absurd rfl (hm _ h').2
      · rw [h'] at h2; simp at h2
      · exact absurd h' hs
    · match us, h2, hp with
      | a :: b :: l, _, hp =>
        have ha := (hm' a).mp (by simp)
        have hb := (hm' b).mp (by simp)
        exact absurd (ha.trans hb.symm) ((List.pairwise_cons.mp hp).1 b (by simp)).2
    · rw [h, hc]

/-- On canonical types `union_with` is the union of the two. -/
theorem unionWith_eq {a b : Ty} (ha : Canonical a) (hb : Canonical b) : unionWith a b = mkUnion [a, b] := by
  have key : ∀ x, (Simple x → ∀ y, AltOf x y ↔ y = x) := fun x h y => altOf_simple h
  unfold unionWith
  split
  · rename_i hab
    subst hab
    rw [← mkUnion_canonical ha]
    rw [c21_union_depends_on_alternatives (ts := [mkUnion [a], mkUnion [a]]) (us := [a])]
    intro x
    rw [mkUnion_canonical ha]
    simp [Alts]
  · have habs : ∀ x, mkUnion [.unknown, x] = .unknown ∧ mkUnion [x, .unknown] = .unknown := by
      intro x
      constructor <;> rw [c21_unknown_iff] <;> refine .inl ⟨.unknown, by simp, .self (fun _ h => by cases h)⟩
    have gen : ∀ l, (∀ x, Alts l x ↔ AltOf a x ∨ AltOf b x) → mkUnion l = mkUnion [a, b] := by
      intro l hl
      refine c21_union_depends_on_alternatives (fun x => ?_)
      rw [hl]; simp [Alts]
    have memS : ∀ us : List Ty, Canonical (.union us) → ∀ x, (∃ t ∈ us, AltOf t x) ↔ AltOf (.union us) x := by
      intro us hus x
      have hfl := canonical_flat hus
      rw [altOf_union]
      constructor
      · rintro ⟨t, ht, hx⟩
        rw [altOf_simple (hfl t (altOf_union.mpr ht))] at hx
        exact hx ▸ ht
      · intro hx
        exact ⟨x, hx, .self (hfl x (altOf_union.mpr hx))⟩
    split
    · exact (habs _).1.symm
    · exact (habs _).2.symm
    · rename_i ts us _
      refine gen _ (fun x => ?_)
      rw [← memS ts ha, ← memS us hb]
      simp only [Alts, List.mem_append, or_and_right, exists_or]
    · rename_i ts _ _ _
      refine gen _ (fun x => ?_)
      rw [← memS ts ha]
      simp only [Alts, List.mem_append, or_and_right, exists_or, List.mem_singleton, exists_eq_left]
    · rename_i us _ _ _
      refine gen _ (fun x => ?_)
      rw [← memS us hb]
      simp only [Alts, List.mem_append, or_and_right, exists_or, List.mem_singleton, exists_eq_left]
      exact or_comm
    · rfl

theorem canonical_mkUnion {ts : List Ty} (h : ∀ t ∈ ts, Canonical t) : Canonical (mkUnion ts) := by
  refine (c21_alternatives ?_).1
  rintro x ⟨t, ht, hx⟩
  exact canonical_flat (h t ht) x hx

theorem unknown_absorbs {ts : List Ty} (h : .unknown ∈ ts) : mkUnion ts = .unknown :=
  (c21_unknown_iff ts).mpr (.inl ⟨_, h, .self (fun _ h => by cases h)⟩)

theorem many_mono {P Q : Ty → Prop} (h : ∀ x, P x → Q x) (hm : ManyShapes P) : ManyShapes Q := by
  obtain ⟨l, hn, hl, hx⟩ := hm
  exact ⟨l, hn, hl, fun x hxl => ⟨h x (hx x hxl).1, (hx x hxl).2⟩⟩

/-- A union may be built in two stages. -/
theorem mkUnion_nested {ts us : List Ty} (ht : ∀ t ∈ ts, Canonical t) (hne : ts ≠ []) : mkUnion (mkUnion ts :: us) = mkUnion (ts ++ us) := by
  have hflat : ∀ x, Alts ts x → Simple x := by
    rintro x ⟨t, h, hx⟩
    exact canonical_flat (ht t h) x hx
  by_cases hu : mkUnion ts = .unknown
  · rw [hu, unknown_absorbs List.mem_cons_self]
    symm
    rw [c21_unknown_iff]
    rcases (c21_unknown_iff ts).mp hu with h | h | h
    · obtain ⟨t, h1, h2⟩ := h
      exact .inl ⟨t, by simp [h1], h2⟩
    · exfalso
      cases ts with
      | nil => exact hne rfl
      | cons t ts =>
        have hc := ht t (by simp)
        cases hc with
        | simple hs => exact h t ⟨t, by simp, .self hs⟩
        | @union vs hm h2 _ _ =>
          match vs, h2 with
          | v :: _, _ => exact h v ⟨_, List.mem_cons_self, altOf_union.mpr (by simp)⟩
    · exact .inr (.inr (many_mono (fun x ⟨t, h1, h2⟩ => ⟨t, by simp [h1], h2⟩) h))
  · refine c21_union_depends_on_alternatives (fun x => ?_)
    have ha := (c21_alternatives hflat).2 hu
    simp only [Alts, List.mem_cons, List.mem_append, or_and_right, exists_or, exists_eq_left] at ha ⊢
    rw [ha x]

/-- C21: on canonical types the binary join of the flow analysis is commutative, associative and idempotent, unknown absorbs, and
its result is canonical. -/
theorem c21_union_with_semilattice {a b c : Ty} (ha : Canonical a) (hb : Canonical b) (hc : Canonical c) :
    Canonical (unionWith a b) ∧ unionWith a b = unionWith b a ∧ unionWith a a = a ∧ unionWith a .unknown = .unknown ∧
      unionWith (unionWith a b) c = unionWith a (unionWith b c) := by
  have hcab : Canonical (mkUnion [a, b]) := canonical_mkUnion (by simp [ha, hb])
  have hcbc : Canonical (mkUnion [b, c]) := canonical_mkUnion (by simp [hb, hc])
  have hun : Canonical .unknown := .simple (fun _ h => by cases h)
  refine ⟨?_, ?_, ?_, ?_, ?_⟩
  · rw [unionWith_eq ha hb]; exact hcab
  · rw [unionWith_eq ha hb, unionWith_eq hb ha]
    exact c21_union_order (.swap _ _ _)
  · simp [unionWith]
  · rw [unionWith_eq ha hun]; exact unknown_absorbs (by simp)
  · rw [unionWith_eq ha hb, unionWith_eq hb hc, unionWith_eq hcab hc, unionWith_eq ha hcbc]
    rw [mkUnion_nested (ts := [a, b]) (us := [c]) (by simp [ha, hb]) (by simp)]
    rw [c21_union_order (ts := [a, mkUnion [b, c]]) (us := [mkUnion [b, c], a]) (.swap _ _ _)]
    rw [mkUnion_nested (ts := [b, c]) (us := [a]) (by simp [hb, hc]) (by simp)]
    exact c21_union_order (by
      show [a, b, c].Perm [b, c, a]
      exact ((List.perm_append_comm (l₁ := [a]) (l₂ := [b, c]))))

/-- `union_with` keeps a non-canonical type as it is when both sides are equal, so it is not the union in general. -/
theorem c21_union_with_raw : ∃ a, unionWith a a ≠ mkUnion [a, a] :=
  ⟨.union [.cls [2], .cls [1]], by decide⟩

/-- C21: `optional` is the union with nil. -/
theorem c21_optional {t : Ty} (h : Canonical t) : optional t = mkUnion [t, nilTy] := by
  have hn : Canonical nilTy := .simple (fun _ h => by cases h)
  cases h with
  | union hm h2 hp hs =>
    rename_i us
    simp only [optional]
    rw [← c21_union_grouping (us := [nilTy]) (fun t ht => (hm t ht).1)]
  | simple hs =>
    by_cases hu : t = .unknown
    · subst hu; simp only [optional]; exact (unknown_absorbs (by simp)).symm
    have : optional t = if t = nilTy then t else if tyLe t nilTy then .union [t, nilTy] else .union [nilTy, t] := by
      cases t <;> first | exact absurd rfl hu | exact absurd rfl (hs _) | rfl
    rw [this]
    by_cases hn' : t = nilTy
    · rw [if_pos hn', ← mkUnion_canonical (.simple hs)]
      subst hn'; decide
    · rw [if_neg hn']
      have hnot : ¬ ManyShapes (· ∈ [t, nilTy]) := by
        rintro ⟨l, hnd, hl, hm⟩
        have := nodup_length_le hnd (m := [t, nilTy]) (fun x hx => (hm x hx).1)
        simp [hl] at this
      split
      · rename_i hle
        have hcan : Canonical (.union [t, nilTy]) := by
          refine .union ?_ (by simp) (by simp [hle, hn']) hnot
          intro x hx
          simp only [List.mem_cons, List.not_mem_nil, or_false] at hx
          rcases hx with rfl | rfl
          · exact ⟨hs, hu⟩
          · exact ⟨simple_cls _, fun h => by cases h⟩
        rw [← mkUnion_canonical hcan, c21_union_grouping (ts := [t, nilTy]) (us := [])]
        · rfl
        · intro x hx
          simp only [List.mem_cons, List.not_mem_nil, or_false] at hx
          rcases hx with rfl | rfl
          · exact hs
          · exact fun _ h => by cases h
      · rename_i hle
        have hle' : tyLe nilTy t = true := (tyLe_order.total t nilTy).resolve_left hle
        have hcan : Canonical (.union [nilTy, t]) := by
          refine .union ?_ (by simp) (by simp [hle', Ne.symm hn']) ?_
          · intro x hx
            simp only [List.mem_cons, List.not_mem_nil, or_false] at hx
            rcases hx with rfl | rfl
            · exact ⟨simple_cls _, fun h => by cases h⟩
            · exact ⟨hs, hu⟩
          · rw [manyShapes_congr (Q := (· ∈ [t, nilTy])) (fun x => by simp [or_comm])]
            exact hnot
        rw [← mkUnion_canonical hcan, c21_union_grouping (ts := [nilTy, t]) (us := [])]
        · exact c21_union_order (.swap _ _ _)
        · intro x hx
          simp only [List.mem_cons, List.not_mem_nil, or_false] at hx
          rcases hx with rfl | rfl
          · exact fun _ h => by cases h
          · exact hs

theorem go_none (l : List (Option Ty)) (acc : List Ty) (h : none ∈ l ∨ some .unknown ∈ l) : unionFromProven.go l acc = none := by
  induction l generalizing acc with
  | nil => simp at h
  | cons a l ih =>
    cases a with
    | none => rfl
    | some t =>
      simp only [unionFromProven.go]
      split
      · rfl
      · rename_i ht
        apply ih
        simp only [List.mem_cons] at h
        rcases h with (h | h) | (h | h)
        · cases h
        · exact .inl h
        · cases h; exact absurd rfl ht
        · exact .inr h

theorem go_some (l : List Ty) (acc : List Ty) (h : ∀ t ∈ l, t ≠ .unknown) :
    unionFromProven.go (l.map some) acc = if (acc ++ l).isEmpty then none else some (mkUnion (acc ++ l)) := by
  induction l generalizing acc with
  | nil => simp [unionFromProven.go]
  | cons a l ih =>
    simp only [List.map_cons, unionFromProven.go]
    rw [if_neg (by rw [isUnknown_iff]; exact h a (by simp)), ih _ (fun t ht => h t (by simp [ht]))]
    simp

/-- C21: a proven union exists exactly when there is an alternative and every alternative is resolved to a known type. -/
theorem c21_union_from_proven (l : List (Option Ty)) (t : Ty) :
    unionFromProven l = some t ↔ l ≠ [] ∧ ∃ ts : List Ty, l = ts.map some ∧ (∀ x ∈ ts, x ≠ .unknown) ∧ t = mkUnion ts := by
  by_cases hn : none ∈ l ∨ some .unknown ∈ l
  · rw [unionFromProven, go_none l [] hn]
    constructor
    · intro h; cases h
    · rintro ⟨-, ts, rfl, hts, -⟩
      rcases hn with hn | hn
      · simp at hn
      · simp at hn; exact absurd rfl (hts _ hn)
  · have : ∃ ts : List Ty, l = ts.map some ∧ ∀ x ∈ ts, x ≠ .unknown := by
      clear t
      induction l with
      | nil => exact ⟨[], rfl, by simp⟩
      | cons a l ih =>
        obtain ⟨ts, h1, h2⟩ := ih (fun h => hn (by rcases h with h | h <;> simp [h]))
        cases a with
        | none => exact absurd (by simp) hn
        | some a =>
          refine ⟨a :: ts, by simp [h1], ?_⟩
          intro x hx
          rcases List.mem_cons.mp hx with rfl | hx
          · rintro rfl; exact hn (by simp)
          · exact h2 x hx
    obtain ⟨ts, rfl, hts⟩ := this
    rw [unionFromProven, go_some ts [] hts]
    simp only [List.nil_append]
    constructor
    · intro h
      split at h
      · cases h
      · rename_i he
        cases h
        exact ⟨by cases ts <;> simp_all, ts, rfl, hts, rfl⟩
    · rintro ⟨hne, us, hus, -, rfl⟩
      have : us = ts := ((List.map_injective_iff.mpr (fun _ _ h => Option.some.inj h)) hus).symm
      subst this
      rw [if_neg (by cases us <;> simp_all)]

/-- The alternatives of a list inside an array or hash: either `[unknown]` or the alternatives. -/
theorem members_spec {ts : List Ty} (hflat : ∀ x, Alts ts x → Simple x) :
    (members ts = [.unknown] ∧ (Alts ts .unknown ∨ (∀ x, ¬ Alts ts x) ∨ ManyShapes (Alts ts))) ∨
    (∀ x, x ∈ members ts ↔ Alts ts x) := by
  have key : ∀ us : List Ty, (∀ x, Alts us x → Simple x) → (match mkUnion us with | .union vs => vs | t => [t]) = [.unknown] ∧
      (Alts us .unknown ∨ (∀ x, ¬ Alts us x) ∨ ManyShapes (Alts us)) ∨
      (∀ x, x ∈ (match mkUnion us with | .union vs => vs | t => [t]) ↔ Alts us x) := by
    intro us hus
    by_cases hu : mkUnion us = .unknown
    · refine .inl ⟨by rw [hu], (c21_unknown_iff us).mp hu⟩
    · refine .inr (fun x => ?_)
      rw [← (c21_alternatives hus).2 hu x]
      rcases simple_or_union (mkUnion us) with h | ⟨vs, h⟩
      · rw [altOf_simple h]
        split
        · rename_i vs hvs; exact absurd hvs (h _)
        · simp
      · rw [h, altOf_union]
  match ts with
  | [] => exact .inl ⟨rfl, .inr (.inl (fun x h => by simp [Alts] at h))⟩
  | [t] =>
    rcases simple_or_union t with h | ⟨us, rfl⟩
    · refine .inr (fun x => ?_)
      have : members [t] = [t] := by cases t <;> first | exact absurd rfl (h _) | rfl
      rw [this, alts_singleton, altOf_simple h]; simp
    · exact key _ hflat
  | a :: b :: l =>
    have : members (a :: b :: l) = (match mkUnion (a :: b :: l) with | .union vs => vs | t => [t]) := by
      cases a <;> rfl
    rw [this]
    exact key _ hflat

/-- C21: `canonical_union_members` lists the alternatives, or a single unknown exactly when the union is unknown. -/
theorem c21_canonical_members {ts : List Ty} (hflat : ∀ x, Alts ts x → Simple x) (hne : members ts ≠ [.unknown]) (x : Ty) :
    x ∈ members ts ↔ Alts ts x := by
  rcases members_spec hflat with ⟨h, -⟩ | h
  · exact absurd h hne
  · exact h x

/-- C21: subtracting a type leaves exactly the other alternatives, and unknown when there are none. -/
theorem c21_subtract {t : Ty} (h : Canonical t) (b : Ty) :
    Canonical (subtract t b) ∧
    ((∃ x, AltOf t x ∧ x ≠ b) → ∀ x, AltOf (subtract t b) x ↔ AltOf t x ∧ x ≠ b) ∧
    ((∀ x, AltOf t x → x = b) → subtract t b = .unknown) := by
  cases h with
  | simple hs =>
    have he : subtract t b = if t = b then .unknown else t := by
      cases t <;> first | exact absurd rfl (hs _) | rfl
    rw [he]
    by_cases htb : t = b
    · rw [if_pos htb]
      refine ⟨.simple simple_unknown, ?_, fun _ => rfl⟩
      rintro ⟨x, hx, hn⟩
      rw [altOf_simple hs] at hx
      exact absurd (hx.trans htb) hn
    · rw [if_neg htb]
      refine ⟨.simple hs, fun _ x => ?_, fun h => absurd (h t (.self hs)) htb⟩
      rw [altOf_simple hs]
      constructor
      · rintro rfl; exact ⟨rfl, htb⟩
      · exact fun h => h.1
  | @union us hm h2 hp hn =>
    have halts : ∀ x, Alts (us.filter (fun t => decide (t ≠ b))) x ↔ x ∈ us ∧ x ≠ b := by
      intro x
      constructor
      · rintro ⟨t, ht, hx⟩
        have hs := (hm t (List.mem_filter.mp ht).1).1
        rw [altOf_simple hs] at hx
        subst hx
        simpa using ht
      · rintro ⟨h1, h2⟩
        exact ⟨x, by simp [h1, h2], .self (hm x h1).1⟩
    have hflat : ∀ x, Alts (us.filter (fun t => decide (t ≠ b))) x → Simple x :=
      fun x hx => (hm x ((halts x).mp hx).1).1
    have ha := c21_alternatives hflat
    refine ⟨ha.1, ?_, ?_⟩
    · rintro ⟨y, hy, hyb⟩ x
      have hne : subtract (.union us) b ≠ .unknown := by
        rw [subtract, Ne, c21_unknown_iff]
        rintro (h | h | h)
        · exact (hm _ ((halts _).mp h).1).2 rfl
        · exact h y ((halts y).mpr ⟨altOf_union.mp hy, hyb⟩)
        · exact hn (many_mono (fun x hx => ((halts x).mp hx).1) h)
      rw [subtract, ha.2 hne, halts, altOf_union]
    · intro hall
      rw [subtract, c21_unknown_iff]
      refine .inr (.inl fun x hx => ?_)
      have := (halts x).mp hx
      exact this.2 (hall x (altOf_union.mpr this.1))

/-- A concrete union. -/
theorem c21_example :
    mkUnion [stringTy, .union [nilTy, stringTy], .cls [1], nilTy] = .union [.cls [1], nilTy, stringTy] ∧
    mkUnion [.union [stringTy, .cls [1]], .unknown] = .unknown ∧ mkUnion [] = .unknown ∧ mkUnion [stringTy, stringTy] = stringTy ∧
    optional stringTy = .union [nilTy, stringTy] := by
  decide

end Verif.Types
