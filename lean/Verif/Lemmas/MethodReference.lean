import Verif.Spec.MethodReference
import Verif.Props.MethodLookup

/-! The facts of an owner that stand, the walks over chains and the search through includers. -/
namespace Verif.MethodReference

open Verif.Visibility Verif.MethodLookup

theorem mem_factsAt {B : Base} {o : Owner} {m : Nat} {f : Fact} : f ∈ factsAt B o m ↔ Stands B o m f := by
  unfold factsAt retainAvailable Stands
  by_cases ha : (B.facts.filter (fun f => decide (f.owner = o ∧ f.name = m))).any (fun f => decide (f.avail = .absent)) = true
  · simp only [ha, if_true, List.not_mem_nil, false_iff]
    rintro ⟨_, h, _⟩
    obtain ⟨g, hg, hg'⟩ := List.any_eq_true.mp ha
    rw [List.mem_filter] at hg
    have := of_decide_eq_true hg.2
    exact h g hg.1 this.1 this.2 (of_decide_eq_true hg')
  · have ha' : ∀ g ∈ B.facts, g.owner = o → g.name = m → g.avail ≠ .absent := by
      intro g hg h1 h2 h3
      apply ha
      rw [List.any_eq_true]
      exact ⟨g, List.mem_filter.mpr ⟨hg, decide_eq_true ⟨h1, h2⟩⟩, decide_eq_true h3⟩
    simp only [ha, if_false, Bool.false_eq_true]
    by_cases hu : (B.facts.filter (fun f => decide (f.owner = o ∧ f.name = m))).any (fun f => decide (f.avail = .unavailable)) = true
    · simp only [hu, if_true]
      rw [List.mem_filter, List.mem_filter]
      constructor
      · rintro ⟨⟨h1, h2⟩, h3⟩
        exact ⟨⟨h1, of_decide_eq_true h2⟩, ha', Or.inl (of_decide_eq_true h3)⟩
      · rintro ⟨⟨h1, h2⟩, _, h3⟩
        refine ⟨⟨h1, decide_eq_true h2⟩, ?_⟩
        rcases h3 with h3 | h3
        · exact decide_eq_true h3
        · obtain ⟨g, hg, hg'⟩ := List.any_eq_true.mp hu
          rw [List.mem_filter] at hg
          have := of_decide_eq_true hg.2
          exact absurd (of_decide_eq_true hg') (h3 g hg.1 this.1 this.2)
    · have hu' : ∀ g ∈ B.facts, g.owner = o → g.name = m → g.avail ≠ .unavailable := by
        intro g hg h1 h2 h3
        apply hu
        rw [List.any_eq_true]
        exact ⟨g, List.mem_filter.mpr ⟨hg, decide_eq_true ⟨h1, h2⟩⟩, decide_eq_true h3⟩
      simp only [hu, if_false, Bool.false_eq_true]
      rw [List.mem_filter]
      constructor
      · rintro ⟨h1, h2⟩
        exact ⟨⟨h1, of_decide_eq_true h2⟩, ha', Or.inr hu'⟩
      · rintro ⟨⟨h1, h2⟩, _, _⟩
        exact ⟨h1, decide_eq_true h2⟩

/-- The match of the store is what stands. -/
theorem effectiveMatch_eq (B : Base) (o : Owner) (m : Nat) :
    effectiveMatch B o m = match factsAt B o m with
      | [] => .missing
      | f :: rest => if rest.any (fun g => decide (g ≠ f)) then .ambiguous else .unique f := by
  unfold effectiveMatch factsAt retainAvailable
  simp only
  generalize B.facts.filter (fun f => decide (f.owner = o ∧ f.name = m)) = ids
  by_cases ha : ids.any (fun f => decide (f.avail = .absent)) = true
  · simp only [ha, if_true]
  · simp only [ha, if_false, Bool.false_eq_true]
    by_cases hu : ids.any (fun f => decide (f.avail = .unavailable)) = true
    · simp only [hu, if_true, Bool.not_true, Bool.false_or]
      generalize ids.filter (fun g => decide (g.avail = Avail.unavailable)) = l
      cases l <;> rfl
    · have hu2 : ids.any (fun f => decide (f.avail = .unavailable)) = false := by
        cases h : ids.any (fun f => decide (f.avail = .unavailable)) with
        | false => rfl
        | true => exact absurd h hu
      simp only [hu2, Bool.not_false, Bool.true_or, List.filter_true, Bool.false_eq_true, if_false]
      cases ids <;> rfl

theorem effective_cases (B : Base) (o : Owner) (m : Nat) :
    (effectiveMatch B o m = .missing ∧ Nothing B o m) ∨ (∃ f, effectiveMatch B o m = .unique f ∧ One B o m f) ∨
    (effectiveMatch B o m = .ambiguous ∧ Several B o m) := by
  rw [effectiveMatch_eq]
  cases h : factsAt B o m with
  | nil =>
    left
    refine ⟨rfl, ?_⟩
    intro f hf
    rw [← mem_factsAt, h] at hf
    cases hf
  | cons f rest =>
    have hf : Stands B o m f := by rw [← mem_factsAt, h]; exact List.mem_cons_self
    simp only
    by_cases hr : rest.any (fun g => decide (g ≠ f)) = true
    · right; right
      rw [if_pos hr]
      obtain ⟨g, hg, hg'⟩ := List.any_eq_true.mp hr
      refine ⟨rfl, g, f, ?_, hf, of_decide_eq_true hg'⟩
      rw [← mem_factsAt, h]
      exact List.mem_cons_of_mem _ hg
    · right; left
      rw [if_neg hr]
      refine ⟨f, rfl, hf, ?_⟩
      intro g hg
      rw [← mem_factsAt, h] at hg
      rcases List.mem_cons.mp hg with hg | hg
      · exact hg
      · by_cases he : g = f
        · exact he
        · exact absurd (List.any_eq_true.mpr ⟨g, hg, decide_eq_true he⟩) hr

theorem One.not_nothing {B : Base} {o : Owner} {m : Nat} {f : Fact} (h : One B o m f) : ¬ Nothing B o m := fun hn => hn f h.1
theorem Several.not_nothing {B : Base} {o : Owner} {m : Nat} (h : Several B o m) : ¬ Nothing B o m := by
  obtain ⟨f, _, hf, _⟩ := h
  exact fun hn => hn f hf

theorem universal_iff (o : Owner) : universal o = true ↔ OpenRoot o := by
  unfold universal OpenRoot universalNames
  match h : o.parts with
  | [] => simp
  | [x] => simp
  | x :: y :: l => simp

theorem coreFact_iff (f : Fact) : coreFact f = true ↔ Core f := by
  unfold coreFact Core
  simp

theorem needsProof_iff (n : Owner) (f : Fact) (b : Bool) : needsProof n f b = true ↔ f.owner ≠ n ∧ ¬ Core f ∧ b = true := by
  unfold needsProof
  by_cases h1 : n = f.owner
  · rw [if_pos h1]; simp [h1]
  · rw [if_neg h1, ← coreFact_iff]
    by_cases h2 : coreFact f = true
    · simp [h2]
    · simp only [h2, Bool.false_eq_true, if_false, not_false_eq_true, true_and]
      exact ⟨fun h => ⟨fun h' => h1 h'.symm, h⟩, fun h => h.2⟩

theorem First.cons {B : Base} {m : Nat} {l before : List Owner} {o x : Owner} (hx : Nothing B x m) (h : First B m l before o) :
    First B m (x :: l) (x :: before) o := by
  obtain ⟨⟨after, h1⟩, h2⟩ := h
  refine ⟨⟨after, by rw [h1]; rfl⟩, ?_⟩
  intro y hy
  rcases List.mem_cons.mp hy with hy | hy
  · rw [hy]; exact hx
  · exact h2 y hy

theorem First.here {B : Base} {m : Nat} {l : List Owner} {o : Owner} : First B m (o :: l) [] o := ⟨⟨l, rfl⟩, by simp⟩

/-- The walk over the chain, with what was crossed before. -/
theorem walkOwn_cases (E : Engine) (n : Owner) (m : Nat) : ∀ (l : List Owner) (b : Bool),
    (walkOwn E n m b l = .missing ∧ ∀ o ∈ l, Nothing E.base o m) ∨
    (∃ before o f, First E.base m l before o ∧ One E.base o m f ∧ walkOwn E n m b l = .unique f ∧
      (f.owner = n ∨ Core f ∨ (b = false ∧ ∀ x ∈ before ++ [o], ¬ OpenRoot x))) ∨
    (∃ before o f, First E.base m l before o ∧ One E.base o m f ∧ walkOwn E n m b l = .ambiguous n m ∧
      f.owner ≠ n ∧ ¬ Core f ∧ (b = true ∨ ∃ x ∈ before ++ [o], OpenRoot x)) ∨
    (∃ before o, First E.base m l before o ∧ Several E.base o m ∧ walkOwn E n m b l = .ambiguous o m)
  | [], b => Or.inl ⟨rfl, by simp⟩
  | o :: l, b => by
    rcases effective_cases E.base o m with ⟨he, hn⟩ | ⟨f, he, h1⟩ | ⟨he, h1⟩
    · have hw : walkOwn E n m b (o :: l) = walkOwn E n m (b || universal o) l := by
        rw [walkOwn]; simp only [he]
      rw [hw]
      rcases walkOwn_cases E n m l (b || universal o) with ⟨h2, h3⟩ | ⟨be, o', f, h2, h3, h4, h5⟩ | ⟨be, o', f, h2, h3, h4, h5, h6, h7⟩ | ⟨be, o', h2, h3, h4⟩
      · left
        refine ⟨h2, ?_⟩
        intro x hx
        rcases List.mem_cons.mp hx with hx | hx
        · rw [hx]; exact hn
        · exact h3 x hx
      · right; left
        refine ⟨o :: be, o', f, h2.cons hn, h3, h4, ?_⟩
        rcases h5 with h5 | h5 | ⟨h5, h6⟩
        · exact Or.inl h5
        · exact Or.inr (Or.inl h5)
        · right; right
          rw [Bool.or_eq_false_iff] at h5
          refine ⟨h5.1, ?_⟩
          intro x hx
          rw [List.cons_append] at hx
          rcases List.mem_cons.mp hx with hx | hx
          · rw [hx, ← universal_iff, h5.2]; simp
          · exact h6 x hx
      · right; right; left
        refine ⟨o :: be, o', f, h2.cons hn, h3, h4, h5, h6, ?_⟩
        rcases h7 with h7 | ⟨x, hx, h7⟩
        · rw [Bool.or_eq_true] at h7
          rcases h7 with h7 | h7
          · exact Or.inl h7
          · right
            exact ⟨o, by rw [List.cons_append]; exact List.mem_cons_self, (universal_iff o).mp h7⟩
        · right
          exact ⟨x, by rw [List.cons_append]; exact List.mem_cons_of_mem _ hx, h7⟩
      · right; right; right
        exact ⟨o :: be, o', h2.cons hn, h3, h4⟩
    · have hw : walkOwn E n m b (o :: l) = if needsProof n f (b || universal o) then .ambiguous n m else .unique f := by
        rw [walkOwn]; simp only [he]
      rw [hw]
      by_cases hp : needsProof n f (b || universal o) = true
      · rw [if_pos hp]
        rw [needsProof_iff] at hp
        right; right; left
        refine ⟨[], o, f, First.here, h1, rfl, hp.1, hp.2.1, ?_⟩
        have := hp.2.2
        rw [Bool.or_eq_true] at this
        rcases this with h | h
        · exact Or.inl h
        · exact Or.inr ⟨o, by simp, (universal_iff o).mp h⟩
      · rw [if_neg hp]
        rw [needsProof_iff] at hp
        right; left
        refine ⟨[], o, f, First.here, h1, rfl, ?_⟩
        by_cases ho : f.owner = n
        · exact Or.inl ho
        · by_cases hc : Core f
          · exact Or.inr (Or.inl hc)
          · right; right
            have hb : ¬ ((b || universal o) = true) := fun hb => hp ⟨ho, hc, hb⟩
            have hb' : (b || universal o) = false := by
              cases hx : (b || universal o) with
              | false => rfl
              | true => exact absurd hx hb
            rw [Bool.or_eq_false_iff] at hb'
            refine ⟨hb'.1, ?_⟩
            intro x hx
            simp only [List.nil_append, List.mem_singleton] at hx
            rw [hx, ← universal_iff, hb'.2]; simp
    · right; right; right
      refine ⟨[], o, First.here, h1, ?_⟩
      rw [walkOwn]; simp only [he]

/-- The walk over the chain of a receiver says what the chain says. -/
theorem walkOwn_spec (E : Engine) (n : Owner) (m : Nat) :
    (walkOwn E n m false (refChain E n) = .missing ∧ NoOwn E n m) ∨
    (walkOwn E n m false (refChain E n) ≠ .missing ∧ Own E n m (walkOwn E n m false (refChain E n))) := by
  rcases walkOwn_cases E n m (refChain E n) false with ⟨h2, h3⟩ | ⟨be, o', f, h2, h3, h4, h5⟩ | ⟨be, o', f, h2, h3, h4, h5, h6, h7⟩ | ⟨be, o', h2, h3, h4⟩
  · exact Or.inl ⟨h2, h3⟩
  · right
    rw [h4]
    refine ⟨by simp, .sure be o' f h2 h3 ?_⟩
    rcases h5 with h5 | h5 | h5
    · exact Or.inl h5
    · exact Or.inr (Or.inl h5)
    · exact Or.inr (Or.inr h5.2)
  · right
    rw [h4]
    refine ⟨by simp, .unsure be o' f h2 h3 h5 h6 ?_⟩
    rcases h7 with h7 | h7
    · cases h7
    · exact h7
  · right
    rw [h4]
    exact ⟨by simp, .several be o' h2 h3⟩

/-- The walk over the chain of the metaclass. -/
theorem walkMeta_cases (E : Engine) (n k : Owner) (m : Nat) (hn : Nothing E.base n m) : ∀ (l : List Owner),
    (walkMeta E n k m l = .missing ∧ ∀ o ∈ l, Nothing E.base o m) ∨
    (∃ before o f, First E.base m l before o ∧ One E.base o m f ∧ walkMeta E n k m l = .unique f ∧ Core f) ∨
    (∃ before o f, First E.base m l before o ∧ One E.base o m f ∧ walkMeta E n k m l = .ambiguous k m ∧ ¬ Core f) ∨
    (∃ before o, First E.base m l before o ∧ Several E.base o m ∧ walkMeta E n k m l = .ambiguous o m)
  | [] => Or.inl ⟨rfl, by simp⟩
  | o :: l => by
    rcases effective_cases E.base o m with ⟨he, hx⟩ | ⟨f, he, h1⟩ | ⟨he, h1⟩
    · have hw : walkMeta E n k m (o :: l) = walkMeta E n k m l := by
        rw [walkMeta]; simp only [he]
      rw [hw]
      rcases walkMeta_cases E n k m hn l with ⟨h2, h3⟩ | ⟨be, o', f, h2, h3, h4, h5⟩ | ⟨be, o', f, h2, h3, h4, h5⟩ | ⟨be, o', h2, h3, h4⟩
      · left
        refine ⟨h2, ?_⟩
        intro y hy
        rcases List.mem_cons.mp hy with hy | hy
        · rw [hy]; exact hx
        · exact h3 y hy
      · exact Or.inr (Or.inl ⟨o :: be, o', f, h2.cons hx, h3, h4, h5⟩)
      · exact Or.inr (Or.inr (Or.inl ⟨o :: be, o', f, h2.cons hx, h3, h4, h5⟩))
      · exact Or.inr (Or.inr (Or.inr ⟨o :: be, o', h2.cons hx, h3, h4⟩))
    · have hw : walkMeta E n k m (o :: l) = if needsProof n f true then .ambiguous k m else .unique f := by
        rw [walkMeta]; simp only [he]
      rw [hw]
      have ho : f.owner ≠ n := by
        intro h
        apply hn f
        rw [← h, h1.1.1.2.1]
        exact h1.1
      by_cases hp : needsProof n f true = true
      · rw [if_pos hp]
        rw [needsProof_iff] at hp
        exact Or.inr (Or.inr (Or.inl ⟨[], o, f, First.here, h1, rfl, hp.2.1⟩))
      · rw [if_neg hp]
        rw [needsProof_iff] at hp
        refine Or.inr (Or.inl ⟨[], o, f, First.here, h1, rfl, ?_⟩)
        by_cases hc : Core f
        · exact hc
        · exact absurd ⟨ho, hc, rfl⟩ hp
    · refine Or.inr (Or.inr (Or.inr ⟨[], o, First.here, h1, ?_⟩))
      rw [walkMeta]; simp only [he]

theorem walkMeta_spec (E : Engine) (n k : Owner) (m : Nat) (hk : E.metaclass n = some k) (hn : Nothing E.base n m) :
    (walkMeta E n k m (refChain E k) = .missing ∧ NoMeta E n m) ∨
    (walkMeta E n k m (refChain E k) ≠ .missing ∧ Meta E n m (walkMeta E n k m (refChain E k))) := by
  rcases walkMeta_cases E n k m hn (refChain E k) with ⟨h2, h3⟩ | ⟨be, o', f, h2, h3, h4, h5⟩ | ⟨be, o', f, h2, h3, h4, h5⟩ | ⟨be, o', h2, h3, h4⟩
  · refine Or.inl ⟨h2, ?_⟩
    intro k' hk'
    rw [hk] at hk'
    cases hk'
    exact h3
  · exact Or.inr ⟨by rw [h4]; simp, by rw [h4]; exact .sure k be o' f hk h2 h3 h5⟩
  · exact Or.inr ⟨by rw [h4]; simp, by rw [h4]; exact .unsure k be o' f hk h2 h3 h5⟩
  · exact Or.inr ⟨by rw [h4]; simp, by rw [h4]; exact .several k be o' hk h2 h3⟩

/-- What is first in a list is first once. -/
theorem First.same {B : Base} {m : Nat} : ∀ {l be be' : List Owner} {o o' : Owner}, First B m l be o → First B m l be' o' → ¬ Nothing B o m → ¬ Nothing B o' m →
    be = be' ∧ o = o'
  | [], be, _, o, _, ⟨⟨af, h⟩, _⟩, _, _, _ => by
    cases be <;> cases h
  | x :: l, [], [], o, o', ⟨⟨_, h1⟩, _⟩, ⟨⟨_, h2⟩, _⟩, _, _ => by
    cases h1; cases h2; exact ⟨rfl, rfl⟩
  | x :: l, [], y :: be', o, o', ⟨⟨_, h1⟩, _⟩, ⟨⟨_, h2⟩, h3⟩, hn, _ => by
    cases h1
    rw [List.cons_append] at h2
    injection h2 with ha hb
    rw [ha] at hn
    exact absurd (h3 y List.mem_cons_self) hn
  | x :: l, y :: be, [], o, o', ⟨⟨_, h1⟩, h3⟩, ⟨⟨_, h2⟩, _⟩, _, hn => by
    cases h2
    rw [List.cons_append] at h1
    injection h1 with ha hb
    rw [ha] at hn
    exact absurd (h3 y List.mem_cons_self) hn
  | x :: l, y :: be, z :: be', o, o', ⟨⟨af, h1⟩, h3⟩, ⟨⟨af', h2⟩, h4⟩, hn, hn' => by
    rw [List.cons_append] at h1 h2
    injection h1 with ha hb
    injection h2 with ha' hb'
    obtain ⟨h5, h6⟩ := First.same (l := l) (be := be) (be' := be') ⟨⟨af, hb⟩, fun x hx => h3 x (List.mem_cons_of_mem _ hx)⟩
      ⟨⟨af', hb'⟩, fun x hx => h4 x (List.mem_cons_of_mem _ hx)⟩ hn hn'
    exact ⟨by rw [← ha, ← ha', h5], h6⟩

/-- Two facts that are the only one at an owner are the same. -/
theorem One.same {B : Base} {o : Owner} {m : Nat} {f g : Fact} (h : One B o m f) (h' : One B o m g) : g = f := h.2 g h'.1
theorem One.not_several {B : Base} {o : Owner} {m : Nat} {f : Fact} (h : One B o m f) : ¬ Several B o m := by
  rintro ⟨a, b, ha, hb, hne⟩
  exact hne ((h.2 a ha).trans (h.2 b hb).symm)

/-- The answers of one metaclass are the same for all receivers. -/
theorem Meta.same {E : Engine} {n n' k : Owner} {m : Nat} {r r' : Res} (hk : E.metaclass n = some k) (hk' : E.metaclass n' = some k) (h : Meta E n m r) (h' : Meta E n' m r') :
    r = r' := by
  cases h with
  | sure k1 be o f h1 h2 h3 h4 =>
    rw [hk] at h1; cases h1
    cases h' with
    | sure k2 be' o' f' g1 g2 g3 g4 =>
      rw [hk'] at g1; cases g1
      obtain ⟨_, rfl⟩ := h2.same g2 h3.not_nothing g3.not_nothing
      rw [h3.same g3]
    | unsure k2 be' o' f' g1 g2 g3 g4 =>
      rw [hk'] at g1; cases g1
      obtain ⟨_, rfl⟩ := h2.same g2 h3.not_nothing g3.not_nothing
      rw [h3.same g3] at g4
      exact absurd h4 g4
    | several k2 be' o' g1 g2 g3 =>
      rw [hk'] at g1; cases g1
      obtain ⟨_, rfl⟩ := h2.same g2 h3.not_nothing g3.not_nothing
      exact absurd g3 h3.not_several
  | unsure k1 be o f h1 h2 h3 h4 =>
    rw [hk] at h1; cases h1
    cases h' with
    | sure k2 be' o' f' g1 g2 g3 g4 =>
      rw [hk'] at g1; cases g1
      obtain ⟨_, rfl⟩ := h2.same g2 h3.not_nothing g3.not_nothing
      rw [h3.same g3] at g4
      exact absurd g4 h4
    | unsure k2 be' o' f' g1 g2 g3 g4 =>
      rw [hk'] at g1; cases g1
      rfl
    | several k2 be' o' g1 g2 g3 =>
      rw [hk'] at g1; cases g1
      obtain ⟨_, rfl⟩ := h2.same g2 h3.not_nothing g3.not_nothing
      exact absurd g3 h3.not_several
  | several k1 be o h1 h2 h3 =>
    rw [hk] at h1; cases h1
    cases h' with
    | sure k2 be' o' f' g1 g2 g3 g4 =>
      rw [hk'] at g1; cases g1
      obtain ⟨_, rfl⟩ := h2.same g2 h3.not_nothing g3.not_nothing
      exact absurd h3 g3.not_several
    | unsure k2 be' o' f' g1 g2 g3 g4 =>
      rw [hk'] at g1; cases g1
      obtain ⟨_, rfl⟩ := h2.same g2 h3.not_nothing g3.not_nothing
      exact absurd h3 g3.not_several
    | several k2 be' o' g1 g2 g3 =>
      rw [hk'] at g1; cases g1
      obtain ⟨_, rfl⟩ := h2.same g2 h3.not_nothing g3.not_nothing
      rfl

theorem First.mem {B : Base} {m : Nat} {l be : List Owner} {o : Owner} (h : First B m l be o) : o ∈ l := by
  obtain ⟨⟨af, h1⟩, _⟩ := h
  rw [h1]
  simp

theorem Meta.not_none {E : Engine} {n n' k : Owner} {m : Nat} {r : Res} (hk : E.metaclass n = some k) (hk' : E.metaclass n' = some k) (h : Meta E n m r) : ¬ NoMeta E n' m := by
  intro hn
  cases h with
  | sure k1 be o f h1 h2 h3 h4 =>
    rw [hk] at h1; cases h1
    exact h3.not_nothing (hn k hk' o h2.mem)
  | unsure k1 be o f h1 h2 h3 h4 =>
    rw [hk] at h1; cases h1
    exact h3.not_nothing (hn k hk' o h2.mem)
  | several k1 be o h1 h2 h3 =>
    rw [hk] at h1; cases h1
    exact h3.not_nothing (hn k hk' o h2.mem)

/-! ## Includers -/

theorem allowed_true (B : Base) (v : Vis) (o : Owner) : allowed B v o true none = true := by
  cases v <;> rfl

theorem visibleAt_eq (B : Base) (chain : List Owner) (m : Nat) (a : Owner) (ha : a ∈ chain) : visibleAt B chain m true none a = factsAt B a m := by
  unfold visibleAt
  rw [List.filter_eq_self]
  intro f hf
  rw [allowed_true, Bool.and_true, List.any_eq_true]
  exact ⟨a, ha, decide_eq_true (factsAt_owner hf).1.symm⟩

theorem mem_prefer {B : Base} {o : Owner} {m : Nat} {f : Fact} : f ∈ preferSource (factsAt B o m) ↔ Counts B o m f := by
  unfold preferSource Counts
  by_cases h : (factsAt B o m).any (fun f => decide (f.kind ≠ .signature)) = true
  · rw [if_pos h, List.mem_filter, mem_factsAt]
    constructor
    · rintro ⟨h1, h2⟩
      exact ⟨h1, Or.inl (of_decide_eq_true h2)⟩
    · rintro ⟨h1, h2⟩
      refine ⟨h1, ?_⟩
      rcases h2 with h2 | h2
      · exact decide_eq_true h2
      · obtain ⟨g, hg, hg'⟩ := List.any_eq_true.mp h
        exact absurd (h2 g (mem_factsAt.mp hg)) (of_decide_eq_true hg')
  · rw [if_neg h, mem_factsAt]
    constructor
    · intro h1
      refine ⟨h1, Or.inr ?_⟩
      intro g hg
      by_cases hk : g.kind = .signature
      · exact hk
      · exact absurd (List.any_eq_true.mpr ⟨g, mem_factsAt.mpr hg, decide_eq_true hk⟩) h
    · exact fun h1 => h1.1

theorem counts_of_stands {B : Base} {o : Owner} {m : Nat} (h : ∃ f, Stands B o m f) : ∃ f, Counts B o m f := by
  obtain ⟨f, hf⟩ := h
  have : factsAt B o m ≠ [] := List.ne_nil_of_mem (mem_factsAt.mpr hf)
  obtain ⟨g, hg⟩ := List.exists_mem_of_ne_nil _ (preferSource_ne_nil this)
  exact ⟨g, mem_prefer.mp hg⟩

theorem factsInChain_cases (B : Base) (chain : List Owner) (m : Nat) : ∀ (l : List Owner), (∀ o ∈ l, o ∈ chain) →
    (factsInChain B chain m true none l = none ∧ ∀ o ∈ l, Nothing B o m) ∨
    (∃ be o fs, factsInChain B chain m true none l = some (o, fs) ∧ First B m l be o ∧ (∃ f, Stands B o m f) ∧ ∀ f, f ∈ fs ↔ Counts B o m f)
  | [], _ => Or.inl ⟨rfl, by simp⟩
  | a :: l, hl => by
    rw [factsInChain, visibleAt_eq B chain m a (hl a List.mem_cons_self)]
    cases hp : preferSource (factsAt B a m) with
    | nil =>
      have hn : Nothing B a m := by
        intro f hf
        have : factsAt B a m ≠ [] := List.ne_nil_of_mem (mem_factsAt.mpr hf)
        exact preferSource_ne_nil this hp
      simp only
      rcases factsInChain_cases B chain m l (fun o ho => hl o (List.mem_cons_of_mem _ ho)) with ⟨h1, h2⟩ | ⟨be, o, fs, h1, h2, h3, h4⟩
      · left
        refine ⟨h1, ?_⟩
        intro x hx
        rcases List.mem_cons.mp hx with hx | hx
        · rw [hx]; exact hn
        · exact h2 x hx
      · exact Or.inr ⟨a :: be, o, fs, h1, h2.cons hn, h3, h4⟩
    | cons f rest =>
      right
      refine ⟨[], a, _, rfl, First.here, ?_, ?_⟩
      · have : f ∈ preferSource (factsAt B a m) := by rw [hp]; exact List.mem_cons_self
        exact ⟨f, (mem_prefer.mp this).1⟩
      · intro g
        rw [mem_dedupAdj, mem_stableSort, ← hp, mem_prefer]

/-- What a callee of the search is. -/
theorem callee_cases (B : Base) (r : Owner) (m : Nat) :
    (calleeInChain B (B.chain r) m .exact true none = none ∧ ∀ o, ¬ Ends B m r o) ∨
    (∃ c, calleeInChain B (B.chain r) m .exact true none = some c ∧ c.how = .exact ∧ Ends B m r c.owner ∧ (∀ o, Ends B m r o → o = c.owner) ∧
      ∀ p, p ∈ c.ranges ↔ ∃ f, Counts B c.owner m f ∧ f.pos = p) := by
  unfold calleeInChain
  rcases factsInChain_cases B (B.chain r) m (B.chain r) (fun _ h => h) with ⟨h1, h2⟩ | ⟨be, o, fs, h1, h2, h3, h4⟩
  · left
    rw [h1]
    refine ⟨rfl, ?_⟩
    rintro o ⟨⟨be, hb⟩, f, hf⟩
    exact h2 o hb.mem f hf
  · right
    rw [h1]
    refine ⟨_, rfl, rfl, ⟨⟨be, h2⟩, h3⟩, ?_, ?_⟩
    · rintro o' ⟨⟨be', hb⟩, f, hf⟩
      obtain ⟨g, hg⟩ := h3
      exact (hb.same h2 (fun hn => hn f hf) (fun hn => hn g hg)).2
    · intro p
      simp only [List.mem_map]
      constructor
      · rintro ⟨f, hf, hp⟩
        exact ⟨f, (h4 f).mp hf, hp⟩
      · rintro ⟨f, hf, hp⟩
        exact ⟨f, (h4 f).mpr hf, hp⟩

/-- The exact callees of the search. -/
theorem mem_searchAll {B : Base} {n : Owner} {m : Nat} {rs : List Owner} {c : Callee} (hc : c.how = .exact) :
    c ∈ searchAll B n m true none rs ↔ (∃ r ∈ rs, calleeInChain B (B.chain r) m .exact true none = some c) ∨
      ((∀ r ∈ rs, calleeInChain B (B.chain r) m .exact true none = none) ∧ ∃ r ∈ B.applications n, calleeInChain B (B.chain r) m .exact true none = some c) := by
  constructor
  · intro h
    by_cases hno : ∀ r ∈ rs, calleeInChain B (B.chain r) m .exact true none = none
    · right
      refine ⟨hno, ?_⟩
      obtain ⟨r, hr, h1⟩ := searchAll_mem hc h
      rcases List.mem_append.mp hr with hr | hr
      · rw [hno r hr] at h1; cases h1
      · exact ⟨r, hr, h1⟩
    · left
      have hex : ∃ r ∈ rs, ∃ c', calleeInChain B (B.chain r) m .exact true none = some c' := by
        by_cases he : ∃ r ∈ rs, ∃ c', calleeInChain B (B.chain r) m .exact true none = some c'
        · exact he
        · exfalso
          apply hno
          intro r hr
          cases hx : calleeInChain B (B.chain r) m .exact true none with
          | none => rfl
          | some c' => exact absurd ⟨r, hr, c', hx⟩ he
      obtain ⟨r, hr, c', h1⟩ := hex
      have h2 := fold_adds h1 rs ([], []) hr
      unfold searchAll at h
      simp only at h
      have h3 : (rs.foldl (fun a o => search B m true none o a) ([], [])).1.isEmpty = false := by
        cases hA : (rs.foldl (fun a o => search B m true none o a) ([], [])).1 with
        | nil => rw [hA] at h2; cases h2
        | cons _ _ => rfl
      simp only [h3, Bool.false_eq_true, if_false] at h
      rcases fold_mem hc rs _ h with h4 | h4
      · cases h4
      · exact h4
  · rintro (⟨r, hr, h⟩ | ⟨hno, r, hr, h⟩)
    · exact searchAll_adds hr h
    · exact searchAll_adds_application hr hno h

theorem has_iff (B : Base) (n r : Owner) : r ∈ (if (B.includers n).isEmpty then [n] else B.includers n) ↔ Has B n r := by
  unfold Has
  cases h : B.includers n with
  | nil => simp
  | cons a l => simp

/-- The exact callees of a module: the owners that it reaches, with the places of the facts that count. -/
theorem exactCallees_spec (B : Base) (n : Owner) (m : Nat) (hk : B.known n = true) (hm : B.isModule n = true) :
    (∀ c ∈ exactCallees B n m, Reaches B n m c.owner ∧ ∀ p, p ∈ c.ranges ↔ ∃ f, Counts B c.owner m f ∧ f.pos = p) ∧
    (∀ o, Reaches B n m o → ∃ c ∈ exactCallees B n m, c.owner = o) := by
  have key : ∀ r c, calleeInChain B (B.chain r) m .exact true none = some c → c.how = .exact ∧ Ends B m r c.owner ∧ (∀ o, Ends B m r o → o = c.owner) ∧
      (∀ p, p ∈ c.ranges ↔ ∃ f, Counts B c.owner m f ∧ f.pos = p) ∧ c.ranges.isEmpty = false := by
    intro r c hc
    rcases callee_cases B r m with ⟨h1, _⟩ | ⟨c', h1, h2, h3, h4, h5⟩
    · rw [h1] at hc; cases hc
    · rw [h1] at hc; cases hc
      refine ⟨h2, h3, h4, h5, ?_⟩
      obtain ⟨f, hf⟩ := counts_of_stands h3.2
      have : f.pos ∈ c.ranges := (h5 f.pos).mpr ⟨f, hf, rfl⟩
      cases hr : c.ranges with
      | nil => rw [hr] at this; cases this
      | cons _ _ => rfl
  have ends : ∀ r o, Ends B m r o → ∃ c, calleeInChain B (B.chain r) m .exact true none = some c ∧ c.owner = o := by
    intro r o ho
    rcases callee_cases B r m with ⟨_, h2⟩ | ⟨c', h1, _, _, h4, _⟩
    · exact absurd ho (h2 o)
    · exact ⟨c', h1, (h4 o ho).symm⟩
  have none_iff : ∀ r, calleeInChain B (B.chain r) m .exact true none = none ↔ ∀ o, ¬ Ends B m r o := by
    intro r
    rcases callee_cases B r m with ⟨h1, h2⟩ | ⟨c', h1, _, h3, _, _⟩
    · exact ⟨fun _ => h2, fun _ => h1⟩
    · constructor
      · intro h; rw [h1] at h; cases h
      · intro h; exact absurd h3 (h _)
  unfold exactCallees MethodLookup.resolve
  simp only [hk, hm, Bool.not_true, Bool.false_eq_true, if_false, if_true, Bool.false_and]
  cases hown : calleeInChain B (B.chain n) m .exact true none with
  | some c =>
    obtain ⟨k1, k2, k3, k4, k5⟩ := key n c hown
    simp only [Option.getD_some]
    constructor
    · intro c' hc'
      rw [List.mem_filter] at hc'
      rw [List.mem_singleton.mp hc'.1]
      exact ⟨Or.inl k2, k4⟩
    · intro o ho
      refine ⟨c, List.mem_filter.mpr ⟨List.mem_singleton.mpr rfl, by rw [k1, k5]; rfl⟩, ?_⟩
      rcases ho with ho | ⟨ho, _⟩ | ⟨ho, _⟩
      · exact (k3 o ho).symm
      · exact absurd k2 (ho _)
      · exact absurd k2 (ho _)
  | none =>
    have hno := (none_iff n).mp hown
    simp only [Option.getD_some]
    constructor
    · intro c hc
      rw [List.mem_filter] at hc
      have hex : c.how = .exact := by
        have := hc.2
        rw [Bool.and_eq_true] at this
        exact of_decide_eq_true this.1
      rcases (mem_searchAll hex).mp hc.1 with ⟨r, hr, h⟩ | ⟨hnone, r, hr, h⟩
      · obtain ⟨k1, k2, k3, k4, k5⟩ := key r c h
        exact ⟨Or.inr (Or.inl ⟨hno, r, (has_iff B n r).mp hr, k2⟩), k4⟩
      · obtain ⟨k1, k2, k3, k4, k5⟩ := key r c h
        exact ⟨Or.inr (Or.inr ⟨hno, fun r' hr' => (none_iff r').mp (hnone r' ((has_iff B n r').mpr hr')), r, hr, k2⟩), k4⟩
    · intro o ho
      rcases ho with ho | ⟨_, r, hr, ho⟩ | ⟨_, hn, r, hr, ho⟩
      · exact absurd ho (hno o)
      · obtain ⟨c, hc, hco⟩ := ends r o ho
        obtain ⟨k1, k2, k3, k4, k5⟩ := key r c hc
        exact ⟨c, List.mem_filter.mpr ⟨(mem_searchAll k1).mpr (Or.inl ⟨r, (has_iff B n r).mpr hr, hc⟩), by rw [k1, k5]; rfl⟩, hco⟩
      · obtain ⟨c, hc, hco⟩ := ends r o ho
        obtain ⟨k1, k2, k3, k4, k5⟩ := key r c hc
        exact ⟨c, List.mem_filter.mpr ⟨(mem_searchAll k1).mpr (Or.inr ⟨fun r' hr' => (none_iff r').mpr (hn r' ((has_iff B n r').mp hr')), r, hr, hc⟩), by rw [k1, k5]; rfl⟩, hco⟩

/-- A list without adjacent repetitions has more than one element exactly if it has different elements. -/
theorem dedup_same {α : Type} [DecidableEq α] : ∀ (l : List α) (a : α), (∀ x ∈ l, x = a) → dedupAdj l = [] ∨ dedupAdj l = [a]
  | [], _, _ => Or.inl rfl
  | b :: l, a, h => by
    have hb := h b List.mem_cons_self
    rcases dedup_same l a (fun x hx => h x (List.mem_cons_of_mem _ hx)) with h1 | h1
    · right; rw [dedupAdj, h1, hb]
    · right; rw [dedupAdj, h1]; simp [hb]

theorem dedup_long {α : Type} [DecidableEq α] (le : α → α → Bool) (l : List α) : (dedupAdj (stableSort le l)).length > 1 → ∃ a ∈ l, ∃ b ∈ l, a ≠ b := by
  intro h
  cases l with
  | nil => simp [stableSort, dedupAdj] at h
  | cons a l =>
    by_cases hall : ∀ x ∈ stableSort le (a :: l), x = a
    · rcases dedup_same _ a hall with h1 | h1 <;> rw [h1] at h <;> simp at h
    · have : ∃ x ∈ stableSort le (a :: l), x ≠ a := by
        by_cases he : ∃ x ∈ stableSort le (a :: l), x ≠ a
        · exact he
        · exfalso
          apply hall
          intro x hx
          by_cases hxa : x = a
          · exact hxa
          · exact absurd ⟨x, hx, hxa⟩ he
      obtain ⟨x, hx, hne⟩ := this
      exact ⟨x, mem_stableSort.mp hx, a, List.mem_cons_self, hne⟩

theorem dedup_short {α : Type} [DecidableEq α] (le : α → α → Bool) (l : List α) (h : ¬ (dedupAdj (stableSort le l)).length > 1) :
    (l = [] ∧ (dedupAdj (stableSort le l)).getLast? = none) ∨ ∃ a, (dedupAdj (stableSort le l)).getLast? = some a ∧ a ∈ l ∧ ∀ x ∈ l, x = a := by
  have hm : ∀ x, x ∈ dedupAdj (stableSort le l) ↔ x ∈ l := fun x => by rw [mem_dedupAdj, mem_stableSort]
  match hd : dedupAdj (stableSort le l) with
  | [] =>
    left
    refine ⟨?_, rfl⟩
    cases l with
    | nil => rfl
    | cons a l =>
      have := (hm a).mpr List.mem_cons_self
      rw [hd] at this
      cases this
  | [a] =>
    right
    refine ⟨a, rfl, ?_, ?_⟩
    · rw [← hm, hd]; exact List.mem_singleton.mpr rfl
    · intro x hx
      rw [← hm, hd] at hx
      exact List.mem_singleton.mp hx
  | a :: b :: rest =>
    exfalso
    apply h
    rw [hd]
    simp

theorem sortedHead {l : List Fact} {f : Fact} {rest : List Fact} (h : stableSort (fun x y => decide (x.pos ≤ y.pos)) l = f :: rest) : f ∈ l ∧ ∀ g ∈ l, f.pos ≤ g.pos := by
  have hs : Sorted (fun (x y : Fact) => decide (x.pos ≤ y.pos)) (stableSort (fun x y => decide (x.pos ≤ y.pos)) l) :=
    stableSort_sorted ⟨fun a b => by simp only [decide_eq_true_eq]; omega, fun a b c => by simp only [decide_eq_true_eq]; omega⟩ l
  have hf : f ∈ l := mem_stableSort.mp (by rw [h]; exact List.mem_cons_self)
  refine ⟨hf, ?_⟩
  intro g hg
  rw [h] at hs
  have hg' := mem_stableSort (le := fun (x y : Fact) => decide (x.pos ≤ y.pos)) |>.mpr hg
  rw [h] at hg'
  rcases List.mem_cons.mp hg' with hg' | hg'
  · rw [hg']; omega
  · have := (List.pairwise_cons.mp hs).1 g hg'
    exact of_decide_eq_true this

/-- The search through the includers. -/
theorem includer_spec (B : Base) (n : Owner) (m : Nat) (hk : B.known n = true) :
    (includerStage B n m = .pass ∧ NoVia B n m) ∨ (∃ r, includerStage B n m = .found r ∧ r ≠ .missing ∧ B.isModule n = true ∧ Via' B n m r) := by
  unfold includerStage
  by_cases hm : B.isModule n = true
  · rw [if_pos hm]
    obtain ⟨hs, hc⟩ := exactCallees_spec B n m hk hm
    simp only
    have hmem : ∀ c, c ∈ dedupAdj (stableSort (keyLe B) (exactCallees B n m)) ↔ c ∈ exactCallees B n m := fun c => by rw [mem_dedupAdj, mem_stableSort]
    generalize dedupAdj (stableSort (keyLe B) (exactCallees B n m)) = cs at hmem
    by_cases hlen : (dedupAdj (stableSort B.ownerLe (cs.map (·.owner)))).length > 1
    · right
      rw [if_pos hlen]
      obtain ⟨a, ha, b, hb, hne⟩ := dedup_long _ _ hlen
      obtain ⟨c, hc1, rfl⟩ := List.mem_map.mp ha
      obtain ⟨d, hd1, rfl⟩ := List.mem_map.mp hb
      exact ⟨_, rfl, by simp, hm, .several _ _ (hs c ((hmem c).mp hc1)).1 (hs d ((hmem d).mp hd1)).1 hne⟩
    · rw [if_neg hlen]
      rcases dedup_short _ _ hlen with ⟨h1, h2⟩ | ⟨o, h1, h2, h3⟩
      · left
        rw [h2]
        refine ⟨rfl, Or.inr ?_⟩
        intro o ho
        obtain ⟨c, hc1, _⟩ := hc o ho
        have : c.owner ∈ cs.map (·.owner) := List.mem_map.mpr ⟨c, (hmem c).mpr hc1, rfl⟩
        rw [h1] at this
        cases this
      · right
        rw [h1]
        simp only
        obtain ⟨c, hc1, hco⟩ := List.mem_map.mp h2
        obtain ⟨hr, hp⟩ := hs c ((hmem c).mp hc1)
        rw [hco] at hr hp
        have hranges : ∀ p, p ∈ cs.flatMap (·.ranges) ↔ ∃ f, Counts B o m f ∧ f.pos = p := by
          intro p
          rw [List.mem_flatMap]
          constructor
          · rintro ⟨d, hd, hp'⟩
            obtain ⟨_, hq⟩ := hs d ((hmem d).mp hd)
            have : d.owner = o := h3 _ (List.mem_map.mpr ⟨d, hd, rfl⟩)
            rw [this] at hq
            exact (hq p).mp hp'
          · intro h
            exact ⟨c, hc1, (hp p).mpr h⟩
        cases hsort : stableSort (fun (x y : Fact) => decide (x.pos ≤ y.pos)) (B.facts.filter (fun f => decide ((f.owner = o ∧ f.name = m) ∧ f.pos ∈ cs.flatMap (·.ranges)))) with
        | nil =>
          exfalso
          have hst : ∃ f, Stands B o m f := by
            rcases hr with h | ⟨_, _, _, h⟩ | ⟨_, _, _, _, h⟩ <;> exact h.2
          obtain ⟨f, hf⟩ := counts_of_stands hst
          have : f ∈ stableSort (fun (x y : Fact) => decide (x.pos ≤ y.pos)) (B.facts.filter (fun f => decide ((f.owner = o ∧ f.name = m) ∧ f.pos ∈ cs.flatMap (·.ranges)))) := by
            rw [mem_stableSort, List.mem_filter]
            exact ⟨hf.1.1.1, decide_eq_true ⟨hf.1.1.2, (hranges _).mpr ⟨f, hf, rfl⟩⟩⟩
          rw [hsort] at this
          cases this
        | cons f rest =>
          obtain ⟨hf, hmin⟩ := sortedHead hsort
          rw [List.mem_filter] at hf
          have hf2 := of_decide_eq_true hf.2
          obtain ⟨g, hg, hgp⟩ := (hranges _).mp hf2.2
          refine ⟨_, rfl, by simp, hm, .unique o f g hr ?_ hf.1 hf2.1.1 hf2.1.2 hg hgp ?_⟩
          · intro o' ho'
            obtain ⟨d, hd, hdo⟩ := hc o' ho'
            rw [← hdo]
            exact h3 _ (List.mem_map.mpr ⟨d, (hmem d).mpr hd, rfl⟩)
          · intro g' hg'
            apply hmin
            rw [List.mem_filter]
            exact ⟨hg'.1.1.1, decide_eq_true ⟨hg'.1.1.2, (hranges _).mpr ⟨g', hg', rfl⟩⟩⟩
  · left
    rw [if_neg hm]
    refine ⟨rfl, Or.inl ?_⟩
    cases h : B.isModule n with
    | false => rfl
    | true => exact absurd h hm

end Verif.MethodReference
