import Verif.Model.MethodLookup
import Verif.Lemmas.Visibility
import Verif.Lemmas.Sort

/-! Lemmas about method lookup: the tables of Ruby, what the base shows of them, and the search along a chain. -/
namespace Verif.MethodLookup

open Verif.Visibility Verif.Visibility.Ruby

/-! ### The tables of Ruby after a run -/

/-- The change an event makes to the visibility of a method. -/
def changeAt (o : Owner) (m : Nat) : Ev → Option Vis
  | .define _ _ _ _ => none
  | .change o' m' v _ => if o' = o ∧ m' = m then some v else none

def lastChange (evs : List Ev) (o : Owner) (m : Nat) : Option Vis := (evs.filterMap (changeAt o m)).getLast?

theorem lastChange_define (pre : List Ev) (o o' : Owner) (m m' p : Nat) (v : Vis) : lastChange (pre ++ [.define o' m' p v]) o m = lastChange pre o m := by
  simp [lastChange, changeAt, List.filterMap_append]

theorem lastChange_change (pre : List Ev) (o o' : Owner) (m m' p : Nat) (v : Vis) :
    lastChange (pre ++ [.change o' m' v p]) o m = if o' = o ∧ m' = m then some v else lastChange pre o m := by
  simp only [lastChange, List.filterMap_append]
  by_cases h : o' = o ∧ m' = m
  · simp [changeAt, h]
  · simp [changeAt, h]

/-- The definitions of the tables are those of the events. -/
structure Defs (evs : List Ev) (T : Tables) : Prop where
  of_table : ∀ o m p v, T o m = some (.meth p v) → ∃ w, .define o m p w ∈ evs
  of_event : ∀ o m p v, .define o m p v ∈ evs → ∃ q w, T o m = some (.meth q w)

/-- The visibilities of the tables are those of the events. -/
structure Viss (evs : List Ev) (T : Tables) : Prop where
  changed : ∀ o m v, lastChange evs o m = some v → ∃ e, T o m = some e ∧ e.vis = v
  unchanged : ∀ o m, lastChange evs o m = none → ∀ e, T o m = some e → ∃ p v, e = .meth p v ∧ .define o m p v ∈ evs

theorem put_same (T : Tables) (o : Owner) (m : Nat) (e : Entry) : put T o m e o m = some e := by simp [put]
theorem put_other {T : Tables} {o o' : Owner} {m m' : Nat} {e : Entry} (h : ¬(o' = o ∧ m' = m)) : put T o m e o' m' = T o' m' := by
  simp only [put, if_neg h]

theorem Defs.step {above : Owner → List Owner} {pre : List Ev} {T T' : Tables} {e : Ev} (h : Defs pre T) (hs : step above T e = some T') : Defs (pre ++ [e]) T' := by
  cases e with
  | define o m p v =>
    simp only [Ruby.step, Option.some.injEq] at hs
    subst hs
    refine ⟨?_, ?_⟩
    · intro o' m' p' v' ht
      by_cases hk : o' = o ∧ m' = m
      · obtain ⟨rfl, rfl⟩ := hk
        rw [put_same] at ht
        cases ht
        exact ⟨v, by simp⟩
      · rw [put_other hk] at ht
        obtain ⟨w, hw⟩ := h.of_table o' m' p' v' ht
        exact ⟨w, List.mem_append.mpr (Or.inl hw)⟩
    · intro o' m' p' v' hm
      by_cases hk : o' = o ∧ m' = m
      · obtain ⟨rfl, rfl⟩ := hk
        exact ⟨p, v, put_same _ _ _ _⟩
      · rw [put_other hk]
        rcases List.mem_append.mp hm with h1 | h1
        · exact h.of_event o' m' p' v' h1
        · simp only [List.mem_singleton, Ev.define.injEq] at h1
          exact absurd ⟨h1.1, h1.2.1⟩ hk
  | change o m v p =>
    have key : ∀ (e : Entry), T' = put T o m e → ((∃ q w x, T o m = some (.meth q w) ∧ e = .meth q x) ∨ ((∀ q w, T o m ≠ some (.meth q w)) ∧ ∃ x, e = .zsuper x)) →
        Defs (pre ++ [.change o m v p]) T' := by
      intro e ht he
      subst ht
      refine ⟨?_, ?_⟩
      · intro o' m' p' v' ht
        by_cases hk : o' = o ∧ m' = m
        · obtain ⟨rfl, rfl⟩ := hk
          rw [put_same] at ht
          rcases he with ⟨q, w, x, h1, h2⟩ | ⟨_, x, h2⟩
          · rw [h2] at ht
            cases ht
            obtain ⟨w', hw⟩ := h.of_table _ _ _ _ h1
            exact ⟨w', List.mem_append.mpr (Or.inl hw)⟩
          · rw [h2] at ht; cases ht
        · rw [put_other hk] at ht
          obtain ⟨w, hw⟩ := h.of_table o' m' p' v' ht
          exact ⟨w, List.mem_append.mpr (Or.inl hw)⟩
      · intro o' m' p' v' hm
        rcases List.mem_append.mp hm with h1 | h1
        · obtain ⟨q, w, h2⟩ := h.of_event o' m' p' v' h1
          by_cases hk : o' = o ∧ m' = m
          · obtain ⟨rfl, rfl⟩ := hk
            rcases he with ⟨q', w', x, h3, h4⟩ | ⟨h3, _⟩
            · exact ⟨q', x, by rw [put_same, h4]⟩
            · exact absurd h2 (h3 q w)
          · exact ⟨q, w, by rw [put_other hk]; exact h2⟩
        · simp at h1
    simp only [Ruby.step] at hs
    split at hs
    · rename_i q w h1
      cases hs
      exact key _ rfl (Or.inl ⟨q, w, v, h1, rfl⟩)
    · rename_i w h1
      cases hs
      exact key _ rfl (Or.inr ⟨by rw [h1]; simp, v, rfl⟩)
    · rename_i h1
      split at hs
      · cases hs
      · rename_i d w h2
        split at hs
        · cases hs
          refine ⟨?_, ?_⟩
          · intro o' m' p' v' ht
            obtain ⟨w', hw⟩ := h.of_table o' m' p' v' ht
            exact ⟨w', List.mem_append.mpr (Or.inl hw)⟩
          · intro o' m' p' v' hm
            rcases List.mem_append.mp hm with h3 | h3
            · exact h.of_event o' m' p' v' h3
            · simp at h3
        · cases hs
          exact key _ rfl (Or.inr ⟨by rw [h1]; simp, v, rfl⟩)

theorem run_append (above : Owner → List Owner) : ∀ (a b : List Ev) (T T' : Tables), run above T a = some T' → run above T (a ++ b) = run above T' b
  | [], b, T, T', h => by cases h; rfl
  | e :: l, b, T, T', h => by
    simp only [run, List.cons_append] at h ⊢
    cases hs : step above T e with
    | none => rw [hs] at h; cases h
    | some T1 =>
      rw [hs] at h
      exact run_append above l b T1 T' h

theorem Defs.run {above : Owner → List Owner} : ∀ (post pre : List Ev) (T T' : Tables), Defs pre T → run above T post = some T' → Defs (pre ++ post) T'
  | [], pre, T, T', h, hr => by cases hr; simpa using h
  | e :: l, pre, T, T', h, hr => by
    simp only [Ruby.run] at hr
    cases hs : Ruby.step above T e with
    | none => rw [hs] at hr; cases hr
    | some T1 =>
      rw [hs] at hr
      have := Defs.run l (pre ++ [e]) T1 T' (h.step hs) hr
      simpa using this

theorem Defs.start : Defs [] noTables := ⟨by simp [noTables], by simp⟩
theorem Viss.start : Viss [] noTables := ⟨by simp [lastChange], by simp [noTables]⟩

/-- Changes in the events. -/
theorem mem_of_lastChange {evs : List Ev} {o : Owner} {m : Nat} {v : Vis} (h : lastChange evs o m = some v) : ∃ p, .change o m v p ∈ evs := by
  have h1 := List.mem_of_getLast? h
  obtain ⟨e, he, h2⟩ := List.mem_filterMap.mp h1
  cases e with
  | define _ _ _ _ => cases h2
  | change o' m' v' p =>
    simp only [changeAt] at h2
    split at h2
    · rename_i hk
      obtain ⟨rfl, rfl⟩ := hk
      cases h2
      exact ⟨p, he⟩
    · cases h2

theorem Viss.step {above : Owner → List Owner} {pre post : List Ev} {T T' : Tables} {e : Ev} (h : Viss pre T) (hs : step above T e = some T')
    (ho : Orderly (pre ++ e :: post)) (hr : run above noTables pre = some T) (he : Effective above (pre ++ e :: post)) : Viss (pre ++ [e]) T' := by
  cases e with
  | define o m p v =>
    simp only [Ruby.step, Option.some.injEq] at hs
    subst hs
    have hno : lastChange pre o m = none := by
      cases hc : lastChange pre o m with
      | none => rfl
      | some w =>
        obtain ⟨q, hq⟩ := mem_of_lastChange hc
        have := (List.pairwise_append.mp ho).2.2 _ hq (.define o m p v) (by simp)
        simp at this
    refine ⟨?_, ?_⟩
    · intro o' m' v' hl
      rw [lastChange_define] at hl
      by_cases hk : o' = o ∧ m' = m
      · obtain ⟨rfl, rfl⟩ := hk
        rw [hno] at hl
        cases hl
      · rw [put_other hk]
        exact h.changed o' m' v' hl
    · intro o' m' hl e' ht
      rw [lastChange_define] at hl
      by_cases hk : o' = o ∧ m' = m
      · obtain ⟨rfl, rfl⟩ := hk
        rw [put_same] at ht
        cases ht
        exact ⟨p, v, rfl, by simp⟩
      · rw [put_other hk] at ht
        obtain ⟨p', v', h1, h2⟩ := h.unchanged o' m' hl e' ht
        exact ⟨p', v', h1, List.mem_append.mpr (Or.inl h2)⟩
  | change o m v p =>
    have key : ∀ (e : Entry), T' = put T o m e → e.vis = v → Viss (pre ++ [.change o m v p]) T' := by
      intro e ht hv
      subst ht
      refine ⟨?_, ?_⟩
      · intro o' m' v' hl
        rw [lastChange_change] at hl
        by_cases hk : o' = o ∧ m' = m
        · obtain ⟨rfl, rfl⟩ := hk
          rw [if_pos ⟨rfl, rfl⟩] at hl
          cases hl
          exact ⟨e, put_same _ _ _ _, hv⟩
        · rw [if_neg (fun h => hk ⟨h.1.symm, h.2.symm⟩)] at hl
          rw [put_other hk]
          exact h.changed o' m' v' hl
      · intro o' m' hl e' ht
        rw [lastChange_change] at hl
        by_cases hk : o' = o ∧ m' = m
        · rw [if_pos ⟨hk.1.symm, hk.2.symm⟩] at hl
          cases hl
        · rw [if_neg (fun h => hk ⟨h.1.symm, h.2.symm⟩)] at hl
          rw [put_other hk] at ht
          obtain ⟨p', v', h1, h2⟩ := h.unchanged o' m' hl e' ht
          exact ⟨p', v', h1, List.mem_append.mpr (Or.inl h2)⟩
    simp only [Ruby.step] at hs
    split at hs
    · cases hs; exact key _ rfl rfl
    · cases hs; exact key _ rfl rfl
    · rename_i h1
      split at hs
      · cases hs
      · rename_i d w h2
        split at hs
        · rename_i hw
          subst hw
          exact absurd h2 (he pre o m w p post rfl T hr h1 d)
        · cases hs; exact key _ rfl rfl

theorem Viss.run {above : Owner → List Owner} : ∀ (post pre : List Ev) (T T' : Tables), Viss pre T → Ruby.run above noTables pre = some T → Orderly (pre ++ post) →
    Effective above (pre ++ post) → Ruby.run above T post = some T' → Viss (pre ++ post) T'
  | [], pre, T, T', h, _, _, _, hr => by cases hr; simpa using h
  | e :: l, pre, T, T', h, hp, ho, he, hr => by
    simp only [Ruby.run] at hr
    cases hs : Ruby.step above T e with
    | none => rw [hs] at hr; cases hr
    | some T1 =>
      rw [hs] at hr
      have h1 : Ruby.run above noTables (pre ++ [e]) = some T1 := by
        rw [run_append above pre [e] _ _ hp]
        simp [Ruby.run, hs]
      have := Viss.run l (pre ++ [e]) T1 T' (h.step hs ho hp he) h1 (by simpa using ho) (by simpa using he) hr
      simpa using this

/-- Definitions of a method in orderly events have the same visibility. -/
theorem orderly_same {evs : List Ev} (h : Orderly evs) : ∀ {o : Owner} {m p p' : Nat} {v v' : Vis}, .define o m p v ∈ evs → .define o m p' v' ∈ evs → v = v' := by
  induction evs with
  | nil => intro o m p p' v v' h1; cases h1
  | cons e l ih =>
    intro o m p p' v v' h1 h2
    obtain ⟨ha, hb⟩ := List.pairwise_cons.mp h
    rcases List.mem_cons.mp h1 with h1 | h1
    · rcases List.mem_cons.mp h2 with h2 | h2
      · rw [← h1] at h2; cases h2; rfl
      · have := ha _ h2
        rw [← h1] at this
        exact this rfl rfl
    · rcases List.mem_cons.mp h2 with h2 | h2
      · have := ha _ h1
        rw [← h2] at this
        exact (this rfl rfl).symm
      · exact ih hb h1 h2

/-! ### What the base shows of the tables -/

/-- The last override of an owner. -/
def lastOverride (B : Base) (o : Owner) (m : Nat) : Option Override :=
  (stableSort (fun x y => decide (x.pos ≤ y.pos)) (overridesAt B o m)).getLast?

/-- The facts are the definitions. -/
structure Shows (B : Base) (T : Tables) : Prop where
  fact : ∀ o m, factsAt B o m ≠ [] → ∃ p v, T o m = some (.meth p v)
  there : ∀ o m p v, T o m = some (.meth p v) → ∃ f ∈ preferSource (factsAt B o m), f.pos = p

/-- And the visibilities are those of the entries. -/
structure ShowsVis (B : Base) (T : Tables) : Prop where
  changed : ∀ o m g, lastOverride B o m = some g → ∃ e, T o m = some e ∧ e.vis = g.vis
  fact : ∀ o m, lastOverride B o m = none → ∀ f ∈ factsAt B o m, ∃ e, T o m = some e ∧ e.vis = f.vis
  zsuper : ∀ o m v, T o m = some (.zsuper v) → lastOverride B o m ≠ none

theorem lastOverride_owner {B : Base} {o : Owner} {m : Nat} {g : Override} (h : lastOverride B o m = some g) : g.owner = o := by
  have h1 := mem_stableSort.mp (List.mem_of_getLast? h)
  simp only [overridesAt, List.mem_filter, decide_eq_true_eq] at h1
  exact h1.2.2

theorem mem_retainAvailable {l : List Fact} {f : Fact} (h : f ∈ retainAvailable l) : f ∈ l := by
  unfold retainAvailable at h
  split at h
  · cases h
  · split at h
    · exact (List.mem_filter.mp h).1
    · exact h

theorem factsAt_owner {B : Base} {o : Owner} {m : Nat} {f : Fact} (h : f ∈ factsAt B o m) : f.owner = o ∧ f.name = m := by
  have := mem_retainAvailable h
  simp only [List.mem_filter, decide_eq_true_eq] at this
  exact this.2

theorem mem_preferSource {l : List Fact} {f : Fact} (h : f ∈ preferSource l) : f ∈ l := by
  unfold preferSource at h
  split at h
  · exact (List.mem_filter.mp h).1
  · exact h

theorem preferSource_ne_nil {l : List Fact} (h : l ≠ []) : preferSource l ≠ [] := by
  unfold preferSource
  split
  · rename_i ha
    obtain ⟨f, hf, hk⟩ := List.any_eq_true.mp ha
    intro hn
    have : f ∈ l.filter (fun f => decide (f.kind ≠ .signature)) := List.mem_filter.mpr ⟨hf, hk⟩
    rw [hn] at this
    cases this
  · exact h

theorem overrideFor_cons (B : Base) (owner : Owner) (m : Nat) (a : Owner) (rest : List Owner) :
    overrideFor B owner m (a :: rest) = (match lastOverride B a m with | some f => some f | none => if a = owner then none else overrideFor B owner m rest) := by
  rw [overrideFor]
  unfold lastOverride
  cases (stableSort (fun x y : Override => decide (x.pos ≤ y.pos)) (overridesAt B a m)).getLast? <;> rfl

/-- The effective visibility is that of some entry of the chain. -/
theorem effective_entry {B : Base} {T : Tables} (h : ShowsVis B T) {m : Nat} {f : Fact} : ∀ {L : List Owner}, f.owner ∈ L → f ∈ factsAt B f.owner m →
    ∃ b ∈ L, ∃ e, T b m = some e ∧ effective B L f m = (e.vis, b)
  | [], hL, _ => by cases hL
  | a :: rest, hL, hf => by
    cases hg : lastOverride B a m with
    | some g =>
      obtain ⟨e, he, hv⟩ := h.changed a m g hg
      refine ⟨a, List.mem_cons_self, e, he, ?_⟩
      simp only [effective, overrideFor_cons, hg, hv, lastOverride_owner hg]
    | none =>
      by_cases ha : a = f.owner
      · obtain ⟨e, he, hv⟩ := h.fact a m hg f (by rw [ha]; exact hf)
        refine ⟨a, List.mem_cons_self, e, he, ?_⟩
        simp only [effective, overrideFor_cons, hg, if_pos ha, hv]
        rw [ha]
      · have hr : f.owner ∈ rest := by
          rcases List.mem_cons.mp hL with h1 | h1
          · exact absurd h1.symm ha
          · exact h1
        obtain ⟨b, hb, e, he, hv⟩ := effective_entry h hr hf
        refine ⟨b, List.mem_cons_of_mem _ hb, e, he, ?_⟩
        rw [← hv]
        simp only [effective, overrideFor_cons, hg, if_neg ha]

/-- The effective visibility is that of the first entry, if the method is defined there or the entry is an override. -/
theorem effective_first {B : Base} {T : Tables} (hd : Shows B T) (h : ShowsVis B T) {m : Nat} {f : Fact} {o : Owner} {v : Vis} : ∀ {L : List Owner},
    f.owner ∈ L → f ∈ factsAt B f.owner m → first T L m = some (o, v) → (f.owner = o ∨ lastOverride B o m ≠ none) → effective B L f m = (v, o)
  | [], hL, _, _, _ => by cases hL
  | a :: rest, hL, hf, h1, h2 => by
    cases ht : T a m with
    | some e =>
      simp only [first, ht, Option.some.injEq, Prod.mk.injEq] at h1
      obtain ⟨rfl, rfl⟩ := h1
      cases hg : lastOverride B a m with
      | some g =>
        obtain ⟨e', he, hv⟩ := h.changed a m g hg
        rw [ht] at he
        cases he
        simp only [effective, overrideFor_cons, hg, hv, lastOverride_owner hg]
      | none =>
        have ha : a = f.owner := by
          rcases h2 with h2 | h2
          · exact h2.symm
          · exact absurd hg h2
        obtain ⟨e', he, hv⟩ := h.fact a m hg f (by rw [ha]; exact hf)
        rw [ht] at he
        cases he
        simp only [effective, overrideFor_cons, hg, if_pos ha, hv]
        rw [ha]
    | none =>
      have hg : lastOverride B a m = none := by
        cases hg : lastOverride B a m with
        | none => rfl
        | some g =>
          obtain ⟨e, he, _⟩ := h.changed a m g hg
          rw [ht] at he
          cases he
      have ha : a ≠ f.owner := by
        intro ha
        obtain ⟨p, w, hp⟩ := hd.fact a m (by rw [ha]; intro hn; rw [hn] at hf; cases hf)
        rw [ht] at hp
        cases hp
      have hr : f.owner ∈ rest := by
        rcases List.mem_cons.mp hL with h3 | h3
        · exact absurd h3.symm ha
        · exact h3
      simp only [first, ht] at h1
      have := effective_first hd h hr hf h1 h2
      rw [← this]
      simp only [effective, overrideFor_cons, hg, if_neg ha]

/-! ### The search along the chain -/

/-- If all facts of the first definition may be called, the search ends there. -/
theorem factsInChain_found {B : Base} {T : Tables} (hd : Shows B T) {L : List Owner} {m : Nat} {ap : Bool} {caller : Option Owner} {d : Owner} {p : Nat}
    (hall : ∀ f ∈ factsAt B d m, allowed B (effective B L f m).1 (effective B L f m).2 ap caller = true) (hdL : d ∈ L) :
    ∀ (l : List Owner), found T l m = some (d, p) → ∃ fs, factsInChain B L m ap caller l = some (d, fs) ∧ (∃ f ∈ fs, f.pos = p) ∧ ∀ f ∈ fs, f ∈ factsAt B d m
  | [], h => by cases h
  | a :: rest, h => by
    have hskip : (∀ q w, T a m ≠ some (.meth q w)) → factsInChain B L m ap caller (a :: rest) = factsInChain B L m ap caller rest := by
      intro hn
      have h0 : factsAt B a m = [] := by
        cases hf : factsAt B a m with
        | nil => rfl
        | cons x xs =>
          obtain ⟨q, w, hq⟩ := hd.fact a m (by rw [hf]; simp)
          exact absurd hq (hn q w)
      have h1 : preferSource (visibleAt B L m ap caller a) = [] := by simp [visibleAt, h0, preferSource]
      simp only [factsInChain, h1]
    cases ht : T a m with
    | none =>
      simp only [found, ht] at h
      rw [hskip (by rw [ht]; simp)]
      exact factsInChain_found hd hall hdL rest h
    | some e =>
      cases e with
      | zsuper v =>
        simp only [found, ht] at h
        rw [hskip (by rw [ht]; simp)]
        exact factsInChain_found hd hall hdL rest h
      | meth q w =>
        simp only [found, ht, Option.some.injEq, Prod.mk.injEq] at h
        obtain ⟨rfl, rfl⟩ := h
        have hv : visibleAt B L m ap caller a = factsAt B a m := by
          unfold visibleAt
          apply List.filter_eq_self.mpr
          intro f hf
          simp only [Bool.and_eq_true, List.any_eq_true, decide_eq_true_eq]
          exact ⟨⟨a, hdL, (factsAt_owner hf).1.symm⟩, hall f hf⟩
        obtain ⟨f, hf, hp⟩ := hd.there a m q w ht
        simp only [factsInChain, hv]
        cases hl : preferSource (factsAt B a m) with
        | nil => rw [hl] at hf; cases hf
        | cons x xs =>
          refine ⟨_, rfl, ⟨f, ?_, hp⟩, ?_⟩
          · rw [mem_dedupAdj, mem_stableSort, ← hl]
            exact hf
          · intro g hg
            rw [mem_dedupAdj, mem_stableSort, ← hl] at hg
            exact mem_preferSource hg

/-- If no fact of the chain may be called, the search finds nothing. -/
theorem factsInChain_none {B : Base} {L : List Owner} {m : Nat} {ap : Bool} {caller : Option Owner} : ∀ (l : List Owner),
    (∀ a ∈ l, ∀ f ∈ factsAt B a m, allowed B (effective B L f m).1 (effective B L f m).2 ap caller = false) → factsInChain B L m ap caller l = none
  | [], _ => rfl
  | a :: rest, h => by
    have h1 : visibleAt B L m ap caller a = [] := by
      unfold visibleAt
      apply List.filter_eq_nil_iff.mpr
      intro f hf
      rw [h a List.mem_cons_self f hf]
      simp
    have h2 : preferSource (visibleAt B L m ap caller a) = [] := by rw [h1]; rfl
    simp only [factsInChain, h2]
    exact factsInChain_none rest (fun b hb => h b (List.mem_cons_of_mem _ hb))

/-- And the other way around: what is found may be called. -/
theorem factsInChain_mem {B : Base} {L : List Owner} {m : Nat} {ap : Bool} {caller : Option Owner} {d : Owner} {fs : List Fact} : ∀ (l : List Owner),
    factsInChain B L m ap caller l = some (d, fs) → d ∈ l ∧ fs ≠ [] ∧ ∀ f ∈ fs, f ∈ factsAt B d m ∧ allowed B (effective B L f m).1 (effective B L f m).2 ap caller = true
  | [], h => by cases h
  | a :: rest, h => by
    simp only [factsInChain] at h
    split at h
    · obtain ⟨h1, h2, h3⟩ := factsInChain_mem rest h
      exact ⟨List.mem_cons_of_mem _ h1, h2, h3⟩
    · rename_i x xs hl
      cases h
      refine ⟨List.mem_cons_self, ?_, ?_⟩
      · intro hn
        have : x ∈ dedupAdj (stableSort (fun x y => decide (x.pos ≤ y.pos)) (x :: xs)) := by
          rw [mem_dedupAdj, mem_stableSort]; exact List.mem_cons_self
        rw [hn] at this
        cases this
      · intro f hf
        rw [mem_dedupAdj, mem_stableSort, ← hl] at hf
        have := mem_preferSource hf
        simp only [visibleAt, List.mem_filter, Bool.and_eq_true] at this
        exact ⟨this.1, this.2.2⟩

theorem found_mem {T : Tables} {m : Nat} {d : Owner} {p : Nat} : ∀ {L : List Owner}, found T L m = some (d, p) → d ∈ L ∧ ∃ v, T d m = some (.meth p v)
  | [], h => by cases h
  | a :: rest, h => by
    simp only [found] at h
    split at h
    · rename_i q w ht
      cases h
      exact ⟨List.mem_cons_self, w, ht⟩
    · obtain ⟨h1, h2⟩ := found_mem h
      exact ⟨List.mem_cons_of_mem _ h1, h2⟩

theorem found_none {T : Tables} {m : Nat} : ∀ {L : List Owner}, found T L m = none → ∀ a ∈ L, ∀ p v, T a m ≠ some (.meth p v)
  | [], _, a, h, _, _ => by cases h
  | b :: rest, h, a, ha, p, v => by
    simp only [found] at h
    split at h
    · cases h
    · rename_i hn
      rcases List.mem_cons.mp ha with h1 | h1
      · subst h1
        exact hn p v
      · exact found_none h a h1 p v

theorem first_none {T : Tables} {m : Nat} : ∀ {L : List Owner}, first T L m = none → ∀ a ∈ L, T a m = none
  | [], _, a, h => by cases h
  | b :: rest, h, a, ha => by
    simp only [first] at h
    split at h
    · cases h
    · rename_i hn
      rcases List.mem_cons.mp ha with h1 | h1
      · subst h1
        exact hn
      · exact first_none h a h1

theorem first_mem {T : Tables} {m : Nat} {o : Owner} {v : Vis} : ∀ {L : List Owner}, first T L m = some (o, v) → o ∈ L ∧ ∃ e, T o m = some e ∧ e.vis = v
  | [], h => by cases h
  | a :: rest, h => by
    simp only [first] at h
    split at h
    · rename_i e ht
      cases h
      exact ⟨List.mem_cons_self, e, ht, rfl⟩
    · obtain ⟨h1, h2⟩ := first_mem h
      exact ⟨List.mem_cons_of_mem _ h1, h2⟩

/-- The first entry is a definition and then the method found, or an entry that carries a visibility. -/
theorem first_found {T : Tables} {m : Nat} {o d : Owner} {v : Vis} {p : Nat} : ∀ {L : List Owner}, first T L m = some (o, v) → found T L m = some (d, p) →
    d = o ∨ T o m = some (.zsuper v)
  | [], h, _ => by cases h
  | a :: rest, h, hf => by
    cases ht : T a m with
    | none =>
      simp only [first, ht] at h
      simp only [found, ht] at hf
      exact first_found h hf
    | some e =>
      simp only [first, ht] at h
      cases h
      cases e with
      | zsuper w => exact Or.inr ht
      | meth q w =>
        simp only [found, ht] at hf
        cases hf
        exact Or.inl rfl

/-! ### The base of a program -/

theorem rel_new : Rel Tracker.new Ctx.top := ⟨rfl, rfl, rfl, rfl, by simp [Tracker.new], rfl⟩

theorem index_plain {E : List Nat → Bool} : ∀ {files : List Code}, (∀ c ∈ files, Plain .top c = true) →
    ∃ F V, indexFiles E files = some (F, V) ∧ F.map key = (program files).filterMap defKey
  | [], _ => ⟨[], [], rfl, rfl⟩
  | code :: l, h => by
    obtain ⟨F, V, h1, h2⟩ := index_plain (E := E) (files := l) (fun c hc => h c (List.mem_cons_of_mem _ hc))
    obtain ⟨s, v, h3, _, h4, _⟩ := visit_plain E code .top .new (h code List.mem_cons_self) rfl rel_new
    refine ⟨s.facts ++ F, s.overrides ++ V, ?_, ?_⟩
    · simp only [indexFiles, h3, h1]
    · rw [List.map_append, h4, h2]
      simp [program, State.new, List.filterMap_append]

theorem index_tame {E : List Nat → Bool} : ∀ {files : List Code}, (∀ c ∈ files, Plain .top c = true ∧ Tame .top c = true) → ∀ {F V}, indexFiles E files = some (F, V) →
    V = (program files).filterMap toOverride ∧ ∀ f ∈ F, (∀ v p, .change f.owner f.name v p ∉ program files) → .define f.owner f.name f.pos f.vis ∈ program files
  | [], _, F, V, h => by
    simp only [indexFiles, Option.some.injEq, Prod.mk.injEq] at h
    obtain ⟨rfl, rfl⟩ := h
    exact ⟨rfl, by simp⟩
  | code :: l, h, F, V, hi => by
    have hc := h code List.mem_cons_self
    obtain ⟨s, v, h3, _, _, h5⟩ := visit_plain E code .top .new hc.1 rfl rel_new
    have h6 := h5 hc.2 (Or.inl rfl)
    obtain ⟨F', V', h1, _⟩ := index_plain (E := E) (files := l) (fun c hc => (h c (List.mem_cons_of_mem _ hc)).1)
    obtain ⟨h7, h8⟩ := index_tame (E := E) (files := l) (fun c hc => h c (List.mem_cons_of_mem _ hc)) h1
    simp only [indexFiles, h3, h1, Option.some.injEq, Prod.mk.injEq] at hi
    obtain ⟨rfl, rfl⟩ := hi
    have hf : s.facts = (record ([], []) (events .top code)).1 := congrArg Prod.fst h6
    have ho : s.overrides = (record ([], []) (events .top code)).2 := congrArg Prod.snd h6
    have hp : program (code :: l) = events .top code ++ program l := rfl
    refine ⟨?_, ?_⟩
    · rw [ho, record_overrides, h7, hp, List.filterMap_append]
      simp
    · intro f hm hn
      rw [hp] at hn ⊢
      rcases List.mem_append.mp hm with h9 | h9
      · rw [hf] at h9
        rcases record_unchanged _ _ f h9 (fun v p hc => hn v p (List.mem_append.mpr (Or.inl hc))) with h10 | h10
        · cases h10
        · exact List.mem_append.mpr (Or.inl h10)
      · exact List.mem_append.mpr (Or.inr (h8 f h9 (fun v p hc => hn v p (List.mem_append.mpr (Or.inr hc)))))

theorem mem_defs {F : List Fact} {evs : List Ev} (h : F.map key = evs.filterMap defKey) {o : Owner} {m p : Nat} {v : Vis} (hm : .define o m p v ∈ evs) :
    ∃ f ∈ F, f.owner = o ∧ f.name = m ∧ f.pos = p := by
  have h1 : (o, m, p, Kind.project, Avail.available) ∈ F.map key := by
    rw [h]
    exact List.mem_filterMap.mpr ⟨_, hm, rfl⟩
  obtain ⟨f, hf, hk⟩ := List.mem_map.mp h1
  simp only [key, Prod.mk.injEq] at hk
  exact ⟨f, hf, hk.1, hk.2.1, hk.2.2.1⟩

theorem defs_mem {F : List Fact} {evs : List Ev} (h : F.map key = evs.filterMap defKey) {f : Fact} (hf : f ∈ F) :
    f.kind = .project ∧ f.avail = .available ∧ ∃ v, .define f.owner f.name f.pos v ∈ evs := by
  have h1 : key f ∈ evs.filterMap defKey := by
    rw [← h]
    exact List.mem_map_of_mem hf
  obtain ⟨e, he, hk⟩ := List.mem_filterMap.mp h1
  cases e with
  | change _ _ _ _ => cases hk
  | define o m p v =>
    simp only [defKey, key, Option.some.injEq, Prod.mk.injEq] at hk
    obtain ⟨rfl, rfl, rfl, h2, h3⟩ := hk
    exact ⟨h2.symm, h3.symm, v, he⟩

theorem factsAt_of_available {B : Base} (h : ∀ f ∈ B.facts, f.avail = .available) (o : Owner) (m : Nat) :
    factsAt B o m = B.facts.filter (fun f => decide (f.owner = o ∧ f.name = m)) := by
  unfold factsAt retainAvailable
  have h1 : ∀ a : Avail, a ≠ .available → (B.facts.filter (fun f => decide (f.owner = o ∧ f.name = m))).any (fun f => decide (f.avail = a)) = false := by
    intro a ha
    rw [List.any_eq_false]
    intro f hf
    rw [h f (List.mem_filter.mp hf).1]
    simp only [decide_eq_true_eq]
    exact fun h => ha h.symm
  rw [h1 _ (by simp), h1 _ (by simp)]
  simp

theorem preferSource_of_project {l : List Fact} (h : ∀ f ∈ l, f.kind = .project) : preferSource l = l := by
  unfold preferSource
  split
  · apply List.filter_eq_self.mpr
    intro f hf
    rw [h f hf]
    rfl
  · rfl

theorem shows_of_index {B : Base} {evs : List Ev} {T : Tables} (h : B.facts.map key = evs.filterMap defKey) (hd : Defs evs T) : Shows B T := by
  have ha : ∀ f ∈ B.facts, f.avail = .available := fun f hf => (defs_mem h hf).2.1
  refine ⟨?_, ?_⟩
  · intro o m hn
    rw [factsAt_of_available ha] at hn
    obtain ⟨f, hf⟩ := List.exists_mem_of_ne_nil _ hn
    simp only [List.mem_filter, decide_eq_true_eq] at hf
    obtain ⟨_, _, v, hv⟩ := defs_mem h hf.1
    rw [hf.2.1, hf.2.2] at hv
    exact hd.of_event _ _ _ _ hv
  · intro o m p v ht
    obtain ⟨w, hw⟩ := hd.of_table o m p v ht
    obtain ⟨f, hf, h1, h2, h3⟩ := mem_defs h hw
    rw [factsAt_of_available ha, preferSource_of_project (fun g hg => (defs_mem h (List.mem_filter.mp hg).1).1)]
    exact ⟨f, List.mem_filter.mpr ⟨hf, by simp [h1, h2]⟩, h3⟩

theorem overrides_vis (evs : List Ev) (o : Owner) (m : Nat) :
    ((evs.filterMap toOverride).filter (fun f => decide (f.name = m ∧ f.owner = o))).map (·.vis) = evs.filterMap (changeAt o m) := by
  induction evs with
  | nil => rfl
  | cons e l ih =>
    cases e with
    | define _ _ _ _ =>
      simp only [List.filterMap_cons, toOverride, changeAt]
      exact ih
    | change o' m' v p =>
      by_cases hk : o' = o ∧ m' = m
      · have hk' : (m' = m ∧ o' = o) := ⟨hk.2, hk.1⟩
        simp only [List.filterMap_cons, toOverride, changeAt, if_pos hk, List.filter_cons, decide_eq_true hk', if_true, List.map_cons, ih]
      · have hk' : ¬(m' = m ∧ o' = o) := fun h => hk ⟨h.2, h.1⟩
        simp only [List.filterMap_cons, toOverride, changeAt, if_neg hk, List.filter_cons, decide_eq_false hk', Bool.false_eq_true, if_false, ih]

theorem overrides_sorted {evs : List Ev} (h : InOrder evs) : (evs.filterMap toOverride).Pairwise (fun x y => decide (x.pos ≤ y.pos) = true) := by
  rw [List.pairwise_filterMap]
  refine List.Pairwise.imp ?_ h
  intro a b hab x hx y hy
  cases a with
  | define _ _ _ _ => cases hx
  | change o m v p =>
    cases b with
    | define _ _ _ _ => cases hy
    | change o' m' v' p' =>
      simp only [toOverride, Option.mem_def, Option.some.injEq] at hx hy
      subst hx hy
      simp only [Ev.pos] at hab
      simp only [decide_eq_true_eq]
      omega

theorem lastOverride_vis {B : Base} {evs : List Ev} (h : B.overrides = evs.filterMap toOverride) (ho : InOrder evs) (o : Owner) (m : Nat) :
    (lastOverride B o m).map (·.vis) = lastChange evs o m := by
  unfold lastOverride
  have hs : Sorted (fun x y : Override => decide (x.pos ≤ y.pos)) (overridesAt B o m) := by
    unfold overridesAt
    rw [h]
    exact List.Pairwise.filter _ (overrides_sorted ho)
  rw [stableSort_of_sorted hs]
  unfold overridesAt lastChange
  rw [h, ← overrides_vis, List.getLast?_map]

theorem showsVis_of_index {B : Base} {evs : List Ev} {T : Tables} (hk : B.facts.map key = evs.filterMap defKey) (h : B.overrides = evs.filterMap toOverride)
    (hf : ∀ f ∈ B.facts, (∀ v p, .change f.owner f.name v p ∉ evs) → .define f.owner f.name f.pos f.vis ∈ evs) (ho : InOrder evs) (hor : Orderly evs)
    (hd : Defs evs T) (hv : Viss evs T) : ShowsVis B T := by
  have hlast : ∀ o m, lastOverride B o m = none → lastChange evs o m = none := by
    intro o m hn
    rw [← lastOverride_vis h ho, hn]
    rfl
  refine ⟨?_, ?_, ?_⟩
  · intro o m g hg
    have h1 := lastOverride_vis h ho o m
    rw [hg] at h1
    exact hv.changed o m g.vis h1.symm
  · intro o m hn f hfm
    obtain ⟨rfl, rfl⟩ := factsAt_owner hfm
    have hc := hlast _ _ hn
    have hfm' : f ∈ B.facts := (List.mem_filter.mp (mem_retainAvailable hfm)).1
    have hno : ∀ v p, .change f.owner f.name v p ∉ evs := by
      intro v p hm
      have : v ∈ evs.filterMap (changeAt f.owner f.name) := List.mem_filterMap.mpr ⟨_, hm, by simp [changeAt]⟩
      unfold lastChange at hc
      rw [List.getLast?_eq_none_iff] at hc
      rw [hc] at this
      cases this
    have hdef := hf f hfm' hno
    obtain ⟨q, w, hq⟩ := hd.of_event _ _ _ _ hdef
    obtain ⟨p', v', he, hdef'⟩ := hv.unchanged _ _ hc _ hq
    refine ⟨_, hq, ?_⟩
    cases he
    exact orderly_same hor hdef' hdef
  · intro o m v ht hn
    obtain ⟨p, w, he, _⟩ := hv.unchanged o m (hlast o m hn) _ ht
    cases he

end Verif.MethodLookup
