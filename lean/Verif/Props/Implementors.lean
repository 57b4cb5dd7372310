import Verif.Model.Implementors
import Verif.Props.Mro
/-! C38: the implementors of a namespace. -/
namespace Verif.Implementors
open Verif.GraphStore Verif.Store Verif.Mro

/-! ### specification -/

/-- `x` is a subclass of `y`. -/
def Sub (l : Log) (x y : Nat) : Prop := ∃ e ∈ l.edges, e.source = x ∧ e.target = y ∧ e.kind = .superclass

/-- `x` mixes in `y`: an instance namespace includes or prepends it, or any namespace extends it. -/
def Mix (C : Cfg) (l : Log) (x y : Nat) : Prop :=
  ∃ e ∈ l.edges, e.source = x ∧ e.target = y ∧ ((e.kind = .incl ∨ e.kind = .prep) ∧ C.singleton x = false ∨ e.kind = .extend)

/-- The links followed from an implementor to the namespace it implements. -/
def Follow (C : Cfg) (l : Log) (x y : Nat) : Prop := Sub l x y ∨ Mix C l x y

/-- `x` includes or prepends `y`. -/
def Includes (l : Log) (x y : Nat) : Prop := ∃ e ∈ l.edges, e.source = x ∧ e.target = y ∧ (e.kind = .incl ∨ e.kind = .prep)

/-- `x` reaches `y` by including or prepending, all namespaces between them being modules. -/
inductive IncludesVia (l : Log) (y : Nat) : Nat → Prop
  | direct {x : Nat} (h : Includes l x y) : IncludesVia l y x
  | via {x z : Nat} (h : IncludesVia l y z) (hz : firstKind l z = some kindModule) (hx : Includes l x z) : IncludesVia l y x

/-! ### searches that mark names when they are queued -/

theorem enqueue_spec (m seen : List Nat) : (enqueue m seen).1.Nodup ∧ (∀ x ∈ (enqueue m seen).1, x ∉ seen) ∧
    (∀ x, x ∈ (enqueue m seen).2 ↔ x ∈ seen ∨ x ∈ (enqueue m seen).1) ∧
    (∀ x, x ∈ seen ∨ x ∈ (enqueue m seen).1 ↔ x ∈ seen ∨ x ∈ m) ∧ ∀ x ∈ (enqueue m seen).1, x ∈ m := by
  induction m generalizing seen with
  | nil => simp [enqueue]
  | cons a m ih =>
    unfold enqueue
    split
    · rename_i ha
      obtain ⟨h1, h2, h3, h4, h5⟩ := ih seen
      refine ⟨h1, h2, h3, ?_, fun x hx => List.mem_cons_of_mem _ (h5 x hx)⟩
      intro x
      rw [h4, List.mem_cons]
      constructor
      · rintro (h | h)
        · exact .inl h
        · exact .inr (.inr h)
      · rintro (h | h | h)
        · exact .inl h
        · exact .inl (h ▸ ha)
        · exact .inr h
    · rename_i ha
      obtain ⟨h1, h2, h3, h4, h5⟩ := ih (a :: seen)
      refine ⟨?_, ?_, ?_, ?_, ?_⟩
      · exact List.nodup_cons.mpr ⟨fun h => h2 a h List.mem_cons_self, h1⟩
      · intro x hx
        rcases List.mem_cons.mp hx with h | h
        · exact h ▸ ha
        · exact fun hs => h2 x h (List.mem_cons_of_mem _ hs)
      · intro x
        simp only [h3, List.mem_cons]
        tauto
      · intro x
        have := h4 x
        simp only [List.mem_cons] at this ⊢
        tauto
      · intro x hx
        rcases List.mem_cons.mp hx with h | h
        · exact h ▸ List.mem_cons_self
        · exact List.mem_cons_of_mem _ (h5 x h)

theorem left_enqueue {U m seen : List Nat} (hm : ∀ x ∈ m, x ∈ U) :
    (enqueue m seen).1.length + left U (enqueue m seen).2 ≤ left U seen := by
  induction m generalizing seen with
  | nil => simp [enqueue]
  | cons a m ih =>
    unfold enqueue
    split
    · exact ih fun x hx => hm x (List.mem_cons_of_mem _ hx)
    · rename_i ha
      have h1 := ih (seen := a :: seen) fun x hx => hm x (List.mem_cons_of_mem _ hx)
      have h2 := left_cons (v := seen) (hm a List.mem_cons_self) ha
      simp only [List.length_cons]
      omega

/-! ### the store -/

section
variable {C : Cfg} {text : Nat → List Nat} {s : State} {l : Log} (F : Faithful s l)
  (T : ∀ n, ListsEdges (edgesTo s n) (l.edges.filter (fun e => decide (e.target = n))))
include T

theorem mem_edgesTo {n : Nat} {e : Edge} : e ∈ edgesTo s n ↔ e ∈ l.edges ∧ e.target = n := by
  rw [(T n).1.mem_iff]; simp

theorem mem_subclasses {n x : Nat} : x ∈ subclasses s n ↔ Sub l x n := by
  simp only [subclasses, List.mem_map, List.mem_filter, mem_edgesTo T, decide_eq_true_eq, Sub]
  constructor
  · rintro ⟨e, ⟨⟨h1, h2⟩, h3⟩, rfl⟩; exact ⟨e, h1, rfl, h2, h3⟩
  · rintro ⟨e, h1, rfl, h2, h3⟩; exact ⟨e, ⟨⟨h1, h2⟩, h3⟩, rfl⟩

theorem mem_includers {n x : Nat} : x ∈ includers s n ↔ Includes l x n := by
  simp only [includers, List.mem_map, List.mem_filter, mem_edgesTo T, decide_eq_true_eq, Includes, Bool.or_eq_true]
  constructor
  · rintro ⟨e, ⟨⟨h1, h2⟩, h3⟩, rfl⟩; exact ⟨e, h1, rfl, h2, h3⟩
  · rintro ⟨e, h1, rfl, h2, h3⟩; exact ⟨e, ⟨⟨h1, h2⟩, h3⟩, rfl⟩

theorem mem_mixers {n x : Nat} : x ∈ mixers C text s n ↔ Mix C l x n := by
  simp only [mixers, mem_dedupAdj, mem_stableSort, List.mem_map, List.mem_filter, mem_edgesTo T, decide_eq_true_eq, Mix,
    Bool.or_eq_true, Bool.and_eq_true, Bool.not_eq_true']
  constructor
  · rintro ⟨e, ⟨⟨h1, h2⟩, h3, h4⟩, rfl⟩
    refine ⟨e, h1, rfl, h2, ?_⟩
    rcases h4 with h4 | h4
    · exact .inr h4
    · rcases h3 with h3 | h3
      · exact .inl ⟨h3, h4⟩
      · exact .inr h3
  · rintro ⟨e, h1, rfl, h2, h3⟩
    refine ⟨e, ⟨⟨h1, h2⟩, ?_⟩, rfl⟩
    rcases h3 with ⟨h3, h4⟩ | h3
    · exact ⟨.inl h3, .inr h4⟩
    · exact ⟨.inr h3, .inl h3⟩

/-- What the breadth-first search for subclasses finds. -/
theorem descLoop_spec : ∀ fuel queue seen result out, descLoop s fuel queue seen result = some out →
    (∀ q ∈ queue, q ∈ seen) →
    ∃ new, out = result ++ new ∧ new.Nodup ∧ (∀ x ∈ new, x ∉ seen) ∧
      (∀ x ∈ new, ∃ q ∈ queue, Reach (fun a b => Sub l b a) q x) ∧
      (∀ y, y ∈ queue ∨ y ∈ new → ∀ z, Sub l z y → z ∈ seen ∨ z ∈ new) := by
  intro fuel
  induction fuel with
  | zero =>
    intro queue seen result out h hq
    cases queue with
    | nil =>
      simp only [descLoop, Option.some.injEq] at h
      exact ⟨[], by simp [h], by simp, by simp, by simp, by simp⟩
    | cons n q => cases h
  | succ fuel ih =>
    intro queue seen result out h hq
    cases queue with
    | nil =>
      simp only [descLoop, Option.some.injEq] at h
      exact ⟨[], by simp [h], by simp, by simp, by simp, by simp⟩
    | cons n q =>
      unfold descLoop at h
      simp only at h
      obtain ⟨e1, e2, e3, e4, e5⟩ := enqueue_spec (subclasses s n) seen
      obtain ⟨new, h1, h2, h3, h4, h5⟩ := ih _ _ _ _ h (by
        intro x hx
        rw [e3]
        rcases List.mem_append.mp hx with hx | hx
        · exact .inl (hq x (List.mem_cons_of_mem _ hx))
        · exact .inr hx)
      generalize hE : (enqueue (subclasses s n) seen).1 = E at *
      have h3' : ∀ x ∈ new, x ∉ seen ∧ x ∉ E := fun x hx => by
        have := h3 x hx; rw [e3] at this; push Not at this; exact this
      refine ⟨E ++ new, by rw [h1, List.append_assoc], ?_, ?_, ?_, ?_⟩
      · rw [List.nodup_append]
        refine ⟨e1, h2, ?_⟩
        intro a ha b hb hab
        subst hab
        exact (h3' a hb).2 ha
      · intro x hx
        rcases List.mem_append.mp hx with h | h
        · exact e2 x h
        · exact (h3' x h).1
      · have hE' : ∀ x ∈ E, Reach (fun a b => Sub l b a) n x := fun x hx =>
          .step (.refl (fun h => h)) ((mem_subclasses T).mp (e5 x hx)) (fun h => h)
        intro x hx
        rcases List.mem_append.mp hx with h | h
        · exact ⟨n, List.mem_cons_self, hE' x h⟩
        · obtain ⟨r, hr, hR⟩ := h4 x h
          rcases List.mem_append.mp hr with hr | hr
          · exact ⟨r, List.mem_cons_of_mem _ hr, hR⟩
          · exact ⟨n, List.mem_cons_self, (hE' r hr).trans hR⟩
      · intro y hy z hz
        have hcase : y = n ∨ (y ∈ q ++ E ∨ y ∈ new) := by
          rcases hy with hy | hy
          · rcases List.mem_cons.mp hy with hy | hy
            · exact .inl hy
            · exact .inr (.inl (List.mem_append_left _ hy))
          · rcases List.mem_append.mp hy with hy | hy
            · exact .inr (.inl (List.mem_append_right _ hy))
            · exact .inr (.inr hy)
        rcases hcase with rfl | hc
        · have := (e4 z).mpr (.inr ((mem_subclasses T).mpr hz))
          rcases this with h | h
          · exact .inl h
          · exact .inr (List.mem_append_left _ h)
        · rcases h5 y hc z hz with h | h
          · rcases (e3 z).mp h with h | h
            · exact .inl h
            · exact .inr (List.mem_append_left _ h)
          · exact .inr (List.mem_append_right _ h)

theorem descLoop_some {U : List Nat} (hU : ∀ e ∈ l.edges, e.source ∈ U) : ∀ fuel queue seen result,
    queue.length + left U seen ≤ fuel → ∃ out, descLoop s fuel queue seen result = some out := by
  intro fuel
  induction fuel with
  | zero =>
    intro queue seen result h
    cases queue with
    | nil => exact ⟨result, rfl⟩
    | cons n q => simp at h
  | succ fuel ih =>
    intro queue seen result h
    cases queue with
    | nil => exact ⟨result, rfl⟩
    | cons n q =>
      unfold descLoop
      simp only
      have := left_enqueue (U := U) (m := subclasses s n) (seen := seen) (by
        intro x hx
        obtain ⟨e, he, rfl, _⟩ := (mem_subclasses T).mp hx
        exact hU e he)
      refine ih _ _ _ ?_
      simp only [List.length_cons] at h
      simp only [List.length_append]
      omega

include F

omit T in
theorem enough_ok (seen : List Nat) : left (l.edges.map (·.source)) seen + 1 ≤ enough s := by
  have h1 : left (l.edges.map (·.source)) seen ≤ (l.edges.map (·.source)).length := List.length_filter_le _ _
  have h2 : s.edges.all.length ≤ s.edges.slots.length := List.length_filterMap_le _ _
  rw [F.all.length_eq] at h2
  rw [List.length_map] at h1
  unfold enough
  omega

/-- `descendants` finds the transitive subclasses, each once, never the origin. -/
theorem descendants_spec (n : Nat) : ∃ out, descendants s n = some out ∧ out.Nodup ∧
    ∀ x, x ∈ out ↔ x ≠ n ∧ Reach (Sub l) x n := by
  obtain ⟨out, h⟩ := descLoop_some (s := s) T (U := l.edges.map (·.source)) (fun e he => List.mem_map_of_mem he) (enough s) [n] [n] []
    (by have := enough_ok F [n]; simp only [List.length_cons, List.length_nil]; omega)
  obtain ⟨new, h1, h2, h3, h4, h5⟩ := descLoop_spec T _ _ _ _ _ h (by simp)
  rw [List.nil_append] at h1
  subst h1
  refine ⟨out, h, h2, ?_⟩
  have rev : ∀ {a b}, Reach (fun a b => Sub l b a) a b → Reach (Sub l) b a := by
    intro a b hab
    induction hab with
    | refl _ => exact .refl (fun h => h)
    | step _ r _ ih => exact ih.head (fun h => h) r
  intro x
  constructor
  · intro hx
    obtain ⟨q, hq, hR⟩ := h4 x hx
    rw [List.mem_singleton] at hq
    subst hq
    exact ⟨by simpa using h3 x hx, rev hR⟩
  · rintro ⟨hne, hR⟩
    have rev2 : ∀ {a b}, Reach (Sub l) a b → Reach (fun a b => Sub l b a) b a := by
      intro a b hab
      induction hab with
      | refl _ => exact .refl (fun h => h)
      | step _ r _ ih => exact ih.head (fun h => h) r
    have : ∀ y, Reach (fun a b => Sub l b a) n y → y ∈ [n] ∨ y ∈ out := by
      intro y hy
      induction hy with
      | refl _ => simp
      | step _ r _ ih => exact h5 _ ih _ r
    rcases this x (rev2 hR) with h | h
    · exact absurd (List.mem_singleton.mp h) hne
    · exact h

/-- What the search for implementors finds. -/
theorem collectLoop_spec : ∀ fuel stack visited result out, collectLoop C text s fuel stack visited result = some out →
    (∀ q ∈ stack, q ∈ visited) →
    ∃ new, ∃ marked : List Nat, out = result ++ new ∧ new.Nodup ∧ (∀ x ∈ new, x ∉ visited) ∧
      (∀ x ∈ new, ∃ q ∈ stack, Reach (Follow C l) x q) ∧
      (∀ y, y ∈ stack ∨ y ∈ new ∧ y ∉ marked → ∀ z, Reach (Sub l) z y ∨ Mix C l z y → z ∈ visited ∨ z ∈ new) ∧
      (∀ y ∈ marked, (∃ z, Sub l y z) ∧ ∀ z, Sub l z y → z ∈ visited ∨ z ∈ new) := by
  intro fuel
  induction fuel with
  | zero =>
    intro queue seen result out h hq
    cases queue with
    | nil =>
      simp only [collectLoop, Option.some.injEq] at h
      exact ⟨[], [], by simp [h], by simp, by simp, by simp, by simp, by simp⟩
    | cons n q => cases h
  | succ fuel ih =>
    intro queue seen result out h hq
    cases queue with
    | nil =>
      simp only [collectLoop, Option.some.injEq] at h
      exact ⟨[], [], by simp [h], by simp, by simp, by simp, by simp, by simp⟩
    | cons n q =>
      unfold collectLoop at h
      obtain ⟨ds, hds, hdn, hdm⟩ := descendants_spec F T n
      rw [hds] at h
      simp only [Option.bind_some] at h
      obtain ⟨d1, d2, d3, d4, d5⟩ := enqueue_spec ds seen
      obtain ⟨e1, e2, e3, e4, e5⟩ := enqueue_spec (mixers C text s n) (enqueue ds seen).2
      obtain ⟨new, marked, h1, h2, h3, h4, h5, h6⟩ := ih _ _ _ _ h (by
        intro x hx
        rw [e3]
        rcases List.mem_append.mp hx with hx | hx
        · exact .inr (List.mem_reverse.mp hx)
        · exact .inl ((d3 x).mpr (.inl (hq x (List.mem_cons_of_mem _ hx)))))
      generalize hM : (enqueue (mixers C text s n) (enqueue ds seen).2).1 = M at *
      generalize hM2 : (enqueue (mixers C text s n) (enqueue ds seen).2).2 = V2 at *
      generalize hD : (enqueue ds seen).1 = D at *
      generalize hD2 : (enqueue ds seen).2 = V1 at *
      have v2 : ∀ x, x ∈ V2 ↔ (x ∈ seen ∨ x ∈ D) ∨ x ∈ M := fun x => by rw [e3, d3]
      have e2' : ∀ x ∈ M, x ∉ seen ∧ x ∉ D := fun x hx => by
        have := e2 x hx; rw [d3] at this; push Not at this; exact this
      have h3' : ∀ x ∈ new, (x ∉ seen ∧ x ∉ D) ∧ x ∉ M := fun x hx => by
        have := h3 x hx; rw [v2] at this; push Not at this; exact this
      have hD' : ∀ x ∈ D, x ≠ n ∧ Reach (Sub l) x n := fun x hx => (hdm x).mp (d5 x hx)
      have hM' : ∀ x ∈ M, Mix C l x n := fun x hx => (mem_mixers T).mp (e5 x hx)
      -- everything below or mixing in `n` is visited
      have below : ∀ z, Reach (Sub l) z n → z ∈ seen ∨ z ∈ D := by
        intro z hz
        by_cases hzn : z = n
        · subst hzn; exact .inl (hq z List.mem_cons_self)
        · exact (d4 z).mpr (.inr ((hdm z).mpr ⟨hzn, hz⟩))
      have mixes : ∀ z, Mix C l z n → z ∈ V2 := by
        intro z hz
        have := (e4 z).mpr (.inr ((mem_mixers (text := text) T).mpr hz))
        exact (e3 z).mpr this
      have lift : ∀ z, z ∈ V2 ∨ z ∈ new → z ∈ seen ∨ z ∈ D ++ M ++ new := by
        intro z hz
        simp only [List.mem_append]
        rw [v2] at hz
        tauto
      refine ⟨D ++ M ++ new, D ++ marked, by rw [h1]; simp, ?_, ?_, ?_, ?_, ?_⟩
      · rw [List.nodup_append, List.nodup_append]
        refine ⟨⟨d1, e1, ?_⟩, h2, ?_⟩
        · intro a ha b hb hab; subst hab; exact (e2' a hb).2 ha
        · intro a ha b hb hab
          subst hab
          rcases List.mem_append.mp ha with h | h
          · exact (h3' a hb).1.2 h
          · exact (h3' a hb).2 h
      · intro x hx
        simp only [List.mem_append] at hx
        rcases hx with (h | h) | h
        · exact d2 x h
        · exact (e2' x h).1
        · exact (h3' x h).1.1
      · have subR : ∀ {a b}, Reach (Sub l) a b → Reach (Follow C l) a b := by
          intro a b hab
          induction hab with
          | refl _ => exact .refl (fun h => h)
          | step _ r _ ih => exact .step ih (.inl r) (fun h => h)
        have hM'' : ∀ x ∈ M, Reach (Follow C l) x n := fun x hx => .step (.refl (fun h => h)) (.inr (hM' x hx)) (fun h => h)
        intro x hx
        simp only [List.mem_append] at hx
        rcases hx with (h | h) | h
        · exact ⟨n, List.mem_cons_self, subR (hD' x h).2⟩
        · exact ⟨n, List.mem_cons_self, hM'' x h⟩
        · obtain ⟨r, hr, hR⟩ := h4 x h
          rcases List.mem_append.mp hr with hr | hr
          · exact ⟨n, List.mem_cons_self, hR.trans (hM'' r (List.mem_reverse.mp hr))⟩
          · exact ⟨r, List.mem_cons_of_mem _ hr, hR⟩
      · intro y hy z hz
        have hcase : y = n ∨ (y ∈ M.reverse ++ q ∨ y ∈ new ∧ y ∉ marked) := by
          rcases hy with hy | ⟨hy, hym⟩
          · rcases List.mem_cons.mp hy with hy | hy
            · exact .inl hy
            · exact .inr (.inl (List.mem_append_right _ hy))
          · simp only [List.mem_append] at hy hym
            push Not at hym
            rcases hy with (hy | hy) | hy
            · exact absurd hy hym.1
            · exact .inr (.inl (List.mem_append_left _ (List.mem_reverse.mpr hy)))
            · exact .inr (.inr ⟨hy, hym.2⟩)
        rcases hcase with rfl | hc
        · rcases hz with hz | hz
          · rcases below z hz with h | h
            · exact .inl h
            · exact .inr (by simp [h])
          · exact lift z (.inl (mixes z hz))
        · exact lift z (h5 y hc z hz)
      · intro y hy
        rcases List.mem_append.mp hy with hy | hy
        · obtain ⟨hne, hR⟩ := hD' y hy
          refine ⟨?_, ?_⟩
          · clear hne
            have hne := (hD' y hy).1
            have : ∀ {a b}, Reach (Sub l) a b → a ≠ b → ∃ z, Sub l a z := by
              intro a b hab
              induction hab with
              | refl _ => intro h; exact absurd rfl h
              | @step m k hp r _ ih =>
                intro _
                by_cases ham : a = m
                · exact ⟨k, ham ▸ r⟩
                · exact ih ham
            exact this hR hne
          · intro z hz
            rcases below z (hR.head (fun h => h) hz) with h | h
            · exact .inl h
            · exact .inr (by simp [h])
        · obtain ⟨m1, m2⟩ := h6 y hy
          exact ⟨m1, fun z hz => lift z (m2 z hz)⟩

theorem collectLoop_some : ∀ fuel stack visited result, stack.length + left (l.edges.map (·.source)) visited ≤ fuel →
    ∃ out, collectLoop C text s fuel stack visited result = some out := by
  intro fuel
  induction fuel with
  | zero =>
    intro queue seen result h
    cases queue with
    | nil => exact ⟨result, rfl⟩
    | cons n q => simp at h
  | succ fuel ih =>
    intro queue seen result h
    cases queue with
    | nil => exact ⟨result, rfl⟩
    | cons n q =>
      unfold collectLoop
      obtain ⟨ds, hds, hdn, hdm⟩ := descendants_spec F T n
      rw [hds]
      simp only [Option.bind_some]
      refine ih _ _ _ ?_
      have h1 := left_enqueue (U := l.edges.map (·.source)) (m := mixers C text s n) (seen := (enqueue ds seen).2) (by
        intro x hx
        obtain ⟨e, he, rfl, _⟩ := (mem_mixers T).mp hx
        exact List.mem_map_of_mem he)
      have h2 := left_mono (U := l.edges.map (·.source)) (v := seen) (v' := (enqueue ds seen).2)
        (fun x hx => ((enqueue_spec ds seen).2.2.1 x).mpr (.inl hx))
      simp only [List.length_cons] at h
      simp only [List.length_append, List.length_reverse]
      omega

theorem implementors_spec (n : Nat) : ∃ out, implementors C text s n = some out ∧ out.Nodup ∧ n ∉ out ∧
    out.Pairwise (fun a b => leBy text a b = true) ∧
    (∀ x ∈ out, Reach (Follow C l) x n) ∧
    ((∀ x y z, Mix C l x y → ¬ Sub l y z) → ∀ x, x ≠ n → Reach (Follow C l) x n → x ∈ out) := by
  obtain ⟨out, h⟩ := collectLoop_some (C := C) (text := text) F T (enough s) [n] [n] []
    (by have := enough_ok F [n]; simp only [List.length_cons, List.length_nil]; omega)
  obtain ⟨new, marked, h1, h2, h3, h4, h5, h6⟩ := collectLoop_spec F T _ _ _ _ _ h (by simp)
  rw [List.nil_append] at h1
  subst h1
  refine ⟨stableSort (leBy text) out, by simp [implementors, h], (stableSort_perm _).nodup_iff.mpr h2, ?_,
    stableSort_sorted (leBy_order text) out, ?_, ?_⟩
  · rw [mem_stableSort]; intro hn; exact h3 n hn (by simp)
  · intro x hx
    rw [mem_stableSort] at hx
    obtain ⟨q, hq, hR⟩ := h4 x hx
    rw [List.mem_singleton] at hq
    exact hq ▸ hR
  · intro hyp x hne hR
    have key : ∀ {a b}, Reach (Follow C l) a b → b = n → a = n ∨ a ∈ out := by
      intro a b hab
      have : Reach (fun p q => Follow C l q p) b a := by
        induction hab with
        | refl _ => exact .refl (fun h => h)
        | step _ r _ ih => exact ih.head (fun h => h) r
      clear hab
      intro hb
      induction this with
      | refl _ => exact .inl hb
      | @step m k _ r _ ih =>
        have hm := ih
        have cl : k ∈ [n] ∨ k ∈ out := by
          by_cases hmk : m ∈ marked
          · obtain ⟨⟨w, hw⟩, q⟩ := h6 m hmk
            rcases r with r | r
            · exact q k r
            · exact absurd hw (hyp k m w r)
          · have : m ∈ [n] ∨ m ∈ out ∧ m ∉ marked := by
              rcases hm with hm | hm
              · exact .inl (by simp [hm])
              · exact .inr ⟨hm, hmk⟩
            refine h5 m this k ?_
            rcases r with r | r
            · exact .inl (.step (.refl (fun h => h)) r (fun h => h))
            · exact .inr r
        simpa using cl
    rcases key hR rfl with h | h
    · exact absurd h hne
    · exact mem_stableSort.mpr h

/-! ### the classes a module ends up in -/

theorem includersLoop_spec : ∀ fuel queue visited result out, includersLoop s fuel queue visited result = some out →
    (∀ q ∈ queue, q ∈ visited) → queue.Nodup →
    ∃ new, out = result ++ new ∧ ∃ found, new = (queue ++ found).filter (fun x => decide (firstKind l x = some kindClass)) ∧
      (queue ++ found).Nodup ∧ (∀ x ∈ found, x ∉ visited) ∧
      (∀ x ∈ found, ∃ q ∈ queue, Reach (fun a b => firstKind l a = some kindModule ∧ Includes l b a) q x) ∧
      (∀ y ∈ queue ++ found, firstKind l y = some kindModule → ∀ z, Includes l z y → z ∈ visited ∨ z ∈ found) := by
  intro fuel
  induction fuel with
  | zero =>
    intro queue seen result out h hq hn
    cases queue with
    | nil =>
      simp only [includersLoop, Option.some.injEq] at h
      exact ⟨[], by simp [h], [], by simp, by simp, by simp, by simp, by simp⟩
    | cons n q => cases h
  | succ fuel ih =>
    intro queue seen result out h hq hn
    cases queue with
    | nil =>
      simp only [includersLoop, Option.some.injEq] at h
      exact ⟨[], by simp [h], [], by simp, by simp, by simp, by simp, by simp⟩
    | cons n q =>
      obtain ⟨hnq, hqn⟩ := List.nodup_cons.mp hn
      unfold includersLoop at h
      rw [nodeKind_eq F] at h
      have hq' : ∀ x ∈ q, x ∈ seen := fun x hx => hq x (List.mem_cons_of_mem _ hx)
      have skip : firstKind l n ≠ some kindModule → ∀ found, (q ++ found).Nodup → (∀ x ∈ found, x ∉ seen) →
          (∀ x ∈ found, ∃ r ∈ q, Reach (fun a b => firstKind l a = some kindModule ∧ Includes l b a) r x) →
          (∀ y ∈ q ++ found, firstKind l y = some kindModule → ∀ z, Includes l z y → z ∈ seen ∨ z ∈ found) →
          (n :: q ++ found).Nodup ∧
          (∀ x ∈ found, ∃ r ∈ n :: q, Reach (fun a b => firstKind l a = some kindModule ∧ Includes l b a) r x) ∧
          (∀ y ∈ n :: q ++ found, firstKind l y = some kindModule → ∀ z, Includes l z y → z ∈ seen ∨ z ∈ found) := by
        intro hk found f1 f2 f3 f4
        refine ⟨?_, ?_, ?_⟩
        · rw [List.cons_append, List.nodup_cons]
          refine ⟨?_, f1⟩
          intro hm
          rcases List.mem_append.mp hm with hm | hm
          · exact hnq hm
          · exact f2 n hm (hq n List.mem_cons_self)
        · intro x hx
          obtain ⟨r, hr, hR⟩ := f3 x hx
          exact ⟨r, List.mem_cons_of_mem _ hr, hR⟩
        · intro y hy hyk
          rw [List.cons_append] at hy
          rcases List.mem_cons.mp hy with rfl | hy
          · exact absurd hyk hk
          · exact f4 y hy hyk
      split at h
      · rename_i hk
        obtain ⟨new, h1, found, h2, h3, h4, h5, h6⟩ := ih _ _ _ _ h hq' hqn
        have hkm : firstKind l n ≠ some kindModule := by rw [hk]; decide
        obtain ⟨g1, g2, g3⟩ := skip hkm found h3 h4 h5 h6
        refine ⟨n :: new, by rw [h1]; simp, found, ?_, g1, h4, g2, g3⟩
        rw [List.cons_append, List.filter_cons, if_pos (by simp [hk]), h2]
      · rename_i hk
        split at h
        · rename_i hkm
          simp only at h
          obtain ⟨e1, e2, e3, e4, e5⟩ := enqueue_spec (includers s n) seen
          obtain ⟨new, h1, found, h2, h3, h4, h5, h6⟩ := ih _ _ _ _ h (by
            intro x hx
            rw [e3]
            rcases List.mem_append.mp hx with hx | hx
            · exact .inl (hq' x hx)
            · exact .inr hx) (by
            rw [List.nodup_append]
            refine ⟨hqn, e1, ?_⟩
            intro a ha b hb hab
            subst hab
            exact e2 a hb (hq' a ha))
          generalize hE : (enqueue (includers s n) seen).1 = E at *
          have h4' : ∀ x ∈ found, x ∉ seen ∧ x ∉ E := fun x hx => by
            have := h4 x hx; rw [e3] at this; push Not at this; exact this
          refine ⟨new, h1, E ++ found, ?_, ?_, ?_, ?_, ?_⟩
          · rw [List.cons_append, List.filter_cons, if_neg (by simp [hk]), h2, List.append_assoc]
          · rw [List.cons_append, List.nodup_cons, ← List.append_assoc]
            refine ⟨?_, h3⟩
            intro hm
            simp only [List.mem_append] at hm
            have hns := hq n List.mem_cons_self
            rcases hm with (hm | hm) | hm
            · exact hnq hm
            · exact e2 n hm hns
            · exact (h4' n hm).1 hns
          · intro x hx
            rcases List.mem_append.mp hx with hx | hx
            · exact e2 x hx
            · exact (h4' x hx).1
          · have hE' : ∀ x ∈ E, Reach (fun a b => firstKind l a = some kindModule ∧ Includes l b a) n x := fun x hx =>
              .step (.refl (fun h => h)) ⟨hkm, (mem_includers T).mp (e5 x hx)⟩ (fun h => h)
            intro x hx
            rcases List.mem_append.mp hx with hx | hx
            · exact ⟨n, List.mem_cons_self, hE' x hx⟩
            · obtain ⟨r, hr, hR⟩ := h5 x hx
              rcases List.mem_append.mp hr with hr | hr
              · exact ⟨r, List.mem_cons_of_mem _ hr, hR⟩
              · exact ⟨n, List.mem_cons_self, (hE' r hr).trans hR⟩
          · intro y hy hyk z hz
            rw [List.cons_append] at hy
            rcases List.mem_cons.mp hy with rfl | hy
            · rcases (e4 z).mpr (.inr ((mem_includers T).mpr hz)) with h | h
              · exact .inl h
              · exact .inr (List.mem_append_left _ h)
            · rw [← List.append_assoc] at hy
              rcases h6 y hy hyk z hz with h | h
              · rcases (e3 z).mp h with h | h
                · exact .inl h
                · exact .inr (List.mem_append_left _ h)
              · exact .inr (List.mem_append_right _ h)
        · rename_i hkm
          obtain ⟨new, h1, found, h2, h3, h4, h5, h6⟩ := ih _ _ _ _ h hq' hqn
          obtain ⟨g1, g2, g3⟩ := skip hkm found h3 h4 h5 h6
          refine ⟨new, h1, found, ?_, g1, h4, g2, g3⟩
          rw [List.cons_append, List.filter_cons, if_neg (by simp [hk]), h2]

omit F in
theorem includersLoop_some : ∀ fuel queue visited result, queue.length + left (l.edges.map (·.source)) visited ≤ fuel →
    ∃ out, includersLoop s fuel queue visited result = some out := by
  intro fuel
  induction fuel with
  | zero =>
    intro queue seen result h
    cases queue with
    | nil => exact ⟨result, rfl⟩
    | cons n q => simp at h
  | succ fuel ih =>
    intro queue seen result h
    cases queue with
    | nil => exact ⟨result, rfl⟩
    | cons n q =>
      unfold includersLoop
      simp only [List.length_cons] at h
      split
      · exact ih _ _ _ (by omega)
      · split
        · refine ih _ _ _ ?_
          have h1 := left_enqueue (U := l.edges.map (·.source)) (m := includers s n) (seen := seen) (by
            intro x hx
            obtain ⟨e, he, rfl, _⟩ := (mem_includers T).mp hx
            exact List.mem_map_of_mem he)
          simp only [List.length_append]
          omega
        · exact ih _ _ _ (by omega)

theorem moduleIncluders_spec (n : Nat) : ∃ out, moduleIncluders text s n = some out ∧ out.Nodup ∧
    out.Pairwise (fun a b => leBy text a b = true) ∧
    ∀ x, x ∈ out ↔ IncludesVia l n x ∧ firstKind l x = some kindClass := by
  obtain ⟨e1, e2, e3, e4, e5⟩ := enqueue_spec (includers s n) []
  have hE0 : ∀ x, x ∈ (enqueue (includers s n) []).1 ↔ Includes l x n := by
    intro x
    have := e4 x
    simp only [List.not_mem_nil, false_or] at this
    rw [this, mem_includers T]
  obtain ⟨out, h⟩ := includersLoop_some (s := s) T (enough s) (enqueue (includers s n) []).1 (enqueue (includers s n) []).2 []
    (by
      have h1 := left_enqueue (U := l.edges.map (·.source)) (m := includers s n) (seen := []) (by
            intro x hx
            obtain ⟨e, he, rfl, _⟩ := (mem_includers T).mp hx
            exact List.mem_map_of_mem he)
      have := enough_ok F []
      omega)
  obtain ⟨new, h1, found, h2, h3, h4, h5, h6⟩ := includersLoop_spec F T _ _ _ _ _ h
    (fun q hq => (e3 q).mpr (.inr hq)) e1
  rw [List.nil_append] at h1
  subst h1
  have hout : moduleIncluders text s n = some (stableSort (leBy text) out) := by simp only [moduleIncluders]; rw [h]; rfl
  generalize (enqueue (includers s n) []).1 = E at *
  refine ⟨stableSort (leBy text) out, hout, ?_,
    stableSort_sorted (leBy_order text) out, ?_⟩
  · rw [(stableSort_perm _).nodup_iff, h2]
    exact h3.filter _
  · intro x
    rw [mem_stableSort, h2, List.mem_filter, decide_eq_true_eq]
    refine and_congr ?_ Iff.rfl
    constructor
    · intro hx
      rcases List.mem_append.mp hx with hx' | hx'
      · exact .direct ((hE0 x).mp hx')
      · obtain ⟨q, hq, hR⟩ := h5 x hx'
        have hq0 := IncludesVia.direct ((hE0 q).mp hq)
        clear hx hx'
        induction hR with
        | refl _ => exact hq0
        | step _ r _ ih => exact .via ih r.1 r.2
    · intro hx
      induction hx with
      | direct h => exact List.mem_append_left _ ((hE0 _).mpr h)
      | @via x z _ hz hx ih =>
        rcases h6 z ih hz x hx with h | h
        · rcases (e3 x).mp h with h | h
          · cases h
          · exact List.mem_append_left _ h
        · exact List.mem_append_right _ h

end

theorem faithful_to (ops : List Op) (hv : ∀ op ∈ ops, op.Valid) : ∃ s, run ops init = .ok s ∧ Faithful s (logOf ops) ∧
    ∀ n, ListsEdges (edgesTo s n) ((logOf ops).edges.filter (fun e => decide (e.target = n))) := by
  obtain ⟨s, h1, F⟩ := faithful_run ops hv
  obtain ⟨s', h1', _, h3, _⟩ := c17_graph_reflects_latest ops hv
  rw [h1] at h1'; cases h1'
  exact ⟨s, h1, F, h3⟩

/-- **C38**: after any history of the graph, however cyclic, the search for implementors ends; what it reports is sorted by
name, each namespace once and never the origin, and everything reported reaches the origin through followed links. -/
theorem c38_sound (ops : List Op) (hv : ∀ op ∈ ops, op.Valid) (C : Cfg) (text : Nat → List Nat) (n : Nat) :
    ∃ s out, run ops init = .ok s ∧ implementors C text s n = some out ∧ out.Nodup ∧ n ∉ out ∧
      out.Pairwise (fun a b => leBy text a b = true) ∧ ∀ x ∈ out, Reach (Follow C (logOf ops)) x n := by
  obtain ⟨s, h1, F, T⟩ := faithful_to ops hv
  obtain ⟨out, h2, h3, h4, h5, h6, _⟩ := implementors_spec (C := C) (text := text) F T n
  exact ⟨s, out, h1, h2, h3, h4, h5, h6⟩

/-- **C38**, partial: when nothing that is mixed in has a superclass, exactly the namespaces that reach the origin are
reported.  Missing: graphs in which a namespace with a superclass is mixed in (see `c38_mixed_in_class_missed`). -/
theorem c38_exact_partial (ops : List Op) (hv : ∀ op ∈ ops, op.Valid) (C : Cfg) (text : Nat → List Nat) (n : Nat)
    (hyp : ∀ x y z, Mix C (logOf ops) x y → ¬ Sub (logOf ops) y z) :
    ∃ s out, run ops init = .ok s ∧ implementors C text s n = some out ∧
      ∀ x, x ∈ out ↔ x ≠ n ∧ Reach (Follow C (logOf ops)) x n := by
  obtain ⟨s, h1, F, T⟩ := faithful_to ops hv
  obtain ⟨out, h2, h3, h4, h5, h6, h7⟩ := implementors_spec (C := C) (text := text) F T n
  exact ⟨s, out, h1, h2, fun x => ⟨fun hx => ⟨fun e => h4 (e ▸ hx), h6 x hx⟩, fun hx => h7 hyp x hx.1 hx.2⟩⟩

/-- Subclass searches are exact on every graph. -/
theorem c38_descendants (ops : List Op) (hv : ∀ op ∈ ops, op.Valid) (n : Nat) :
    ∃ s out, run ops init = .ok s ∧ descendants s n = some out ∧ out.Nodup ∧ ∀ x, x ∈ out ↔ x ≠ n ∧ Reach (Sub (logOf ops)) x n := by
  obtain ⟨s, h1, F, T⟩ := faithful_to ops hv
  obtain ⟨out, h2, h3, h4⟩ := descendants_spec F T n
  exact ⟨s, out, h1, h2, h3, h4⟩

/-- The classes a module ends up in are found exactly, on every graph: those that include or prepend it, directly or through
modules that do. -/
theorem c38_module_includers (ops : List Op) (hv : ∀ op ∈ ops, op.Valid) (text : Nat → List Nat) (n : Nat) :
    ∃ s out, run ops init = .ok s ∧ moduleIncluders text s n = some out ∧ out.Nodup ∧
      out.Pairwise (fun a b => leBy text a b = true) ∧
      ∀ x, x ∈ out ↔ IncludesVia (logOf ops) n x ∧ firstKind (logOf ops) x = some kindClass := by
  obtain ⟨s, h1, F, T⟩ := faithful_to ops hv
  obtain ⟨out, h2, h3, h4, h5⟩ := moduleIncluders_spec (text := text) F T n
  exact ⟨s, out, h1, h2, h3, h4, h5⟩

def exampleEdge (source target : Nat) (kind : Kind) : Op :=
  .addEdge { source, target, kind, prov := .explicit, file := 1, start := source, stop := 9 }

/-- What the code misses: 14 mixes in 12, which has the superclass 10; the search from 10 finds 12 as a subclass and never looks
at what mixes it in. -/
theorem c38_mixed_in_class_missed :
    let ops := [exampleEdge 12 10 .superclass, exampleEdge 14 12 .incl]
    ((run ops init).state?.bind fun s => implementors exampleCfg (fun n => [n]) s 10) = some [12] ∧
      Reach (Follow exampleCfg (logOf ops)) 14 10 := by
  refine ⟨by decide, ?_⟩
  refine .step (m := 12) (.step (.refl (fun h => h)) (.inr ?_) (fun h => h)) (.inl ?_) (fun h => h)
  · exact ⟨_, by simp [logOf, logOp, Log.empty, exampleEdge]; exact .inr rfl, rfl, rfl, .inl ⟨.inl rfl, rfl⟩⟩
  · exact ⟨_, by simp [logOf, logOp, Log.empty, exampleEdge]; exact .inl rfl, rfl, rfl, rfl⟩

/-- Example: module 10 is included by 12 (a class with subclass 14) and by module 16, which is prepended to 18 and extended by
21; 16 includes itself through 10 as well, so the graph is cyclic. -/
theorem c38_example :
    let ops := [exampleEdge 12 10 .incl, exampleEdge 14 12 .superclass, exampleEdge 16 10 .incl, exampleEdge 18 16 .prep,
      exampleEdge 21 16 .extend, exampleEdge 10 16 .incl, exampleEdge 23 10 .incl]
    ((run ops init).state?.bind fun s => implementors exampleCfg (fun n => [n]) s 10) = some [12, 14, 16, 18, 21] := by
  decide

/-- Example: class 12 includes module 10 directly, class 14 through module 16, and 18, of which nothing is known, is neither
reported nor followed. -/
theorem c38_includers_example :
    let d (n kind : Nat) : Op := .addNode n { kind, file := 1, start := 0, stop := 1 }
    let ops := [d 12 0, d 14 0, d 16 1, d 20 0, exampleEdge 12 10 .incl, exampleEdge 16 10 .prep, exampleEdge 14 16 .incl,
      exampleEdge 18 10 .incl, exampleEdge 20 18 .incl]
    ((run ops init).state?.bind fun s => moduleIncluders (fun n => [n]) s 10) = some [12, 14] := by
  decide

end Verif.Implementors
