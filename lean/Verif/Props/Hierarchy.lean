import Verif.Spec.Hierarchy
import Verif.Lemmas.Sort
import Mathlib.Data.List.Induction
import Mathlib.Tactic.Common
/-!
C82: the text of a name leads back to the name, and the call hierarchy and the type hierarchy show all calls and relations, each
from both sides.
-/
namespace Verif.Hierarchy

/-! ## Names -/

theorem join_cons (c : Nat) (s : Text) (ss : List Text) : joinColons ((c :: s) :: ss) = c :: joinColons (s :: ss) := by
  cases ss <;> rfl

theorem join_split : ∀ t : Text, joinColons (splitColons t) = t ∧ splitColons t ≠ []
  | [] => ⟨rfl, by simp [splitColons]⟩
  | [c] => ⟨rfl, by simp [splitColons]⟩
  | c :: d :: cs => by
    have h1 := join_split cs
    have h2 := join_split (d :: cs)
    simp only [splitColons]
    by_cases h : c = 58 ∧ d = 58
    · rw [if_pos h]
      refine ⟨?_, by simp⟩
      cases hs : splitColons cs with
      | nil => exact absurd hs h1.2
      | cons s ss =>
        rw [hs] at h1
        simp only [joinColons]
        rw [h1.1, h.1, h.2]
        rfl
    · rw [if_neg h]
      cases hs : splitColons (d :: cs) with
      | nil => exact absurd hs h2.2
      | cons s ss =>
        rw [hs] at h2
        dsimp only
        exact ⟨by rw [join_cons, h2.1], by simp⟩

theorem split_plain {t : Text} (h : 58 ∉ t) : splitColons t = [t] := by
  induction t with
  | nil => rfl
  | cons c t ih =>
    have ih := ih (fun m => h (List.mem_cons_of_mem _ m))
    cases t with
    | nil => rfl
    | cons d t =>
      simp only [splitColons]
      rw [if_neg (fun k => h (by rw [k.1]; exact List.mem_cons_self)), ih]

theorem split_append {t r : Text} (h : 58 ∉ t) : splitColons (t ++ 58 :: 58 :: r) = t :: splitColons r := by
  induction t with
  | nil => simp [splitColons]
  | cons c t ih =>
    have ih := ih (fun m => h (List.mem_cons_of_mem _ m))
    have hc : c ≠ 58 := fun k => h (by rw [k]; exact List.mem_cons_self)
    rw [List.cons_append]
    cases t with
    | nil =>
      rw [List.nil_append] at ih ⊢
      simp only [splitColons]
      rw [if_neg (fun k => hc k.1)]
      simp
    | cons d t =>
      rw [List.cons_append] at ih ⊢
      simp only [splitColons]
      rw [if_neg (fun k => hc k.1), ih]

theorem split_join : ∀ {ts : List Text}, ts ≠ [] → (∀ t ∈ ts, 58 ∉ t) → splitColons (joinColons ts) = ts
  | [], h, _ => absurd rfl h
  | [t], _, h => split_plain (h t (by simp))
  | t :: v :: ts, _, h => by
    simp only [joinColons]
    rw [split_append (h t (by simp)), split_join (by simp) (fun x hx => h x (List.mem_cons_of_mem _ hx))]

theorem newConstant_some {u : Unicode} {t : Text} {p : Part} : newConstant u t = some p ↔ p = .named t ∧ ConstName u t := by
  cases t with
  | nil =>
    simp only [newConstant]
    constructor
    · intro h
      cases h
    · rintro ⟨_, c, cs, h, _⟩
      cases h
  | cons c cs =>
    simp only [newConstant]
    constructor
    · intro h
      split at h
      · cases h
      · rename_i h1
        rw [not_or] at h1
        split at h
        · rename_i h2
          cases h
          exact ⟨rfl, c, cs, rfl, by simpa using h1.1, by simpa using h1.2, by simpa using h2⟩
        · cases h
    · rintro ⟨rfl, c', cs', e, h1, h2, h3⟩
      cases e
      rw [if_neg (by simp [h1, h2]), if_pos (List.all_eq_true.mpr h3)]

theorem newConstants_some {u : Unicode} {ts : List Text} {ps : List Part} :
    newConstants u ts = some ps ↔ (∀ p ∈ ps, Valid u p) ∧ ps.map Part.show = ts := by
  induction ts generalizing ps with
  | nil =>
    simp only [newConstants]
    constructor
    · rintro ⟨⟩
      exact ⟨(fun p hp => by cases hp), rfl⟩
    · rintro ⟨_, h⟩
      rw [List.map_eq_nil_iff.mp h]
  | cons t ts ih =>
    simp only [newConstants]
    rw [Option.bind_eq_some_iff]
    constructor
    · rintro ⟨p, hp, h⟩
      obtain ⟨qs, hq, rfl⟩ := Option.map_eq_some_iff.mp h
      obtain ⟨rfl, hc⟩ := newConstant_some.mp hp
      obtain ⟨a, b⟩ := ih.mp hq
      refine ⟨?_, by rw [List.map_cons, b]; rfl⟩
      intro x hx
      rcases List.mem_cons.mp hx with rfl | hx
      · exact ⟨t, rfl, hc⟩
      · exact a x hx
    · rintro ⟨h1, h2⟩
      cases ps with
      | nil => cases h2
      | cons p ps =>
        obtain ⟨n, rfl, hc⟩ := h1 p List.mem_cons_self
        rw [List.map_cons] at h2
        cases h2
        exact ⟨.named n, newConstant_some.mpr ⟨rfl, hc⟩,
          Option.map_eq_some_iff.mpr ⟨ps, ih.mpr ⟨fun x hx => h1 x (List.mem_cons_of_mem _ hx), rfl⟩, rfl⟩⟩

theorem valid_show {u : Unicode} {p : Part} (h : Valid u p) : p.show ≠ [] ∧ 58 ∉ p.show := by
  obtain ⟨n, rfl, c, cs, rfl, h1, _, h3⟩ := h
  refine ⟨by simp [Part.show], ?_⟩
  intro k
  rcases List.mem_cons.mp k with k | k
  · rw [← k, u.start_colon] at h1
    cases h1
  · have := h3 58 k
    rw [u.cont_colon] at this
    cases this

theorem split_parts {u : Unicode} {ps : List Part} (h : ∀ p ∈ ps, Valid u p) (hn : ps ≠ []) :
    splitColons (joinColons (ps.map Part.show)) = ps.map Part.show := by
  apply split_join
  · intro k
    exact hn (List.map_eq_nil_iff.mp k)
  · intro t ht
    obtain ⟨p, hp, rfl⟩ := List.mem_map.mp ht
    exact (valid_show (h p hp)).2

theorem join_nil {u : Unicode} {ps : List Part} (h : ∀ p ∈ ps, Valid u p) : joinColons (ps.map Part.show) = [] ↔ ps = [] := by
  constructor
  · intro k
    cases ps with
    | nil => rfl
    | cons p ps =>
      have := (valid_show (h p List.mem_cons_self)).1
      cases ps with
      | nil => exact absurd k this
      | cons q ps =>
        simp only [List.map_cons, joinColons] at k
        exact absurd (List.append_eq_nil_iff.mp k).1 this
  · rintro rfl
    rfl

/-- The text of a class or module of source names leads back to it, and every text that is read is the text of the result. -/
theorem c82_namespace_name (u : Unicode) :
    (∀ ps, ps ≠ [] → (∀ p ∈ ps, Valid u p) → parseNamespace u (Fqn.namespace_ ps false).print = some (.namespace_ ps false)) ∧
    (∀ t f, parseNamespace u t = some f → f.print = t ∧ ∃ ps, f = .namespace_ ps false ∧ ps ≠ [] ∧ ∀ p ∈ ps, Valid u p) := by
  constructor
  · intro ps hn hv
    simp only [parseNamespace, Fqn.print, Fqn.parts]
    rw [split_parts hv hn, newConstants_some.mpr ⟨hv, rfl⟩]
    dsimp only
    rw [if_neg hn]
  · intro t f h
    simp only [parseNamespace] at h
    cases hc : newConstants u (splitColons t) with
    | none =>
      rw [hc] at h
      cases h
    | some ps =>
      rw [hc] at h
      dsimp only at h
      split at h
      · cases h
      · rename_i hn
        cases h
        obtain ⟨a, b⟩ := newConstants_some.mp hc
        refine ⟨?_, ps, rfl, hn, a⟩
        simp only [Fqn.print, Fqn.parts]
        rw [b, (join_split t).1]

theorem stem_eq (m : Text) : ∃ s, m = stem m ++ s ∧ (s = [] ∨ s = [63] ∨ s = [33] ∨ s = [61]) := by
  simp only [stem]
  cases h : m.getLast? with
  | none => exact ⟨[], by simp, Or.inl rfl⟩
  | some c =>
    dsimp only
    split
    · rename_i hc
      obtain ⟨l, rfl⟩ : ∃ l, m = l ++ [c] := List.getLast?_eq_some_iff.mp h
      refine ⟨[c], by simp, ?_⟩
      rcases hc with rfl | rfl | rfl <;> simp
    · exact ⟨[], by simp, Or.inl rfl⟩

/-- The names of methods that are accepted. -/
theorem c82_method_names (u : Unicode) (m : Text) : validMethod u m = true ↔ MethodName u m := by
  simp only [validMethod, MethodName]
  by_cases h0 : m = []
  · rw [if_pos h0, h0]
    constructor
    · intro h
      cases h
    · rintro (h | ⟨c, cs, s, h, _⟩)
      · revert h
        decide
      · cases h
  · rw [if_neg h0]
    by_cases ho : m ∈ operators
    · rw [if_pos ho]
      exact ⟨fun _ => Or.inl ho, fun _ => rfl⟩
    · rw [if_neg ho]
      constructor
      · intro h
        right
        obtain ⟨s, e, hs⟩ := stem_eq m
        cases hm : stem m with
        | nil =>
          rw [hm] at h
          cases h
        | cons c cs =>
          rw [hm] at h e
          refine ⟨c, cs, s, e, hs, ?_, ?_⟩
          · simp at h
            exact h.1
          · simp at h
            exact h.2
      · rintro (h | ⟨c, cs, s, e, hs, h1, h2⟩)
        · exact absurd h ho
        · have good : ∀ l : Text, (∀ d ∈ l, d ∈ cs) → (match c :: l with | [] => false | c :: cs => (u.alpha c || decide (c = 95)) && cs.all (fun d => u.cont d || decide (d = 95))) = true := by
            intro l hl
            dsimp only
            rw [Bool.and_eq_true]
            constructor
            · simpa using h1
            · rw [List.all_eq_true]
              intro d hd
              simpa using h2 d (hl d hd)
          have mark : ∀ x, (x = 63 ∨ x = 33 ∨ x = 61) → c ≠ x := by
            intro x hx k
            rw [← k] at hx
            obtain ⟨a1, a2, a3⟩ := u.alpha_mark
            rcases hx with hx | hx | hx <;> rw [hx] at h1 <;> rcases h1 with h1 | h1
            · rw [a1] at h1; cases h1
            · cases h1
            · rw [a2] at h1; cases h1
            · cases h1
            · rw [a3] at h1; cases h1
            · cases h1
          have stemMark : ∀ x, (x = 63 ∨ x = 33 ∨ x = 61) → ∀ l, m = c :: l ++ [x] → stem m = c :: l := by
            intro x hx l e
            simp only [stem]
            rw [e, List.getLast?_concat]
            dsimp only
            rw [if_pos hx, List.dropLast_concat]
          rcases hs with rfl | hs
          · rw [List.append_nil] at e
            rcases List.eq_nil_or_concat cs with hcs | ⟨l, x, hl⟩
            · have : stem m = [c] := by
                simp only [stem]
                rw [e, hcs]
                dsimp only [List.getLast?_singleton]
                exact if_neg (fun k => mark c k rfl)
              rw [this]
              exact good [] (fun d hd => by cases hd)
            · rw [List.concat_eq_append] at hl
              by_cases hx : x = 63 ∨ x = 33 ∨ x = 61
              · rw [stemMark x hx l (by rw [e, hl]; rfl)]
                exact good l (fun d hd => by rw [hl]; exact List.mem_append_left _ hd)
              · have : stem m = c :: cs := by
                  simp only [stem]
                  rw [e, hl, ← List.cons_append, List.getLast?_concat]
                  exact if_neg hx
                rw [this]
                exact good cs (fun d hd => hd)
          · have : ∃ x, (x = 63 ∨ x = 33 ∨ x = 61) ∧ s = [x] := by
              rcases hs with rfl | rfl | rfl
              · exact ⟨63, by simp, rfl⟩
              · exact ⟨33, by simp, rfl⟩
              · exact ⟨61, by simp, rfl⟩
            obtain ⟨x, hx, rfl⟩ := this
            rw [stemMark x hx cs e]
            exact good cs (fun d hd => hd)

theorem rsplitHash_some {t a b : Text} : rsplitHash t = some (a, b) ↔ t = a ++ 35 :: b ∧ 35 ∉ b := by
  have none1 : ∀ t, rsplitHash t = none ↔ 35 ∉ t := by
    intro t
    induction t with
    | nil => simp [rsplitHash]
    | cons c cs ih =>
      simp only [rsplitHash]
      cases h : rsplitHash cs with
      | some x =>
        dsimp only
        constructor
        · intro k
          cases k
        · intro k
          rw [ih.mpr (fun m => k (List.mem_cons_of_mem _ m))] at h
          cases h
      | none =>
        dsimp only
        have hc := ih.mp h
        by_cases h46 : c = 35
        · simp [h46]
        · rw [if_neg h46]
          simp only [true_iff]
          intro k
          rcases List.mem_cons.mp k with k | k
          · exact h46 k.symm
          · exact hc k
  induction t generalizing a with
  | nil => simp [rsplitHash]
  | cons c cs ih =>
    simp only [rsplitHash]
    cases h : rsplitHash cs with
    | some x =>
      obtain ⟨x1, x2⟩ := x
      dsimp only
      constructor
      · rintro ⟨⟩
        obtain ⟨e, n⟩ := ih.mp h
        exact ⟨by rw [e]; rfl, n⟩
      · rintro ⟨e, n⟩
        cases a with
        | nil =>
          cases e
          rw [(none1 _).mpr n] at h
          cases h
        | cons y a =>
          cases e
          have := ih.mpr ⟨rfl, n⟩
          rw [h] at this
          cases this
          rfl
    | none =>
      dsimp only
      have hc := (none1 _).mp h
      constructor
      · intro k
        split at k
        · rename_i h46
          cases k
          rw [h46]
          exact ⟨rfl, hc⟩
        · cases k
      · rintro ⟨e, n⟩
        cases a with
        | nil =>
          cases e
          rfl
        | cons y a =>
          cases e
          exact absurd (by simp) hc

theorem method_hash {u : Unicode} {m : Text} (h : MethodName u m) : 35 ∉ m := by
  rcases h with h | ⟨c, cs, s, rfl, hs, h1, h2⟩
  · revert h m
    decide
  · intro k
    rcases List.mem_append.mp k with k | k
    · rcases List.mem_cons.mp k with k | k
      · rw [← k, u.alpha_hash] at h1
        rcases h1 with h1 | h1 <;> cases h1
      · have := h2 35 k
        rw [u.cont_hash] at this
        rcases this with h | h <;> cases h
    · rcases hs with rfl | rfl | rfl | rfl <;> simp at k

/-- The text of a method of source names leads back to it, and every text that is read is the text of the result. -/
theorem c82_method_name (u : Unicode) :
    (∀ ps m, (∀ p ∈ ps, Valid u p) → MethodName u m → parseMethod u (Fqn.method ps m).print = some (.method ps m)) ∧
    (∀ t f, parseMethod u t = some f → f.print = t ∧ ∃ ps m, f = .method ps m ∧ (∀ p ∈ ps, Valid u p) ∧ MethodName u m) := by
  constructor
  · intro ps m hv hm
    simp only [parseMethod, Fqn.print, Fqn.parts]
    rw [rsplitHash_some.mpr ⟨rfl, method_hash hm⟩]
    dsimp only
    rw [if_pos ((c82_method_names u m).mpr hm)]
    by_cases hn : ps = []
    · rw [if_pos ((join_nil hv).mpr hn), hn]
      rfl
    · rw [if_neg (fun k => hn ((join_nil hv).mp k)), split_parts hv hn, newConstants_some.mpr ⟨hv, rfl⟩]
      rfl
  · intro t f h
    simp only [parseMethod] at h
    cases hr : rsplitHash t with
    | none =>
      rw [hr] at h
      cases h
    | some x =>
      obtain ⟨ns, m⟩ := x
      rw [hr] at h
      dsimp only at h
      split at h
      · rename_i hm
        obtain ⟨ps, hp, rfl⟩ := Option.map_eq_some_iff.mp h
        obtain ⟨e, _⟩ := rsplitHash_some.mp hr
        split at hp
        · rename_i hn
          cases hp
          refine ⟨by rw [e, hn]; rfl, [], m, rfl, (fun p hp => by cases hp), (c82_method_names u m).mp hm⟩
        · obtain ⟨a, b⟩ := newConstants_some.mp hp
          refine ⟨?_, ps, m, rfl, a, (c82_method_names u m).mp hm⟩
          simp only [Fqn.print, Fqn.parts]
          rw [b, (join_split ns).1, e]
      · cases h

/-- Different methods of source names have different texts. -/
theorem c82_distinct (u : Unicode) (ps qs : List Part) (m n : Text) (hp : ∀ p ∈ ps, Valid u p) (hq : ∀ p ∈ qs, Valid u p)
    (hm : MethodName u m) (hn : MethodName u n) (h : (Fqn.method ps m).print = (Fqn.method qs n).print) :
    Fqn.method ps m = Fqn.method qs n := by
  have a := (c82_method_name u).1 ps m hp hm
  rw [h, (c82_method_name u).1 qs n hq hn] at a
  cases a
  rfl

/-! ## Calls -/

theorem mem_push {f k : Fqn} {r : Range} {rs : List Range} {L : List (Fqn × List Range)} (hn : (L.map (·.1)).Nodup) :
    (k, rs) ∈ push f r L ↔
      (k ≠ f ∧ (k, rs) ∈ L) ∨ (k = f ∧ ((∃ rs0, (f, rs0) ∈ L ∧ rs = rs0 ++ [r]) ∨ (f ∉ L.map (·.1) ∧ rs = [r]))) := by
  induction L with
  | nil =>
    simp only [push, List.mem_singleton, Prod.mk.injEq]
    constructor
    · rintro ⟨rfl, rfl⟩
      exact Or.inr ⟨rfl, Or.inr ⟨by simp, rfl⟩⟩
    · rintro (⟨_, h⟩ | ⟨rfl, ⟨_, h, _⟩ | ⟨_, rfl⟩⟩)
      · cases h
      · cases h
      · exact ⟨rfl, rfl⟩
  | cons x L ih =>
    obtain ⟨g, qs⟩ := x
    rw [List.map_cons, List.nodup_cons] at hn
    have ih := ih hn.2
    have notin : ∀ q, (g, q) ∉ L := fun q m => hn.1 (List.mem_map.mpr ⟨_, m, rfl⟩)
    simp only [push]
    by_cases hg : g = f
    · rw [if_pos hg]
      subst hg
      simp only [List.mem_cons, Prod.mk.injEq]
      constructor
      · rintro (⟨rfl, rfl⟩ | h)
        · exact Or.inr ⟨rfl, Or.inl ⟨qs, Or.inl (by simp), rfl⟩⟩
        · refine Or.inl ⟨?_, Or.inr h⟩
          rintro rfl
          exact notin _ h
      · rintro (⟨h1, ⟨h2, _⟩ | h2⟩ | ⟨rfl, ⟨q, ⟨_, rfl⟩ | h2, h3⟩ | ⟨h2, _⟩⟩)
        · exact absurd h2 h1
        · exact Or.inr h2
        · exact Or.inl ⟨rfl, h3⟩
        · exact absurd h2 (notin q)
        · exact absurd (by simp) h2
    · rw [if_neg hg]
      simp only [List.mem_cons, Prod.mk.injEq]
      rw [ih]
      have hf : ∀ q, (f = g ∧ q = qs) ↔ False := fun q => ⟨fun h => hg h.1.symm, False.elim⟩
      constructor
      · rintro (⟨rfl, rfl⟩ | ⟨h1, h2⟩ | ⟨rfl, ⟨q, h2, h3⟩ | ⟨h2, h3⟩⟩)
        · exact Or.inl ⟨hg, Or.inl ⟨rfl, rfl⟩⟩
        · exact Or.inl ⟨h1, Or.inr h2⟩
        · exact Or.inr ⟨rfl, Or.inl ⟨q, Or.inr h2, h3⟩⟩
        · refine Or.inr ⟨rfl, Or.inr ⟨?_, h3⟩⟩
          intro k
          rcases List.mem_cons.mp k with k | k
          · exact hg k.symm
          · exact h2 k
      · rintro (⟨h1, h2 | h2⟩ | ⟨rfl, ⟨q, h2 | h2, h3⟩ | ⟨h2, h3⟩⟩)
        · exact Or.inl h2
        · exact Or.inr (Or.inl ⟨h1, h2⟩)
        · exact absurd h2.1.symm hg
        · exact Or.inr (Or.inr ⟨rfl, Or.inl ⟨q, h2, h3⟩⟩)
        · exact Or.inr (Or.inr ⟨rfl, Or.inr ⟨fun k => h2 (List.mem_cons_of_mem _ k), h3⟩⟩)

theorem push_keys (f : Fqn) (r : Range) (L : List (Fqn × List Range)) :
    (push f r L).map (·.1) = if f ∈ L.map (·.1) then L.map (·.1) else L.map (·.1) ++ [f] := by
  induction L with
  | nil => simp [push]
  | cons x L ih =>
    obtain ⟨g, qs⟩ := x
    simp only [push]
    by_cases hg : g = f
    · rw [if_pos hg]
      simp [hg]
    · rw [if_neg hg, List.map_cons, List.map_cons, ih]
      dsimp only
      have : f ≠ g := fun k => hg k.symm
      by_cases hf : f ∈ L.map (·.1)
      · rw [if_pos hf, if_pos (List.mem_cons_of_mem _ hf)]
      · rw [if_neg hf, if_neg]
        · rfl
        · intro k
          rcases List.mem_cons.mp k with k | k
          · exact this k
          · exact hf k

theorem push_nodup {f : Fqn} {r : Range} {L : List (Fqn × List Range)} (hn : (L.map (·.1)).Nodup) : ((push f r L).map (·.1)).Nodup := by
  rw [push_keys]
  split
  · exact hn
  · rename_i h
    rw [List.nodup_append]
    refine ⟨hn, by simp, ?_⟩
    intro a ha b hb
    rcases List.mem_singleton.mp hb with rfl
    rintro rfl
    exact h ha

theorem group_spec (l : List (Fqn × Range)) :
    ((group l).map (·.1)).Nodup ∧
    ∀ k rs, (k, rs) ∈ group l ↔ rs = (l.filter (fun x => decide (x.1 = k))).map (·.2) ∧ rs ≠ [] := by
  induction l using List.reverseRecOn with
  | nil => simp [group]
  | append_singleton l x ih =>
    obtain ⟨n, m⟩ := ih
    have e : group (l ++ [x]) = push x.1 x.2 (group l) := by simp [group, List.foldl_append]
    rw [e]
    refine ⟨push_nodup n, ?_⟩
    intro k rs
    rw [mem_push n, List.filter_append, List.map_append]
    by_cases hk : k = x.1
    · subst hk
      have e1 : ([x].filter (fun y => decide (y.1 = x.1))).map (·.2) = [x.2] := by simp
      rw [e1]
      constructor
      · rintro (⟨h, _⟩ | ⟨_, ⟨rs0, h1, rfl⟩ | ⟨h1, rfl⟩⟩)
        · exact absurd rfl h
        · rw [((m _ _).mp h1).1]
          exact ⟨rfl, by simp⟩
        · have : (l.filter (fun y => decide (y.1 = x.1))).map (·.2) = [] := by
            by_contra hne
            exact h1 (List.mem_map.mpr ⟨_, (m _ _).mpr ⟨rfl, hne⟩, rfl⟩)
          rw [this]
          exact ⟨rfl, by simp⟩
      · rintro ⟨rfl, _⟩
        refine Or.inr ⟨rfl, ?_⟩
        by_cases hne : (l.filter (fun y => decide (y.1 = x.1))).map (·.2) = []
        · right
          refine ⟨?_, by rw [hne]; rfl⟩
          intro h
          obtain ⟨⟨k, q⟩, hq, hk⟩ := List.mem_map.mp h
          dsimp only at hk
          subst hk
          obtain ⟨a, b⟩ := (m _ _).mp hq
          exact b (a.trans hne)
        · left
          exact ⟨_, (m _ _).mpr ⟨rfl, hne⟩, rfl⟩
    · have e1 : ([x].filter (fun y => decide (y.1 = k))).map (·.2) = [] := by
        have : ¬ x.1 = k := fun h => hk h.symm
        simp [this]
      rw [e1, List.append_nil, m]
      constructor
      · rintro (⟨_, h⟩ | ⟨h, _⟩)
        · exact h
        · exact absurd h hk
      · intro h
        exact Or.inl ⟨hk, h⟩

theorem textOrder : IsOrder byName := by
  constructor
  · intro a b
    simp only [byName, decide_eq_true_eq]
    exact List.le_total _ _
  · intro a b c
    simp only [byName, decide_eq_true_eq]
    exact List.le_trans

theorem item_some {e : Engine} {f : Fqn} {i : Item} : item e f = some i ↔ i.fqn = f ∧ (e.methods f).head? = some i.range := by
  obtain ⟨g, r⟩ := i
  simp only [item]
  cases (e.methods f).head? with
  | none => simp
  | some q =>
    simp only [Option.some.injEq, Item.mk.injEq]
    constructor
    · rintro ⟨rfl, rfl⟩
      exact ⟨rfl, rfl⟩
    · rintro ⟨rfl, rfl⟩
      exact ⟨rfl, rfl⟩

theorem finish_spec (e : Engine) (l : List (Fqn × Range)) :
    (∀ c, c ∈ finish e l ↔ (e.methods c.other.fqn).head? = some c.other.range ∧
      c.ranges = (l.filter (fun x => decide (x.1 = c.other.fqn))).map (·.2) ∧ c.ranges ≠ []) ∧
    ((finish e l).map (·.other.fqn)).Nodup ∧
    (finish e l).Pairwise (fun x y => x.other.fqn.print ≤ y.other.fqn.print) := by
  obtain ⟨n, m⟩ := group_spec l
  refine ⟨?_, ?_, ?_⟩
  · intro c
    simp only [finish]
    rw [List.mem_filterMap]
    constructor
    · rintro ⟨⟨k, rs⟩, hg, h⟩
      obtain ⟨i, hi, rfl⟩ := Option.map_eq_some_iff.mp h
      obtain ⟨rfl, hr⟩ := item_some.mp hi
      exact ⟨hr, (m _ _).mp (mem_stableSort.mp hg)⟩
    · rintro ⟨h1, h2⟩
      exact ⟨(c.other.fqn, c.ranges), mem_stableSort.mpr ((m _ _).mpr h2),
        Option.map_eq_some_iff.mpr ⟨c.other, item_some.mpr ⟨rfl, h1⟩, rfl⟩⟩
  · have hp : (stableSort byName (group l)).Pairwise (fun x y => x.1 ≠ y.1) := by
      have := ((stableSort_perm (le := byName) (group l)).map (·.1)).nodup_iff.mpr n
      exact List.pairwise_map.mp this
    simp only [finish]
    refine List.pairwise_map.mpr (List.Pairwise.filterMap _ ?_ hp)
    intro a b hab c hc d hd
    obtain ⟨i, hi, rfl⟩ := Option.map_eq_some_iff.mp hc
    obtain ⟨j, hj, rfl⟩ := Option.map_eq_some_iff.mp hd
    dsimp only
    rw [(item_some.mp hi).1, (item_some.mp hj).1]
    exact hab
  · simp only [finish]
    refine List.Pairwise.filterMap _ ?_ (stableSort_sorted textOrder (group l))
    intro a b hab c hc d hd
    obtain ⟨i, hi, rfl⟩ := Option.map_eq_some_iff.mp hc
    obtain ⟨j, hj, rfl⟩ := Option.map_eq_some_iff.mp hd
    dsimp only
    rw [(item_some.mp hi).1, (item_some.mp hj).1]
    simpa [byName] using hab

theorem incoming_sites (l : List Ref) (a : Fqn) :
    ((l.filterMap (fun r => r.caller.map (fun c => (c, r.range)))).filter (fun x => decide (x.1 = a))).map (·.2) =
      (l.filter (fun r => decide (r.caller = some a))).map (·.range) := by
  induction l with
  | nil => rfl
  | cons r l ih =>
    rw [List.filterMap_cons, List.filter_cons]
    cases h : r.caller with
    | none =>
      simp only [Option.map_none]
      rw [if_neg (by simp), ih]
    | some c =>
      simp only [Option.map_some]
      rw [List.filter_cons]
      by_cases hc : c = a
      · rw [if_pos (by simp [hc]), if_pos (by simp [hc]), List.map_cons, List.map_cons, ih]
      · rw [if_neg (by simp [hc]), if_neg (by simp [hc]), ih]

/-- The incoming calls: one entry for each caller that is a known method, with all places in it where the method is called, sorted
by name. -/
theorem c82_incoming (e : Engine) (m : Fqn) :
    (∀ c, c ∈ incoming e m ↔ (e.methods c.other.fqn).head? = some c.other.range ∧ c.ranges = sites e m c.other.fqn ∧ c.ranges ≠ []) ∧
    ((incoming e m).map (·.other.fqn)).Nodup ∧
    (incoming e m).Pairwise (fun x y => x.other.fqn.print ≤ y.other.fqn.print) := by
  obtain ⟨a, b, c⟩ := finish_spec e ((refsFor e m).filterMap (fun r => r.caller.map (fun c => (c, r.range))))
  refine ⟨?_, b, c⟩
  intro x
  simp only [incoming]
  rw [a, incoming_sites]
  rfl

theorem outgoing_sites (e : Engine) (a b : Fqn) (hn : (e.refs.map (·.1)).Nodup) :
    ((((allRefs e).filter (fun x => decide (x.2.caller = some a))).map (fun x => (x.1, x.2.range))).filter
      (fun x => decide (x.1 = b))).map (·.2) = sites e b a := by
  have key : ∀ rs : List (Fqn × List Ref), (rs.map (·.1)).Nodup →
      ((((rs.flatMap (fun x => x.2.map (fun r => (x.1, r)))).filter (fun x => decide (x.2.caller = some a))).map
        (fun x => (x.1, x.2.range))).filter (fun x => decide (x.1 = b))).map (·.2) =
      ((refsIn rs b).filter (fun r => decide (r.caller = some a))).map (·.range) := by
    intro rs
    have same : ∀ (t : Fqn) (fs : List Ref),
        ((((fs.map (fun r => (t, r))).filter (fun x => decide (x.2.caller = some a))).map (fun x => (x.1, x.2.range))).filter
          (fun x => decide (x.1 = b))).map (·.2) =
        if t = b then (fs.filter (fun r => decide (r.caller = some a))).map (·.range) else [] := by
      intro t fs
      induction fs with
      | nil => simp
      | cons f fs ih =>
        by_cases ht : t = b
        · rw [if_pos ht] at ih ⊢
          rw [List.map_cons, List.filter_cons, List.filter_cons]
          by_cases hf : f.caller = some a
          · simp only [hf, decide_true, if_true, List.map_cons]
            rw [List.filter_cons]
            simp only [ht, decide_true, if_true, List.map_cons]
            rw [ht] at ih
            rw [ih]
          · simp only [hf, decide_false, Bool.false_eq_true, if_false]
            exact ih
        · rw [if_neg ht] at ih ⊢
          rw [List.map_cons, List.filter_cons]
          by_cases hf : f.caller = some a
          · simp only [hf, decide_true, if_true, List.map_cons]
            rw [List.filter_cons]
            simp only [ht, decide_false, Bool.false_eq_true, if_false]
            exact ih
          · simp only [hf, decide_false, Bool.false_eq_true, if_false]
            exact ih
    induction rs with
    | nil => intro _; rfl
    | cons x rs ih =>
      intro h
      rw [List.map_cons, List.nodup_cons] at h
      have ih := ih h.2
      rw [List.flatMap_cons, List.filter_append, List.map_append, List.filter_append, List.map_append, same, ih]
      simp only [refsIn]
      rw [List.find?_cons]
      by_cases hx : x.1 = b
      · rw [if_pos hx]
        have : rs.find? (fun y => decide (y.1 = b)) = none := by
          rw [List.find?_eq_none]
          intro y hy k
          apply h.1
          rw [hx, ← of_decide_eq_true k]
          exact List.mem_map.mpr ⟨y, hy, rfl⟩
        simp [hx, this]
      · rw [if_neg hx, List.nil_append]
        simp [hx]
  exact key e.refs hn

/-- The outgoing calls: one entry for each known method that is called in the method, with all places, sorted by name, for every
order of the map. -/
theorem c82_outgoing (e : Engine) (m : Fqn) (hn : (e.refs.map (·.1)).Nodup) :
    (∀ c, c ∈ outgoing e m ↔ (e.methods c.other.fqn).head? = some c.other.range ∧ c.ranges = sites e c.other.fqn m ∧ c.ranges ≠ []) ∧
    ((outgoing e m).map (·.other.fqn)).Nodup ∧
    (outgoing e m).Pairwise (fun x y => x.other.fqn.print ≤ y.other.fqn.print) := by
  obtain ⟨a, b, c⟩ := finish_spec e (((allRefs e).filter (fun x : Fqn × Ref => decide (x.2.caller = some m))).map (fun x : Fqn × Ref => (x.1, x.2.range)))
  refine ⟨?_, b, c⟩
  intro x
  simp only [outgoing]
  rw [a, outgoing_sites e m x.other.fqn hn]

/-- Of two known methods one is among the incoming calls of the other with some places exactly when the other is among its outgoing
calls with the same places. -/
theorem c82_calls (e : Engine) (a b : Fqn) (rs : List Range) (hn : (e.refs.map (·.1)).Nodup) (ha : e.methods a ≠ []) (hb : e.methods b ≠ []) :
    (∃ c ∈ incoming e b, c.other.fqn = a ∧ c.ranges = rs) ↔ (∃ c ∈ outgoing e a, c.other.fqn = b ∧ c.ranges = rs) := by
  have item1 : ∀ f, e.methods f ≠ [] → ∃ r, (e.methods f).head? = some r := by
    intro f h
    cases hf : e.methods f with
    | nil => exact absurd hf h
    | cons r l => exact ⟨r, rfl⟩
  constructor
  · rintro ⟨c, hc, rfl, rfl⟩
    obtain ⟨_, h2, h3⟩ := ((c82_incoming e b).1 c).mp hc
    obtain ⟨r, hr⟩ := item1 b hb
    exact ⟨⟨⟨b, r⟩, c.ranges⟩, ((c82_outgoing e c.other.fqn hn).1 _).mpr ⟨hr, h2, h3⟩, rfl, rfl⟩
  · rintro ⟨c, hc, rfl, rfl⟩
    obtain ⟨_, h2, h3⟩ := ((c82_outgoing e a hn).1 c).mp hc
    obtain ⟨r, hr⟩ := item1 a ha
    exact ⟨⟨⟨a, r⟩, c.ranges⟩, ((c82_incoming e c.other.fqn).1 _).mpr ⟨hr, h2, h3⟩, rfl, rfl⟩

/-! ## Types -/

theorem entry_some {e : Engine} {f : Fqn} {r : Relation} {file : Option Nat} {x : Entry} :
    entry e f r file = some x ↔ ∃ n, (e.nodes f).head? = some n ∧ x = ⟨f, some n.isClass, r, n.range, file, false⟩ := by
  simp only [entry]
  cases (e.nodes f).head? with
  | none =>
    constructor
    · intro h
      cases h
    · rintro ⟨n, h, _⟩
      cases h
  | some n =>
    constructor
    · rintro ⟨⟩
      exact ⟨n, rfl, rfl⟩
    · rintro ⟨n', h, rfl⟩
      cases h
      rfl

theorem mem_super {e : Engine} {edges : List Edge} {k : EdgeKind} {r : Relation} {x : Entry} :
    x ∈ superEntries e edges k r ↔ ∃ d ∈ edges, d.kind = k ∧ entry e d.target r (some d.range.file) = some x := by
  simp only [superEntries]
  rw [List.mem_filterMap]
  constructor
  · rintro ⟨d, hd, h⟩
    obtain ⟨a, b⟩ := List.mem_filter.mp (List.mem_reverse.mp hd)
    exact ⟨d, a, of_decide_eq_true b, h⟩
  · rintro ⟨d, hd, hk, h⟩
    exact ⟨d, List.mem_reverse.mpr (List.mem_filter.mpr ⟨hd, decide_eq_true hk⟩), h⟩

theorem mem_pending {e : Engine} {f : Fqn} {x : Entry} :
    x ∈ pendingEntries e f ↔ ∃ p ∈ e.pending, p.source = f ∧ ∃ r, upward p.kind = some r ∧
      x = ⟨.constant p.target, none, r, p.range, some p.range.file, true⟩ := by
  simp only [pendingEntries]
  rw [List.mem_filterMap]
  constructor
  · rintro ⟨p, hp, h⟩
    split at h
    · cases h
    · rename_i hs
      obtain ⟨r, hr, rfl⟩ := Option.map_eq_some_iff.mp h
      exact ⟨p, hp, not_not.mp hs, r, hr, rfl⟩
  · rintro ⟨p, hp, hs, r, hr, rfl⟩
    exact ⟨p, hp, by rw [if_neg (fun k => k hs), hr]; rfl⟩

/-- The supertypes: exactly the targets of the edges of inheritance and mixing in that are defined, with kind and place of their
first definition, and the names that are not resolved; the file of an edge is told when it is not that of the first definition. -/
theorem c82_supertypes (e : Engine) (f : Fqn) (x : Entry) :
    x ∈ supertypes e f ↔ ∃ n, (e.nodes f).head? = some n ∧
      ((∃ d ∈ e.edgesFrom f, ∃ r t, upward d.kind = some r ∧ (e.nodes d.target).head? = some t ∧
        x = ⟨d.target, some t.isClass, r, t.range, if d.range.file = n.range.file then none else some d.range.file, false⟩) ∨
      (∃ p ∈ e.pending, p.source = f ∧ ∃ r, upward p.kind = some r ∧
        x = ⟨.constant p.target, none, r, p.range, if p.range.file = n.range.file then none else some p.range.file, true⟩)) := by
  simp only [supertypes]
  cases (e.nodes f).head? with
  | none =>
    constructor
    · intro h
      cases h
    · rintro ⟨n, h, _⟩
      cases h
  | some n =>
    dsimp only
    have um : ∀ g c r q file b, unmark n.range.file ⟨g, c, r, q, some file, b⟩ =
        ⟨g, c, r, q, if file = n.range.file then none else some file, b⟩ := by
      intro g c r q file b
      simp only [unmark, Option.some.injEq]
      split <;> rfl
    rw [List.mem_map]
    have one : ∀ y, y ∈ superEntries e (e.edgesFrom f) .prepend .prepend ++ superEntries e (e.edgesFrom f) .include_ .include_ ++
        superEntries e (e.edgesFrom f) .superclass .superclass ++ superEntries e (e.edgesFrom f) .extend_ .extend_ ++ pendingEntries e f ↔
        (∃ d ∈ e.edgesFrom f, ∃ r, upward d.kind = some r ∧ entry e d.target r (some d.range.file) = some y) ∨ y ∈ pendingEntries e f := by
      intro y
      simp only [List.mem_append, mem_super]
      constructor
      · rintro ((((⟨d, h1, h2, h3⟩ | ⟨d, h1, h2, h3⟩) | ⟨d, h1, h2, h3⟩) | ⟨d, h1, h2, h3⟩) | h)
        · exact Or.inl ⟨d, h1, _, by rw [h2]; rfl, h3⟩
        · exact Or.inl ⟨d, h1, _, by rw [h2]; rfl, h3⟩
        · exact Or.inl ⟨d, h1, _, by rw [h2]; rfl, h3⟩
        · exact Or.inl ⟨d, h1, _, by rw [h2]; rfl, h3⟩
        · exact Or.inr h
      · rintro (⟨d, h1, r, h2, h3⟩ | h)
        · left
          cases hk : d.kind <;> rw [hk] at h2 <;> cases h2
          · exact Or.inl (Or.inr ⟨d, h1, hk, h3⟩)
          · exact Or.inl (Or.inl (Or.inr ⟨d, h1, hk, h3⟩))
          · exact Or.inl (Or.inl (Or.inl ⟨d, h1, hk, h3⟩))
          · exact Or.inr ⟨d, h1, hk, h3⟩
        · exact Or.inr h
    constructor
    · rintro ⟨y, hy, rfl⟩
      refine ⟨n, rfl, ?_⟩
      rcases (one y).mp hy with ⟨d, h1, r, h2, h3⟩ | h
      · obtain ⟨t, ht, rfl⟩ := entry_some.mp h3
        exact Or.inl ⟨d, h1, r, t, h2, ht, um _ _ _ _ _ _⟩
      · obtain ⟨p, h1, h2, r, h3, rfl⟩ := mem_pending.mp h
        exact Or.inr ⟨p, h1, h2, r, h3, um _ _ _ _ _ _⟩
    · rintro ⟨n', hn, h⟩
      cases hn
      rcases h with ⟨d, h1, r, t, h2, h3, rfl⟩ | ⟨p, h1, h2, r, h3, rfl⟩
      · exact ⟨_, (one _).mpr (Or.inl ⟨d, h1, r, h2, entry_some.mpr ⟨t, h3, rfl⟩⟩), um _ _ _ _ _ _⟩
      · exact ⟨_, (one _).mpr (Or.inr (mem_pending.mpr ⟨p, h1, h2, r, h3, rfl⟩)), um _ _ _ _ _ _⟩

theorem super_part {e : Engine} {edges : List Edge} {k : EdgeKind} {r : Relation} {x : Entry} (h : x ∈ superEntries e edges k r) :
    x.relation = r ∧ x.unresolved = false := by
  obtain ⟨d, _, _, h⟩ := mem_super.mp h
  obtain ⟨n, _, rfl⟩ := entry_some.mp h
  exact ⟨rfl, rfl⟩

theorem rank_unmark (p : Nat) (x : Entry) : rank (unmark p x) = rank x := by
  simp only [unmark]
  split <;> rfl

/-- The order of method lookup: prepended, included, superclass, then extended and unresolved ones; of one kind the last comes
first. -/
theorem c82_order (e : Engine) (f : Fqn) :
    (supertypes e f).Pairwise (fun x y => rank x ≤ rank y) ∧
    (e.nodes f ≠ [] → ∀ k r, upward k = some r →
      ((supertypes e f).filter (fun x => !x.unresolved && decide (x.relation = r))).map (·.fqn) =
        ((((e.edgesFrom f).filter (fun d => decide (d.kind = k))).map (·.target)).filter (fun t => !(e.nodes t).isEmpty)).reverse) := by
  have rk : ∀ {k : EdgeKind} {r : Relation} {x : Entry}, x ∈ superEntries e (e.edgesFrom f) k r → ∀ j,
      (match r with | .prepend | .subclass => 0 | .include_ | .includedBy => 1 | .superclass | .prependedBy => 2 | .extend_ | .extendedBy => 3) = j →
      rank x = j := by
    intro k r x h j hj
    obtain ⟨a, b⟩ := super_part h
    simp only [rank, a, b]
    exact hj
  have rp : ∀ {x : Entry}, x ∈ pendingEntries e f → rank x = 4 := by
    intro x h
    obtain ⟨p, _, _, r, _, rfl⟩ := mem_pending.mp h
    rfl
  constructor
  · simp only [supertypes]
    cases (e.nodes f).head? with
    | none => exact List.Pairwise.nil
    | some n =>
      dsimp only
      rw [List.pairwise_map]
      simp only [rank_unmark]
      have same : ∀ (l : List Entry) (j : Nat), (∀ x ∈ l, rank x = j) → l.Pairwise (fun x y => rank x ≤ rank y) := by
        intro l j h
        refine List.pairwise_of_forall_mem_list ?_
        intro a ha b hb
        rw [h a ha, h b hb]
        exact Nat.le_refl _
      simp only [List.pairwise_append]
      refine ⟨⟨⟨⟨same _ 0 (fun x h => rk h 0 rfl), same _ 1 (fun x h => rk h 1 rfl), ?_⟩, same _ 2 (fun x h => rk h 2 rfl), ?_⟩,
        same _ 3 (fun x h => rk h 3 rfl), ?_⟩, same _ 4 (fun x h => rp h), ?_⟩
      · intro a ha b hb
        rw [rk ha 0 rfl, rk hb 1 rfl]
        omega
      · intro a ha b hb
        rw [rk hb 2 rfl]
        rcases List.mem_append.mp ha with ha | ha
        · rw [rk ha 0 rfl]
          omega
        · rw [rk ha 1 rfl]
          omega
      · intro a ha b hb
        rw [rk hb 3 rfl]
        rcases List.mem_append.mp ha with ha | ha
        · rcases List.mem_append.mp ha with ha | ha
          · rw [rk ha 0 rfl]
            omega
          · rw [rk ha 1 rfl]
            omega
        · rw [rk ha 2 rfl]
          omega
      · intro a ha b hb
        rw [rp hb]
        rcases List.mem_append.mp ha with ha | ha
        · rcases List.mem_append.mp ha with ha | ha
          · rcases List.mem_append.mp ha with ha | ha
            · rw [rk ha 0 rfl]
              omega
            · rw [rk ha 1 rfl]
              omega
          · rw [rk ha 2 rfl]
            omega
        · rw [rk ha 3 rfl]
          omega
  · intro hn k r hk
    cases hh : (e.nodes f).head? with
    | none => exact absurd (List.head?_eq_none_iff.mp hh) hn
    | some n =>
      simp only [supertypes, hh]
      have keepu : ∀ l : List Entry, ((l.map (unmark n.range.file)).filter (fun x => !x.unresolved && decide (x.relation = r))).map (·.fqn) =
          (l.filter (fun x => !x.unresolved && decide (x.relation = r))).map (·.fqn) := by
        intro l
        have u1 : ∀ x, (unmark n.range.file x).unresolved = x.unresolved ∧ (unmark n.range.file x).relation = x.relation ∧
            (unmark n.range.file x).fqn = x.fqn := by
          intro x
          simp only [unmark]
          split <;> exact ⟨rfl, rfl, rfl⟩
        induction l with
        | nil => rfl
        | cons x l ih =>
          rw [List.map_cons, List.filter_cons, List.filter_cons, (u1 x).1, (u1 x).2.1]
          split
          · rw [List.map_cons, List.map_cons, ih, (u1 x).2.2]
          · exact ih
      rw [keepu]
      have none1 : ∀ (k' : EdgeKind) (r' : Relation), r' ≠ r →
          (superEntries e (e.edgesFrom f) k' r').filter (fun x => !x.unresolved && decide (x.relation = r)) = [] := by
        intro k' r' hr
        rw [List.filter_eq_nil_iff]
        intro x hx
        rw [(super_part hx).1, (super_part hx).2]
        simp [hr]
      have all1 : (superEntries e (e.edgesFrom f) k r).filter (fun x => !x.unresolved && decide (x.relation = r)) =
          superEntries e (e.edgesFrom f) k r := by
        rw [List.filter_eq_self]
        intro x hx
        rw [(super_part hx).1, (super_part hx).2]
        simp
      have none2 : (pendingEntries e f).filter (fun x => !x.unresolved && decide (x.relation = r)) = [] := by
        rw [List.filter_eq_nil_iff]
        intro x hx
        obtain ⟨p, _, _, r', _, rfl⟩ := mem_pending.mp hx
        simp
      have fin : (superEntries e (e.edgesFrom f) k r).map (·.fqn) =
          ((((e.edgesFrom f).filter (fun d => decide (d.kind = k))).map (·.target)).filter (fun t => !(e.nodes t).isEmpty)).reverse := by
        simp only [superEntries]
        generalize (e.edgesFrom f).filter (fun d => decide (d.kind = k)) = l0
        rw [← List.filter_reverse, ← List.map_reverse]
        generalize l0.reverse = l
        induction l with
        | nil => rfl
        | cons d l ih =>
          rw [List.filterMap_cons, List.map_cons, List.filter_cons]
          cases hd : e.nodes d.target with
          | nil =>
            have he : entry e d.target r (some d.range.file) = none := by simp [entry, hd]
            rw [he, if_neg (by simp)]
            exact ih
          | cons t ts =>
            have he : entry e d.target r (some d.range.file) = some ⟨d.target, some t.isClass, r, t.range, some d.range.file, false⟩ := by
              simp [entry, hd]
            rw [he, if_pos (by simp)]
            dsimp only
            rw [List.map_cons, ih]
      simp only [List.filter_append, List.map_append]
      rw [none2]
      cases k <;> cases hk
      · rw [none1 _ _ (by simp), none1 .include_ _ (by simp), none1 .extend_ _ (by simp), all1, fin]
        simp
      · rw [none1 _ _ (by simp), none1 .superclass _ (by simp), none1 .extend_ _ (by simp), all1, fin]
        simp
      · rw [none1 .include_ _ (by simp), none1 .superclass _ (by simp), none1 .extend_ _ (by simp), all1, fin]
        simp
      · rw [none1 .prepend _ (by simp), none1 .include_ _ (by simp), none1 .superclass _ (by simp), all1, fin]
        simp

theorem mem_sub {e : Engine} {edges : List Edge} {r : Relation} {x : Entry} :
    x ∈ subEntries e edges r ↔ ∃ d ∈ edges, downward d = some r ∧ entry e d.source r none = some x := by
  simp only [subEntries]
  rw [List.mem_filterMap]
  constructor
  · rintro ⟨d, hd, h⟩
    obtain ⟨a, b⟩ := List.mem_filter.mp (mem_stableSort.mp hd)
    exact ⟨d, a, of_decide_eq_true b, h⟩
  · rintro ⟨d, hd, hk, h⟩
    exact ⟨d, mem_stableSort.mpr (List.mem_filter.mpr ⟨hd, decide_eq_true hk⟩), h⟩

/-- The subtypes: exactly the sources of the edges to a name that is defined; includes and prepends only of classes and modules,
not of singleton classes. -/
theorem c82_subtypes (e : Engine) (f : Fqn) (x : Entry) :
    x ∈ subtypes e f ↔ e.nodes f ≠ [] ∧ ∃ d ∈ e.edgesTo f, ∃ r n, upward d.kind = some r ∧
      ((d.kind = .include_ ∨ d.kind = .prepend) → d.source.isInstance = true) ∧ (e.nodes d.source).head? = some n ∧
      x = ⟨d.source, some n.isClass, opposite r, n.range, none, false⟩ := by
  have dw : ∀ d r, downward d = some r ↔ ∃ s, upward d.kind = some s ∧ ((d.kind = .include_ ∨ d.kind = .prepend) → d.source.isInstance = true) ∧
      r = opposite s := by
    intro d r
    simp only [downward]
    cases d.kind <;> cases d.source.isInstance <;> simp [upward, opposite, eq_comm]
  simp only [subtypes]
  cases hn : e.nodes f with
  | nil => simp
  | cons n ns =>
    simp only [List.isEmpty_cons, Bool.false_eq_true, if_false, List.mem_append, mem_sub]
    have all : ∀ P : Edge → Relation → Prop,
        ((((∃ d ∈ e.edgesTo f, downward d = some .subclass ∧ P d .subclass) ∨ (∃ d ∈ e.edgesTo f, downward d = some .includedBy ∧ P d .includedBy)) ∨
          (∃ d ∈ e.edgesTo f, downward d = some .prependedBy ∧ P d .prependedBy)) ∨ (∃ d ∈ e.edgesTo f, downward d = some .extendedBy ∧ P d .extendedBy)) ↔
        ∃ d ∈ e.edgesTo f, ∃ r, downward d = some r ∧ P d r := by
      intro P
      constructor
      · rintro (((⟨d, h1, h2, h3⟩ | ⟨d, h1, h2, h3⟩) | ⟨d, h1, h2, h3⟩) | ⟨d, h1, h2, h3⟩) <;> exact ⟨d, h1, _, h2, h3⟩
      · rintro ⟨d, h1, r, h2, h3⟩
        have : r = .subclass ∨ r = .includedBy ∨ r = .prependedBy ∨ r = .extendedBy := by
          obtain ⟨s, hs, _, rfl⟩ := (dw d r).mp h2
          cases hk : d.kind <;> rw [hk] at hs <;> cases hs <;> simp [opposite]
        rcases this with rfl | rfl | rfl | rfl
        · exact Or.inl (Or.inl (Or.inl ⟨d, h1, h2, h3⟩))
        · exact Or.inl (Or.inl (Or.inr ⟨d, h1, h2, h3⟩))
        · exact Or.inl (Or.inr ⟨d, h1, h2, h3⟩)
        · exact Or.inr ⟨d, h1, h2, h3⟩
    rw [all (fun d r => entry e d.source r none = some x)]
    constructor
    · rintro ⟨d, h1, r, h2, h3⟩
      obtain ⟨s, hs, hi, rfl⟩ := (dw d r).mp h2
      obtain ⟨t, ht, rfl⟩ := entry_some.mp h3
      exact ⟨by simp, d, h1, s, t, hs, hi, ht, rfl⟩
    · rintro ⟨_, d, h1, s, t, hs, hi, ht, rfl⟩
      exact ⟨d, h1, opposite s, (dw d _).mpr ⟨s, hs, hi, rfl⟩, entry_some.mpr ⟨t, ht, rfl⟩⟩

/-- The subtypes come relation by relation, and sorted by name in each. -/
theorem c82_sorted (e : Engine) (f : Fqn) :
    (subtypes e f).Pairwise (fun x y => rank x < rank y ∨ (rank x = rank y ∧ x.fqn.print ≤ y.fqn.print)) := by
  have order : IsOrder bySource := by
    constructor
    · intro a b
      simp only [bySource, decide_eq_true_eq]
      exact List.le_total _ _
    · intro a b c
      simp only [bySource, decide_eq_true_eq]
      exact List.le_trans
  have part : ∀ {r x}, x ∈ subEntries e (e.edgesTo f) r → x.relation = r ∧ x.unresolved = false := by
    intro r x h
    obtain ⟨d, _, _, h⟩ := mem_sub.mp h
    obtain ⟨n, _, rfl⟩ := entry_some.mp h
    exact ⟨rfl, rfl⟩
  have rk : ∀ {r : Relation} {x : Entry}, x ∈ subEntries e (e.edgesTo f) r → ∀ j,
      (match r with | .prepend | .subclass => 0 | .include_ | .includedBy => 1 | .superclass | .prependedBy => 2 | .extend_ | .extendedBy => 3) = j →
      rank x = j := by
    intro r x h j hj
    obtain ⟨a, b⟩ := part h
    simp only [rank, a, b]
    exact hj
  have one : ∀ r, (subEntries e (e.edgesTo f) r).Pairwise (fun x y => rank x < rank y ∨ (rank x = rank y ∧ x.fqn.print ≤ y.fqn.print)) := by
    intro r
    have h1 : (subEntries e (e.edgesTo f) r).Pairwise (fun x y => x.fqn.print ≤ y.fqn.print) := by
      simp only [subEntries]
      refine List.Pairwise.filterMap _ ?_ (stableSort_sorted order _)
      intro a b hab c hc d hd
      obtain ⟨n, _, rfl⟩ := entry_some.mp hc
      obtain ⟨m, _, rfl⟩ := entry_some.mp hd
      simpa [bySource] using hab
    refine List.Pairwise.imp_of_mem ?_ h1
    intro a b ha hb hab
    right
    exact ⟨by rw [rk ha _ rfl, rk hb _ rfl], hab⟩
  simp only [subtypes]
  split
  · exact List.Pairwise.nil
  · simp only [List.pairwise_append]
    refine ⟨⟨⟨one _, one _, ?_⟩, one _, ?_⟩, one _, ?_⟩
    · intro a ha b hb
      left
      rw [rk ha 0 rfl, rk hb 1 rfl]
      omega
    · intro a ha b hb
      left
      rw [rk hb 2 rfl]
      rcases List.mem_append.mp ha with ha | ha
      · rw [rk ha 0 rfl]
        omega
      · rw [rk ha 1 rfl]
        omega
    · intro a ha b hb
      left
      rw [rk hb 3 rfl]
      rcases List.mem_append.mp ha with ha | ha
      · rcases List.mem_append.mp ha with ha | ha
        · rw [rk ha 0 rfl]
          omega
        · rw [rk ha 1 rfl]
          omega
      · rw [rk ha 2 rfl]
        omega

/-- A defined class or module is a supertype of another in a relation exactly when the other is its subtype in the opposite one. -/
theorem c82_types (e : Engine) (x y : Fqn) (r : Relation) (hl : Linked e) (hx : e.nodes x ≠ []) (hy : e.nodes y ≠ []) (hi : x.isInstance = true)
    (hr : r ∈ [Relation.superclass, .include_, .prepend, .extend_]) :
    (∃ s ∈ supertypes e x, s.fqn = y ∧ s.unresolved = false ∧ s.relation = r) ↔
      (∃ t ∈ subtypes e y, t.fqn = x ∧ t.relation = opposite r) := by
  have node1 : ∀ f, e.nodes f ≠ [] → ∃ n, (e.nodes f).head? = some n := by
    intro f h
    cases hf : e.nodes f with
    | nil => exact absurd hf h
    | cons n l => exact ⟨n, rfl⟩
  obtain ⟨nx, hnx⟩ := node1 x hx
  obtain ⟨ny, hny⟩ := node1 y hy
  constructor
  · rintro ⟨s, hs, rfl, hu, rfl⟩
    obtain ⟨n, _, ⟨d, hd, r, t, h1, h2, rfl⟩ | ⟨p, _, _, r, _, rfl⟩⟩ := (c82_supertypes e x s).mp hs
    · dsimp only at *
      have hd2 : ∀ d ∈ e.edgesFrom x, d ∈ e.edgesTo d.target ∧ d.source = x := fun d hd => (hl x d.target d).mp ⟨hd, rfl⟩
      obtain ⟨a, b⟩ := hd2 d hd
      exact ⟨⟨d.source, some nx.isClass, opposite r, nx.range, none, false⟩,
        (c82_subtypes e d.target _).mpr ⟨hy, d, a, r, nx, h1, (fun _ => by rw [b]; exact hi), (by rw [b]; exact hnx), rfl⟩, b, rfl⟩
    · cases hu
  · rintro ⟨t, ht, rfl, hrel⟩
    obtain ⟨_, d, hd, s, n, h1, _, h2, rfl⟩ := (c82_subtypes e y t).mp ht
    dsimp only at *
    obtain ⟨a, b⟩ := (hl d.source y d).mpr ⟨hd, rfl⟩
    have hs : s = r := by
      cases hk : d.kind <;> rw [hk] at h1 <;> cases h1 <;> simp only [List.mem_cons, List.not_mem_nil, or_false] at hr <;>
        rcases hr with rfl | rfl | rfl | rfl <;> first | rfl | cases hrel
    subst hs
    exact ⟨_, (c82_supertypes e d.source _).mpr ⟨nx, hnx, Or.inl ⟨d, a, s, ny, h1, (by rw [b]; exact hny), rfl⟩⟩, b, rfl, rfl⟩

/-! ## Examples and counterexamples -/

def letter (c : Nat) : Bool := (decide (65 ≤ c) && decide (c ≤ 90)) || (decide (97 ≤ c) && decide (c ≤ 122))

/-- The Unicode classes for ASCII. -/
def ascii : Unicode where
  start := letter
  cont := fun c => letter c || (decide (48 ≤ c) && decide (c ≤ 57)) || decide (c = 95)
  upper := fun c => decide (65 ≤ c) && decide (c ≤ 90)
  alpha := letter
  start_colon := by decide
  cont_colon := by decide
  cont_hash := by decide
  alpha_hash := by decide
  alpha_mark := by decide

/-- Class `A` (file 0) and `B < A`; `A#x` calls `B#y` in files 0 and 1, the top level calls it too. -/
def classA : Fqn := .namespace_ [.named [65]] false
def classB : Fqn := .namespace_ [.named [66]] false
def ax : Fqn := .method [.named [65]] [120]
def by_ : Fqn := .method [.named [66]] [121]
def sample : Engine where
  methods := fun f => if f = ax then [⟨0, 10, 20⟩, ⟨1, 5, 9⟩] else if f = by_ then [⟨0, 30, 40⟩] else []
  refs := [(by_, [⟨some ax, ⟨0, 12, 13⟩⟩, ⟨some ax, ⟨1, 7, 8⟩⟩, ⟨none, ⟨0, 50, 51⟩⟩])]
  nodes := fun f => if f = classA then [⟨true, ⟨0, 0, 5⟩⟩] else if f = classB then [⟨true, ⟨0, 6, 9⟩⟩] else []
  edgesFrom := fun f => if f = classB then [⟨classB, classA, .superclass, ⟨0, 6, 9⟩⟩, ⟨classB, classA, .superclass, ⟨1, 6, 9⟩⟩] else []
  edgesTo := fun f => if f = classA then [⟨classB, classA, .superclass, ⟨0, 6, 9⟩⟩, ⟨classB, classA, .superclass, ⟨1, 6, 9⟩⟩] else []
  pending := []

theorem c82_example :
    ax.print = [65, 35, 120] ∧ parseMethod ascii [65, 58, 58, 66, 35, 120] = some (.method [.named [65], .named [66]] [120]) ∧
    incoming sample by_ = [⟨⟨ax, ⟨0, 10, 20⟩⟩, [⟨0, 12, 13⟩, ⟨1, 7, 8⟩]⟩] ∧
    outgoing sample ax = [⟨⟨by_, ⟨0, 30, 40⟩⟩, [⟨0, 12, 13⟩, ⟨1, 7, 8⟩]⟩] := by
  decide +kernel

/-- **C82 (operators).** The operators that are names of methods. -/
theorem c82_operators : operators.map (fun t => String.ofList (t.map Char.ofNat)) =
    ["+", "-", "*", "/", "%", "**", "==", "!=", "<", "<=", ">", ">=", "<=>", "===", "=~", "!~", "&", "|", "^", "<<", ">>", "[]", "[]=",
     "+@", "-@", "~@", "!@"] := by
  decide +kernel

/-- **C82 (generated owners).** The text of a generated owner tells its identity and is no name of a constant. -/
theorem c82_generated (u : Unicode) (i : Text) : (Part.generated i).show = "#<generated-owner:".toList.map Char.toNat ++ i ++ ">".toList.map Char.toNat ∧
    (u.start 35 = false → ∀ n, ConstName u n → (Part.generated i).show ≠ n) := by
  have h : "#<generated-owner:".toList.map Char.toNat = generatedPrefix ∧ ">".toList.map Char.toNat = [62] := by decide +kernel
  refine ⟨by rw [h.1, h.2]; rfl, ?_⟩
  rintro hs n ⟨c, cs, rfl, hc, _⟩ e
  injection e with e _
  rw [← e, hs] at hc
  cases hc

/-- **C82 (item of an owner).** The item for a method of an owner is the first definition of that method in the owner's namespace. -/
theorem c82_item (e : Engine) (owner : Fqn) (m : Text) (x : Item) : itemForOwner e owner m = some x ↔
    x.fqn = .method owner.parts m ∧ ∃ rest, e.methods (.method owner.parts m) = x.range :: rest := by
  obtain ⟨f, r⟩ := x
  unfold itemForOwner item
  cases h : e.methods (.method owner.parts m) with
  | nil => simp
  | cons a l => simp [eq_comm]

/-- A method that is defined in two files: the places of the calls in the second file are shown in the first one. -/
theorem c82_file_fails : ∃ c ∈ incoming sample by_, ∃ r ∈ c.ranges, r.file ≠ c.other.range.file := by
  decide +kernel

/-- A call at the top level is not shown. -/
theorem c82_top_fails : (∃ r ∈ refsFor sample by_, r.range = ⟨0, 50, 51⟩) ∧ ∀ c ∈ incoming sample by_, (⟨0, 50, 51⟩ : Range) ∉ c.ranges := by
  decide +kernel

/-- `A#x` and `A.x` are one entry. -/
theorem c82_kind_fails : itemForOwner sample (.namespace_ [.named [65]] true) [120] = itemForOwner sample classA [120] := by
  decide +kernel

/-- A class that is opened twice with its superclass is listed twice. -/
theorem c82_reopened_fails :
    (supertypes sample classB).map (·.fqn) = [classA, classA] ∧ (subtypes sample classA).map (·.fqn) = [classB, classB] := by
  decide +kernel

/-- The text of a singleton class and of a generated owner is not read back, and a constant is read as a namespace. -/
theorem c82_singleton_fails :
    parseNamespace ascii (Fqn.namespace_ [.named [65]] true).print = none ∧
    parseMethod ascii (Fqn.method [.generated [49]] [120]).print = none ∧
    parseNamespace ascii (Fqn.constant [.named [65]]).print = some classA := by
  decide +kernel

/-- Methods `!`, `~` and the backquote are names of methods in Ruby; `!@` and `~@` are not. -/
theorem c82_operator_fails :
    validMethod ascii [33] = false ∧ validMethod ascii [126] = false ∧ validMethod ascii [96] = false ∧
    validMethod ascii [33, 64] = true ∧ validMethod ascii [126, 64] = true := by
  decide +kernel

end Verif.Hierarchy
