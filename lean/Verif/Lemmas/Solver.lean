import Verif.Spec.Solver
import Verif.Lemmas.Tarjan
import Verif.Props.TypeUnion
/-! The solver of method return equations: evaluation, iteration. -/
namespace Verif.Solver
open Verif.Types Verif.Tarjan

/-! ### types without unknown members -/

theorem isUnknown_iff {t : Ty} : t.isUnknown = true ↔ t = .unknown := by cases t <;> simp [Ty.isUnknown]

mutual
theorem nested_iff : ∀ t : Ty, nestedUnknown t = true ↔ UnknownMember t
  | .cls _ => by simp only [nestedUnknown, Bool.false_eq_true, false_iff]; intro h; cases h
  | .mod _ => by simp only [nestedUnknown, Bool.false_eq_true, false_iff]; intro h; cases h
  | .clsRef _ => by simp only [nestedUnknown, Bool.false_eq_true, false_iff]; intro h; cases h
  | .modRef _ => by simp only [nestedUnknown, Bool.false_eq_true, false_iff]; intro h; cases h
  | .lit _ => by simp only [nestedUnknown, Bool.false_eq_true, false_iff]; intro h; cases h
  | .unknown => by simp only [nestedUnknown, Bool.false_eq_true, false_iff]; intro h; cases h
  | .union ts => by
    simp only [nestedUnknown]
    rw [member_iff ts]
    constructor
    · rintro (h | ⟨t, ht, h⟩)
      · exact .here h
      · exact .union ht h
    · intro h
      cases h with
      | here h => exact .inl h
      | union ht h => exact .inr ⟨_, ht, h⟩
  | .array ts => by
    simp only [nestedUnknown]
    rw [nestedList_iff ts]
    constructor
    · rintro ⟨t, ht, h⟩; exact .array ht h
    · intro h; cases h with | array ht h => exact ⟨_, ht, h⟩
  | .hash ks vs => by
    simp only [nestedUnknown, Bool.or_eq_true]
    rw [nestedList_iff ks, nestedList_iff vs]
    constructor
    · rintro (⟨t, ht, h⟩ | ⟨t, ht, h⟩)
      · exact .key ht h
      · exact .value ht h
    · intro h
      cases h with
      | key ht h => exact .inl ⟨_, ht, h⟩
      | value ht h => exact .inr ⟨_, ht, h⟩
  | .shape fs r o z d => by
    simp only [nestedUnknown, Bool.or_eq_true]
    rw [nestedFields_iff fs, nestedRest_iff r]
    constructor
    · rintro (⟨f, hf, h⟩ | ⟨k, v, rfl, h | h⟩)
      · exact .field hf h
      · exact .restKey h
      · exact .restValue h
    · intro h
      cases h with
      | field hf h => exact .inl ⟨_, hf, h⟩
      | restKey h => exact .inr ⟨_, _, rfl, .inl h⟩
      | restValue h => exact .inr ⟨_, _, rfl, .inr h⟩
theorem member_iff : ∀ ts : List Ty, memberUnknown ts = true ↔ .unknown ∈ ts ∨ ∃ t ∈ ts, UnknownMember t
  | [] => by simp [memberUnknown]
  | t :: l => by
    simp only [memberUnknown, Bool.or_eq_true]
    rw [isUnknown_iff, nested_iff t, member_iff l]
    simp only [List.mem_cons, exists_eq_or_imp]
    constructor
    · rintro ((h | h) | h | h)
      · exact .inl (.inl h.symm)
      · exact .inr (.inl h)
      · exact .inl (.inr h)
      · exact .inr (.inr h)
    · rintro ((h | h) | h | h)
      · exact .inl (.inl h.symm)
      · exact .inr (.inl h)
      · exact .inl (.inr h)
      · exact .inr (.inr h)
theorem nestedList_iff : ∀ ts : List Ty, nestedUnknownList ts = true ↔ ∃ t ∈ ts, UnknownMember t
  | [] => by simp [nestedUnknownList]
  | t :: l => by
    simp only [nestedUnknownList, Bool.or_eq_true, List.mem_cons, exists_eq_or_imp]
    rw [nested_iff t, nestedList_iff l]
theorem nestedFields_iff : ∀ fs : List (Lit × Bool × Ty), nestedUnknownFields fs = true ↔ ∃ f ∈ fs, UnknownMember f.2.2
  | [] => by simp [nestedUnknownFields]
  | (k, p, t) :: l => by
    simp only [nestedUnknownFields, Bool.or_eq_true, List.mem_cons, exists_eq_or_imp]
    rw [nested_iff t, nestedFields_iff l]
theorem nestedRest_iff : ∀ r : Option (Ty × Ty), nestedUnknownRest r = true ↔ ∃ k v, r = some (k, v) ∧ (UnknownMember k ∨ UnknownMember v)
  | none => by simp [nestedUnknownRest]
  | some (k, v) => by
    simp only [nestedUnknownRest, Bool.or_eq_true]
    rw [nested_iff k, nested_iff v]
    constructor
    · intro h; exact ⟨k, v, rfl, h⟩
    · rintro ⟨k', v', h, h'⟩; cases h; exact h'
end

/-- What may be called proven. -/
def Sure (t : Ty) : Prop := t ≠ .unknown ∧ ¬ UnknownMember t

theorem unionUnknown_false {t : Ty} : unionUnknown t = false ↔ Sure t := by
  unfold unionUnknown Sure
  rw [Bool.or_eq_false_iff, ← Bool.not_eq_true, ← Bool.not_eq_true, isUnknown_iff, nested_iff]

theorem sure_alt {t x : Ty} (h : Sure t) (hx : AltOf t x) : Sure x := by
  cases hx with
  | member hx => exact ⟨fun e => h.2 (.here (e ▸ hx)), fun hu => h.2 (.union hx hu)⟩
  | self _ => exact h

theorem sure_mkUnion {ts : List Ty} (h : ∀ t ∈ ts, Sure t) (hn : mkUnion ts ≠ .unknown) : Sure (mkUnion ts) := by
  refine ⟨hn, ?_⟩
  have ha : ∀ x, Alts ts x → Sure x := by
    rintro x ⟨t, ht, hx⟩
    exact sure_alt (h t ht) hx
  rw [mkUnion_eq] at hn ⊢
  rcases finish_cases (flatten ts) with ⟨h', -⟩ | ⟨h1, h2, t, ht, hm⟩ | ⟨h1, h2, hl, h'⟩
  · exact absurd h' hn
  · rw [ht]; exact (ha t (mem_flatten.mp ((hm t).mpr rfl))).2
  · rw [h']
    intro hu
    cases hu with
    | here hx => exact (ha _ (mem_flatten.mp (mem_canon.mp hx))).1 rfl
    | union hx hu => exact (ha _ (mem_flatten.mp (mem_canon.mp hx))).2 hu

/-! ### evaluation -/

/-- `evaluate_method` for given values of the dependencies. -/
def evalWith (eqs : List Equation) (value : Nat → Option Approx) (m : Nat) : Option Approx :=
  match addDefs value (definitions eqs m) [] with
  | none => none
  | some (.unknown r) => some (.unknown r)
  | some (.alts ts) =>
    some (if ts.isEmpty then .bottom
      else if mkUnion ts = .unknown then .unknown unresolvedReturn
      else .proven (mkUnion ts))

/-- Something the method depends on, or a base, is unknown. -/
def Bad (eqs : List Equation) (V : Nat → Approx) (m : Nat) : Prop :=
  ∃ r, HasBase eqs m (.unknown r) ∨ ∃ d, Depends eqs m d ∧ V d = .unknown r

/-- The type is a base of the method or the value of something it depends on. -/
def Alt (eqs : List Equation) (V : Nat → Approx) (m : Nat) (t : Ty) : Prop :=
  HasBase eqs m (.proven t) ∨ ∃ d, Depends eqs m d ∧ V d = .proven t

def join (ts : List Ty) : Approx :=
  if ts.isEmpty then .bottom else if mkUnion ts = .unknown then .unknown unresolvedReturn else .proven (mkUnion ts)

structure Eval (eqs : List Equation) (V : Nat → Approx) (m : Nat) (a : Approx) : Prop where
  bad : Bad eqs V m → ∃ r, a = .unknown r
  good : ¬ Bad eqs V m → ∃ ts, (∀ t, t ∈ ts ↔ Alt eqs V m t) ∧ a = join ts

theorem addDeps_spec {value : Nat → Option Approx} {V : Nat → Approx} : ∀ (ds : List Nat) (ts : List Ty), (∀ d ∈ ds, value d = some (V d)) →
    ∃ acc, addDeps value ds ts = some acc ∧ ((∃ d ∈ ds, ∃ r, V d = .unknown r) → ∃ r, acc = .unknown r) ∧
      ((∀ d ∈ ds, ∀ r, V d ≠ .unknown r) → ∃ us, acc = .alts (ts ++ us) ∧ ∀ t, t ∈ us ↔ ∃ d ∈ ds, V d = .proven t)
  | [], ts, _ => ⟨.alts ts, rfl, by simp, fun _ => ⟨[], by simp, by simp⟩⟩
  | d :: ds, ts, h => by
    have hd := h d List.mem_cons_self
    have hds := fun x hx => h x (List.mem_cons_of_mem _ hx)
    unfold addDeps
    rw [hd]
    cases hv : V d with
    | bottom =>
      obtain ⟨acc, e, a, b⟩ := addDeps_spec ds ts hds
      refine ⟨acc, e, ?_, ?_⟩
      · rintro ⟨x, hx, r, hr⟩
        rcases List.mem_cons.mp hx with rfl | hx
        · rw [hv] at hr; cases hr
        · exact a ⟨x, hx, r, hr⟩
      · intro hn
        obtain ⟨us, e', hu⟩ := b (fun x hx => hn x (List.mem_cons_of_mem _ hx))
        refine ⟨us, e', fun t => (hu t).trans ?_⟩
        simp [hv]
    | proven u =>
      obtain ⟨acc, e, a, b⟩ := addDeps_spec ds (ts ++ [u]) hds
      refine ⟨acc, e, ?_, ?_⟩
      · rintro ⟨x, hx, r, hr⟩
        rcases List.mem_cons.mp hx with rfl | hx
        · rw [hv] at hr; cases hr
        · exact a ⟨x, hx, r, hr⟩
      · intro hn
        obtain ⟨us, e', hu⟩ := b (fun x hx => hn x (List.mem_cons_of_mem _ hx))
        refine ⟨u :: us, by rw [e']; simp, fun t => ?_⟩
        simp only [List.mem_cons, exists_eq_or_imp, hv, Approx.proven.injEq, hu t]
        exact or_congr_left ⟨fun h => h.symm, fun h => h.symm⟩
    | unknown r =>
      exact ⟨.unknown r, rfl, fun _ => ⟨r, rfl⟩, fun hn => absurd hv (hn d List.mem_cons_self r)⟩

theorem addDefs_spec {value : Nat → Option Approx} {V : Nat → Approx} : ∀ (es : List Equation) (ts : List Ty),
    (∀ e ∈ es, ∀ d ∈ e.deps, value d = some (V d)) →
    ∃ acc, addDefs value es ts = some acc ∧
      ((∃ e ∈ es, ∃ r, e.base = .unknown r ∨ ∃ d ∈ e.deps, V d = .unknown r) → ∃ r, acc = .unknown r) ∧
      ((∀ e ∈ es, ∀ r, e.base ≠ .unknown r ∧ ∀ d ∈ e.deps, V d ≠ .unknown r) → ∃ us, acc = .alts (ts ++ us) ∧
        ∀ t, t ∈ us ↔ ∃ e ∈ es, e.base = .proven t ∨ ∃ d ∈ e.deps, V d = .proven t)
  | [], ts, _ => ⟨.alts ts, rfl, by simp, fun _ => ⟨[], by simp, by simp⟩⟩
  | e :: es, ts, h => by
    have he := h e List.mem_cons_self
    have hes := fun x hx => h x (List.mem_cons_of_mem _ hx)
    -- common part once the base is not unknown
    have main : ∀ bs : List Ty, (∀ r, e.base ≠ .unknown r) → (∀ t, t ∈ bs ↔ e.base = .proven t) →
        ∃ acc, (match addDeps value e.deps (ts ++ bs) with
          | none => none
          | some (.unknown r) => some (.unknown r)
          | some (.alts ts) => addDefs value es ts) = some acc ∧
          ((∃ e' ∈ e :: es, ∃ r, e'.base = .unknown r ∨ ∃ d ∈ e'.deps, V d = .unknown r) → ∃ r, acc = .unknown r) ∧
          ((∀ e' ∈ e :: es, ∀ r, e'.base ≠ .unknown r ∧ ∀ d ∈ e'.deps, V d ≠ .unknown r) → ∃ us, acc = .alts (ts ++ us) ∧
            ∀ t, t ∈ us ↔ ∃ e' ∈ e :: es, e'.base = .proven t ∨ ∃ d ∈ e'.deps, V d = .proven t) := by
      intro bs hnb hbs
      obtain ⟨acc, ea, a, b⟩ := addDeps_spec e.deps (ts ++ bs) he
      rw [ea]
      by_cases hbad : ∃ d ∈ e.deps, ∃ r, V d = .unknown r
      · obtain ⟨r, rfl⟩ := a hbad
        refine ⟨.unknown r, rfl, fun _ => ⟨r, rfl⟩, fun hn => ?_⟩
        obtain ⟨d, hd, r', hr⟩ := hbad
        exact absurd hr ((hn e List.mem_cons_self r').2 d hd)
      · push Not at hbad
        obtain ⟨us, rfl, hu⟩ := b hbad
        obtain ⟨acc', ea', a', b'⟩ := addDefs_spec es (ts ++ bs ++ us) hes
        refine ⟨acc', ea', ?_, ?_⟩
        · rintro ⟨e', he', r, hr⟩
          rcases List.mem_cons.mp he' with rfl | he'
          · rcases hr with hr | ⟨d, hd, hr⟩
            · exact absurd hr (hnb r)
            · exact absurd hr (hbad d hd r)
          · exact a' ⟨e', he', r, hr⟩
        · intro hn
          obtain ⟨us', e'', hu'⟩ := b' (fun x hx => hn x (List.mem_cons_of_mem _ hx))
          refine ⟨bs ++ us ++ us', by rw [e'']; simp, fun t => ?_⟩
          simp only [List.mem_append, List.mem_cons, exists_eq_or_imp, hu' t, hu t, hbs t]
    unfold addDefs
    cases hb : e.base with
    | unknown r =>
      refine ⟨.unknown r, rfl, fun _ => ⟨r, rfl⟩, fun hn => absurd hb (hn e List.mem_cons_self r).1⟩
    | bottom =>
      have := main [] (by simp [hb]) (by simp [hb])
      rw [List.append_nil] at this
      exact this
    | proven t =>
      exact main [t] (by simp [hb]) (by intro u; rw [hb, List.mem_singleton, Base.proven.injEq]; exact ⟨fun h => h.symm, fun h => h.symm⟩)

theorem evalWith_spec {eqs : List Equation} {value : Nat → Option Approx} {V : Nat → Approx} {m : Nat}
    (h : ∀ d, Depends eqs m d → value d = some (V d)) : ∃ a, evalWith eqs value m = some a ∧ Eval eqs V m a := by
  have hm : ∀ e, e ∈ definitions eqs m ↔ e ∈ eqs ∧ e.method = m := by intro e; simp [definitions]
  obtain ⟨acc, e, a, b⟩ := addDefs_spec (value := value) (V := V) (definitions eqs m) []
    (fun e he d hd => h d ⟨e, ((hm e).mp he).1, ((hm e).mp he).2, hd⟩)
  unfold evalWith
  rw [e]
  by_cases hbad : Bad eqs V m
  · have : ∃ r, acc = .unknown r := by
      apply a
      obtain ⟨r, ⟨e, he, h1, h2⟩ | ⟨d, ⟨e, he, h1, h2⟩, h3⟩⟩ := hbad
      · exact ⟨e, (hm e).mpr ⟨he, h1⟩, r, .inl h2⟩
      · exact ⟨e, (hm e).mpr ⟨he, h1⟩, r, .inr ⟨d, h2, h3⟩⟩
    obtain ⟨r, rfl⟩ := this
    exact ⟨.unknown r, rfl, fun _ => ⟨r, rfl⟩, fun hn => absurd hbad hn⟩
  · obtain ⟨us, rfl, hu⟩ := b (by
      intro e he r
      obtain ⟨h1, h2⟩ := (hm e).mp he
      exact ⟨fun hb => hbad ⟨r, .inl ⟨e, h1, h2, hb⟩⟩, fun d hd hv => hbad ⟨r, .inr ⟨d, ⟨e, h1, h2, hd⟩, hv⟩⟩⟩)
    refine ⟨_, rfl, fun hb => absurd hb hbad, fun _ => ⟨us, fun t => (hu t).trans ?_, by simp [join]⟩⟩
    constructor
    · rintro ⟨e, he, h3 | ⟨d, hd, h3⟩⟩
      · exact .inl ⟨e, ((hm e).mp he).1, ((hm e).mp he).2, h3⟩
      · exact .inr ⟨d, ⟨e, ((hm e).mp he).1, ((hm e).mp he).2, hd⟩, h3⟩
    · rintro (⟨e, he, h1, h3⟩ | ⟨d, ⟨e, he, h1, hd⟩, h3⟩)
      · exact ⟨e, (hm e).mpr ⟨he, h1⟩, .inl h3⟩
      · exact ⟨e, (hm e).mpr ⟨he, h1⟩, .inr ⟨d, hd, h3⟩⟩

/-- The value of a method for given values of the dependencies. -/
def value (eqs : List Equation) (V : Nat → Approx) (m : Nat) : Approx := (evalWith eqs (fun d => some (V d)) m).getD .bottom

theorem addDeps_congr {f h : Nat → Option Approx} : ∀ (ds : List Nat) (ts : List Ty), (∀ d ∈ ds, f d = h d) → addDeps f ds ts = addDeps h ds ts
  | [], _, _ => rfl
  | d :: ds, ts, e => by
    unfold addDeps
    rw [e d List.mem_cons_self]
    have ih := fun ts => addDeps_congr ds ts (fun x hx => e x (List.mem_cons_of_mem _ hx))
    cases h d with
    | none => rfl
    | some a => cases a <;> simp only [ih]

theorem addDefs_congr {f h : Nat → Option Approx} : ∀ (es : List Equation) (ts : List Ty), (∀ e ∈ es, ∀ d ∈ e.deps, f d = h d) →
    addDefs f es ts = addDefs h es ts
  | [], _, _ => rfl
  | e :: es, ts, he => by
    unfold addDefs
    have ih := fun ts => addDefs_congr es ts (fun x hx => he x (List.mem_cons_of_mem _ hx))
    have hd := fun ts => addDeps_congr e.deps ts (he e List.mem_cons_self)
    simp only [hd, ih]

theorem evalWith_congr {eqs : List Equation} {f h : Nat → Option Approx} {m : Nat} (e : ∀ d, Depends eqs m d → f d = h d) :
    evalWith eqs f m = evalWith eqs h m := by
  unfold evalWith
  rw [addDefs_congr]
  intro x hx d hd
  simp only [definitions, List.mem_filter, decide_eq_true_eq] at hx
  exact e d ⟨x, hx.1, hx.2, hd⟩

theorem evalWith_value {eqs : List Equation} {f : Nat → Option Approx} {V : Nat → Approx} {m : Nat}
    (h : ∀ d, Depends eqs m d → f d = some (V d)) : evalWith eqs f m = some (value eqs V m) := by
  rw [evalWith_congr h]
  obtain ⟨a, e, -⟩ := evalWith_spec (eqs := eqs) (value := fun d => some (V d)) (V := V) (m := m) (fun _ _ => rfl)
  simp [value, e]

theorem value_eval (eqs : List Equation) (V : Nat → Approx) (m : Nat) : Eval eqs V m (value eqs V m) := by
  obtain ⟨a, e, h⟩ := evalWith_spec (eqs := eqs) (value := fun d => some (V d)) (V := V) (m := m) (fun _ _ => rfl)
  simpa [value, e] using h

/-! ### iteration -/

def tab (comp : List Nat) (A : Nat → Approx) : List (Nat × Approx) := comp.map fun m => (m, A m)

/-- The value of a dependency outside the component. -/
def outer (solved : Nat → Option Out) (d : Nat) : Approx :=
  match solved d with
  | some (.proven t) => .proven t
  | some (.unknown r) => .unknown r
  | none => .unknown unresolvedReturn

open Classical in
noncomputable def mix (comp : List Nat) (solved : Nat → Option Out) (A : Nat → Approx) (d : Nat) : Approx :=
  if d ∈ comp then A d else outer solved d

theorem find_tab {comp : List Nat} {A : Nat → Approx} {d : Nat} (h : d ∈ comp) :
    ((tab comp A).find? (fun p => decide (p.1 = d))).map (·.2) = some (A d) := by
  induction comp with
  | nil => cases h
  | cons m l ih =>
    simp only [tab, List.map_cons, List.find?_cons]
    by_cases hm : m = d
    · simp [hm]
    · simp only [hm, decide_false]
      exact ih ((List.mem_cons.mp h).resolve_left (fun e => hm e.symm))

theorem depValue_tab (comp : List Nat) (A : Nat → Approx) (solved : Nat → Option Out) (d : Nat) :
    depValue comp (tab comp A) solved d = some (mix comp solved A d) := by
  unfold depValue mix
  by_cases h : d ∈ comp
  · simp only [List.contains_eq_mem, h, decide_true, if_true]
    exact find_tab h
  · simp only [List.contains_eq_mem, h, decide_false, Bool.false_eq_true, if_false, outer]
    cases solved d with
    | none => rfl
    | some o => cases o <;> rfl

noncomputable def step (eqs : List Equation) (comp : List Nat) (solved : Nat → Option Out) (A : Nat → Approx) (m : Nat) : Approx :=
  value eqs (mix comp solved A) m

theorem mapAll_some {f : Nat → Option Approx} {h : Nat → Approx} : ∀ (l : List Nat), (∀ m ∈ l, f m = some (h m)) → mapAll f l = some (tab l h)
  | [], _ => rfl
  | m :: l, e => by
    simp only [mapAll, e m List.mem_cons_self, mapAll_some l (fun x hx => e x (List.mem_cons_of_mem _ hx))]
    rfl

theorem round_tab (eqs : List Equation) (comp : List Nat) (solved : Nat → Option Out) (A : Nat → Approx) :
    mapAll (evaluate eqs comp (tab comp A) solved) comp = some (tab comp (step eqs comp solved A)) := by
  refine mapAll_some comp (fun m _ => ?_)
  exact evalWith_value (f := depValue comp (tab comp A) solved) (fun d _ => depValue_tab comp A solved d)

theorem tab_eq {comp : List Nat} {A B : Nat → Approx} : tab comp A = tab comp B ↔ ∀ m ∈ comp, A m = B m := by
  induction comp with
  | nil => simp [tab]
  | cons m l ih =>
    simp only [tab, List.map_cons, List.cons.injEq, Prod.mk.injEq, true_and, List.mem_cons, forall_eq_or_imp]
    exact and_congr_right (fun _ => ih)

theorem mix_congr {comp : List Nat} {solved : Nat → Option Out} {A B : Nat → Approx} (h : ∀ m ∈ comp, A m = B m) :
    mix comp solved A = mix comp solved B := by
  funext d
  unfold mix
  by_cases hd : d ∈ comp
  · simp [hd, h d hd]
  · simp [hd]

theorem iterate_spec (eqs : List Equation) (comp : List Nat) (solved : Nat → Option Out) : ∀ (n : Nat) (A : Nat → Approx),
    ∃ r, iterate (fun approx => mapAll (evaluate eqs comp approx solved) comp) n (tab comp A) = some r ∧
      (∀ l, r = some l → ∃ j, j < n ∧ l = tab comp ((step eqs comp solved)^[j] A) ∧
        ∀ m ∈ comp, step eqs comp solved ((step eqs comp solved)^[j] A) m = (step eqs comp solved)^[j] A m) ∧
      (r = none → ∀ j, j < n → ∃ m ∈ comp, step eqs comp solved ((step eqs comp solved)^[j] A) m ≠ (step eqs comp solved)^[j] A m)
  | 0, A => ⟨none, rfl, by simp, by simp⟩
  | n + 1, A => by
    unfold iterate
    rw [round_tab]
    simp only [Option.bind_some]
    by_cases h : tab comp (step eqs comp solved A) = tab comp A
    · rw [if_pos h]
      refine ⟨_, rfl, ?_, by simp⟩
      intro l hl
      cases hl
      exact ⟨0, by omega, h, tab_eq.mp h⟩
    · rw [if_neg h]
      obtain ⟨r, e, h1, h2⟩ := iterate_spec eqs comp solved n (step eqs comp solved A)
      refine ⟨r, e, ?_, ?_⟩
      · intro l hl
        obtain ⟨j, hj, h3, h4⟩ := h1 l hl
        exact ⟨j + 1, by omega, h3, h4⟩
      · intro hr j hj
        cases j with
        | zero =>
          rw [tab_eq] at h
          push Not at h
          obtain ⟨m, hm, h⟩ := h
          exact ⟨m, hm, h⟩
        | succ j => exact h2 hr j (by omega)

theorem storeAll_spec {value : Nat → Option Out} {v : Nat → Out} : ∀ (l : List Nat) (solved : Nat → Option Out), (∀ m ∈ l, value m = some (v m)) →
    ∃ s', storeAll value l solved = some s' ∧ (∀ m ∈ l, s' m = some (v m)) ∧ ∀ m, m ∉ l → s' m = solved m
  | [], solved, _ => ⟨solved, rfl, by simp, by simp⟩
  | m :: l, solved, h => by
    obtain ⟨s', e, h1, h2⟩ := storeAll_spec l (put solved m (some (v m))) (fun x hx => h x (List.mem_cons_of_mem _ hx))
    refine ⟨s', by simp [storeAll, h m List.mem_cons_self, e], ?_, ?_⟩
    · intro x hx
      by_cases hxl : x ∈ l
      · exact h1 x hxl
      · have : x = m := (List.mem_cons.mp hx).resolve_right hxl
        rw [h2 x hxl, this]; simp [put]
    · intro x hx
      rw [h2 x (fun hxl => hx (List.mem_cons_of_mem _ hxl))]
      have : x ≠ m := fun e => hx (e ▸ List.mem_cons_self)
      simp [put, this]

/-! ### the graph -/

theorem mem_methods {eqs : List Equation} {m : Nat} : m ∈ methods eqs ↔ HasEquation eqs m := by
  simp [methods, mem_dedupAdj, mem_stableSort, HasEquation]

theorem mem_graph {eqs : List Equation} {m d : Nat} : d ∈ graph eqs m ↔ Depends eqs m d ∧ HasEquation eqs d := by
  simp only [graph, mem_dedupAdj, mem_stableSort, List.mem_filter, List.mem_flatMap, definitions, decide_eq_true_eq,
    List.contains_eq_mem, mem_methods]
  constructor
  · rintro ⟨⟨e, ⟨h1, h2⟩, h3⟩, h4⟩; exact ⟨⟨e, h1, h2, h3⟩, h4⟩
  · rintro ⟨⟨e, h1, h2, h3⟩, h4⟩; exact ⟨⟨e, ⟨h1, h2⟩, h3⟩, h4⟩

theorem reach_needs {eqs : List Equation} {a b : Nat} (h : Reach (graph eqs) a b) : Needs eqs a b := by
  induction h with
  | refl => exact .refl
  | tail _ e ih => exact ih.tail (mem_graph.mp e).1

end Verif.Solver
