import Verif.Spec.CheckReport
import Verif.Lemmas.Sort
import Mathlib.Data.List.Perm.Lattice
/-!
C86: the report of `check`.
-/
namespace Verif.CheckReport

/-! ### Orders -/

/-- A linear order. -/
structure Lin {α : Type} (le : α → α → Bool) : Prop where
  total : ∀ a b, le a b = true ∨ le b a = true
  trans : ∀ a b c, le a b = true → le b c = true → le a c = true
  anti : ∀ a b, le a b = true → le b a = true → a = b

theorem lin_nat : Lin natLe where
  total a b := by simp only [natLe, decide_eq_true_eq]; omega
  trans a b c := by simp only [natLe, decide_eq_true_eq]; omega
  anti a b := by simp only [natLe, decide_eq_true_eq]; omega

theorem lin_opt {α : Type} {le : α → α → Bool} (h : Lin le) : Lin (optLe le) where
  total a b := by
    cases a <;> cases b <;> simp only [optLe, true_or, or_true]
    exact h.total _ _
  trans a b c h1 h2 := by
    cases a <;> cases b <;> cases c <;> simp only [optLe, reduceCtorEq] at h1 h2 ⊢
    exact h.trans _ _ _ h1 h2
  anti a b h1 h2 := by
    cases a <;> cases b <;> simp only [optLe, reduceCtorEq] at h1 h2 ⊢
    rw [h.anti _ _ h1 h2]

theorem lin_pair {α β : Type} [DecidableEq α] {la : α → α → Bool} {lb : β → β → Bool} (ha : Lin la) (hb : Lin lb) : Lin (pairLe la lb) where
  total x y := by
    simp only [pairLe]
    by_cases h : x.1 = y.1
    · rw [if_pos h, if_pos h.symm]; exact hb.total _ _
    · rw [if_neg h, if_neg (fun e => h e.symm)]; exact ha.total _ _
  trans x y z h1 h2 := by
    simp only [pairLe] at h1 h2 ⊢
    by_cases hxy : x.1 = y.1
    · rw [if_pos hxy] at h1
      by_cases hyz : y.1 = z.1
      · rw [if_pos hyz] at h2
        rw [if_pos (hxy.trans hyz)]
        exact hb.trans _ _ _ h1 h2
      · rw [if_neg hyz] at h2
        rw [if_neg (fun e => hyz (hxy.symm.trans e)), hxy]
        exact h2
    · rw [if_neg hxy] at h1
      by_cases hyz : y.1 = z.1
      · rw [if_neg (fun e => hxy (e.trans hyz.symm)), ← hyz]
        exact h1
      · rw [if_neg hyz] at h2
        by_cases hxz : x.1 = z.1
        · rw [← hxz] at h2
          exact absurd (ha.anti _ _ h1 h2) hxy
        · rw [if_neg hxz]
          exact ha.trans _ _ _ h1 h2
  anti x y h1 h2 := by
    simp only [pairLe] at h1 h2
    by_cases h : x.1 = y.1
    · rw [if_pos h] at h1
      rw [if_pos h.symm] at h2
      exact Prod.ext h (hb.anti _ _ h1 h2)
    · rw [if_neg h] at h1
      rw [if_neg (fun e => h e.symm)] at h2
      exact absurd (ha.anti _ _ h1 h2) h

theorem listLe_total {α : Type} [DecidableEq α] {le : α → α → Bool} (h : Lin le) : ∀ a b : List α, listLe le a b = true ∨ listLe le b a = true
  | [], _ => .inl rfl
  | _ :: _, [] => .inr rfl
  | a :: as, b :: bs => by
    simp only [listLe]
    by_cases e : a = b
    · rw [if_pos e, if_pos e.symm]; exact listLe_total h as bs
    · rw [if_neg e, if_neg (fun e' => e e'.symm)]; exact h.total a b

theorem listLe_trans {α : Type} [DecidableEq α] {le : α → α → Bool} (h : Lin le) : ∀ a b c : List α, listLe le a b = true → listLe le b c = true →
    listLe le a c = true
  | [], _, _, _, _ => rfl
  | _ :: _, [], _, h1, _ => by cases h1
  | _ :: _, _ :: _, [], _, h2 => by cases h2
  | a :: as, b :: bs, c :: cs, h1, h2 => by
    simp only [listLe] at h1 h2 ⊢
    by_cases hab : a = b
    · rw [if_pos hab] at h1
      by_cases hbc : b = c
      · rw [if_pos hbc] at h2
        rw [if_pos (hab.trans hbc)]
        exact listLe_trans h as bs cs h1 h2
      · rw [if_neg hbc] at h2
        rw [if_neg (fun e => hbc (hab.symm.trans e)), hab]
        exact h2
    · rw [if_neg hab] at h1
      by_cases hbc : b = c
      · rw [if_neg (fun e => hab (e.trans hbc.symm)), ← hbc]
        exact h1
      · rw [if_neg hbc] at h2
        by_cases hac : a = c
        · rw [← hac] at h2
          exact absurd (h.anti _ _ h1 h2) hab
        · rw [if_neg hac]
          exact h.trans _ _ _ h1 h2

theorem listLe_anti {α : Type} [DecidableEq α] {le : α → α → Bool} (h : Lin le) : ∀ a b : List α, listLe le a b = true → listLe le b a = true → a = b
  | [], [], _, _ => rfl
  | [], _ :: _, _, h2 => by cases h2
  | _ :: _, [], h1, _ => by cases h1
  | a :: as, b :: bs, h1, h2 => by
    simp only [listLe] at h1 h2
    by_cases e : a = b
    · rw [if_pos e] at h1
      rw [if_pos e.symm] at h2
      rw [e, listLe_anti h as bs h1 h2]
    · rw [if_neg e] at h1
      rw [if_neg (fun e' => e e'.symm)] at h2
      exact absurd (h.anti _ _ h1 h2) e

theorem lin_list {α : Type} [DecidableEq α] {le : α → α → Bool} (h : Lin le) : Lin (listLe le) := ⟨listLe_total h, listLe_trans h, listLe_anti h⟩

theorem lin_map {α β : Type} {le : β → β → Bool} (h : Lin le) (f : α → β) (hf : ∀ a b, f a = f b → a = b) : Lin (fun a b => le (f a) (f b)) :=
  ⟨fun a b => h.total _ _, fun a b c => h.trans _ _ _, fun a b h1 h2 => hf a b (h.anti _ _ h1 h2)⟩

theorem lin_text : Lin (listLe natLe) := lin_list lin_nat
theorem lin_path : Lin pathLe := lin_list (lin_opt lin_text)
theorem lin_range : Lin rangeLe := lin_pair (lin_pair lin_nat lin_nat) (lin_pair lin_nat lin_nat)

theorem rangeKey_inj (a b : Range) (h : a.key = b.key) : a = b := by
  obtain ⟨⟨a1, a2⟩, ⟨a3, a4⟩⟩ := a
  obtain ⟨⟨b1, b2⟩, ⟨b3, b4⟩⟩ := b
  simp only [Range.key, Prod.mk.injEq] at h
  obtain ⟨⟨rfl, rfl⟩, rfl, rfl⟩ := h
  rfl

theorem severity_inj (a b : Severity) (h : a.rank = b.rank) : a = b := by
  cases a <;> cases b <;> first | rfl | (exact absurd h (by decide))

theorem kind_inj (a b : Kind) (h : a.rank = b.rank) : a = b := by
  cases a <;> cases b <;> first | rfl | (exact absurd h (by decide))

theorem outcome_inj (a b : Outcome) (h : a.key = b.key) : a = b := by
  cases a <;> cases b <;> simp_all [Outcome.key]

/-- **C86 (orders).** The diagnostics of a report, and its types, are in linear orders: by path, by range, by severity (or kind), and the rest. -/
theorem c86_linear : Lin diagLe ∧ Lin inferredLe := by
  constructor
  · refine lin_map (lin_pair lin_path (lin_pair lin_range (lin_pair lin_nat (lin_pair (lin_opt lin_text) lin_text)))) Diagnostic.key ?_
    rintro ⟨a1, a2, a3, a4, a5⟩ ⟨b1, b2, b3, b4, b5⟩ h
    simp only [Diagnostic.key, Prod.mk.injEq] at h
    obtain ⟨rfl, h2, h3, rfl, rfl⟩ := h
    rw [rangeKey_inj _ _ h2, severity_inj _ _ h3]
  · refine lin_map (lin_pair lin_path (lin_pair lin_range (lin_pair lin_nat (lin_pair lin_text (lin_pair lin_nat lin_text))))) Inferred.key ?_
    rintro ⟨a1, a2, a3, a4, a5⟩ ⟨b1, b2, b3, b4, b5⟩ h
    simp only [Inferred.key, Prod.mk.injEq] at h
    obtain ⟨rfl, h2, h3, rfl, h5⟩ := h
    rw [rangeKey_inj _ _ h2, kind_inj _ _ h3, outcome_inj _ _ h5]

theorem pairLe_eq {α β : Type} [DecidableEq α] {la : α → α → Bool} {lb : β → β → Bool} {x y : α × β} (h : x.1 = y.1) : pairLe la lb x y = lb x.2 y.2 := by
  simp only [pairLe]; rw [if_pos h]

theorem pairLe_ne {α β : Type} [DecidableEq α] {la : α → α → Bool} {lb : β → β → Bool} {x y : α × β} (h : x.1 ≠ y.1) : pairLe la lb x y = la x.1 y.1 := by
  simp only [pairLe]; rw [if_neg h]

/-- **C86 (order of diagnostics).** Diagnostics of one file come by start, then end, then severity, errors first. -/
theorem c86_before (a b : Diagnostic) (hp : a.path = b.path) :
    (a.range.start.line < b.range.start.line → diagLe a b = true) ∧
    (a.range = b.range → a.severity = .error → b.severity ≠ .error → diagLe a b = true) := by
  constructor
  · intro h
    have h1 : a.range.key ≠ b.range.key := by
      intro e; have := congrArg (fun k => k.1.1) e; simp only [Range.key] at this; omega
    have h2 : a.range.key.1 ≠ b.range.key.1 := by
      intro e; have := congrArg (fun k => k.1) e; simp only [Range.key] at this; omega
    have h3 : a.range.start.line ≠ b.range.start.line := by omega
    unfold diagLe
    rw [pairLe_eq (x := a.key) (y := b.key) hp, pairLe_ne (x := a.key.2) (y := b.key.2) h1]
    show rangeLe a.range.key b.range.key = true
    unfold rangeLe
    rw [pairLe_ne h2, pairLe_ne (x := a.range.key.1) (y := b.range.key.1) h3]
    show natLe a.range.start.line b.range.start.line = true
    simp only [natLe, decide_eq_true_eq]
    omega
  · intro h h1 h2
    unfold diagLe
    rw [pairLe_eq (x := a.key) (y := b.key) hp, pairLe_eq (x := a.key.2) (y := b.key.2) (by show a.range.key = b.range.key; rw [h]),
      pairLe_ne (x := a.key.2.2) (y := b.key.2.2) (fun e => h2 ((severity_inj _ _ e).symm.trans h1))]
    show natLe a.severity.rank b.severity.rank = true
    rw [h1]
    simp [natLe, Severity.rank]

theorem lin_order {α : Type} {le : α → α → Bool} (h : Lin le) : IsOrder le := ⟨h.total, h.trans⟩

/-! ### Paths -/

theorem stripPath_iff : ∀ (r p q : Path), stripPath r p = some q ↔ p = r ++ q
  | [], p, q => by simp [stripPath]
  | a :: r, [], q => by simp [stripPath]
  | a :: r, c :: p, q => by
    simp only [stripPath]
    by_cases h : a = c
    · rw [if_pos h, stripPath_iff r p q, h]; simp
    · rw [if_neg h]
      simp only [List.cons_append, List.cons.injEq, reduceCtorEq, false_iff, not_and]
      exact fun e => absurd e.symm h

theorem under_iff (r p : Path) : (stripPath r p).isSome = true ↔ Under r p := by
  rw [Option.isSome_iff_exists]
  exact ⟨fun ⟨q, h⟩ => ⟨q, (stripPath_iff r p q).1 h⟩, fun ⟨q, h⟩ => ⟨q, (stripPath_iff r p q).2 h⟩⟩

/-- **C86 (paths).** A file under the root is shown without the root, any other as it is, and different files are shown differently. -/
theorem c86_path (root : Path) : (∀ rest, reportPath root (root ++ rest) = rest) ∧ (∀ p, ¬ Under root p → reportPath root p = p) ∧
    (Absolute root → ∀ p q, Absolute p → Absolute q → reportPath root p = reportPath root q → p = q) := by
  have h1 : ∀ rest, reportPath root (root ++ rest) = rest := by
    intro rest; unfold reportPath; rw [(stripPath_iff _ _ _).2 rfl]
  have h2 : ∀ p, ¬ Under root p → reportPath root p = p := by
    intro p h
    unfold reportPath
    cases e : stripPath root p with
    | none => rfl
    | some q => exact absurd ⟨q, (stripPath_iff _ _ _).1 e⟩ h
  refine ⟨h1, h2, ?_⟩
  have hno : Absolute root → ∀ q rest, Absolute q → Absolute (root ++ rest) → rest ≠ q := by
    rintro ⟨rs, rfl⟩ q rest ⟨ts, rfl⟩ ⟨us, hu⟩ rfl
    injection hu with _ hu
    have : (none : Option Text) ∈ us.map some := by rw [← hu]; simp
    obtain ⟨x, _, hx⟩ := List.mem_map.1 this
    cases hx
  intro hr p q hp hq h
  by_cases up : Under root p
  · obtain ⟨a, rfl⟩ := up
    by_cases uq : Under root q
    · obtain ⟨b, rfl⟩ := uq
      rw [h1, h1] at h; rw [h]
    · rw [h1, h2 q uq] at h
      exact absurd h (hno hr q a hq hp)
  · by_cases uq : Under root q
    · obtain ⟨b, rfl⟩ := uq
      rw [h1, h2 p up] at h
      exact absurd h.symm (hno hr p b hp hq)
    · rw [h2 p up, h2 q uq] at h; exact h

theorem find_reverse_range (n : Nat) (p : Nat → Bool) (k : Nat) : (List.range n).reverse.find? p = some k ↔
    k < n ∧ p k = true ∧ ∀ j, k < j → j < n → p j = false := by
  induction n with
  | zero => simp
  | succ n ih =>
    rw [List.range_succ, List.reverse_append]
    simp only [List.reverse_cons, List.reverse_nil, List.nil_append, List.cons_append, List.find?_cons]
    cases e : p n with
    | true =>
      simp only [Option.some.injEq]
      constructor
      · rintro rfl
        exact ⟨by omega, e, fun j h1 h2 => by omega⟩
      · rintro ⟨h1, h2, h3⟩
        by_cases hk : k = n
        · exact hk.symm
        · have := h3 n (by omega) (by omega)
          rw [e] at this; cases this
    | false =>
      simp only
      rw [ih]
      constructor
      · rintro ⟨h1, h2, h3⟩
        refine ⟨by omega, h2, fun j h4 h5 => ?_⟩
        by_cases hj : j = n
        · rw [hj]; exact e
        · exact h3 j h4 (by omega)
      · rintro ⟨h1, h2, h3⟩
        refine ⟨?_, h2, fun j h4 h5 => h3 j h4 (by omega)⟩
        by_cases hk : k = n
        · rw [hk, e] at h2; cases h2
        · omega

/-- **C86 (root of a file).** The root for a single file is the nearest directory above it with a Gemfile, or its own directory. -/
theorem c86_root (gemfile : Path → Bool) (s r : Path) (hr : nearestRoot gemfile s = r) :
    ((∃ n, 0 < n ∧ n ≤ s.dropLast.length ∧ r = s.dropLast.take n ∧ gemfile r = true ∧
      ∀ m, n < m → m ≤ s.dropLast.length → gemfile (s.dropLast.take m) = false) ∨
    (r = s.dropLast ∧ ∀ n, 0 < n → n ≤ s.dropLast.length → gemfile (s.dropLast.take n) = false)) := by
  subst hr
  unfold nearestRoot ancestors
  generalize s.dropLast = p
  have hf : ((List.range (p.length + 1)).reverse.map (fun n => p.take n)).filter (fun a => decide (a ≠ [])) =
      ((List.range (p.length + 1)).reverse.filter (fun n => decide (p.take n ≠ []))).map (fun n => p.take n) := by
    rw [List.filter_map]; rfl
  rw [hf, List.find?_map, List.find?_filter]
  have hne : ∀ n, n ≤ p.length → (p.take n ≠ [] ↔ 0 < n) := by
    intro n hn
    rw [ne_eq, List.take_eq_nil_iff]
    constructor
    · intro h
      by_cases h0 : n = 0
      · exact absurd (.inl h0) h
      · omega
    · rintro h (h | h)
      · omega
      · rw [h] at hn; simp at hn; omega
  cases e : (List.range (p.length + 1)).reverse.find? (fun a => decide (decide (p.take a ≠ []) = true ∧ (gemfile ∘ fun n => p.take n) a = true)) with
  | some n =>
    left
    obtain ⟨h1, h2, h3⟩ := (find_reverse_range _ _ _).1 e
    simp only [decide_eq_true_eq, Function.comp] at h2
    refine ⟨n, (hne n (by omega)).1 h2.1, by omega, rfl, h2.2, fun m hm hm' => ?_⟩
    have := h3 m hm (by omega)
    simp only [Function.comp, decide_eq_true_eq, decide_eq_false_iff_not, not_and, Bool.not_eq_true] at this
    exact this ((hne m hm').2 (by omega))
  | none =>
    right
    refine ⟨rfl, fun n h1 h2 => ?_⟩
    have := List.find?_eq_none.1 e n (List.mem_reverse.2 (List.mem_range.2 (by omega)))
    cases hg : gemfile (p.take n) with
    | false => rfl
    | true =>
      exfalso
      apply this
      simp only [Function.comp, decide_eq_true_eq]
      exact ⟨(hne n h2).2 h1, hg⟩

theorem checked_iff (root : Path) (sel : Option Path) (f : File) : checked root sel f = true ↔ IsChecked root sel f := by
  unfold checked IsChecked selectedSource
  rw [Bool.and_eq_true, Bool.or_eq_true, decide_eq_true_eq, decide_eq_true_eq]
  have hk : (f.kind = .project ∨ f.kind = .signature) ↔ f.kind ≠ .other := by cases f.kind <;> simp
  rw [hk]
  cases sel with
  | none => simp only [reduceCtorEq, false_or, true_and]; rw [under_iff]
  | some s => simp only [decide_eq_true_eq, Option.some.injEq, reduceCtorEq, false_and, or_false]; rw [eq_comm]

theorem mem_collect (root : Path) (sel : Option Path) (ws : List Workspace) (d : Diagnostic) :
    d ∈ ws.flatMap (collectDiagnostics root sel) ↔ Reported root sel ws d := by
  unfold Reported collectDiagnostics domain
  simp only [List.mem_flatMap, List.mem_append, List.mem_map, List.mem_filter, decide_eq_true_eq, checked_iff, syntaxEntry, factDiagnostic]
  constructor
  · rintro ⟨w, hw, ⟨f, ⟨⟨hf, hc⟩, hk⟩, s, hs, rfl⟩ | ⟨x, ⟨hx, hsel⟩, rfl⟩⟩
    · exact .inl ⟨w, hw, f, hf, s, hs, hc, hk, rfl⟩
    · refine .inr ⟨w, hw, x, hx, ?_, rfl⟩
      cases sel with
      | none => exact .inl rfl
      | some s => right; simp only [decide_eq_true_eq] at hsel; rw [hsel]
  · rintro (⟨w, hw, f, hf, s, hs, hc, hk, rfl⟩ | ⟨w, hw, x, hx, hsel, rfl⟩)
    · exact ⟨w, hw, .inl ⟨f, ⟨⟨hf, hc⟩, hk⟩, s, hs, rfl⟩⟩
    · refine ⟨w, hw, .inr ⟨x, ⟨hx, ?_⟩, rfl⟩⟩
      rcases hsel with rfl | rfl
      · rfl
      · simp

theorem check_eq {root : Path} {sel : Option Path} {ws : List Workspace} {r : Report} (h : check root sel ws = some r) :
    r = ⟨root, (ws.flatMap (fun w => w.files.filter (checked root sel))).length, normalize (ws.flatMap (collectDiagnostics root sel)),
      dedupAdj (stableSort inferredLe ((ws.flatMap (fun w => w.files.filter (checked root sel))).flatMap (solved root))),
      summarize (normalize (ws.flatMap (collectDiagnostics root sel)))⟩ := by
  unfold check at h
  simp only at h
  split at h
  · cases h
  · injection h with h
    exact h.symm

/-- **C86 (diagnostics).** A report has exactly the diagnostics of the parser for the checked files of the project and those of the engine, each
once and in order. -/
theorem c86_diagnostics (root : Path) (sel : Option Path) (ws : List Workspace) (r : Report) (h : check root sel ws = some r) :
    (∀ d, d ∈ r.diagnostics ↔ Reported root sel ws d) ∧ r.diagnostics.Nodup ∧ r.diagnostics.Pairwise (fun a b => diagLe a b = true) := by
  rw [check_eq h]
  have hs := stableSort_sorted (lin_order c86_linear.1) (ws.flatMap (collectDiagnostics root sel))
  refine ⟨fun d => ?_, ?_, ?_⟩
  · show d ∈ normalize _ ↔ _
    unfold normalize
    rw [mem_dedupAdj, mem_stableSort, mem_collect]
  · exact dedupAdj_nodup c86_linear.1.anti hs
  · exact List.Pairwise.sublist (dedupAdj_sublist _) hs

/-- **C86 (types).** A report has exactly the types of the checked files, each once and in order. -/
theorem c86_types (root : Path) (sel : Option Path) (ws : List Workspace) (r : Report) (h : check root sel ws = some r) :
    (∀ x, x ∈ r.inferred ↔ ∃ w ∈ ws, ∃ f ∈ w.files, IsChecked root sel f ∧ x ∈ solved root f) ∧ r.inferred.Nodup ∧
    r.inferred.Pairwise (fun a b => inferredLe a b = true) := by
  rw [check_eq h]
  have hs := stableSort_sorted (lin_order c86_linear.2) ((ws.flatMap (fun w => w.files.filter (checked root sel))).flatMap (solved root))
  refine ⟨fun d => ?_, ?_, ?_⟩
  · show d ∈ dedupAdj _ ↔ _
    rw [mem_dedupAdj, mem_stableSort]
    simp only [List.mem_flatMap, List.mem_filter, checked_iff]
    constructor
    · rintro ⟨f, ⟨w, hw, hf, hc⟩, hx⟩; exact ⟨w, hw, f, hf, hc, hx⟩
    · rintro ⟨w, hw, f, hf, hc, hx⟩; exact ⟨f, ⟨w, hw, hf, hc⟩, hx⟩
  · exact dedupAdj_nodup c86_linear.2.anti hs
  · exact List.Pairwise.sublist (dedupAdj_sublist _) hs

/-- **C86 (types of a file).** Every method of a file has a type, at its place and under its name; every known type of anything else is shown;
what is unknown is the return of a method, or an expression with a reason. -/
theorem c86_solved (root : Path) (f : File) :
    (∀ m ∈ f.methods, ∃ x ∈ solved root f, x.kind = .methodReturn ∧ x.subject = m.name ∧ x.range = checkRange m.range ∧
      (∀ o, m.exact_ = some o → x.outcome = o) ∧ (m.exact_ = none → ∀ t, m.declared = some t → x.outcome = .proven t) ∧
      (m.exact_ = none → m.declared = none → x.outcome = .unknown unresolvedReturn)) ∧
    (∀ y ∈ f.facts, ∀ t, y.type = some t → y.subject ≠ .methodReturn → ∃ x ∈ solved root f, x.outcome = .proven t ∧ x.range = checkRange y.range) ∧
    (∀ x ∈ solved root f, x.path = reportPath root f.path) ∧
    (∀ x ∈ solved root f, ∀ n, x.outcome = .unknown n → x.kind = .methodReturn ∨ x.kind = .expression) ∧
    (∀ x ∈ solved root f, x.kind = .methodReturn → ∃ m ∈ f.methods, x = methodEntry root f m) := by
  have hfact : ∀ y x, factEntry root f y = some x → x.path = reportPath root f.path ∧ x.kind ≠ .methodReturn ∧
      (∀ n, x.outcome = .unknown n → x.kind = .expression) := by
    rintro ⟨sub, ra, ty, re⟩ x h
    unfold factEntry at h
    cases ty with
    | none =>
      simp only at h
      split at h
      · cases re with
        | none => cases h
        | some r =>
          injection h with h; subst h
          exact ⟨rfl, by simp, fun _ _ => rfl⟩
      · cases h
    | some t =>
      cases sub <;> simp only [subjectEntry, reduceCtorEq, Option.some.injEq] at h <;> subst h <;>
        exact ⟨rfl, by simp, (fun n e => by cases e)⟩
  refine ⟨fun m hm => ?_, fun y hy t ht hs => ?_, fun x hx => ?_, fun x hx n hn => ?_, fun x hx hk => ?_⟩
  · refine ⟨methodEntry root f m, ?_, rfl, rfl, rfl, ?_, ?_, ?_⟩
    · unfold solved
      simp only [List.mem_append, List.mem_map]
      exact .inl (.inl (.inl (.inl ⟨m, hm, rfl⟩)))
    · intro o ho; simp only [methodEntry, ho]
    · intro h1 t h2; simp only [methodEntry, h1, h2]
    · intro h1 h2; simp only [methodEntry, h1, h2]
  · have : ∃ x, factEntry root f y = some x ∧ x.outcome = .proven t ∧ x.range = checkRange y.range := by
      obtain ⟨sub, ra, ty, re⟩ := y
      dsimp only at ht hs
      subst ht
      cases sub <;> first | (exact absurd rfl hs) | exact ⟨_, rfl, rfl, rfl⟩
    obtain ⟨x, h1, h2⟩ := this
    refine ⟨x, ?_, h2⟩
    unfold solved
    simp only [List.mem_append, List.mem_filterMap]
    exact .inl (.inl (.inl (.inr ⟨y, hy, h1⟩)))
  · unfold solved at hx
    simp only [List.mem_append, List.mem_map, List.mem_filterMap] at hx
    rcases hx with (((⟨m, _, rfl⟩ | ⟨y, _, h⟩) | ⟨u, _, rfl⟩) | ⟨u, _, rfl⟩) | ⟨u, _, rfl⟩
    · rfl
    · exact (hfact y x h).1
    · rfl
    · rfl
    · rfl
  · unfold solved at hx
    simp only [List.mem_append, List.mem_map, List.mem_filterMap] at hx
    rcases hx with (((⟨m, _, rfl⟩ | ⟨y, _, h⟩) | ⟨u, _, rfl⟩) | ⟨u, _, rfl⟩) | ⟨u, _, rfl⟩
    · exact .inl rfl
    · exact .inr ((hfact y x h).2.2 n hn)
    · exact .inr rfl
    · exact .inr rfl
    · exact .inr rfl
  · unfold solved at hx
    simp only [List.mem_append, List.mem_map, List.mem_filterMap] at hx
    rcases hx with (((⟨m, hm, rfl⟩ | ⟨y, _, h⟩) | ⟨u, _, rfl⟩) | ⟨u, _, rfl⟩) | ⟨u, _, rfl⟩
    · exact ⟨m, hm, rfl⟩
    · exact absurd hk (hfact y x h).2.1
    · cases hk
    · cases hk
    · cases hk

/-! ### Summary -/

theorem summarize_acc (ds : List Diagnostic) : ∀ s : Summary, ds.foldl (fun s d => s.add d.severity) s =
    ⟨s.errors + ds.countP (fun d => decide (d.severity = .error)), s.warnings + ds.countP (fun d => decide (d.severity = .warning)),
     s.information + ds.countP (fun d => decide (d.severity = .information)), s.hints + ds.countP (fun d => decide (d.severity = .hint))⟩ := by
  induction ds with
  | nil => intro s; rfl
  | cons d ds ih =>
    intro s
    rw [List.foldl_cons, ih]
    simp only [List.countP_cons]
    cases e : d.severity <;> simp [Summary.add] <;> omega

/-- **C86 (summary).** The summary counts the diagnostics of the report by severity, the counts add up to the number of diagnostics, and the check
fails exactly when the report has an error or a warning. -/
theorem c86_summary (root : Path) (sel : Option Path) (ws : List Workspace) (r : Report) (h : check root sel ws = some r) :
    r.summary = ⟨r.diagnostics.countP (fun d => decide (d.severity = .error)), r.diagnostics.countP (fun d => decide (d.severity = .warning)),
      r.diagnostics.countP (fun d => decide (d.severity = .information)), r.diagnostics.countP (fun d => decide (d.severity = .hint))⟩ ∧
    r.summary.errors + r.summary.warnings + r.summary.information + r.summary.hints = r.diagnostics.length ∧
    (hasFailures r.summary = true ↔ ∃ d, Reported root sel ws d ∧ (d.severity = .error ∨ d.severity = .warning)) := by
  have hd := (c86_diagnostics root sel ws r h).1
  have hs : r.summary = summarize r.diagnostics := by rw [check_eq h]
  have hc : summarize r.diagnostics = ⟨r.diagnostics.countP (fun d => decide (d.severity = .error)), r.diagnostics.countP (fun d => decide (d.severity = .warning)),
      r.diagnostics.countP (fun d => decide (d.severity = .information)), r.diagnostics.countP (fun d => decide (d.severity = .hint))⟩ := by
    unfold summarize; rw [summarize_acc]; simp
  rw [hs, hc]
  refine ⟨rfl, ?_, ?_⟩
  · dsimp only
    generalize r.diagnostics = ds
    induction ds with
    | nil => rfl
    | cons d ds ih =>
      simp only [List.countP_cons, List.length_cons]
      cases e : d.severity <;> simp <;> omega
  · unfold hasFailures
    simp only [Bool.or_eq_true, decide_eq_true_eq, List.countP_pos_iff]
    constructor
    · rintro (⟨d, h1, h2⟩ | ⟨d, h1, h2⟩)
      · exact ⟨d, (hd d).1 h1, .inl h2⟩
      · exact ⟨d, (hd d).1 h1, .inr h2⟩
    · rintro ⟨d, h1, h2 | h2⟩
      · exact .inl ⟨d, (hd d).2 h1, h2⟩
      · exact .inr ⟨d, (hd d).2 h1, h2⟩

/-- **C86 (no order of collection).** The report does not depend on the order in which projects, files and facts are visited. -/
theorem c86_unordered (root : Path) (sel : Option Path) (ws ws' : List Workspace) (hf : (ws.flatMap Workspace.files).Perm (ws'.flatMap Workspace.files))
    (hx : (ws.flatMap Workspace.facts).Perm (ws'.flatMap Workspace.facts)) : check root sel ws = check root sel ws' := by
  have e1 : ∀ ws : List Workspace, ws.flatMap (fun w => w.files.filter (checked root sel)) = (ws.flatMap Workspace.files).filter (checked root sel) := by
    intro ws; rw [List.filter_flatMap]
  have p1 : (ws.flatMap (fun w => w.files.filter (checked root sel))).Perm (ws'.flatMap (fun w => w.files.filter (checked root sel))) := by
    rw [e1, e1]; exact hf.filter _
  have e2 : normalize (ws.flatMap (collectDiagnostics root sel)) = normalize (ws'.flatMap (collectDiagnostics root sel)) := by
    have split : ∀ ws : List Workspace, (ws.flatMap (collectDiagnostics root sel)).Perm
        ((((ws.flatMap Workspace.files).filter (checked root sel)).filter (fun f => decide (f.kind = .project))).flatMap
          (fun f => f.parsed.map (syntaxEntry root f.path)) ++ domain root sel (ws.flatMap Workspace.facts)) := by
      intro ws
      induction ws with
      | nil => unfold domain; exact .refl _
      | cons w ws ih =>
        simp only [List.flatMap_cons, List.filter_append, List.flatMap_append]
        have hdom : domain root sel (w.facts ++ ws.flatMap Workspace.facts) = domain root sel w.facts ++ domain root sel (ws.flatMap Workspace.facts) := by
          unfold domain; rw [List.filter_append, List.map_append]
        rw [hdom]
        refine ((List.Perm.refl _).append ih).trans ?_
        unfold collectDiagnostics
        generalize ((w.files.filter (checked root sel)).filter (fun f => decide (f.kind = .project))).flatMap (fun f => f.parsed.map (syntaxEntry root f.path)) = A
        generalize domain root sel w.facts = B
        generalize (((ws.flatMap Workspace.files).filter (checked root sel)).filter (fun f => decide (f.kind = .project))).flatMap (fun f => f.parsed.map (syntaxEntry root f.path)) = C
        generalize domain root sel (ws.flatMap Workspace.facts) = D
        rw [List.append_assoc, List.append_assoc]
        refine List.Perm.append_left A ?_
        rw [← List.append_assoc, ← List.append_assoc]
        exact List.Perm.append_right D List.perm_append_comm
    unfold normalize
    rw [stableSort_perm_eq (lin_order c86_linear.1) c86_linear.1.anti ((split ws).trans (List.Perm.trans ?_ (split ws').symm))]
    refine List.Perm.append ?_ ?_
    · exact ((hf.filter _).filter _).flatMap_right _
    · unfold domain; exact (hx.filter _).map _
  unfold check
  simp only
  rw [e2, p1.length_eq, stableSort_perm_eq (lin_order c86_linear.2) c86_linear.2.anti (p1.flatMap_right (solved root))]

/-- **C86 (one file).** The check of one file fails unless exactly one file is checked, and everything in the report is about the file. -/
theorem c86_one (root s : Path) (ws : List Workspace) :
    (check root (some s) ws = none ↔ (ws.flatMap (fun w => w.files.filter (fun f => decide (f.kind ≠ .other ∧ f.path = s)))).length ≠ 1) ∧
    ∀ r, check root (some s) ws = some r → r.filesChecked = 1 ∧ (∀ d ∈ r.diagnostics, d.path = reportPath root s) ∧
      ∀ x ∈ r.inferred, x.path = reportPath root s := by
  have hc : ∀ f, checked root (some s) f = decide (f.kind ≠ .other ∧ f.path = s) := by
    intro f
    rw [Bool.eq_iff_iff, checked_iff, decide_eq_true_eq]
    unfold IsChecked
    simp [eq_comm]
  have hcf : checked root (some s) = fun f => decide (f.kind ≠ .other ∧ f.path = s) := funext hc
  constructor
  · unfold check
    simp only
    rw [hcf]
    split
    · rename_i h; exact ⟨fun _ => h.2, fun _ => rfl⟩
    · rename_i h
      constructor
      · intro e; cases e
      · intro e; exact absurd ⟨rfl, e⟩ h
  · intro r h
    refine ⟨?_, fun d hd => ?_, fun x hx => ?_⟩
    · unfold check at h
      simp only at h
      split at h
      · cases h
      · rename_i hn
        injection h with h
        rw [← h]
        apply Classical.byContradiction
        intro e
        exact hn ⟨rfl, e⟩
    · rcases ((c86_diagnostics root (some s) ws r h).1 d).1 hd with ⟨w, _, f, _, x, _, hck, _, rfl⟩ | ⟨w, _, x, _, hs, rfl⟩
      · rcases hck.2 with e | ⟨e, _⟩
        · injection e with e; rw [e]
        · cases e
      · rcases hs with e | e
        · cases e
        · injection e with e; rw [e]
    · obtain ⟨w, _, f, _, hck, hx⟩ := ((c86_types root (some s) ws r h).1 x).1 hx
      rw [(c86_solved root f).2.2.1 x hx]
      rcases hck.2 with e | ⟨e, _⟩
      · injection e with e; rw [e]
      · cases e

/-- **C86 (positions).** Lines and columns count from one, and different places stay different. -/
theorem c86_positions (a b : Range) : (checkRange a).start.line = a.start.line + 1 ∧ (checkRange a).start.column = a.start.column + 1 ∧
    (checkRange a).stop.line = a.stop.line + 1 ∧ (checkRange a).stop.column = a.stop.column + 1 ∧ (checkRange a = checkRange b → a = b) := by
  refine ⟨rfl, rfl, rfl, rfl, fun h => ?_⟩
  obtain ⟨⟨a1, a2⟩, ⟨a3, a4⟩⟩ := a
  obtain ⟨⟨b1, b2⟩, ⟨b3, b4⟩⟩ := b
  simp only [checkRange, oneBased, Range.mk.injEq, Pos.mk.injEq] at h ⊢
  omega

/-! ### Cases -/

def tA : Text := [97]
def tB : Text := [98]
def rootP : Path := [none, some tA]
def at_ (l : Nat) : Range := ⟨⟨l, 0⟩, ⟨l, 1⟩⟩
def fileB : File :=
  ⟨rootP ++ [some tB], .project, [⟨at_ 3, none, none, [1]⟩, ⟨at_ 3, none, none, [1]⟩, ⟨at_ 1, some .hint, none, [2]⟩],
   [⟨[109], at_ 0, none, some [84]⟩, ⟨[110], at_ 2, none, none⟩], [⟨.parameter [109] [120], at_ 0, some [83], none⟩, ⟨.methodReturn, at_ 0, some [83], none⟩,
    ⟨.local_ [121], at_ 5, none, some 1⟩], [(at_ 4, 3)], [(at_ 4, [84])], []⟩
def sigC : File := ⟨rootP ++ [some [99]], .signature, [⟨at_ 0, none, none, [7]⟩], [], [], [], [], []⟩
def gem : Path := [none, some [103]]

theorem c86_example : check rootP none [⟨[fileB, sigC, ⟨gem, .project, [⟨at_ 0, none, none, [9]⟩], [], [], [], [], []⟩], []⟩] =
    some ⟨rootP, 2, [⟨[some tB], ⟨⟨2, 1⟩, ⟨2, 2⟩⟩, .hint, none, [2]⟩, ⟨[some tB], ⟨⟨4, 1⟩, ⟨4, 2⟩⟩, .error, none, [1]⟩],
      [⟨[some tB], ⟨⟨1, 1⟩, ⟨1, 2⟩⟩, .methodReturn, [109], .proven [84]⟩, ⟨[some tB], ⟨⟨1, 1⟩, ⟨1, 2⟩⟩, .parameter, [109, 40, 120, 41], .proven [83]⟩,
       ⟨[some tB], ⟨⟨3, 1⟩, ⟨3, 2⟩⟩, .methodReturn, [110], .unknown 5⟩, ⟨[some tB], ⟨⟨5, 1⟩, ⟨5, 2⟩⟩, .expression, tExpression, .proven [84]⟩,
       ⟨[some tB], ⟨⟨5, 1⟩, ⟨5, 2⟩⟩, .expression, tExpression, .unknown 3⟩], ⟨1, 0, 0, 1⟩⟩ ∧
    nearestRoot (fun p => decide (p = rootP)) (rootP ++ [some tB, some tB]) = rootP ∧ nearestRoot (fun _ => false) (rootP ++ [some tB]) = rootP := by
  decide +kernel

/-- **C86 fails for other files**: when a directory is checked, the diagnostics of the engine for files that are not checked are in the report
and make the check fail. -/
theorem c86_outside_fails : ∃ r, check rootP none [⟨[], [⟨gem, at_ 0, .warning, [99], [1]⟩]⟩] = some r ∧ r.filesChecked = 0 ∧
    hasFailures r.summary = true :=
  ⟨⟨rootP, 0, [⟨gem, ⟨⟨1, 1⟩, ⟨1, 2⟩⟩, .warning, some [99], [1]⟩], [], ⟨0, 1, 0, 0⟩⟩, by decide +kernel, rfl, by decide +kernel⟩

/-- **C86 fails for signatures**: an error of syntax in a signature file that is checked is not in the report. -/
theorem c86_signature_fails : ∃ r, check rootP none [⟨[sigC], []⟩] = some r ∧ r.filesChecked = 1 ∧ sigC.parsed ≠ [] ∧ r.diagnostics = [] :=
  ⟨⟨rootP, 1, [], [], ⟨0, 0, 0, 0⟩⟩, by decide +kernel, rfl, by decide +kernel, rfl⟩

/-- **C86 fails for one answer per expression**: one expression can be shown with a type and as unknown. -/
theorem c86_answers_fails : ∃ r, check rootP none [⟨[fileB], []⟩] = some r ∧ ∃ x ∈ r.inferred, ∃ y ∈ r.inferred, x.path = y.path ∧ x.range = y.range ∧
    x.kind = y.kind ∧ x.subject = y.subject ∧ x.outcome = .proven [84] ∧ y.outcome = .unknown 3 := by
  cases e : check rootP none [⟨[fileB], []⟩] with
  | none => exact absurd e (by decide +kernel)
  | some r =>
    refine ⟨r, rfl, ⟨[some tB], ⟨⟨5, 1⟩, ⟨5, 2⟩⟩, .expression, tExpression, .proven [84]⟩, ?_, ⟨[some tB], ⟨⟨5, 1⟩, ⟨5, 2⟩⟩, .expression, tExpression, .unknown 3⟩, ?_,
      rfl, rfl, rfl, rfl, rfl, rfl⟩
    · have : (check rootP none [⟨[fileB], []⟩]).any (fun r => decide ((⟨[some tB], ⟨⟨5, 1⟩, ⟨5, 2⟩⟩, .expression, tExpression, .proven [84]⟩ : Inferred) ∈ r.inferred)) = true := by decide +kernel
      rw [e] at this; simpa using this
    · have : (check rootP none [⟨[fileB], []⟩]).any (fun r => decide ((⟨[some tB], ⟨⟨5, 1⟩, ⟨5, 2⟩⟩, .expression, tExpression, .unknown 3⟩ : Inferred) ∈ r.inferred)) = true := by decide +kernel
      rw [e] at this; simpa using this

end Verif.CheckReport
