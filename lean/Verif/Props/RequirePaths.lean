import Verif.Spec.RequirePaths
import Mathlib.Tactic.Common
/-!
C81: `require` and `require_relative` lead to the file that Ruby loads, and only strings without a file are reported.
-/
namespace Verif.RequirePaths

/-! ## The strings of a document -/

theorem visit_none (t : Syn) (acc : List Target) :
    visit none t acc = acc ++ (calls t).filterMap (fun c => target c.1 c.2.1 c.2.2) := by
  induction t generalizing acc with
  | nil => simp [visit, calls]
  | other kids next ihk ihn =>
    simp only [visit, calls, List.filterMap_append]
    rw [ihk, ihn, List.append_assoc]
  | call n r as kids next ihk ihn =>
    simp only [visit, calls, List.cons_append, List.filterMap_cons, List.filterMap_append]
    cases target n r as with
    | none =>
      dsimp only
      rw [ihk, ihn, List.append_assoc]
    | some t =>
      dsimp only
      rw [ihk, ihn]
      simp

theorem target_some {n : Name} {r : Receiver} {as : List Arg} {x : Target} :
    target n r as = some x ↔ r ≠ .other ∧ as = [.str x.argument x.start x.stop] ∧
      ((n = .require ∧ x.kind = .require) ∨ (n = .requireRelative ∧ x.kind = .relative)) := by
  obtain ⟨k, t, a, b⟩ := x
  simp only [target]
  rcases as with _ | ⟨x, _ | ⟨y, l⟩⟩
  · cases n <;> by_cases hr : r = .other <;> simp [hr]
  · cases x <;> cases n <;> by_cases hr : r = .other <;> simp [hr]
    all_goals constructor
    all_goals first
      | (rintro ⟨rfl, rfl, rfl, rfl⟩; exact ⟨⟨rfl, rfl, rfl⟩, rfl⟩)
      | (rintro ⟨⟨rfl, rfl, rfl⟩, rfl⟩; exact ⟨rfl, rfl, rfl, rfl⟩)
  · cases x <;> cases n <;> by_cases hr : r = .other <;> simp [hr]

/-- The strings are exactly those of calls of `require` and `require_relative` without a receiver or with `Kernel`, with this string
as the only argument, in the order of the text.  For every document. -/
theorem c81_strings (t : Syn) :
    (∀ x, x ∈ findAll t ↔ ∃ n r, (n, r, [Arg.str x.argument x.start x.stop]) ∈ calls t ∧ r ≠ .other ∧
      ((n = .require ∧ x.kind = .require) ∨ (n = .requireRelative ∧ x.kind = .relative))) ∧
    ((findAll t).map (fun x => [Arg.str x.argument x.start x.stop])).Sublist ((calls t).map (fun c => c.2.2)) := by
  simp only [findAll]
  rw [visit_none, List.nil_append]
  constructor
  · intro x
    rw [List.mem_filterMap]
    constructor
    · rintro ⟨⟨n, r, as⟩, hc, h⟩
      obtain ⟨h1, h2, h3⟩ := target_some.mp h
      dsimp only at h1 h2 h3
      exact ⟨n, r, by rw [← h2]; exact hc, h1, h3⟩
    · rintro ⟨n, r, hc, h1, h3⟩
      exact ⟨_, hc, target_some.mpr ⟨h1, rfl, h3⟩⟩
  · generalize calls t = cs
    induction cs with
    | nil => simp
    | cons c cs ih =>
      rw [List.filterMap_cons]
      cases h : target c.1 c.2.1 c.2.2 with
      | none => exact ih.cons c.2.2
      | some x =>
        rw [List.map_cons, List.map_cons, ← (target_some.mp h).2.1]
        exact ih.cons_cons c.2.2

def covers (o : Nat) (x : Target) : Bool := decide (x.start ≤ o) && decide (o ≤ x.stop)

theorem visit_some (o : Nat) (t : Syn) (acc : List Target) :
    ∃ L, visit (some o) t acc = acc ++ L ∧
      L.head? = ((calls t).filterMap (fun c => target c.1 c.2.1 c.2.2)).find? (covers o) := by
  induction t generalizing acc with
  | nil => exact ⟨[], by simp [visit], rfl⟩
  | other kids next ihk ihn =>
    obtain ⟨K, k1, k2⟩ := ihk acc
    obtain ⟨N, n1, n2⟩ := ihn (acc ++ K)
    refine ⟨K ++ N, ?_, ?_⟩
    · simp only [visit]
      rw [k1, n1, List.append_assoc]
    · simp only [calls, List.filterMap_append, List.find?_append, List.head?_append]
      rw [k2, n2]
  | call n r as kids next ihk ihn =>
    simp only [visit, calls, List.cons_append, List.filterMap_cons, List.filterMap_append]
    have plain : ∃ L, visit (some o) next (visit (some o) kids acc) = acc ++ L ∧
        L.head? = ((calls kids).filterMap (fun c => target c.1 c.2.1 c.2.2) ++
          (calls next).filterMap (fun c => target c.1 c.2.1 c.2.2)).find? (covers o) := by
      obtain ⟨K, k1, k2⟩ := ihk acc
      obtain ⟨N, n1, n2⟩ := ihn (acc ++ K)
      refine ⟨K ++ N, ?_, ?_⟩
      · rw [k1, n1, List.append_assoc]
      · simp only [List.find?_append, List.head?_append]
        rw [k2, n2]
    cases target n r as with
    | none => exact plain
    | some x =>
      dsimp only
      by_cases h : o ≥ x.start ∧ o ≤ x.stop
      · rw [if_pos h]
        obtain ⟨N, n1, n2⟩ := ihn (acc ++ [x])
        refine ⟨x :: N, by rw [n1]; simp, ?_⟩
        have : covers o x = true := by simp [covers, h]
        rw [List.find?_cons, this]
        rfl
      · rw [if_neg h]
        have : covers o x = false := by
          simp only [covers]
          rw [Bool.eq_false_iff]
          intro k
          simp at k
          exact h k
        rw [List.find?_cons, this]
        exact plain

/-- The string at the cursor is the first of all strings that has the cursor in it or at one of its ends. -/
theorem c81_at (t : Syn) (o : Nat) : findAt t o = (findAll t).find? (fun x => decide (x.start ≤ o) && decide (o ≤ x.stop)) := by
  simp only [findAt, findAll]
  obtain ⟨L, h1, h2⟩ := visit_some o t []
  rw [h1, visit_none, List.nil_append, List.nil_append, h2]
  rfl

/-- The range that is marked lies in the string, and is what stands between two equal quotes. -/
theorem c81_content (x : Target) (src : Text) (h : x.start ≤ x.stop) (hl : x.stop ≤ src.length) :
    (x.start ≤ (contentRange x src).1 ∧ (contentRange x src).1 ≤ (contentRange x src).2 ∧ (contentRange x src).2 ≤ x.stop) ∧
    ∀ q body, q = 39 ∨ q = 34 → (src.take x.stop).drop x.start = q :: (body ++ [q]) →
      (src.take (contentRange x src).2).drop (contentRange x src).1 = body := by
  have len : ((src.take x.stop).drop x.start).length = x.stop - x.start := by
    rw [List.length_drop, List.length_take]
    omega
  constructor
  · simp only [contentRange]
    split
    · rename_i h2
      rw [len] at h2
      split <;> dsimp only <;> omega
    · dsimp only
      omega
  · intro q body hq e
    have h2 : 2 ≤ ((src.take x.stop).drop x.start).length := by
      rw [e]
      simp
    have c : contentRange x src = (x.start + 1, x.stop - 1) := by
      simp only [contentRange]
      rw [if_pos h2, if_pos]
      rw [e]
      refine ⟨?_, ?_⟩
      · rcases hq with rfl | rfl <;> simp
      · rw [← List.cons_append, List.getLast?_append]
        simp
    rw [c]
    dsimp only
    rw [e] at len
    simp only [List.length_cons, List.length_append, List.length_nil] at len
    have d : src.take (x.stop - 1) = (src.take x.stop).take (x.stop - 1) := by
      rw [List.take_take]
      congr 1
      omega
    rw [d, ← List.drop_drop, List.drop_take, e]
    rw [show x.stop - 1 - x.start = (q :: body).length by simp; omega]
    rw [← List.cons_append, List.take_left]
    rfl

/-! ## The file -/

theorem find_pair {w : World} {p : Path} : existing w p = if hit w p = true then some p else if hit w (withRb p) = true then some (withRb p) else none := by
  simp only [existing, List.find?_cons, List.find?_nil]
  cases hit w p <;> simp
  cases hit w (withRb p) <;> simp

/-- The roots are tried in order, each with the argument as it is and then with `.rb`; the first path that is a file or is known is
the answer, and there is none exactly when no root has one. -/
theorem c81_resolve (w : World) (arg : Text) (current project : Dir) (lps : List Text) (deps : List Dir) (ha : arg ≠ []) :
    (∀ p, resolve w .require arg current project lps deps = some p ↔ ∃ l1 r l2, roots project lps deps = l1 ++ r :: l2 ∧
      (∀ s ∈ l1, hit w (join s arg) = false ∧ hit w (withRb (join s arg)) = false) ∧ hit w p = true ∧
      (p = join r arg ∨ (p = withRb (join r arg) ∧ hit w (join r arg) = false))) ∧
    (resolve w .require arg current project lps deps = none ↔
      ∀ r ∈ roots project lps deps, hit w (join r arg) = false ∧ hit w (withRb (join r arg)) = false) ∧
    (∀ p, resolve w .relative arg current project lps deps = some p ↔ current ≠ [] ∧ hit w p = true ∧
      (p = join current.dropLast arg ∨ (p = withRb (join current.dropLast arg) ∧ hit w (join current.dropLast arg) = false))) ∧
    (∀ k, resolve w k [] current project lps deps = none) ∧
    (∀ p, hit w p = true ↔ (p.slash = false ∧ w.isFile p.comps = true) ∨ w.known p.comps = true) := by
  have none1 : ∀ p, existing w p = none ↔ hit w p = false ∧ hit w (withRb p) = false := by
    intro p
    rw [find_pair]
    cases hit w p <;> cases hit w (withRb p) <;> simp
  have some1 : ∀ p q, existing w p = some q ↔ hit w q = true ∧ (q = p ∨ (q = withRb p ∧ hit w p = false)) := by
    intro p q
    rw [find_pair]
    cases h1 : hit w p <;> cases h2 : hit w (withRb p) <;> simp
    · intro h
      constructor
      · rintro rfl
        rw [h1] at h
        cases h
      · rintro rfl
        rw [h2] at h
        cases h
    · constructor
      · rintro rfl
        exact ⟨h2, Or.inr rfl⟩
      · rintro ⟨h, rfl | rfl⟩
        · rw [h1] at h
          cases h
        · rfl
    · constructor
      · rintro rfl
        exact ⟨h1, rfl⟩
      · rintro ⟨_, rfl⟩
        rfl
    · constructor
      · rintro rfl
        exact ⟨h1, rfl⟩
      · rintro ⟨_, rfl⟩
        rfl
  refine ⟨?_, ?_, ?_, fun _ => rfl, fun p => by simp [hit]⟩
  · intro p
    simp only [resolve]
    rw [if_neg ha, List.findSome?_map]
    generalize roots project lps deps = rs
    induction rs with
    | nil => simp
    | cons r rs ih =>
      rw [List.findSome?_cons]
      simp only [Function.comp]
      cases h : existing w (join r arg) with
      | some q =>
        dsimp only
        obtain ⟨s1, s2⟩ := (some1 _ _).mp h
        constructor
        · rintro ⟨⟩
          exact ⟨[], r, rs, rfl, (fun s hs => by cases hs), s1, s2⟩
        · rintro ⟨l1, r', l2, e, h1, h2, h3⟩
          cases l1 with
          | nil =>
            cases e
            rw [← (some1 _ _).mpr ⟨h2, h3⟩, h]
          | cons a l1 =>
            cases e
            have := h1 r List.mem_cons_self
            rw [(none1 _).mpr this] at h
            cases h
      | none =>
        dsimp only
        have hn := (none1 _).mp h
        rw [ih]
        constructor
        · rintro ⟨l1, r', l2, e, h1, h2, h3⟩
          refine ⟨r :: l1, r', l2, by rw [e]; rfl, ?_, h2, h3⟩
          intro s hs
          rcases List.mem_cons.mp hs with rfl | hs
          · exact hn
          · exact h1 s hs
        · rintro ⟨l1, r', l2, e, h1, h2, h3⟩
          cases l1 with
          | nil =>
            cases e
            have := (some1 _ _).mpr ⟨h2, h3⟩
            rw [h] at this
            cases this
          | cons a l1 =>
            cases e
            exact ⟨l1, r', l2, rfl, (fun s hs => h1 s (List.mem_cons_of_mem _ hs)), h2, h3⟩
  · simp only [resolve]
    rw [if_neg ha, List.findSome?_eq_none_iff]
    constructor
    · intro h r hr
      exact (none1 _).mp (h _ (List.mem_map.mpr ⟨r, hr, rfl⟩))
    · intro h p hp
      obtain ⟨r, hr, rfl⟩ := List.mem_map.mp hp
      exact (none1 _).mpr (h r hr)
  · intro p
    simp only [resolve]
    rw [if_neg ha]
    by_cases hc : current = []
    · rw [if_pos hc]
      constructor
      · intro h
        cases h
      · intro h
        exact absurd hc h.1
    · rw [if_neg hc, some1]
      exact ⟨fun h => ⟨hc, h⟩, fun h => h.2⟩

theorem rsplitDot_some {t a b : Text} : rsplitDot t = some (a, b) ↔ t = a ++ 46 :: b ∧ 46 ∉ b := by
  have none1 : ∀ t, rsplitDot t = none ↔ 46 ∉ t := by
    intro t
    induction t with
    | nil => simp [rsplitDot]
    | cons c cs ih =>
      simp only [rsplitDot]
      cases h : rsplitDot cs with
      | some x =>
        dsimp only
        constructor
        · intro k
          cases k
        · intro k
          rw [ih.mpr (fun m => k (List.mem_cons_of_mem _ m))] at h
          cases h
      | none =>
        dsimp only
        have hc := ih.mp h
        by_cases h46 : c = 46
        · simp [h46]
        · rw [if_neg h46]
          simp only [true_iff]
          intro k
          rcases List.mem_cons.mp k with k | k
          · exact h46 k.symm
          · exact hc k
  induction t generalizing a with
  | nil => simp [rsplitDot]
  | cons c cs ih =>
    simp only [rsplitDot]
    cases h : rsplitDot cs with
    | some x =>
      obtain ⟨x1, x2⟩ := x
      dsimp only
      constructor
      · rintro ⟨⟩
        obtain ⟨e, n⟩ := ih.mp h
        exact ⟨by rw [e]; rfl, n⟩
      · rintro ⟨e, n⟩
        cases a with
        | nil =>
          cases e
          rw [(none1 _).mpr n] at h
          cases h
        | cons y a =>
          cases e
          have := ih.mpr ⟨rfl, n⟩
          rw [h] at this
          cases this
          rfl
    | none =>
      dsimp only
      have hc := (none1 _).mp h
      constructor
      · intro k
        split at k
        · rename_i h46
          cases k
          rw [h46]
          exact ⟨rfl, hc⟩
        · cases k
      · rintro ⟨e, n⟩
        cases a with
        | nil =>
          cases e
          rfl
        | cons y a =>
          cases e
          exact absurd (by simp) hc

theorem segments_ne (t : Text) : segments t ≠ [] := by
  cases t with
  | nil => simp [segments]
  | cons c cs =>
    simp only [segments]
    split
    · simp
    · split <;> simp

theorem plain_absolute {arg : Text} (hp : Plain arg) : isAbsolute arg = false := by
  cases arg with
  | nil => rfl
  | cons c cs =>
    simp only [isAbsolute]
    by_cases h : c = 47
    · exact absurd rfl (hp [] (by simp [segments, h])).1
    · simp [h]

theorem plain_join {arg : Text} (hp : Plain arg) (r : Dir) : join r arg = ⟨r ++ segments arg, false⟩ := by
  have hc : comps arg = segments arg := by
    simp only [comps]
    rw [List.filter_eq_self]
    intro s hs
    obtain ⟨a, b, _⟩ := hp s hs
    simp [a, b]
  have hl := hp ((segments arg).getLastD []) (by
    rw [List.getLastD_eq_getLast?, List.getLast?_eq_some_getLast (segments_ne arg)]
    exact List.getLast_mem _)
  simp only [join]
  rw [plain_absolute hp, hc]
  have e : (decide ((segments arg).getLastD [] = []) || decide ((segments arg).getLastD [] = dot)) = false := by
    rw [decide_eq_false hl.1, decide_eq_false hl.2.1]
    rfl
  rw [e]
  rfl

/-- For an argument of plain names, a world where the engine knows files only, no file of the bare name and none in the project
root itself, the answer is the file that Ruby loads from the load path. -/
theorem c81_ruby (w : World) (arg : Text) (current project : Dir) (lps : List Text) (deps : List Dir) (ha : arg ≠ []) (hp : Plain arg)
    (odd : ¬ Odd ((segments arg).getLastD [])) (known : ∀ d, w.known d = true → w.isFile d = true)
    (bare : ¬ dotRb <:+ (segments arg).getLastD [] → ∀ r ∈ roots project lps deps, w.isFile (r ++ segments arg) = false)
    (proj : w.isFile (rubyFile arg project) = false) :
    (resolve w .require arg current project lps deps).map Path.comps =
      rubyRequire w.isFile arg (lps.filterMap (validated project) ++ [project ++ [lib]] ++ deps.filter (fun d => decide (d ≠ []))) := by
  obtain ⟨init, last, hseg⟩ : ∃ init last, segments arg = init ++ [last] :=
    ⟨_, _, (List.dropLast_concat_getLast (segments_ne arg)).symm⟩
  have hlast : (segments arg).getLastD [] = last := by rw [hseg]; simp
  have hinit : (segments arg).dropLast = init := by rw [hseg]; simp
  have hdd : last ≠ dotdot := (hp last (by rw [hseg]; simp)).2.2
  have hne : last ≠ [] := (hp last (by rw [hseg]; simp)).1
  rw [hlast] at odd bare
  have hfile : ∀ r, rubyFile arg r = r ++ init ++ [if dotRb <:+ last then last else last ++ dotRb] := by
    intro r
    simp only [rubyFile, hlast, hinit]
  have hfn : ∀ r : Dir, fileName ⟨r ++ segments arg, false⟩ = some last := by
    intro r
    simp only [fileName]
    rw [hseg, ← List.append_assoc, List.getLast?_append]
    simp [hdd]
  have key : ∀ r ∈ roots project lps deps,
      (existing w (join r arg)).map Path.comps = if w.isFile (rubyFile arg r) = true then some (rubyFile arg r) else none := by
    intro r hr
    rw [plain_join hp, find_pair]
    have hk : ∀ d, hit w ⟨d, false⟩ = w.isFile d := by
      intro d
      simp only [hit]
      cases h : w.known d with
      | false => simp
      | true => simp [known d h]
    by_cases hs : dotRb <:+ last
    · have hext : (extension ⟨r ++ segments arg, false⟩).any isRb = true := by
        obtain ⟨a, e⟩ := hs
        simp only [extension, hfn]
        have : rsplitDot last = some (a, [114, 98]) := rsplitDot_some.mpr ⟨by rw [← e]; rfl, by decide⟩
        rw [this]
        dsimp only
        have hane : a ≠ [] := by
          intro h
          rw [h] at e
          exact odd (Or.inl e.symm)
        rw [if_neg hane]
        rfl
      have hw : withRb ⟨r ++ segments arg, false⟩ = ⟨r ++ segments arg, false⟩ := by
        simp only [withRb]
        rw [if_pos hext]
      rw [hw, hk, hfile, if_pos hs, hseg, ← List.append_assoc]
      cases w.isFile (r ++ init ++ [last]) <;> rfl
    · have hext : (extension ⟨r ++ segments arg, false⟩).any isRb = false := by
        rw [Bool.eq_false_iff]
        intro h
        simp only [extension, hfn] at h
        cases hsp : rsplitDot last with
        | none =>
          rw [hsp] at h
          cases h
        | some x =>
          obtain ⟨a, b⟩ := x
          rw [hsp] at h
          dsimp only at h
          split at h
          · cases h
          · rename_i hane
            obtain ⟨e, _⟩ := rsplitDot_some.mp hsp
            simp [isRb] at h
            by_cases hb : b = [114, 98]
            · exact hs ⟨a, by rw [e, hb]; rfl⟩
            · exact odd (Or.inr ⟨a, b, hane, e, h, hb⟩)
      have hw : withRb ⟨r ++ segments arg, false⟩ = ⟨r ++ init ++ [last ++ dotRb], false⟩ := by
        simp only [withRb]
        rw [if_neg (by rw [hext]; simp), hfn]
        dsimp only
        rw [hseg, ← List.append_assoc, List.dropLast_concat]
      rw [hw, hk, hk, bare hs r hr, hfile, if_neg hs]
      by_cases hf : w.isFile (r ++ init ++ [last ++ dotRb]) = true
      · simp [hf]
      · simp [hf]
  have all : ∀ rs : List Dir, (∀ r ∈ rs, r ∈ roots project lps deps) →
      ((rs.map (fun r => join r arg)).findSome? (existing w)).map Path.comps = (rs.map (rubyFile arg)).find? w.isFile := by
    intro rs
    induction rs with
    | nil => intro _; rfl
    | cons r rs ih =>
      intro h
      have k := key r (h r List.mem_cons_self)
      have ih := ih (fun x hx => h x (List.mem_cons_of_mem _ hx))
      simp only [List.map_cons, List.findSome?_cons, List.find?_cons]
      cases he : existing w (join r arg) with
      | some p =>
        rw [he] at k
        by_cases hf : w.isFile (rubyFile arg r) = true
        · rw [if_pos hf] at k
          rw [hf]
          exact k
        · rw [if_neg hf] at k
          cases k
      | none =>
        rw [he] at k
        by_cases hf : w.isFile (rubyFile arg r) = true
        · rw [if_pos hf] at k
          cases k
        · rw [Bool.eq_false_iff.mpr hf]
          exact ih
  simp only [resolve]
  rw [if_neg ha, all _ (fun r hr => hr)]
  simp only [rubyRequire, roots, List.map_append, List.map_cons, List.map_nil, List.find?_append, List.find?_cons, List.find?_nil, proj]
  simp

/-- A configured load path is accepted exactly when it is relative, does not begin with `.` and has no `..`; then it is a directory
inside the project. -/
theorem c81_load_paths (project : Dir) (c : Text) :
    (validated project c ≠ none ↔ c ≠ [] ∧ c.head? ≠ some 47 ∧ (segments c).head? ≠ some dot ∧ dotdot ∉ segments c) ∧
    ∀ d, validated project c = some d → ∃ rest, rest ≠ [] ∧ d = project ++ rest ∧ ∀ s ∈ rest, s ≠ [] ∧ s ≠ dot ∧ s ≠ dotdot := by
  constructor
  · simp only [validated]
    by_cases h : c = [] ∨ isAbsolute c = true ∨ (segments c).head? = some dot ∨ dotdot ∈ segments c
    · rw [if_pos h]
      simp only [ne_eq, not_true_eq_false, false_iff, not_and]
      intro h1 h2 h3 h4
      rcases h with h | h | h | h
      · exact h1 h
      · exact h2 (by simpa [isAbsolute] using h)
      · exact h3 h
      · exact h4 h
    · rw [if_neg h]
      rw [not_or, not_or, not_or] at h
      simp only [ne_eq, reduceCtorEq, not_false_eq_true, true_iff]
      exact ⟨h.1, (fun k => h.2.1 (by simpa [isAbsolute] using k)), h.2.2.1, h.2.2.2⟩
  · intro d h
    simp only [validated] at h
    split at h
    · cases h
    · rename_i hn
      rw [not_or, not_or, not_or] at hn
      obtain ⟨h1, h2, h3, h4⟩ := hn
      cases h
      refine ⟨comps c, ?_, rfl, ?_⟩
      · cases c with
        | nil => exact absurd rfl h1
        | cons x xs =>
          have hx : x ≠ 47 := by
            intro k
            exact h2 (by simp [isAbsolute, k])
          cases hs : segments (x :: xs) with
          | nil => exact absurd hs (segments_ne _)
          | cons s ss =>
            rw [hs] at h3
            have hs0 : s ≠ [] := by
              simp only [segments] at hs
              rw [if_neg hx] at hs
              split at hs
              · cases hs
                simp
              · cases hs
                simp
            intro k
            simp only [comps, hs] at k
            rw [List.filter_eq_nil_iff] at k
            have := k s List.mem_cons_self
            simp [hs0] at this
            exact h3 (by rw [this]; rfl)
      · intro s hs
        obtain ⟨m, k⟩ := List.mem_filter.mp hs
        simp at k
        refine ⟨k.1, k.2, ?_⟩
        rintro rfl
        exact h4 m

/-- The diagnostics: one for each string without a file, in order, at the text of the string. -/
theorem c81_diagnostics (w : World) (t : Syn) (src : Text) (current project : Dir) (lps : List Text) (deps : List Dir) :
    diagnostics w t src current project lps deps =
      ((findAll t).filter (fun x => (resolve w x.kind x.argument current project lps deps).isNone)).map
        (fun x => ⟨(contentRange x src).1, (contentRange x src).2, x.kind, x.argument⟩) := by
  simp only [diagnostics]
  induction findAll t with
  | nil => rfl
  | cons x l ih =>
    rw [List.filterMap_cons, List.filter_cons]
    cases h : resolve w x.kind x.argument current project lps deps with
    | none =>
      rw [if_neg (by simp), if_pos (by simp), List.map_cons, ih]
    | some p =>
      rw [if_pos (by simp), if_neg (by simp)]
      exact ih

/-! ## The place -/

theorem lastLine_plain {t : Text} (h : 10 ∉ t) : lastLine t = t := by
  cases t with
  | nil => rfl
  | cons c cs =>
    simp only [lastLine]
    rw [if_neg h]

theorem lastLine_append {p s : Text} (h : 10 ∉ s) : lastLine (p ++ s) = lastLine p ++ s := by
  induction p with
  | nil =>
    rw [List.nil_append, lastLine_plain h]
    rfl
  | cons c cs ih =>
    rw [List.cons_append]
    simp only [lastLine]
    have e1 : (10 ∈ c :: (cs ++ s)) ↔ 10 ∈ c :: cs := by
      simp [h]
    have e2 : (10 ∉ cs ++ s) ↔ 10 ∉ cs := by
      simp [h]
    by_cases k : 10 ∈ c :: cs
    · rw [if_pos (e1.mpr k), if_pos k]
      by_cases l : c = 10 ∧ 10 ∉ cs
      · rw [if_pos l, if_pos ⟨l.1, e2.mpr l.2⟩]
      · rw [if_neg l, if_neg (fun x => l ⟨x.1, e2.mp x.2⟩)]
        exact ih
    · rw [if_neg (fun x => k (e1.mp x)), if_neg k]
      rfl

/-- The end of the range is behind every place of the text: the place after a part of the text is not behind it. -/
theorem c81_range (p s : Text) :
    (documentEnd p).1 < (documentEnd (p ++ s)).1 ∨
      ((documentEnd p).1 = (documentEnd (p ++ s)).1 ∧ (documentEnd p).2 ≤ (documentEnd (p ++ s)).2) := by
  simp only [documentEnd, List.count_append]
  by_cases h : 10 ∈ s
  · left
    have := List.count_pos_iff.mpr h
    omega
  · right
    rw [lastLine_append h, List.map_append, List.sum_append]
    have := List.count_eq_zero_of_not_mem h
    omega

/-- The end is the number of line feeds and the UTF-16 length of what stands behind the last of them. -/
theorem c81_end (a b : Text) (h : 10 ∉ b) :
    documentEnd b = (0, (b.map (fun c => if c < 65536 then 1 else 2)).sum) ∧
    documentEnd (a ++ 10 :: b) = (a.count 10 + 1, (b.map (fun c => if c < 65536 then 1 else 2)).sum) := by
  have hu : utf16 = fun c => if c < 65536 then 1 else 2 := rfl
  constructor
  · simp only [documentEnd]
    rw [lastLine_plain h, List.count_eq_zero_of_not_mem h, hu]
  · simp only [documentEnd]
    have e : lastLine (a ++ 10 :: b) = b := by
      rw [show a ++ 10 :: b = (a ++ [10]) ++ b by simp, lastLine_append h]
      have : lastLine (a ++ [10]) = [] := by
        induction a with
        | nil => decide
        | cons c cs ih =>
          rw [List.cons_append]
          simp only [lastLine]
          rw [if_pos (by simp), if_neg (by simp)]
          exact ih
      rw [this]
      rfl
    rw [e, List.count_append, List.count_cons_self, List.count_eq_zero_of_not_mem h, hu]

/-! ## Examples and counterexamples -/

def app : Dir := [[97]]
/-- `foo`. -/
def foo : Text := [102, 111, 111]
/-- `foo.rb`. -/
def fooRb : Text := [102, 111, 111, 46, 114, 98]

def only (fs : List Dir) : World := ⟨fun d => decide (d ∈ fs), fun _ => false⟩

/-- `require "foo"` with `lib/foo.rb`. -/
theorem c81_example :
    resolve (only [app ++ [lib, fooRb]]) .require foo (app ++ [fooRb]) app [] [] = some ⟨app ++ [lib, fooRb], false⟩ ∧
    findAll (.call .require .kernel [.str foo 8 13] .nil .nil) = [⟨.require, foo, 8, 13⟩] ∧
    documentEnd [97, 10, 128512, 98] = (1, 3) := by
  decide +kernel

/-- A file `lib/foo` without extension comes before `lib/foo.rb`, which Ruby loads. -/
theorem c81_bare_fails :
    resolve (only [app ++ [lib, foo], app ++ [lib, fooRb]]) .require foo (app ++ [fooRb]) app [] [] = some ⟨app ++ [lib, foo], false⟩ ∧
    rubyRequire (only [app ++ [lib, foo], app ++ [lib, fooRb]]).isFile foo [app ++ [lib]] = some (app ++ [lib, fooRb]) := by
  decide +kernel

/-- A file in the project root is found, and comes before a gem, though it is not in the load path. -/
theorem c81_root_fails :
    resolve (only [app ++ [fooRb], [[103], fooRb]]) .require foo (app ++ [fooRb]) app [] [[[103]]] = some ⟨app ++ [fooRb], false⟩ ∧
    rubyRequire (only [app ++ [fooRb], [[103], fooRb]]).isFile foo [app ++ [lib], [[103]]] = some [[103], fooRb] := by
  decide +kernel

/-- `require "./foo"` is looked up in `lib`; Ruby takes it from the working directory. -/
theorem c81_dot_fails :
    resolve (only [app ++ [lib, fooRb]]) .require ([46, 47] ++ foo) (app ++ [fooRb]) app [] [] = some ⟨app ++ [lib, fooRb], false⟩ := by
  decide +kernel

/-- `require "foo/"` leads to `lib/foo.rb`; Ruby looks for `lib/foo/.rb`. -/
theorem c81_slash_fails :
    resolve (only [app ++ [lib, fooRb]]) .require (foo ++ [47]) (app ++ [fooRb]) app [] [] = some ⟨app ++ [lib, fooRb], false⟩ := by
  decide +kernel

/-- `require "foo.RB"`: `foo.RB.rb`, which Ruby loads, is not tried. -/
theorem c81_case_fails :
    resolve (only [app ++ [lib, foo ++ [46, 82, 66] ++ dotRb]]) .require (foo ++ [46, 82, 66]) (app ++ [fooRb]) app [] [] = none ∧
    rubyRequire (only [app ++ [lib, foo ++ [46, 82, 66] ++ dotRb]]).isFile (foo ++ [46, 82, 66]) [app ++ [lib]] =
      some (app ++ [lib, foo ++ [46, 82, 66] ++ dotRb]) := by
  decide +kernel

/-- The load path `./src` is ignored, `src/./x` is accepted. -/
theorem c81_load_path_fails : validated app [46, 47, 115] = none ∧ validated app [115, 47, 46, 47, 120] = some (app ++ [[115], [120]]) := by
  decide +kernel

/-- **C81 (absolute arguments).** An absolute argument leads to the same file from every directory. -/
theorem c81_absolute (root other : Dir) (argument : Text) (h : argument.head? = some 47) : join root argument = join other argument := by
  unfold join isAbsolute
  simp [h]

/-- **C81 (upwards).** `require_relative ".."` looks for a file named `.rb` in the parent directory. -/
theorem c81_upwards (root : Dir) : withRb (join root dotdot) = ⟨root ++ [dotdot, dotRb], false⟩ := by
  have hj : join root dotdot = ⟨root ++ [dotdot], false⟩ := by
    unfold join
    simp only [show isAbsolute dotdot = false by decide, show comps dotdot = [dotdot] by decide,
      show (segments dotdot).getLastD [] = dotdot by decide]
    rfl
  rw [hj]
  unfold withRb extension fileName
  simp

end Verif.RequirePaths
