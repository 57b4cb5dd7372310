import Verif.Spec.RuntimeConfig
import Verif.Props.RubyVersions
/-!
C90: which settings for runtimes are accepted and what they select.
-/
namespace Verif.RuntimeConfig
open Verif.JavaSource (Text joinWith)
open Verif.Runtimes (Space Impl Series Source Runtime Num value number split trim showPair display parseVersion forFamily Dotted
  split_ne split_join split_plain split_cons split_parts number_iff num_nodot num_digits c85_version c85_series c85_jruby c85_mri c85_truffle unicode txt)
open Verif.RubyVersions (tAuto withImpl)

/-! ### Numbers -/

theorem word_iff (t : Text) (n : Nat) : word t = some n ↔ Word t n := by
  cases t with
  | nil =>
    simp only [word, reduceCtorEq, false_iff]
    rintro ⟨ds, h | h, h1, _⟩
    · exact h1.1 h.symm
    · cases h
  | cons c cs =>
    simp only [word]
    by_cases hc : c = '+'
    · rw [if_pos hc, number_iff]
      constructor
      · rintro ⟨h, e⟩; exact ⟨cs, Or.inr (by rw [hc]), h, e.symm⟩
      · rintro ⟨ds, h | h, h1, h2⟩
        · have := h1.2.1 c (by rw [← h]; exact List.mem_cons_self)
          rw [hc] at this
          exact absurd this (by decide)
        · injection h with _ h
          rw [h]; exact ⟨h1, h2.symm⟩
    · rw [if_neg hc, number_iff]
      constructor
      · rintro ⟨h, e⟩; exact ⟨c :: cs, Or.inl rfl, h, e.symm⟩
      · rintro ⟨ds, h | h, h1, h2⟩
        · rw [h]; exact ⟨h1, h2.symm⟩
        · injection h with h _
          exact absurd h hc

theorem word_nodot {t : Text} {n : Nat} (h : Word t n) : '.' ∉ t := by
  obtain ⟨ds, h | h, h1, _⟩ := h
  · subst h; exact num_nodot h1
  · subst h
    intro hm
    rcases List.mem_cons.1 hm with e | e
    · exact absurd e (by decide)
    · exact num_nodot h1 e

/-- **C90 (families).** Two numbers below 65536 are read with a dot between them; what comes behind a second dot does not matter. -/
theorem c90_family (t : Text) (p : Nat × Nat) : parseFamily t = some p ↔ Family t p := by
  constructor
  · intro h
    unfold parseFamily at h
    cases e : split '.' t with
    | nil => rw [e] at h; cases h
    | cons a l =>
      cases l with
      | nil => rw [e] at h; cases h
      | cons b rest =>
        rw [e] at h
        simp only at h
        cases ea : word a with
        | none => rw [ea] at h; cases h
        | some m =>
          cases eb : word b with
          | none => rw [ea, eb] at h; cases h
          | some n =>
            rw [ea, eb] at h
            injection h with h
            subst h
            refine ⟨a, b, (word_iff a m).1 ea, (word_iff b n).1 eb, ?_⟩
            have hj := split_join '.' t
            rw [e] at hj
            cases rest with
            | nil => left; rw [← hj]; rfl
            | cons c cs => right; exact ⟨joinWith '.' (c :: cs), by rw [← hj]; rfl⟩
  · rintro ⟨a, b, ha, hb, h⟩
    have ha' := (word_iff _ _).2 ha
    have hb' := (word_iff _ _).2 hb
    rcases h with h | ⟨rest, h⟩
    · unfold parseFamily
      rw [h, split_cons '.' _ _ (word_nodot ha), split_plain '.' _ (word_nodot hb)]
      simp only [ha', hb']
    · unfold parseFamily
      rw [h, split_cons '.' _ _ (word_nodot ha), split_cons '.' _ _ (word_nodot hb)]
      simp only [ha', hb']

theorem absolute_iff (t : Text) : absolute t = true ↔ ∃ r, t = '/' :: r := by
  cases t with
  | nil => simp [absolute]
  | cons c r => simp [absolute]

theorem series_iff (t : Text) (s : Series) : seriesOf t = some s ↔ EngineOf s t := by
  have hj : "jruby-".toList = Runtimes.tJrubyDash := by decide
  unfold seriesOf EngineOf
  rw [hj]
  constructor
  · intro h
    split at h
    · rename_i a b rest e
      obtain ⟨cs, h2, hn, hv, hs⟩ := (c85_version _ _).1 e
      match cs, hv with
      | x :: y :: cs, hv =>
        simp only [List.map_cons, List.cons.injEq] at hv
        refine ⟨x, y, cs, hn, ?_, hs⟩
        rw [← hv.1, ← hv.2.1]
        exact ((c85_series.1 _ _).1 h).symm
    · cases h
  · rintro ⟨a, b, cs, hn, hf, hs⟩
    rw [(c85_version t _).2 ⟨a :: b :: cs, by simp, hn, rfl, hs⟩]
    simp only [List.map_cons]
    exact (c85_series.1 _ _).2 hf.symm

/-- **C90 (descriptions).** A description of a runtime is accepted exactly when it is consistent: absolute paths, a Ruby that is a version, and an
engine that fits. -/
theorem c90_valid (d : Desc) : d.validate = none ↔ Consistent d := by
  have he := absolute_iff d.exe
  have hh : relativeHome d.javaHome = false ↔ ∀ h, d.javaHome = some h → ∃ r, h = '/' :: r := by
    cases d.javaHome with
    | none => simp [relativeHome]
    | some h =>
      simp only [relativeHome, Option.some.injEq]
      constructor
      · rintro e _ rfl; exact (absolute_iff h).1 (by simpa using e)
      · intro e; simp [(absolute_iff h).2 (e h rfl)]
  unfold Desc.validate
  constructor
  · intro h
    split at h
    · cases h
    · rename_i h1
      split at h
      · cases h
      · rename_i h2
        split at h
        · cases h
        · rename_i c hc
          refine ⟨he.1 (by simpa using h1), hh.1 (by simpa using h2), c, (c90_family _ _).1 hc, ?_⟩
          unfold Fitting
          cases hi : d.impl with
          | jruby =>
            rw [hi] at h
            simp only at h ⊢
            split at h
            · cases h
            · rename_i s hs
              split at h
              · cases h
              · rename_i hn
                simp only [not_or, ne_eq, Decidable.not_not] at hn
                exact ⟨s, (series_iff _ _).1 hs, hn.1, hn.2⟩
          | mri =>
            rw [hi] at h
            simp only at h ⊢
            split at h
            · cases h
            · rename_i e hs
              split at h
              · cases h
              · rename_i hn
                simp only [not_or, ne_eq, Decidable.not_not] at hn
                exact ⟨hn.1, hn.2 ▸ (c90_family _ _).1 hs⟩
          | truffleruby =>
            rw [hi] at h
            simp only at h ⊢
            cases e : parseFamily d.engine with
            | none => rw [e] at h; simp at h
            | some p => exact ⟨p, (c90_family _ _).1 e⟩
  · rintro ⟨h1, h2, c, hc, hf⟩
    rw [if_neg (by simp [he.2 h1]), if_neg (by simp [hh.2 h2]), (c90_family _ _).2 hc]
    unfold Fitting at hf
    cases hi : d.impl with
    | jruby =>
      rw [hi] at hf
      obtain ⟨s, hs, h3, h4⟩ := hf
      simp only [(series_iff _ _).2 hs]
      rw [if_neg (by simp [h3, h4])]
    | mri =>
      rw [hi] at hf
      simp only [(c90_family _ _).2 hf.2]
      rw [if_neg (by simp [hf.1])]
    | truffleruby =>
      rw [hi] at hf
      obtain ⟨e, hf⟩ := hf
      simp only [(c90_family _ _).2 hf]
      rfl

theorem trim_nil (S : Space) (t : Text) : trim S t = [] ↔ ∀ c ∈ t, S.ws c = true := by
  rw [RubyVersions.trim_padded]
  constructor
  · rintro ⟨a, b, e, ha, hb, _⟩ c hc
    rw [e] at hc
    simp only [List.append_nil, List.mem_append] at hc
    rcases hc with hc | hc
    · exact ha c hc
    · exact hb c hc
  · intro h
    exact ⟨t, [], by simp, h, by simp, by simp, by simp⟩

theorem from_iff (S : Space) : ∀ (ps : List Project) (seen : List Text), validateFrom S seen ps = none ↔
    (∀ p ∈ ps, ∃ c ∈ p.root, S.ws c = false) ∧ (∀ p ∈ ps, p.root ∉ seen) ∧ (ps.map Project.root).Nodup ∧
      ∀ p ∈ ps, ∀ d, p.selection = .explicit d → Consistent d
  | [], seen => by simp [validateFrom]
  | p :: ps, seen => by
    have ih := from_iff S ps (p.root :: seen)
    have hb : trim S p.root = [] ↔ ¬ ∃ c ∈ p.root, S.ws c = false := by
      rw [trim_nil]; simp
    have hv : p.selection.validate = none ↔ ∀ d, p.selection = .explicit d → Consistent d := by
      cases p.selection with
      | auto => simp [Selection.validate]
      | explicit d => simp [Selection.validate, c90_valid]
    simp only [validateFrom, List.mem_cons, forall_eq_or_imp, List.map_cons, List.nodup_cons]
    by_cases h1 : trim S p.root = []
    · rw [if_pos h1]
      simp only [reduceCtorEq, false_iff]
      exact fun h => hb.1 h1 h.1.1
    · have h1' : ∃ c ∈ p.root, S.ws c = false := Classical.byContradiction (fun h => h1 (hb.2 h))
      rw [if_neg h1]
      by_cases h2 : p.root ∈ seen
      · rw [if_pos h2]
        simp only [reduceCtorEq, false_iff]
        exact fun h => h.2.1.1 h2
      · rw [if_neg h2]
        cases e : p.selection.validate with
        | some x =>
          simp only [reduceCtorEq, false_iff]
          intro h
          rw [hv.2 h.2.2.2.1] at e
          cases e
        | none =>
          simp only [ih]
          have hv' := hv.1 e
          constructor
          · rintro ⟨g1, g2, g3, g4⟩
            refine ⟨⟨h1', g1⟩, ⟨h2, fun q hq hs => g2 q hq (List.mem_cons_of_mem _ hs)⟩, ⟨?_, g3⟩, hv', g4⟩
            intro hm
            obtain ⟨q, hq, he⟩ := List.mem_map.1 hm
            exact g2 q hq (by rw [he]; exact List.mem_cons_self)
          · rintro ⟨⟨_, g1⟩, ⟨_, g2⟩, ⟨g5, g3⟩, _, g4⟩
            refine ⟨g1, fun q hq hs => ?_, g3, g4⟩
            rcases List.mem_cons.1 hs with hs | hs
            · exact g5 (List.mem_map.2 ⟨q, hq, hs⟩)
            · exact g2 q hq hs

/-- **C90 (settings).** Settings are accepted exactly when the roots are not blank and differ as texts and every description is consistent. -/
theorem c90_config (S : Space) (ps : List Project) : validate S ps = none ↔
    (∀ p ∈ ps, ∃ c ∈ p.root, S.ws c = false) ∧ (ps.map Project.root).Nodup ∧ ∀ p ∈ ps, ∀ d, p.selection = .explicit d → Consistent d := by
  unfold validate
  rw [from_iff]
  simp

/-- **C90 (selection).** The first project with the same path decides; without one the old setting does, when it is a version. -/
theorem c90_select (ps : List Project) (root legacy : Text) :
    (∀ a p b, ps = a ++ p :: b → components p.root = components root → (∀ q ∈ a, components q.root ≠ components root) →
      selectionFor ps root legacy = (match p.selection with
        | .auto => .auto
        | .explicit d => .explicit d)) ∧
    ((∀ q ∈ ps, components q.root ≠ components root) → ∀ e, selectionFor ps root legacy = e ↔
      (∃ m n, Family legacy (m, n) ∧ e = .legacy m n) ∨ ((∀ p, ¬ Family legacy p) ∧ e = .auto)) := by
  constructor
  · intro a p b hps hp ha
    have : ps.find? (fun p => sameRoot p.root root) = some p := by
      rw [List.find?_eq_some_iff_append]
      exact ⟨by simp [sameRoot, hp], a, b, hps, fun q hq => by simp [sameRoot, ha q hq]⟩
    unfold selectionFor
    rw [this]
    cases e : p.selection <;> simp [Selection.effective, e]
  · intro h e
    have : ps.find? (fun p => sameRoot p.root root) = none := by
      rw [List.find?_eq_none]
      intro q hq
      simp [sameRoot, h q hq]
    unfold selectionFor
    rw [this]
    simp only
    by_cases ht : legacy = tAuto
    · rw [if_pos ht]
      have hn : ∀ p, ¬ Family legacy p := by
        intro p hp
        rw [← c90_family, ht] at hp
        have : parseFamily tAuto = none := by decide
        rw [this] at hp; cases hp
      constructor
      · rintro rfl; exact Or.inr ⟨hn, rfl⟩
      · rintro (⟨m, n, hf, _⟩ | ⟨_, rfl⟩)
        · exact absurd hf (hn _)
        · rfl
    · rw [if_neg ht]
      cases ep : parseFamily legacy with
      | none =>
        have hn : ∀ p, ¬ Family legacy p := fun p hp => by rw [(c90_family _ _).2 hp] at ep; cases ep
        constructor
        · rintro rfl; exact Or.inr ⟨hn, rfl⟩
        · rintro (⟨m, n, hf, _⟩ | ⟨_, rfl⟩)
          · exact absurd hf (hn _)
          · rfl
      | some p =>
        obtain ⟨m, n⟩ := p
        constructor
        · rintro rfl; exact Or.inl ⟨m, n, (c90_family _ _).1 ep, rfl⟩
        · rintro (⟨m', n', hf, rfl⟩ | ⟨hn, _⟩)
          · rw [(c90_family _ _).2 hf] at ep
            injection ep with ep
            injection ep with e1 e2
            rw [e1, e2]
          · exact absurd ((c90_family _ _).1 ep) (hn _)

/-! ### Paths -/

theorem split_cut (sep : Char) (r : Text) : ∀ p : Text, split sep (p ++ sep :: r) = split sep p ++ split sep r
  | [] => by simp only [List.nil_append, split, if_true, List.cons_append]
  | d :: p => by
    have ih := split_cut sep r p
    simp only [List.cons_append, split]
    split
    · rw [ih]; rfl
    · rw [ih]
      cases e : split sep p with
      | nil => exact absurd e (split_ne sep p)
      | cons s ss => rfl

theorem split_head (sep : Char) (p r : Text) : (split sep (p ++ sep :: r)).head? = (split sep p).head? := by
  rw [split_cut]
  cases e : split sep p with
  | nil => exact absurd e (split_ne sep p)
  | cons s ss => rfl

theorem absolute_append {a : Text} (h : a ≠ []) (b : Text) : absolute (a ++ b) = absolute a := by
  cases a with
  | nil => exact absurd rfl h
  | cons c a => rfl

theorem absolute_cut (a b b' : Text) : absolute (a ++ '/' :: b) = absolute (a ++ '/' :: b') := by
  cases a <;> rfl

theorem components_eq {t u : Text} (h1 : absolute t = absolute u) (h2 : (split '/' t).head? = (split '/' u).head?)
    (h3 : (split '/' t).filter (fun p => decide (p ≠ [] ∧ p ≠ ['.'])) = (split '/' u).filter (fun p => decide (p ≠ [] ∧ p ≠ ['.']))) :
    components t = components u := by
  unfold components
  rw [h1, h2, h3]

/-- **C90 (paths).** A slash or `/.` at the end of a path, double slashes and `/./` make no difference. -/
theorem c90_slashes (a b : Text) :
    (a ≠ [] → components (a ++ ['/']) = components a ∧ components (a ++ ['/', '.']) = components a) ∧
    components (a ++ '/' :: '/' :: b) = components (a ++ '/' :: b) ∧ components (a ++ '/' :: '.' :: '/' :: b) = components (a ++ '/' :: b) := by
  refine ⟨fun h => ⟨?_, ?_⟩, ?_, ?_⟩
  · refine components_eq (absolute_append h _) (split_head '/' a []) ?_
    rw [split_cut '/' [] a, List.filter_append]
    simp [split]
  · refine components_eq (absolute_append h _) (split_head '/' a ['.']) ?_
    rw [split_cut '/' ['.'] a, List.filter_append]
    simp [split]
  · refine components_eq (absolute_cut _ _ _) (by rw [split_head, split_head]) ?_
    rw [split_cut '/' ('/' :: b) a, split_cut '/' b a, List.filter_append, List.filter_append]
    have := split_cut '/' b []
    rw [List.nil_append] at this
    rw [this]
    simp [split]
  · refine components_eq (absolute_cut _ _ _) (by rw [split_head, split_head]) ?_
    rw [split_cut '/' ('.' :: '/' :: b) a, split_cut '/' b a, List.filter_append, List.filter_append]
    have := split_cut '/' b ['.']
    simp only [List.cons_append, List.nil_append] at this
    rw [this]
    simp [split]

/-- **C90 (paths).** Paths with different names are different. -/
theorem c90_names (ns : List Text) (h : ns ≠ []) (hn : ∀ n ∈ ns, n ≠ [] ∧ n ≠ ['.'] ∧ '/' ∉ n) :
    components ('/' :: joinWith '/' ns) = (true, false, ns) ∧ components (joinWith '/' ns) = (false, false, ns) ∧
    components ('.' :: '/' :: joinWith '/' ns) = (false, true, ns) := by
  have hs : split '/' (joinWith '/' ns) = ns := Runtimes.split_of_join '/' ns h (fun n hn' => (hn n hn').2.2)
  have hf : ns.filter (fun p => decide (p ≠ [] ∧ p ≠ ['.'])) = ns := by
    rw [List.filter_eq_self]
    intro n hn'
    simp [hn n hn']
  have hs' : split '/' ('/' :: joinWith '/' ns) = [] :: ns := by
    simp only [split, if_true, hs]
  refine ⟨?_, ?_, ?_⟩
  · unfold components
    rw [hs']
    simp only [List.head?_cons, List.filter_cons, hf]
    simp [absolute]
  · unfold components
    rw [hs, hf]
    cases ns with
    | nil => exact absurd rfl h
    | cons n ns =>
      have h1 := hn n List.mem_cons_self
      have ha : absolute (joinWith '/' (n :: ns)) = false := by
        cases n with
        | nil => exact absurd rfl h1.1
        | cons c cs =>
          have hc : c ≠ '/' := fun e => h1.2.2 (by rw [e]; exact List.mem_cons_self)
          cases ns <;> simp [joinWith, absolute, hc]
      rw [ha]
      simp [h1.2.1]
  · have hs'' : split '/' ('.' :: '/' :: joinWith '/' ns) = ['.'] :: ns := by
      have := split_cut '/' (joinWith '/' ns) ['.']
      simp only [List.cons_append, List.nil_append] at this
      rw [this, hs]
      rfl
    unfold components
    rw [hs'']
    simp only [List.head?_cons, List.filter_cons, hf]
    simp [absolute]

/-! ### Runtimes -/

theorem word_num {t : Text} (h : Num t) : Word t (value t) := ⟨t, Or.inl rfl, h, rfl⟩

theorem family_show (p : Nat × Nat) (h1 : p.1 < 65536) (h2 : p.2 < 65536) : Family (showPair p) p := by
  obtain ⟨g1, e1⟩ := num_digits p.1 h1
  obtain ⟨g2, e2⟩ := num_digits p.2 h2
  exact ⟨Nat.toDigits 10 p.1, Nat.toDigits 10 p.2, ⟨_, Or.inl rfl, g1, e1⟩, ⟨_, Or.inl rfl, g2, e2⟩, Or.inl rfl⟩

theorem family_of {v f : Text} (h : Dotted 2 v) (hf : Runtimes.versionFamily v = some f) : ∃ p, Family f p ∧ Family v p := by
  obtain ⟨a, b, cs, hv, ha, hb, hcs, rfl⟩ := (Runtimes.family_exact v f).1 hf
  have hs : split '.' v = a :: b :: cs := by
    rw [hv]
    refine Runtimes.split_of_join '.' _ (by simp) ?_
    intro p hp
    rcases List.mem_cons.1 hp with rfl | hp
    · exact ha
    · rcases List.mem_cons.1 hp with rfl | hp
      · exact hb
      · exact hcs p hp
  have hn := ((Runtimes.dotted_split (by omega) v).1 h).2
  rw [hs] at hn
  have na := word_num (hn a (by simp))
  have nb := word_num (hn b (by simp))
  refine ⟨(value a, value b), ⟨a, b, na, nb, Or.inl rfl⟩, ⟨a, b, na, nb, ?_⟩⟩
  rw [hv]
  cases cs with
  | nil => exact Or.inl rfl
  | cons c cs => exact Or.inr ⟨joinWith '.' (c :: cs), rfl⟩

theorem compat_small (s : Series) : s.compat.1 < 256 ∧ s.compat.2 < 256 := by cases s <;> decide

theorem reported_small {out : Text} {p : Nat × Nat} (h : Runtimes.reported out = some p) : p.1 < 65536 ∧ p.2 < 65536 := by
  unfold Runtimes.reported at h
  obtain ⟨f, _, h⟩ := RubyVersions.bind_iff.1 h
  split at h
  · split at h
    · rename_i m n e1 e2
      injection h with h
      subst h
      have h1 := (number_iff _ _).1 e1
      have h2 := (number_iff _ _).1 e2
      exact ⟨h1.2 ▸ h1.1.2.2, h2.2 ▸ h2.1.2.2⟩
    · cases h
  · cases h

theorem display_engine {w : Text} {a b : Nat} {rest : List Nat} (h : parseVersion w = some (a :: b :: rest)) (s : Series) (hs : s.family = (a, b)) :
    EngineOf s (display (a :: b :: rest)) := by
  obtain ⟨cs, _, hn, hv, _⟩ := (c85_version _ _).1 h
  have hl : ∀ n ∈ a :: b :: rest, n < 65536 := by
    intro n hn'
    rw [hv] at hn'
    obtain ⟨c, hc, rfl⟩ := List.mem_map.1 hn'
    exact (hn c hc).2.2
  refine ⟨Nat.toDigits 10 a, Nat.toDigits 10 b, rest.map (Nat.toDigits 10), ?_, ?_, Or.inl rfl⟩
  · intro c hc
    have hc : c ∈ (a :: b :: rest).map (Nat.toDigits 10) := hc
    obtain ⟨n, hn', rfl⟩ := List.mem_map.1 hc
    exact (num_digits n (hl n hn')).1
  · rw [(num_digits a (hl a (by simp))).2, (num_digits b (hl b (by simp))).2, hs]

/-- **C90 (found runtimes).** What is found and supported can be selected: its description is consistent, given absolute paths. -/
theorem c90_found (S : Space) (out : Text) (e : Nat) (src : Source) (r : Runtime) (h : Runtimes.parseOutput S out e src = some r)
    (hs : r.supported = true) (exe : Text) (home : Option Text) (hh : ∀ t, home = some t → ∃ u, t = '/' :: u) :
    Consistent ⟨r.impl, r.family, r.engine, r.compat, '/' :: exe, home⟩ := by
  refine ⟨⟨exe, rfl⟩, hh, ?_⟩
  unfold Fitting
  simp only
  unfold Runtimes.parseOutput at h
  simp only at h
  split at h
  · obtain ⟨w, a, b, rest, c, _, hp, _, hc, hi, hf, hk, he, _, _, hsup⟩ := (c85_jruby S _ e src r).1 h
    obtain ⟨s, hsf⟩ := hsup.1 hs
    have hcs := hc s hsf
    have hsm := compat_small s
    refine ⟨c, ?_, ?_⟩
    · rw [hk]
      rw [hcs] at hsm
      exact family_show c (by omega) (by omega)
    · rw [hi]
      refine ⟨s, ?_, ?_, hcs.symm⟩
      · rw [he]; exact display_engine hp s hsf
      · rw [hf, hsf]
  · split at h
    · obtain ⟨w, v, f, c, _, h2, h3, h4, rfl⟩ := (c85_truffle S _ e src r).1 h
      simp only
      obtain ⟨p, _, hv⟩ := family_of (Runtimes.clean_family h2 h3) h3
      have hc : ∃ q, Family c q := by
        unfold Runtimes.truffleCompat at h4
        split at h4
        · rename_i g hg
          injection h4 with h4
          subst h4
          obtain ⟨y, hy, hg⟩ := RubyVersions.bind_iff.1 hg
          obtain ⟨z, _, hy⟩ := RubyVersions.bind_iff.1 hy
          obtain ⟨q, hq, _⟩ := family_of (Runtimes.clean_family hy hg) hg
          exact ⟨q, hq⟩
        · rw [Option.map_eq_some_iff] at h4
          obtain ⟨q, hq, rfl⟩ := h4
          have := reported_small hq
          exact ⟨q, family_show q this.1 this.2⟩
      obtain ⟨q, hq⟩ := hc
      exact ⟨q, hq, p, hv⟩
    · split at h
      · obtain ⟨w, v, f, _, h2, h3, rfl⟩ := (c85_mri S _ e src r).1 h
        obtain ⟨p, hf, hv⟩ := family_of (Runtimes.clean_family h2 h3) h3
        exact ⟨p, hf, rfl, hv⟩
      · cases h

theorem byte_of_word {t : Text} {n : Nat} (h : Word t n) (hn : n < 256) : RubyVersions.Byte t n := by
  obtain ⟨ds, h, h1, h2⟩ := h
  exact ⟨ds, h, h1.1, h1.2.1, h2, hn⟩

theorem numbered_of {t : Text} {p : Nat × Nat} (h : Family t p) (h1 : p.1 < 256) (h2 : p.2 < 256) : RubyVersions.Numbered t p := by
  obtain ⟨a, b, ha, hb, h⟩ := h
  exact ⟨a, b, byte_of_word ha h1, byte_of_word hb h2, h⟩

/-- **C90 (versions).** A consistent JRuby gives the version of Ruby of its series, and a consistent MRI the one of its engine when that fits
into bytes. -/
theorem c90_version (S : Space) (d : Desc) (h : Consistent d) (setting : Text) (w : RubyVersions.World) :
    (d.impl = .jruby → ∃ s, EngineOf s d.engine ∧
      RubyVersions.effective S (some (d.impl, d.compat)) setting w = some (withImpl .jruby s.compat)) ∧
    (d.impl = .mri → ∃ p, Family d.engine p ∧
      (p.1 < 256 → p.2 < 256 → RubyVersions.effective S (some (d.impl, d.compat)) setting w = some (withImpl .mri p))) := by
  obtain ⟨_, _, c, hc, hf⟩ := h
  unfold Fitting at hf
  constructor
  · intro hi
    rw [hi] at hf ⊢
    obtain ⟨s, hs, _, rfl⟩ := hf
    have hsm := compat_small s
    exact ⟨s, hs, (RubyVersions.c89_effective S _ _ _ _).2 (Or.inl ⟨d.compat, rfl, numbered_of hc hsm.1 hsm.2⟩)⟩
  · intro hi
    rw [hi] at hf ⊢
    exact ⟨c, hf.2, fun h1 h2 => (RubyVersions.c89_effective S _ _ _ _).2 (Or.inl ⟨d.compat, rfl, numbered_of hc h1 h2⟩)⟩

/-! ### Patterns -/

theorem scoped_iff (t : Text) : isScoped t = true ↔ t ≠ [] ∧ (∀ r, t ≠ '/' :: r) ∧ ['.', '.'] ∉ split '/' t := by
  have ha : absolute t = false ↔ ∀ r, t ≠ '/' :: r := by
    rw [← Bool.not_eq_true, absolute_iff]
    simp
  unfold isScoped
  simp only [Bool.and_eq_true, Bool.not_eq_true', ha, List.isEmpty_eq_false_iff, List.any_eq_false, decide_eq_true_eq, and_assoc]
  refine and_congr_right fun _ => and_congr_right fun _ => ?_
  exact ⟨fun h hm => h _ hm rfl, fun h x hx e => h (e ▸ hx)⟩

theorem walk_in : ∀ (ps place : List Text), ['.', '.'] ∉ ps → ∃ more, walk place ps = some (more ++ place)
  | [], place, _ => ⟨[], rfl⟩
  | p :: ps, place, h => by
    have h' : ['.', '.'] ∉ ps := fun hm => h (List.mem_cons_of_mem _ hm)
    simp only [walk]
    by_cases h1 : p = [] ∨ p = ['.']
    · rw [if_pos h1]; exact walk_in ps place h'
    · rw [if_neg h1]
      by_cases h2 : p = ['.', '.']
      · exact absurd (by rw [h2]; exact List.mem_cons_self) h
      · rw [if_neg h2]
        obtain ⟨more, hm⟩ := walk_in ps (p :: place) h'
        exact ⟨more ++ [p], by rw [hm]; simp⟩

/-- **C90 (patterns).** A pattern is accepted exactly when it is not empty, does not begin with a slash and has no part `..`; it then never
leads out of the place it starts from. -/
theorem c90_scoped (t : Text) :
    (isScoped t = true ↔ t ≠ [] ∧ (∀ r, t ≠ '/' :: r) ∧ ∀ p ∈ split '/' t, p ≠ ['.', '.']) ∧
    (isScoped t = true → ∀ place, ∃ more, walk place (split '/' t) = some (more ++ place)) := by
  constructor
  · rw [scoped_iff]
    exact and_congr_right fun _ => and_congr_right fun _ => ⟨fun h p hp e => h (e ▸ hp), fun h hm => h _ hm rfl⟩
  · intro h place
    exact walk_in _ place ((scoped_iff t).1 h).2.2

theorem jruby_from (S : Space) : ∀ (ps : List JrubyProject) (seen : List Text), jrubyFrom S seen ps = none ↔
    (∀ p ∈ ps, ∃ c ∈ p.root, S.ws c = false) ∧ (∀ p ∈ ps, p.root ∉ seen) ∧ (ps.map JrubyProject.root).Nodup ∧
      ∀ p ∈ ps, ∀ x, x ∈ p.classpath ∨ x ∈ p.sources → isScoped x = true
  | [], seen => by simp [jrubyFrom]
  | p :: ps, seen => by
    have ih := jruby_from S ps (p.root :: seen)
    have hb : trim S p.root = [] ↔ ¬ ∃ c ∈ p.root, S.ws c = false := by
      rw [trim_nil]; simp
    have hv : (p.classpath ++ p.sources).find? (fun x => !isScoped x) = none ↔ ∀ x, x ∈ p.classpath ∨ x ∈ p.sources → isScoped x = true := by
      rw [List.find?_eq_none]
      simp
    simp only [jrubyFrom, List.mem_cons, forall_eq_or_imp, List.map_cons, List.nodup_cons]
    by_cases h1 : trim S p.root = [] ∨ p.root ∈ seen
    · rw [if_pos h1]
      simp only [reduceCtorEq, false_iff]
      intro h
      rcases h1 with h1 | h1
      · exact hb.1 h1 h.1.1
      · exact h.2.1.1 h1
    · rw [if_neg h1]
      simp only [not_or] at h1
      have h1' : ∃ c ∈ p.root, S.ws c = false := Classical.byContradiction (fun h => h1.1 (hb.2 h))
      cases e : (p.classpath ++ p.sources).find? (fun x => !isScoped x) with
      | some x =>
        simp only [reduceCtorEq, false_iff]
        intro h
        rw [hv.2 h.2.2.2.1] at e
        cases e
      | none =>
        simp only [ih]
        have hv' := hv.1 e
        constructor
        · rintro ⟨g1, g2, g3, g4⟩
          refine ⟨⟨h1', g1⟩, ⟨h1.2, fun q hq hs => g2 q hq (List.mem_cons_of_mem _ hs)⟩, ⟨?_, g3⟩, hv', g4⟩
          intro hm
          obtain ⟨q, hq, he⟩ := List.mem_map.1 hm
          exact g2 q hq (by rw [he]; exact List.mem_cons_self)
        · rintro ⟨⟨_, g1⟩, ⟨_, g2⟩, ⟨g5, g3⟩, _, g4⟩
          refine ⟨g1, fun q hq hs => ?_, g3, g4⟩
          rcases List.mem_cons.1 hs with hs | hs
          · exact g5 (List.mem_map.2 ⟨q, hq, hs⟩)
          · exact g2 q hq hs

/-- **C90 (JRuby's paths).** Settings of paths are accepted exactly when the roots are not blank and differ as texts and all patterns are. -/
theorem c90_jruby (S : Space) (ps : List JrubyProject) : jrubyValidate S ps = none ↔
    (∀ p ∈ ps, ∃ c ∈ p.root, S.ws c = false) ∧ (ps.map JrubyProject.root).Nodup ∧
      ∀ p ∈ ps, ∀ x, x ∈ p.classpath ∨ x ∈ p.sources → isScoped x = true := by
  unfold jrubyValidate
  rw [jruby_from]
  simp

/-- **C90 (JRuby's paths).** A project gets the first entry for its root, and none of the paths of others without one; what it gets is
acceptable when the settings are. -/
theorem c90_paths (S : Space) (ps : List JrubyProject) (root : Text) :
    (∀ a p b, ps = a ++ p :: b → components p.root = components root → (∀ q ∈ a, components q.root ≠ components root) →
      projectConfig ps root = p) ∧
    ((∀ q ∈ ps, components q.root ≠ components root) → projectConfig ps root = ⟨root, [], []⟩) ∧
    (jrubyValidate S ps = none → ∀ x, x ∈ (projectConfig ps root).classpath ∨ x ∈ (projectConfig ps root).sources →
      ∀ place, ∃ more, walk place (split '/' x) = some (more ++ place)) := by
  refine ⟨?_, ?_, ?_⟩
  · intro a p b hps hp ha
    have : ps.find? (fun p => sameRoot p.root root) = some p := by
      rw [List.find?_eq_some_iff_append]
      exact ⟨by simp [sameRoot, hp], a, b, hps, fun q hq => by simp [sameRoot, ha q hq]⟩
    unfold projectConfig
    rw [this]
    rfl
  · intro h
    have : ps.find? (fun p => sameRoot p.root root) = none := by
      rw [List.find?_eq_none]
      intro q hq
      simp [sameRoot, h q hq]
    unfold projectConfig
    rw [this]
    rfl
  · intro h x hx place
    have hj := ((c90_jruby S ps).1 h).2.2
    unfold projectConfig at hx
    cases e : ps.find? (fun p => sameRoot p.root root) with
    | none => rw [e] at hx; simp at hx
    | some p =>
      rw [e] at hx
      exact (c90_scoped x).2 (hj p (List.mem_of_find?_eq_some e) x hx) place

def jr925 : Desc := ⟨.jruby, txt "9.2", txt "9.2.21.0", txt "2.5", txt "/r/jruby-9.2.21.0/bin/jruby", some (txt "/jdks/17")⟩
def mriOdd : Desc := ⟨.mri, txt "300.1", txt "300.1.0", txt "300.1", txt "/usr/bin/ruby", none⟩

/-- Descriptions, settings and patterns. -/
theorem c90_example : jr925.validate = none ∧ { jr925 with compat := txt "3.1" }.validate = some .mismatch ∧
    { jr925 with exe := txt "jruby" }.validate = some .executable ∧ { jr925 with engine := txt "10.2.0.0" }.validate = some .engine ∧
    validate unicode [⟨txt "/a", .auto⟩, ⟨txt "/b", .explicit jr925⟩] = none ∧
    selectionFor [⟨txt "/a", .auto⟩, ⟨txt "/b", .explicit jr925⟩] (txt "/b/") (txt "3.2") = .explicit jr925 ∧
    selectionFor [] (txt "/b/") (txt "3.2") = .legacy 3 2 ∧
    isScoped (txt "lib/*.jar") = true ∧ isScoped (txt "lib/../../x.jar") = false ∧ isScoped (txt "/x.jar") = false := by decide +kernel

/-- Two settings for one root are accepted when it is written in two ways; the second one is never used. -/
theorem c90_roots_fails : validate unicode [⟨txt "/a", .auto⟩, ⟨txt "/a/", .explicit jr925⟩] = none ∧
    selectionFor [⟨txt "/a", .auto⟩, ⟨txt "/a/", .explicit jr925⟩] (txt "/a/") (txt "auto") = .auto := by decide +kernel

/-- A description that is accepted need not give a version of Ruby. -/
theorem c90_bytes_fails : mriOdd.validate = none ∧
    RubyVersions.effective unicode (some (mriOdd.impl, mriOdd.compat)) (txt "auto") RubyVersions.bare = none := by decide +kernel

/-- Of TruffleRuby neither the family nor the Ruby has to fit the engine. -/
theorem c90_truffle_fails : Desc.validate ⟨.truffleruby, txt "x", txt "23.1.1", txt "1.8", txt "/usr/bin/ruby", none⟩ = none := by decide +kernel

end Verif.RuntimeConfig
