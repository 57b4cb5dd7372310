import Verif.Lemmas.FlowShapesAgree
/-!
C53: The tracking of hashes in local variables does not panic, except in two cases; its tables belong together, invalidation reaches
exactly what is connected, and no hash that is known has more than eight aliases.
-/
namespace Verif.FlowShapes
open Verif.Types

variable {n : Nat}

/-! ### consistent environments -/

theorem Good.consistent {S : Tracker n} (h : Good S) : Consistent S where
  names := by
    intro x ids hb
    obtain ⟨h1, h2⟩ := h.inv.bound x ids hb
    exact ⟨Option.isSome_iff_exists.mp h1, fun i hi => Option.isSome_iff_ne_none.mp (h2 i hi)⟩
  shapes := by
    intro i t ht
    obtain ⟨l, h1, h2, h3⟩ := shapeAlts_ok t (h.inv.shapes i t ht)
    refine ⟨?_, fun u hu => isShape_iff.mp (h3 u ((mem_shapeAlts h1 u).mpr hu))⟩
    obtain ⟨u, hu⟩ := List.exists_mem_of_ne_nil l h2
    exact ⟨u, (mem_shapeAlts h1 u).mp hu⟩
  edges := by
    intro l hl
    obtain ⟨h1, h2, h3⟩ := h.inv.links l hl
    exact ⟨Option.isSome_iff_ne_none.mp h1, Option.isSome_iff_ne_none.mp h2, h3⟩
  keys := fun l hl m hm h1 h2 => by rw [h.inv.functional l hl m hm h1 h2]
  arrays := by
    intro x a ha
    obtain ⟨_, h2, h3, _, h5⟩ := h.inv.arrays x a ha
    exact ⟨h.inv.typed x a ha, h2, fun i hi => Option.isSome_iff_ne_none.mp (h3 i hi), fun p hp i hi => h5 p hp hi⟩
  fresh := fun i hi => h.below i (Option.isSome_iff_ne_none.mpr hi)

/-- Code in which no hash that is too large is written in an array, and no array with hashes in it is narrowed to something else, is
analysed without panic, and the tables belong together afterwards. -/
theorem c53_safe_code_completes (c : Code n) (h : Safe c ⟨.empty, 0⟩) : ∃ S, runMethod c = some S ∧ Consistent S := by
  obtain ⟨S, h1, h2, _⟩ := run_ok c good_empty h
  exact ⟨S, h1, h2.consistent⟩

theorem presentIn_shapes {k : Lit} {b : Bool} {t : Ty} {l : List Ty} (ht : t.isShape = true) (h : presentIn k b t = .ok l) : ∀ u ∈ l, u.isShape = true := by
  unfold presentIn at h
  split at h
  case h_2 => cases h
  case h_1 fs r o z d =>
    split at h
    · split at h
      · split at h
        · cases h; simpa using ht
        · split at h
          · rename_i h1; cases h; simpa using tryNew_shape h1
          · cases h
      · split at h
        · cases h; simp
        · split at h
          · rename_i h1; cases h; simpa using mutation_toShape _ _ _ h1
          · cases h
    · split at h
      · cases h; simp
      · cases h; simpa using ht

theorem presentAll_shapes {k : Lit} {b : Bool} {l : List Ty} (hl : ∀ t ∈ l, t.isShape = true) : ∀ {r : List Ty}, presentAll k b l = .ok r → ∀ u ∈ r, u.isShape = true := by
  induction l with
  | nil => intro r h; cases h; simp
  | cons t l ih =>
    intro r h
    unfold presentAll at h
    split at h
    · rename_i a c h1 h2
      cases h
      intro u hu
      rcases List.mem_append.mp hu with hu | hu
      · exact presentIn_shapes (hl t List.mem_cons_self) h1 u hu
      · exact ih (fun t ht => hl t (List.mem_cons_of_mem _ ht)) h2 u hu
    · cases h
    · cases h

/-- A condition about a key leaves hashes. -/
theorem presence_keeps (k : Lit) (b : Bool) : Keeps (presence k b) := by
  intro t u ht h
  obtain ⟨l, h1, _, h3⟩ := shapeAlts_ok t ht
  unfold presence at h
  rw [h1] at h
  simp only at h
  split at h
  · cases h
  · rename_i kept hk
    split at h
    · cases h
    · split at h
      · cases h
      · rename_i hne
        cases h
        exact mkUnion_shapeOnly (fun v hv => shapeOnly_shape (presentAll_shapes h3 hk v hv)) hne

theorem elemTypes_parts {E : Env n} {es : List (Elem n)} (h : ∀ e ∈ es, ∃ p, e = .part p) : ∃ ts, elemTypes E es = .ok ts := by
  induction es with
  | nil => exact ⟨[], rfl⟩
  | cons e l ih =>
    obtain ⟨p, rfl⟩ := h e List.mem_cons_self
    obtain ⟨ts, hts⟩ := ih fun e he => h e (List.mem_cons_of_mem _ he)
    exact ⟨p.type E :: ts, by simp [elemTypes, elemType, hts]⟩

theorem Plain.safe {c : Code n} (h : Plain c) : ∀ S, Safe c S := by
  induction h with
  | assign hv => intro S es he; exact elemTypes_parts (hv es he)
  | guard => intro S; exact presence_keeps _ _
  | seq _ _ iha ihb => intro S; exact ⟨iha S, fun S' _ => ihb S'⟩
  | branch _ _ iha ihb => intro S; exact ⟨iha S, fun A _ => ihb _⟩
  | scratch _ ih => intro S; exact ih S
  | _ => intro S; trivial

/-- In particular code without conditions about classes and without hash literals in array literals. -/
theorem c53_plain_code_completes (c : Code n) (h : Plain c) : ∃ S, runMethod c = some S ∧ Consistent S :=
  c53_safe_code_completes c (h.safe _)

/-! ### the two panics -/

/-- An array literal makes the analysis panic exactly if an element is a hash literal that is too large to be tracked. -/
theorem c53_array_literal_panics_iff (c : Code n) (h : Safe c ⟨.empty, 0⟩) {S : Tracker n} (hr : runMethod c = some S) (x : Fin n) (es : List (Elem n)) :
    run (.assign x (.array es)) S = none ↔ ∃ e fs, .hash fs ∈ es ∧ hashLiteral S.env fs = .error e := by
  obtain ⟨S', h1, hg, _⟩ := run_ok c good_empty h
  rw [show run c ⟨.empty, 0⟩ = some S from hr] at h1
  cases h1
  have herr : (∃ e, elemTypes S.env es = .error e) ↔ ∃ e fs, .hash fs ∈ es ∧ hashLiteral S.env fs = .error e := by
    clear hr
    induction es with
    | nil => simp [elemTypes]
    | cons e l ih =>
      rw [show elemTypes S.env (e :: l) = (match elemType S.env e, elemTypes S.env l with
        | .ok t, .ok ts => .ok (t :: ts)
        | .error r, _ => .error r
        | .ok _, .error r => .error r) from rfl]
      cases e with
      | part p =>
        simp only [elemType, List.mem_cons, reduceCtorEq, false_or]
        rw [← ih]
        cases elemTypes S.env l <;> simp
      | hash fs =>
        simp only [elemType, List.mem_cons, Elem.hash.injEq]
        cases hf : hashLiteral S.env fs with
        | error r => simp only [Except.error.injEq, exists_eq', true_iff]; exact ⟨r, fs, .inl rfl, hf⟩
        | ok t =>
          constructor
          · intro he
            obtain ⟨r, gs, h1, h2⟩ := ih.mp (by
              obtain ⟨r, hr⟩ := he
              cases hl : elemTypes S.env l with
              | ok ts => simp [hl] at hr
              | error r => exact ⟨r, rfl⟩)
            exact ⟨r, gs, .inr h1, h2⟩
          · rintro ⟨r, gs, rfl | h1, h2⟩
            · rw [hf] at h2; cases h2
            · obtain ⟨r', hr'⟩ := ih.mpr ⟨r, gs, h1, h2⟩
              exact ⟨r', by simp [hr']⟩
  rw [← herr]
  constructor
  · intro hn
    cases he : elemTypes S.env es with
    | error e => exact ⟨e, rfl⟩
    | ok ts =>
      obtain ⟨T, h1, _⟩ := assign_ok hg x (.array es) (fun es' e => by cases e; exact ⟨ts, he⟩)
      have : assign S x (.array es) = none := hn
      rw [h1] at this; cases this
  · rintro ⟨e, he⟩
    obtain ⟨b, S1, h1, h2, h3, h4⟩ := arrayAliases_ok (es := es) (i := 0) (a := ⟨es.length, [], ∅, none⟩) hg (by simp [Arrays.Ok])
    obtain ⟨S2, h5, _⟩ := bindValue_ok h2 x (.array es) .unknown (some .boundExceeded) (ids := ∅) (by simp)
    change assign S x (.array es) = none
    have ht : Value.type S.env (.array es) = .error e := by simp [Value.type, arrayLiteral, he]
    unfold assign
    simp only [ht, typeOr, reasonOf, Value.arrays, h1, Option.map_some, Option.bind_some, Value.ids, h5]
    simp [Ty.isArray]

/-- An array whose positions are tracked, while its type says something else. -/
theorem sync_none {E : Env n} {x : Fin n} {a : Arrays} {t : Ty} (ha : E.arrays x = some a) (hr : a.reason = none) (hb : E.binds x = none)
    (ht : E.types x = some t) (hn : arrayElems t = none) : sync E = none := by
  unfold sync
  cases h1 : applyResult E (bindResult E) .unknown with
  | none => rfl
  | some F =>
    obtain ⟨_, _, a2, _, _, a5, _⟩ := applyResult_some h1
    have hF := (a5 x (by rw [bindResult, hb])).1
    simp only [Option.bind_some]
    unfold applyResult
    rw [if_neg]
    intro hall
    have := hall x
    rw [arrayResult, a2, ha] at this
    simp [hF, ht, typeForArray, hr, hn] at this

/-- A variable holds an array with hashes in it, and a condition says that it is something else: then the next time that a hash gets
another name, the analysis panics. -/
theorem c53_narrowed_array_panics (c : Code n) (h : Safe c ⟨.empty, 0⟩) {S : Tracker n} (hr : runMethod c = some S) {x y z : Fin n} {a : Arrays} {t : Ty}
    {ids : Finset Id} (ha : S.env.arrays x = some a) (hn : a.reason = none) (ht : arrayElems t = none) (hy : S.env.binds y = some ids) (hne : ids ≠ ∅)
    (hz : z ≠ x) : runMethod (.seq c (.seq (.narrow x t) (.assign z (.read y)))) = none := by
  obtain ⟨S', h1, hg, _⟩ := run_ok c good_empty h
  rw [show run c ⟨.empty, 0⟩ = some S from hr] at h1
  cases h1
  obtain ⟨_, hbx, _⟩ := hg.inv.arrays x a ha
  have hay : S.env.arrays y = none := by
    cases hay : S.env.arrays y with
    | none => rfl
    | some b => have := (hg.inv.arrays y b hay).2.1; rw [hy] at this; cases this
  have key : ∀ E : Env n, E.arrays = put S.env.arrays z none → E.binds = put S.env.binds z (some ids) → E.types x = some t → sync E = none := by
    intro E e1 e2 e3
    refine sync_none (x := x) (a := a) ?_ hn ?_ e3 ht
    · rw [e1, put_other hz.symm]; exact ha
    · rw [e2, put_other hz.symm]; exact hbx
  unfold runMethod
  simp only [run]
  rw [show run c ⟨.empty, 0⟩ = some S from hr]
  simp only [Option.bind_some]
  unfold assign
  simp only [Value.arrays, hay, Option.bind_some, Value.ids, hy, Option.getD_some]
  unfold bindValue
  rw [if_pos hne]
  unfold bindIds
  rw [if_neg hne]
  have hx : ∀ u : Ty, put (put S.env.types x (some t)) z (some u) x = some t := by
    intro u; rw [put_other hz.symm]; simp [put]
  have hE : ∀ E : Env n, E.arrays = put S.env.arrays z none → E.binds = put S.env.binds z (some ids) → E.types x = some t →
      ((enforce E).bind fun E => (sync E).map fun E => (⟨E, S.next⟩ : Tracker n)) = none := by
    intro E e1 e2 e3
    unfold enforce
    simp only
    split
    · simp [key E e1 e2 e3]
    · unfold invalidate
      simp only
      split
      · rw [key]
        · rfl
        · exact e1
        · exact e2
        · exact e3
      · rfl
  rw [hE]
  · rfl
  · rfl
  · rfl
  · exact hx _

/-! ### invalidation -/

theorem mem_closure {links : List Link} {s : Finset Id} {j : Id} : j ∈ closure links s ↔ ∃ i ∈ s, Connected links i j := by
  classical
  constructor
  · intro h
    have : closure links s ⊆ (s ∪ ends links).filter fun j => ∃ i ∈ s, Connected links i j := by
      refine close_least (fun i hi => Finset.mem_filter.mpr ⟨Finset.mem_union_left _ hi, i, hi, .refl i⟩) fun l hl hm => ?_
      have hp := Finset.mem_union_right s (mem_ends hl).1
      have hc := Finset.mem_union_right s (mem_ends hl).2
      rcases hm with hm | hm
      · obtain ⟨_, i, hi, hij⟩ := Finset.mem_filter.mp hm
        exact ⟨hm, Finset.mem_filter.mpr ⟨hc, i, hi, .down hij hl⟩⟩
      · obtain ⟨_, i, hi, hij⟩ := Finset.mem_filter.mp hm
        exact ⟨Finset.mem_filter.mpr ⟨hp, i, hi, .up hij hl⟩, hm⟩
    exact (Finset.mem_filter.mp (this h)).2
  · rintro ⟨i, hi, hij⟩
    induction hij with
    | refl => exact closure_sub _ _ hi
    | down _ hl ih => exact (closure_fixed links s hl (.inl ih)).2
    | up _ hl ih => exact (closure_fixed links s hl (.inr ih)).1

/-- If hashes are given up, then exactly those that are connected with them through containment are, in either direction; everything
that is known of the others stays. Afterwards all that the names say agrees with what is known of their hashes. -/
theorem c53_invalidation (c : Code n) (h : Safe c ⟨.empty, 0⟩) {S : Tracker n} (hr : runMethod c = some S) {ids : Finset Id}
    (hi : ∀ i ∈ ids, S.env.states i ≠ none) (r : Reason) :
    ∃ E, invalidate S.env ids r = some E ∧ Consistent ⟨E, S.next⟩ ∧ Agrees E ∧ E.binds = S.env.binds ∧ E.links = S.env.links ∧
      (∀ j, (∃ i ∈ ids, Connected S.env.links i j) → E.states j = some (.invalid r)) ∧
      ∀ j, (¬ ∃ i ∈ ids, Connected S.env.links i j) → E.states j = S.env.states j := by
  obtain ⟨S', h1, hg, _⟩ := run_ok c good_empty h
  rw [show run c ⟨.empty, 0⟩ = some S from hr] at h1
  cases h1
  obtain ⟨E, h1, h2, h3, h4⟩ := invalidate_ok hg.inv.toPre (ids := ids) (fun i hm => Option.isSome_iff_ne_none.mpr (hi i hm)) r
  refine ⟨E, h1, Good.consistent ⟨h2, ?_⟩, ?_, h3.binds, h3.links, ?_, ?_⟩
  · intro i hl; exact hg.below i ((h3.live i).mp hl)
  · exact (invalidate_base (q := True) hg.inv.toPre.base h1).agrees trivial
  · intro j hj; rw [h4]; exact if_pos (mem_closure.mpr hj)
  · intro j hj; rw [h4]; exact if_neg fun hm => hj (mem_closure.mp hm)

/-- No hash that is known has more than eight aliases. -/
theorem c53_few_aliases (c : Code n) (h : Safe c ⟨.empty, 0⟩) {S : Tracker n} (hr : runMethod c = some S) : Few S.env :=
  (run_fit (q := False) c good_empty fit_empty h (fun h => h.elim) hr).few

/-! ### examples -/

/-- `x = {a: 1}; y = {k: x}; if c then z = x else z = {b: 1} end; z[:d] = 1; w = [x, z]; if z.key?(:b) then v = y[:k] end; foo(y)`. -/
def sample : Code 5 := seqs [.assign 0 (lit ['a']), .assign 1 (.hash [(sym 'k', .var 0)]), .branch (.assign 2 (.read 0)) (.assign 2 (lit ['b'])),
  .setField 2 (sym 'd') (.typed int), .assign 3 (.array [.part (.var 0), .part (.var 2)]),
  .branch (.seq (.guard 2 (presence (sym 'b') true)) (.assign 4 (.keyed 1 (sym 'k') (shapeOf ['a'])))) .skip, .escape (.var 1)]

theorem sample_plain : Plain sample :=
  .seq (.assign (by intro es h; cases h)) <| .seq (.assign (by intro es h; cases h)) <|
  .seq (.branch (.assign (by intro es h; cases h)) (.assign (by intro es h; cases h))) <| .seq (.setField _ _ _) <|
  .seq (.assign (by intro es h; cases h; intro e he; simp only [List.mem_cons, List.not_mem_nil, or_false] at he; rcases he with rfl | rfl <;> exact ⟨_, rfl⟩)) <|
  .seq (.branch (.seq .guard (.assign (by intro es h; cases h))) .skip) <| .seq (.escape _) .skip

example : ∃ S, runMethod sample = some S ∧ Consistent S := c53_plain_code_completes sample sample_plain

example {S} (h : runMethod sample = some S) : Few S.env := c53_few_aliases sample (sample_plain.safe _) h

set_option maxRecDepth 10000

/-- Nine names of one hash: it is given up; with eight it is known. -/
def aliases (k : Nat) : Code 9 := seqs (.assign 0 (lit ['a']) :: (List.range k).map fun i => .assign ⟨(i + 1) % 9, by omega⟩ (.read 0))

example : typeAfter (aliases 7) 0 = some (some (shapeOf ['a'])) := by decide +kernel
example : typeAfter (aliases 8) 0 = some (some .unknown) := by decide +kernel

/-- `x = {a: 1}; y = {k: x}; z = {b: 1}; foo(x)`: `y`, which contains `x`, is given up, `z` is not. -/
def given : Code 3 := seqs [.assign 0 (lit ['a']), .assign 1 (.hash [(sym 'k', .var 0)]), .assign 2 (lit ['b']), .escape (.var 0)]

example : typeAfter given 1 = some (some .unknown) := by decide +kernel
example : typeAfter given 2 = some (some (shapeOf ['b'])) := by decide +kernel

/-- `xs = [{a: 1}]; h = {b: 1}; if xs.nil? then g = h end`. -/
def narrowed : Code 3 := seqs [.assign 0 (.array [.hash [(sym 'a', .typed int)]]), .assign 1 (lit ['b']), .branch (.seq (.narrow 0 nilTy) (.assign 2 (.read 1))) .skip]

/-- The analysis of a method of three lines panics: an array with a hash in it, a hash, and a condition `xs.nil?` with an assignment
under it. -/
theorem c53_narrowed_array_fails : runMethod narrowed = none := by decide +kernel

/-- Without the condition it does not. -/
example : (runMethod (seqs [.assign 0 (.array [.hash [(sym 'a', .typed int)]]), .assign 1 (lit ['b']), .branch (.assign 2 (.read 1)) .skip] : Code 3)).isSome := by
  decide +kernel

/-- `xs = [{...}]` with `k` fields. -/
def large (k : Nat) : Code 1 := .assign 0 (.array [.hash ((List.range k).map fun i => (⟨false, [i]⟩, .typed int))])

/-- The analysis of a method with an array literal with a hash literal with 33 keys panics; with 32 keys it does not. -/
theorem c53_large_hash_in_array_fails : runMethod (large 33) = none ∧ (runMethod (large 32)).isSome := by
  constructor <;> decide +kernel

end Verif.FlowShapes
