import Verif.Lemmas.MethodReferenceCache
import Verif.Props.Mro
import Mathlib.Data.List.Forall2

/-!
C62: a method reference is resolved as specified, and the cache of a resolve pass does not change the answers.

The theorems ask for `SelfInChain`: a receiver with a metaclass is in its own chain.  `c62_receiver_in_chain` shows this for the
chains of the engine.
-/
namespace Verif.MethodReference

open Verif.Visibility Verif.MethodLookup

theorem reference_plain {E : Engine} (hs : SelfInChain E) (fuel : Nat) (n : Owner) (m : Nat) : reference E fuel n m = plain E fuel n m := by
  have h := lookup_agree hs fuel .empty n m (right_empty E)
  unfold reference
  generalize lookup E fuel .empty n m = x at h
  generalize plain E fuel n m = y at h
  cases h <;> rfl

/-- C62. Whatever right entries a cache has, a lookup with it ends as a lookup with a fresh one, and leaves a cache with right
entries. -/
theorem c62_cache (E : Engine) (hs : SelfInChain E) (fuel : Nat) (c : Cache) (hc : Right E c) (n : Owner) (m : Nat) :
    (∀ r c', lookup E fuel c n m = .ok (r, c') → reference E fuel n m = .ok r ∧ Right E c') ∧
    (∀ e, lookup E fuel c n m = .error e → reference E fuel n m = .error e) := by
  have h := lookup_agree hs fuel c n m hc
  rw [reference_plain hs]
  generalize lookup E fuel c n m = x at h
  generalize plain E fuel n m = y at h
  cases h with
  | error e => exact ⟨fun r c' h => (by cases h), fun e' h => (by cases h; rfl)⟩
  | ok r c1 h1 => exact ⟨fun r' c' h => (by cases h; exact ⟨rfl, h1⟩), fun e' h => (by cases h)⟩

/-- C62. The references of a pass, resolved one after the other with one cache, have the answers that each has alone. -/
theorem c62_pass (E : Engine) (hs : SelfInChain E) (fuel : Nat) : ∀ (qs : List (Owner × Nat)) (c : Cache) (rs : List Res) (c' : Cache), Right E c →
    pass E fuel c qs = .ok (rs, c') → List.Forall₂ (fun q r => reference E fuel q.1 q.2 = .ok r) qs rs
  | [], c, rs, c', _, h => by
    rw [pass] at h
    cases h
    exact .nil
  | q :: rest, c, rs, c', hc, h => by
    rw [pass] at h
    cases h1 : lookup E fuel c q.1 q.2 with
    | error e => rw [h1] at h; cases h
    | ok x =>
      obtain ⟨r, c1⟩ := x
      rw [h1] at h
      simp only at h
      obtain ⟨h2, h3⟩ := (c62_cache E hs fuel c hc q.1 q.2).1 r c1 h1
      cases h4 : pass E fuel c1 rest with
      | error e => rw [h4] at h; cases h
      | ok y =>
        obtain ⟨rs', c2⟩ := y
        rw [h4] at h
        cases h
        exact .cons h2 (c62_pass E hs fuel rest c1 rs' c' h3 h4)

/-- C62. The engine's chains have what the theorems ask for: a singleton with a metaclass is in its own chain. -/
theorem c62_receiver_in_chain (ops : List GraphStore.Op) (hv : ∀ op ∈ ops, op.Valid) (C : Mro.Cfg) (n k : Nat) {s : GraphStore.State} {ch : List Nat}
    (hs : GraphStore.run ops GraphStore.init = .ok s) (hk : Mro.metaclass C s n = some k) (hc : Mro.chainWithoutMetaclass C s n = some ch) : n ∈ ch := by
  obtain ⟨s', h1, F⟩ := Mro.faithful_run ops hv
  rw [hs] at h1
  cases h1
  obtain ⟨ch', h2, _, h3⟩ := Mro.without_spec (C := C) F n
  rw [hc] at h2
  cases h2
  rw [h3]
  refine Or.inl (Or.inl ⟨?_, .refl (fun h => h)⟩)
  rw [← Mro.known_iff F]
  unfold Mro.metaclass Mro.nodeKind at hk
  cases hn : GraphStore.nodesFor s n with
  | nil =>
    rw [hn] at hk
    simp at hk
  | cons d l => rfl

/-- C62. Every answer is one that the specification gives. -/
theorem c62_refers (E : Engine) (hs : SelfInChain E) (fuel : Nat) (n : Owner) (m : Nat) (r : Res) (h : reference E fuel n m = .ok r) : Refers E n m r := by
  rw [reference_plain hs] at h
  exact plain_refers hs fuel n m r h

/-- C62. Resolving never panics: the definitions found through includers are always facts. -/
theorem c62_no_panic (E : Engine) (hs : SelfInChain E) (fuel : Nat) (c : Cache) (hc : Right E c) (n : Owner) (m : Nat) : lookup E fuel c n m ≠ .error .panic := by
  intro h
  have h1 := (c62_cache E hs fuel c hc n m).2 _ h
  rw [reference_plain hs] at h1
  exact plain_no_panic hs fuel n m h1

/-- C62. If no execution context is applied to itself through others, every lookup ends, with any cache. -/
theorem c62_ends (E : Engine) (hs : SelfInChain E) (rank : Owner → Nat) (hr : ∀ n, ∀ a ∈ E.base.applications n, rank a < rank n) (c : Cache) (hc : Right E c)
    (n : Owner) (m fuel : Nat) (hf : 2 * (rank n + 1) ≤ fuel) : ∃ r c', lookup E fuel c n m = .ok (r, c') := by
  obtain ⟨r, h⟩ := plain_ends hs rank hr (rank n + 1) fuel n m (by omega) (by omega)
  have h1 := lookup_agree hs fuel c n m hc
  rw [h] at h1
  generalize lookup E fuel c n m = x at h1
  cases h1 with
  | ok r' c' h2 => exact ⟨r, c', rfl⟩

theorem appPlain_congr {ans ans' : Owner → Except Err Res} : ∀ (l : List Owner) (fs : List Fact) (amb : Bool), (∀ a ∈ l, ∀ r, ans a = .ok r → ans' a = .ok r) →
    ∀ x, appPlain ans l fs amb = .ok x → appPlain ans' l fs amb = .ok x
  | [], fs, amb, _, x, h => h
  | a :: rest, fs, amb, hl, x, h => by
    rw [appPlain] at h ⊢
    cases ha : ans a with
    | error e => rw [ha] at h; cases h
    | ok r =>
      rw [ha] at h
      rw [hl a List.mem_cons_self r ha]
      cases r with
      | missing => exact appPlain_congr rest _ _ (fun b hb => hl b (List.mem_cons_of_mem _ hb)) x h
      | unique f => exact appPlain_congr rest _ _ (fun b hb => hl b (List.mem_cons_of_mem _ hb)) x h
      | ambiguous o y => exact appPlain_congr rest _ _ (fun b hb => hl b (List.mem_cons_of_mem _ hb)) x h

theorem plain_more {E : Engine} (hs : SelfInChain E) : ∀ (fuel : Nat) (n : Owner) (m : Nat) (r : Res), plain E fuel n m = .ok r → plain E (fuel + 1) n m = .ok r
  | 0, _, _, _, h => by rw [plain] at h; cases h
  | fuel + 1, n, m, r, h => by
    by_cases hsil : Silent E n m
    · rw [plain_silent hs _ hsil] at h ⊢
      cases ha : appPlain (fun a => plain E fuel a m) (E.base.applications n) [] false with
      | error e => rw [ha] at h; cases h
      | ok x =>
        rw [ha] at h
        rw [appPlain_congr (ans' := fun a => plain E (fuel + 1) a m) _ _ _ (fun a _ r' hr' => plain_more hs fuel a m r' hr') x ha]
        obtain ⟨fs, amb⟩ := x
        simp only at h ⊢
        split at h
        · rename_i h1; rw [if_pos h1]; exact h
        · rename_i h1
          rw [if_neg h1]
          split at h
          · exact h
          · split at h
            · rename_i h3; rw [if_pos h3]; exact h
            · rename_i h3
              rw [if_neg h3]
              split at h
              · rename_i h4
                rw [if_pos h4]
                cases h5 : plain E fuel n methodMissingName with
                | error e => rw [h5] at h; cases h
                | ok r' =>
                  rw [h5] at h
                  rw [plain_more hs fuel n _ r' h5]
                  exact h
              · rename_i h4; rw [if_neg h4]; exact h
    · have hgen : ∀ k k', plain E (k + 1) n m = plain E (k' + 1) n m := by
        intro k k'
        rw [plain, plain]
        by_cases hk : (!E.base.known n) = true
        · rw [if_pos hk, if_pos hk]
        · rw [if_neg hk, if_neg hk]
          have hk' : E.base.known n = true := by simpa using hk
          rcases walkOwn_spec E n m with ⟨hw, hno⟩ | ⟨hw, how⟩
          · rw [hw]
            simp only
            rcases includer_spec E.base n m hk' with ⟨hi, hv⟩ | ⟨r', hi, _, hm, hv⟩
            · rw [hi]
              simp only
              by_cases hb : E.broken n = true
              · rw [if_pos hb, if_pos hb]
              · rw [if_neg hb, if_neg hb]
                have hb' : E.broken n = false := by simpa using hb
                rcases plainMeta_spec hs hno with ⟨hp, hnm⟩ | ⟨hp, hme⟩
                · exact absurd ⟨hk', hno, hv, hb', hnm⟩ hsil
                · generalize plainMeta E n m = pm at hp hme
                  cases pm with
                  | missing => exact absurd rfl hp
                  | unique f => rfl
                  | ambiguous o x => rfl
            · rw [hi]
          · generalize walkOwn E n m false (refChain E n) = pm at hw how
            cases pm with
            | missing => exact absurd rfl hw
            | unique f => rfl
            | ambiguous o x => rfl
      rw [hgen (fuel + 1) fuel]
      exact h

/-- C62. The answer does not depend on how much fuel there is. -/
theorem c62_fuel (E : Engine) (hs : SelfInChain E) (fuel fuel' : Nat) (n : Owner) (m : Nat) (r r' : Res) (h : reference E fuel n m = .ok r) (h' : reference E fuel' n m = .ok r') :
    r = r' := by
  rw [reference_plain hs] at h h'
  have up : ∀ (k a : Nat) (r : Res), plain E a n m = .ok r → plain E (a + k) n m = .ok r := by
    intro k
    induction k with
    | zero => intro a r h; exact h
    | succ k ih => intro a r h; exact plain_more hs (a + k) n m r (ih a r h)
  have h1 := up fuel' fuel r h
  have h2 := up fuel fuel' r' h'
  rw [Nat.add_comm fuel' fuel, h1] at h2
  injection h2

/-! ## What the specification says about answers -/

theorem own_unique {E : Engine} {n : Owner} {m : Nat} {f : Fact} (h : Own E n m (.unique f)) :
    f ∈ E.base.facts ∧ f.name = m ∧ ∃ before, First E.base m (refChain E n) before f.owner ∧ One E.base f.owner m f ∧
      (f.owner = n ∨ Core f ∨ ∀ x ∈ before ++ [f.owner], ¬ OpenRoot x) := by
  cases h with
  | sure be o f h1 h2 h3 =>
    have ho : f.owner = o := h2.1.1.2.1
    subst ho
    exact ⟨h2.1.1.1, h2.1.1.2.2, be, h1, h2, h3⟩

/-- C62. Unresolved ancestors are a barrier: then a class or an object has no answer but one of its own chain, and no fallback is
used. -/
theorem c62_barrier (E : Engine) (hs : SelfInChain E) (fuel : Nat) (n : Owner) (m : Nat) (f : Fact) (hm : E.base.isModule n = false) (hb : E.broken n = true)
    (h : reference E fuel n m = .ok (.unique f)) :
    f.name = m ∧ ∃ before, First E.base m (E.chainWith n false) before f.owner ∧ One E.base f.owner m f := by
  have h1 := c62_refers E hs fuel n m _ h
  have hc : refChain E n = E.chainWith n false := by unfold refChain; rw [hb]; rfl
  have nosil : ¬ Silent E n m := by
    rintro ⟨_, _, _, hb', _⟩
    rw [hb] at hb'
    cases hb'
  cases h1 with
  | own n m r hk ho =>
    obtain ⟨_, h2, be, h3, h4, _⟩ := own_unique ho
    rw [hc] at h3
    exact ⟨h2, be, h3, h4⟩
  | via n m r _ _ hm' _ => rw [hm] at hm'; cases hm'
  | object n m r _ _ _ hb' _ => rw [hb] at hb'; cases hb'
  | target n m g a f h2 => exact absurd h2 nosil
  | handler n m r h2 => exact absurd h2 nosil

/-- C62. Without includers and targets, a fact that is not of the core and not the receiver's own is an answer only if no open root
(the top level, `BasicObject`, `Object`, `Kernel`, `Module`, `Class`) comes before it or is its owner. -/
theorem c62_core (E : Engine) (hs : SelfInChain E) (fuel : Nat) (n : Owner) (m : Nat) (f : Fact) (hm : E.base.isModule n = false) (ha : E.base.applications n = [])
    (h : reference E fuel n m = .ok (.unique f)) :
    (f.name = m ∨ f.name = methodMissingName) ∧
      (f.owner = n ∨ Core f ∨ ∃ before, First E.base f.name (refChain E n) before f.owner ∧ ∀ x ∈ before ++ [f.owner], ¬ OpenRoot x) := by
  have key : ∀ m f, Refers E n m (.unique f) → m = methodMissingName →
      f.name = m ∧ (f.owner = n ∨ Core f ∨ ∃ before, First E.base f.name (refChain E n) before f.owner ∧ ∀ x ∈ before ++ [f.owner], ¬ OpenRoot x) := by
    intro m f h hmm
    cases h with
    | own _ _ r hk ho =>
      obtain ⟨_, h2, be, h3, h4, h5⟩ := own_unique ho
      refine ⟨h2, ?_⟩
      rcases h5 with h5 | h5 | h5
      · exact Or.inl h5
      · exact Or.inr (Or.inl h5)
      · exact Or.inr (Or.inr ⟨be, by rw [h2]; exact h3, h5⟩)
    | via _ _ r _ _ hm' _ => rw [hm] at hm'; cases hm'
    | object _ _ r _ _ _ _ hme =>
      cases hme with
      | sure k be o f h1 h2 h3 h4 => exact ⟨h3.1.1.2.2, Or.inr (Or.inl h4)⟩
    | target _ _ g a f _ _ h3 => rw [ha] at h3; cases h3
    | handler _ _ r _ _ _ h3 => exact absurd hmm h3
  have h1 := c62_refers E hs fuel n m _ h
  by_cases hmm : m = methodMissingName
  · obtain ⟨h2, h3⟩ := key m f h1 hmm
    exact ⟨Or.inl h2, h3⟩
  · cases h1 with
    | own _ _ r hk ho =>
      obtain ⟨_, h2, be, h3, h4, h5⟩ := own_unique ho
      refine ⟨Or.inl h2, ?_⟩
      rcases h5 with h5 | h5 | h5
      · exact Or.inl h5
      · exact Or.inr (Or.inl h5)
      · exact Or.inr (Or.inr ⟨be, by rw [h2]; exact h3, h5⟩)
    | via _ _ r _ _ hm' _ => rw [hm] at hm'; cases hm'
    | object _ _ r _ _ _ _ hme =>
      cases hme with
      | sure k be o f h1 h2 h3 h4 => exact ⟨Or.inl h3.1.1.2.2, Or.inr (Or.inl h4)⟩
    | target _ _ g a f _ _ h3 => rw [ha] at h3; cases h3
    | handler _ _ r _ _ _ _ h4 _ =>
      obtain ⟨h5, h6⟩ := key methodMissingName f h4 rfl
      exact ⟨Or.inr h5, h6⟩

/-- C62. A method of the chain that is found is the answer: if something stands at an owner of the chain and nothing before it, the
reference is not missing, and if it is one fact of the receiver itself or of the core, it is the answer. -/
theorem c62_found (E : Engine) (hs : SelfInChain E) (fuel : Nat) (n : Owner) (m : Nat) (before : List Owner) (o : Owner) (f : Fact) (hk : E.base.known n = true)
    (h1 : First E.base m (refChain E n) before o) (h2 : One E.base o m f) (h3 : f.owner = n ∨ Core f ∨ ∀ x ∈ before ++ [o], ¬ OpenRoot x) :
    reference E (fuel + 1) n m = .ok (.unique f) := by
  rw [reference_plain hs, plain]
  simp only [hk, Bool.not_true, Bool.false_eq_true, if_false]
  rcases walkOwn_spec E n m with ⟨_, hno⟩ | ⟨_, how⟩
  · exact absurd (hno o h1.mem) h2.not_nothing
  · generalize walkOwn E n m false (refChain E n) = r at how
    cases how with
    | sure be o' f' g1 g2 g3 =>
      obtain ⟨_, rfl⟩ := h1.same g1 h2.not_nothing g2.not_nothing
      rw [h2.same g2]
    | unsure be o' f' g1 g2 g3 g4 g5 =>
      obtain ⟨rfl, rfl⟩ := h1.same g1 h2.not_nothing g2.not_nothing
      have := h2.same g2
      subst this
      rcases h3 with h3 | h3 | h3
      · exact absurd h3 g3
      · exact absurd h3 g4
      · obtain ⟨x, hx, hx'⟩ := g5
        exact absurd hx' (h3 x hx)
    | several be o' g1 g2 =>
      obtain ⟨_, rfl⟩ := h1.same g1 h2.not_nothing g2.not_nothing
      exact absurd g2 h2.not_several

/-! ## Examples -/

/-- Class `A` (`[10]`) with superclass `Object` (`[1]`), its singleton with metaclass `Class` (`[4]`), module `M` (`[20]`) included in `A`,
and a context `T` (`[30]`) that is applied to `A`.  Names: 7 is defined in `A`, 8 in the stubs of `Class`, 9 in the program's own
`Object`. -/
def sampleFacts : List Fact := [⟨⟨[10], false⟩, 7, 100, .pub, .project, .available⟩, ⟨⟨[4], false⟩, 8, 200, .pub, .stub, .available⟩,
  ⟨⟨[1], false⟩, 9, 300, .pub, .project, .available⟩, ⟨basicObject, methodMissingName, 400, .priv, .stub, .available⟩]

def sampleChain (o : Owner) : List Owner :=
  if o = ⟨[10], false⟩ then [⟨[10], false⟩, ⟨[20], false⟩, ⟨[1], false⟩, basicObject]
  else if o = ⟨[10], true⟩ then [⟨[10], true⟩, ⟨[1], true⟩]
  else if o = ⟨[4], false⟩ then [⟨[4], false⟩, ⟨[1], false⟩, basicObject]
  else [o]

def sampleBase : Base := ⟨sampleFacts, [], sampleChain, fun _ => true, fun o => decide (o = ⟨[20], false⟩),
  fun o => if o = ⟨[20], false⟩ then [⟨[10], false⟩] else [], fun o => if o = ⟨[30], false⟩ then [⟨[10], false⟩] else [], fun a b => decide (a.parts ≤ b.parts)⟩

def sampleEngine : Engine := ⟨sampleBase, fun o _ => sampleChain o, fun _ => false, fun o => if o = ⟨[10], true⟩ then some ⟨[4], false⟩ else none, fun o => [o], fun o => [o]⟩

theorem sample_self : SelfInChain sampleEngine := by
  intro n k h
  have hn : n = ⟨[10], true⟩ := by
    have h' : (if n = ⟨[10], true⟩ then some (⟨[4], false⟩ : Owner) else none) = some k := h
    by_cases hx : n = ⟨[10], true⟩
    · exact hx
    · rw [if_neg hx] at h'; cases h'
  subst hn
  decide

/-- The method of the class, through the module, through the context, of the metaclass and from the open root. -/
example : reference sampleEngine 4 ⟨[10], false⟩ 7 = .ok (.unique ⟨⟨[10], false⟩, 7, 100, .pub, .project, .available⟩) ∧
    reference sampleEngine 4 ⟨[20], false⟩ 7 = .ok (.unique ⟨⟨[10], false⟩, 7, 100, .pub, .project, .available⟩) ∧
    reference sampleEngine 4 ⟨[30], false⟩ 7 = .ok (.unique ⟨⟨[10], false⟩, 7, 100, .pub, .project, .available⟩) ∧
    reference sampleEngine 4 ⟨[10], true⟩ 8 = .ok (.unique ⟨⟨[4], false⟩, 8, 200, .pub, .stub, .available⟩) ∧
    reference sampleEngine 4 ⟨[10], false⟩ 9 = .ok (.ambiguous ⟨[10], false⟩ 9) ∧
    reference sampleEngine 4 ⟨[10], true⟩ 9 = .ok (.ambiguous ⟨[4], false⟩ 9) ∧
    reference sampleEngine 4 ⟨[10], false⟩ 8 = .ok .missing := by decide +kernel

/-- Lookups do end there. -/
example (c : Cache) (hc : Right sampleEngine c) (n : Owner) (m : Nat) : ∃ r c', lookup sampleEngine 4 c n m = .ok (r, c') := by
  refine c62_ends sampleEngine sample_self (fun o => if o = ⟨[30], false⟩ then 1 else 0) ?_ c hc n m 4 (by split <;> omega)
  intro x a ha
  have ha' : a ∈ (if x = ⟨[30], false⟩ then [(⟨[10], false⟩ : Owner)] else []) := ha
  by_cases hx : x = ⟨[30], false⟩
  · rw [if_pos hx] at ha'
    rw [List.mem_singleton.mp ha', hx]
    decide
  · rw [if_neg hx] at ha'
    cases ha'

/-- A pass with repeated references through one cache. -/
example : ∃ c, pass sampleEngine 4 .empty [(⟨[10], true⟩, 8), (⟨[10], true⟩, 8), (⟨[10], false⟩, 7)] =
    .ok ([.unique ⟨⟨[4], false⟩, 8, 200, .pub, .stub, .available⟩, .unique ⟨⟨[4], false⟩, 8, 200, .pub, .stub, .available⟩,
      .unique ⟨⟨[10], false⟩, 7, 100, .pub, .project, .available⟩], c) := ⟨_, by rfl⟩

/-! ## Where resolving goes wrong -/

/-- A context that is applied to itself, as an extension may connect it (src/extensions/mod.rs 3448-3463 checks both names but not
that they differ). -/
def cyclicEngine : Engine :=
  ⟨⟨[], [], fun o => [o], fun _ => true, fun _ => false, fun _ => [], fun o => [o], fun _ _ => true⟩, fun o _ => [o], fun _ => false, fun _ => none, fun o => [o], fun o => [o]⟩

/-- C62, wrong: not every lookup ends.  With a context that is applied to itself, a missing method is looked for without end: the
recursion overflows the stack. -/
theorem c62_cycle_fails : ∃ (E : Engine) (n : Owner) (m : Nat), SelfInChain E ∧ ∀ fuel, reference E fuel n m = .error .fuel := by
  have hs : SelfInChain cyclicEngine := by intro n k h; cases h
  refine ⟨cyclicEngine, ⟨[10], false⟩, 7, hs, ?_⟩
  intro fuel
  rw [reference_plain hs]
  have hsil : Silent cyclicEngine ⟨[10], false⟩ 7 := by
    refine ⟨rfl, ?_, Or.inl rfl, rfl, ?_⟩
    · rintro o _ f ⟨⟨hf, _⟩, _⟩
      cases hf
    · intro k h; cases h
  induction fuel with
  | zero => rfl
  | succ fuel ih =>
    rw [plain_silent hs fuel hsil]
    have : appPlain (fun a => plain cyclicEngine fuel a 7) (cyclicEngine.base.applications ⟨[10], false⟩) [] false = .error .fuel := by
      show appPlain (fun a => plain cyclicEngine fuel a 7) [⟨[10], false⟩] [] false = .error .fuel
      rw [appPlain]
      rw [ih]
    rw [this]

/-- A class `A` (`[10]`) that defines a method twice, and a module `M` (`[20]`) that it includes. -/
def twiceFacts : List Fact := [⟨⟨[10], false⟩, 7, 100, .pub, .project, .available⟩, ⟨⟨[10], false⟩, 7, 200, .pub, .project, .available⟩]

def twiceBase : Base := ⟨twiceFacts, [], fun o => if o = ⟨[10], false⟩ then [⟨[10], false⟩, ⟨[20], false⟩] else [o], fun _ => true, fun o => decide (o = ⟨[20], false⟩),
  fun o => if o = ⟨[20], false⟩ then [⟨[10], false⟩] else [], fun _ => [], fun _ _ => true⟩

def twiceEngine : Engine := ⟨twiceBase, fun o _ => twiceBase.chain o, fun _ => false, fun _ => none, fun o => [o], fun o => [o]⟩

/-- C62, wrong: a call in a module is not resolved as the call on the class that includes it.  A method that the class defines twice is
ambiguous for the class, but through the module the reference is the first definition, which Ruby replaces by the second. -/
theorem c62_includer_first_fails : ∃ (E : Engine) (n r : Owner) (m : Nat) (f g : Fact), SelfInChain E ∧ E.base.includers n = [r] ∧ E.base.isModule n = true ∧
    reference E 2 r m = .ok (.ambiguous r m) ∧ reference E 2 n m = .ok (.unique f) ∧ Stands E.base r m g ∧ f.pos < g.pos := by
  refine ⟨twiceEngine, ⟨[20], false⟩, ⟨[10], false⟩, 7, ⟨⟨[10], false⟩, 7, 100, .pub, .project, .available⟩, ⟨⟨[10], false⟩, 7, 200, .pub, .project, .available⟩,
    (by intro n k h; cases h), rfl, rfl, (by decide +kernel), (by decide +kernel), mem_factsAt.mp (by decide), by decide⟩

/-- C62, wrong: a call that reaches one method of one class is not always a reference to it.  If a class is reopened and the method defined
again, going to the definition finds it, but the reference is ambiguous: it is missing from the references of the method. -/
theorem c62_reopened_fails : ∃ (E : Engine) (n : Owner) (m : Nat) (c : Callee), SelfInChain E ∧ MethodLookup.resolve E.base n m true none = some [c] ∧ c.how = .exact ∧
    c.owner = n ∧ c.ranges = [100, 200] ∧ reference E 2 n m = .ok (.ambiguous n m) :=
  ⟨twiceEngine, ⟨[10], false⟩, 7, { owner := ⟨[10], false⟩, name := 7, how := .exact, ranges := [100, 200] }, (by intro n k h; cases h), (by decide +kernel), rfl, rfl, rfl, by decide +kernel⟩

/-- A context `T` (`[30]`) with a `method_missing` of its own, applied to `A` (`[10]`) with another. -/
def handlerFacts : List Fact := [⟨⟨[30], false⟩, methodMissingName, 100, .pub, .project, .available⟩, ⟨⟨[10], false⟩, methodMissingName, 200, .pub, .project, .available⟩]

def handlerBase : Base := ⟨handlerFacts, [], fun o => [o], fun _ => true, fun _ => false, fun _ => [], fun o => if o = ⟨[30], false⟩ then [⟨[10], false⟩] else [], fun _ _ => true⟩

def handlerEngine : Engine := ⟨handlerBase, fun o _ => [o], fun _ => false, fun _ => none, fun o => [o], fun o => [o]⟩

/-- C62, wrong: a receiver's own methods do not always come before those of the targets of its context.  Its own `method_missing` does not:
a name that neither has is a reference to the `method_missing` of the target, while `method_missing` itself is the receiver's. -/
theorem c62_handler_order_fails : ∃ (E : Engine) (n a : Owner) (m : Nat) (f g : Fact), SelfInChain E ∧ E.base.applications n = [a] ∧ n ≠ a ∧ f.owner = n ∧ g.owner = a ∧
    reference E 3 n methodMissingName = .ok (.unique f) ∧ reference E 3 n m = .ok (.unique g) :=
  ⟨handlerEngine, ⟨[30], false⟩, ⟨[10], false⟩, 7, ⟨⟨[30], false⟩, methodMissingName, 100, .pub, .project, .available⟩,
    ⟨⟨[10], false⟩, methodMissingName, 200, .pub, .project, .available⟩, (by intro n k h; cases h), rfl, (by decide), rfl, rfl, (by decide +kernel), by decide +kernel⟩

end Verif.MethodReference
