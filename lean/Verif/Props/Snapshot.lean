import Verif.Lemmas.SnapshotWhole
/-!
C63: the saved facts of a dependency come back as they were, or not at all.
-/
namespace Verif.Snapshot

/-- A template is made exactly from facts that hold nothing of a project: what stays is `Kept`, and it has no reference, diagnostic or
context, no generated owner in a name or in a type of a type fact, and no range of another file. -/
theorem c63_accepted_iff (source : Nat) (f : Facts) (t : Template) :
    tryNew source f = .ok t ↔ t.source = source ∧ Kept f t.facts ∧ f.refs = [] ∧ f.diagCandidates = [] ∧ f.diags = [] ∧
      f.contexts = [] ∧ (∀ p, HasPart t.facts p → ¬GeneratedPart p) ∧ ∀ r, HasRange t.facts r → r.file = source := by
  rw [tryNew_iff]
  constructor
  · rintro ⟨rfl, h⟩
    exact ⟨rfl, retain_kept f, h.refs, h.diagCandidates, h.diags, h.contexts, h.generated, h.ranges⟩
  · obtain ⟨a, g⟩ := t
    rintro ⟨rfl, h1, h2, h3, h4, h5, h6, h7⟩
    obtain rfl := kept_unique h1 (retain_kept f)
    exact ⟨rfl, h2, h3, h4, h5, h6, h7⟩

/-- The error for a foreign range names the file of one of the ranges. -/
theorem c63_foreign (source a b : Nat) (f : Facts) (h : tryNew source f = .error (.foreign a b)) :
    a = source ∧ b ≠ source ∧ ∃ g r, Kept f g ∧ HasRange g r ∧ r.file = b := by
  obtain ⟨h1, h2, r, hr, h3⟩ := tryNew_foreign h
  exact ⟨h1, h2, retain f, r, retain_kept f, hr, h3⟩

/-- A template is moved to every file without a failed assertion, and nothing but the file of its ranges changes. -/
theorem c63_instantiate (source : Nat) (f : Facts) (t : Template) (h : tryNew source f = .ok t) (target : Nat) :
    instantiate t target = some (t.facts.inFile target) := by
  obtain ⟨rfl, hn⟩ := tryNew_iff.mp h
  exact instantiate_some hn.ranges target

/-- The checks of a body are the bounds of `BodyOk`. -/
theorem c63_check_iff (s : Summary) : s.check = true ↔ BodyOk s := check_iff s

/-- A template is saved exactly if its bodies are within the bounds; saving never panics. -/
theorem c63_saved_iff (source : Nat) (f : Facts) (t : Template) (h : tryNew source f = .ok t) :
    ((∃ s, toSnapshot t = .ok s) ↔ ∀ b ∈ t.facts.bodies, BodyOk b.summary) ∧
      ((¬∀ b ∈ t.facts.bodies, BodyOk b.summary) → toSnapshot t = .err) := by
  obtain ⟨rfl, hn⟩ := tryNew_iff.mp h
  have hb := retain_bare f
  have herr : (¬∀ b ∈ (retain f).bodies, BodyOk b.summary) → toSnapshot ⟨source, retain f⟩ = .err := fun hc =>
    snapFacts_err fun hx => hc fun b hb => (hx b hb).2
  refine ⟨⟨?_, fun hok => ⟨_, snapFacts_ok fun b hb' => ⟨hb.bodies b hb', hok b hb'⟩⟩⟩, herr⟩
  rintro ⟨s, hs⟩
  refine Classical.byContradiction fun hc => ?_
  rw [herr hc] at hs; cases hs

/-- What was saved comes back exactly if it is within the limits of the snapshot, and then it is what was saved; otherwise there is an
error, never a panic and never other facts. -/
theorem c63_round_trip (u : Uni) (hnul : u.upper '\x00' = false) (source : Nat) (f : Facts) (t : Template) (s : Snap)
    (h : tryNew source f = .ok t) (hm : Made u t.facts) (hs : toSnapshot t = .ok s) :
    (Fits t.facts → fromSnapshot u s = .ok ⟨0, t.facts.inFile 0⟩) ∧ (¬Fits t.facts → fromSnapshot u s = .err) := by
  have hok := (c63_saved_iff source f t h).1.mp ⟨s, hs⟩
  obtain ⟨hp, ho⟩ := snapshot_back hnul h hm hok
  rw [hp] at hs; cases hs
  rcases ho with ⟨h1, h2⟩ | ⟨h1, h2⟩
  · exact ⟨fun _ => h2, fun h' => absurd h1 h'⟩
  · exact ⟨fun h' => absurd h' h1, fun _ => h2⟩

/-- In every file the restored template has the facts that the original one has. -/
theorem c63_same_facts (u : Uni) (hnul : u.upper '\x00' = false) (source : Nat) (f : Facts) (t r : Template) (s : Snap)
    (h : tryNew source f = .ok t) (hm : Made u t.facts) (hs : toSnapshot t = .ok s) (hr : fromSnapshot u s = .ok r) (target : Nat) :
    instantiate r target = instantiate t target := by
  obtain ⟨h1, h2⟩ := c63_round_trip u hnul source f t s h hm hs
  rcases Classical.em (Fits t.facts) with hf | hf
  · rw [h1 hf] at hr; cases hr
    rw [c63_instantiate source f t h target, instantiate_some (fun r hr => hasRange_inFile hr), inFile_inFile]
  · rw [h2 hf] at hr; cases hr

/-- Whatever is in a snapshot, also if it has been changed on disk: restored facts are well made, within the limits and the bounds, in
the file 0, and hold nothing of a project. -/
theorem c63_any_snapshot (u : Uni) (s : Snap) (t : Template) (h : fromSnapshot u s = .ok t) :
    t.source = 0 ∧ Made u t.facts ∧ Fits t.facts ∧ (∀ b ∈ t.facts.bodies, BodyOk b.summary ∧ b.summary.captures = []) ∧
      (∀ p, HasPart t.facts p → ¬GeneratedPart p) ∧ (∀ r, HasRange t.facts r → r.file = 0) ∧
      (∀ x ∈ t.facts.symbols, x.kind ≠ .localVar) ∧ t.facts.refs = [] ∧ t.facts.diagCandidates = [] ∧ t.facts.diags = [] ∧
      t.facts.contexts = [] ∧ t.facts.evidence = [] ∧ t.facts.localReads = [] := by
  obtain ⟨f, hf, h⟩ := fromSnapshot_ok.mp h
  obtain ⟨hm, hfit, hok⟩ := restFacts_made hf
  obtain ⟨rfl, hn⟩ := tryNew_iff.mp h
  have hb := retain_bare f
  exact ⟨rfl, made_retain hm, fits_retain hfit, fun b hb' => ⟨hok b (List.mem_filter.mp hb').1, hb.bodies b hb'⟩, hn.generated,
    hn.ranges, hb.symbols, hn.refs, hn.diagCandidates, hn.diags, hn.contexts, rfl, rfl⟩

/-- Restored facts are saved and restored to themselves. -/
theorem c63_stable (u : Uni) (hnul : u.upper '\x00' = false) (s : Snap) (t : Template) (h : fromSnapshot u s = .ok t) :
    ∃ s', toSnapshot t = .ok s' ∧ fromSnapshot u s' = .ok t := by
  obtain ⟨h0, hm, hfit, hb, -, hr, -⟩ := c63_any_snapshot u s t h
  obtain ⟨f, -, ht⟩ := fromSnapshot_ok.mp h
  obtain ⟨hp, ho⟩ := snapshot_back hnul ht hm fun b hb' => (hb b hb').1
  refine ⟨_, hp, ?_⟩
  rcases ho with ⟨-, h2⟩ | ⟨h1, -⟩
  · rw [h2, inFile_self hr]
    obtain ⟨a, g⟩ := t
    simp only at h0; subst h0; rfl
  · exact absurd hfit h1

/-- Restoring panics at most if a parameter of a method has the empty name. -/
theorem c63_panic (u : Uni) (s : Snap) (h : fromSnapshot u s = .panic) : ∃ m ∈ s.methods, ∃ p ∈ m.paramFacts, p.name = [] :=
  fromSnapshot_panic h

/-- No saved template panics when it is restored. -/
theorem c63_saved_no_panic (u : Uni) (hnul : u.upper '\x00' = false) (source : Nat) (f : Facts) (t : Template) (s : Snap)
    (h : tryNew source f = .ok t) (hm : Made u t.facts) (hs : toSnapshot t = .ok s) : fromSnapshot u s ≠ .panic := by
  obtain ⟨h1, h2⟩ := c63_round_trip u hnul source f t s h hm hs
  rcases Classical.em (Fits t.facts) with hf | hf
  · rw [h1 hf]; simp
  · rw [h2 hf]; simp

/-! ### what does not hold -/

/-- No facts. -/
def noFacts : Facts :=
  { symbols := [], methods := [], overrides := [], types := [], nodes := [], edges := [], unresolved := [], bodies := [], refs := []
    diagCandidates := [], diags := [], contexts := [], evidence := [], localReads := [] }

/-- An array in an array, `k` times. -/
def nest : Nat → Ty
  | 0 => .unknown
  | k + 1 => .array [nest k]

def deepFacts (source k : Nat) : Facts := { noFacts with types := [⟨.globalVar ['$', 'a'], nest k, ⟨source, 0, 4⟩, .literal⟩] }

theorem nest_inside (k : Nat) : Inside k (nest k) .unknown := by
  induction k with
  | zero => exact .self _
  | succ k ih => exact .array (by simp) ih

theorem nest_made (u : Uni) (k : Nat) : TyMade u (nest k) := by
  induction k with
  | zero => exact .unknown
  | succ k ih => exact .array (by simpa using ih)

theorem nest_generated (k : Nat) : tyGenerated (nest k) = false := by
  induction k with
  | zero => rfl
  | succ k ih => simp [nest, tyGenerated, tysGenerated, ih]

/-- Facts with a type of 65 levels or more are accepted and saved, but they never come back: the entry is written and rejected on every
start. -/
theorem c63_saved_comes_back_fails (u : Uni) (hnul : u.upper '\x00' = false) (source k : Nat) (hk : 65 ≤ k) :
    ∃ t s, tryNew source (deepFacts source k) = .ok t ∧ Made u t.facts ∧ toSnapshot t = .ok s ∧ fromSnapshot u s = .err := by
  have ht : tryNew source (deepFacts source k) = .ok ⟨source, deepFacts source k⟩ := by
    have hr : retain (deepFacts source k) = deepFacts source k := rfl
    rw [tryNew_iff, hr]
    refine ⟨rfl, rfl, rfl, rfl, rfl, ?_, ?_⟩
    · intro p hp hg
      have := factsGenerated_iff.mpr ⟨p, hp, hg⟩
      simp [factsGenerated, deepFacts, noFacts, nest_generated, subjectGenerated] at this
    · intro r hr
      rw [← checkedRanges_iff] at hr
      simp only [checkedRanges, deepFacts, noFacts, subjectRanges, List.flatMap_nil, List.map_nil, List.nil_append, List.append_nil,
        List.flatMap_cons, List.mem_singleton] at hr
      rw [hr]
  have hm : Made u (deepFacts source k) := by
    refine ⟨?_, ?_, ?_, ?_, ?_, ?_, ?_, ?_⟩
    case refine_4 =>
      intro x hx
      simp only [deepFacts, List.mem_singleton] at hx
      subst hx
      exact ⟨by simp [Subject.fqns], fun r hr => (by cases hr), nest_made u k, Nat.zero_le _⟩
    all_goals (intro x hx; simp [deepFacts, noFacts] at hx)
  have hs : toSnapshot ⟨source, deepFacts source k⟩ = .ok (plainSnap (deepFacts source k)) := rfl
  refine ⟨_, _, ht, hm, hs, (c63_round_trip u hnul _ _ _ _ ht hm hs).2 fun hf => ?_⟩
  have := (hf.types _ (List.mem_singleton.mpr rfl) k _ (nest_inside k)).1
  omega

/-- The identity of a generated owner. -/
def someOwner : Str := Owners.ownerPrefix ++ (Owners.part ['e'] ++ (Owners.part ['s'] ++ Owners.part ['l']))

def plainMethod (source : Nat) (h : Option Higher) : Method :=
  ⟨.method [['A']] ['m'], .ns [['A']] .inst, ⟨source, 0, 9⟩, ⟨source, 4, 5⟩, [], [], true, none, .pub, .available, none, none, h⟩

def sigFacts (source : Nat) : Facts :=
  { noFacts with methods := [plainMethod source (some ⟨[⟨[], [], [], [], .receiver, false, .concrete (.cls (.ns [someOwner] .inst))⟩], none, none⟩)] }

def bodyFacts (source : Nat) : Facts :=
  { noFacts with bodies := [⟨.const [['A']], ⟨true, [], [], .literal (.cls (.ns [someOwner] .inst)), 1⟩, ⟨source, 0, 9⟩⟩] }

/-- A generated owner, which is to stay in its project, is accepted in the signature of a method. -/
theorem c63_no_generated_owner_fails (source : Nat) : ∃ t, tryNew source (sigFacts source) = .ok t ∧
    ∃ p, HasPartAnywhere t.facts p ∧ GeneratedPart p := by
  refine ⟨⟨source, sigFacts source⟩, ?_, someOwner, ?_, ⟨_, rfl⟩⟩
  · rw [tryNew_iff]
    refine ⟨rfl, rfl, rfl, rfl, rfl, ?_, ?_⟩
    · intro p hp hg
      have := factsGenerated_iff.mpr ⟨p, hp, hg⟩
      revert this
      show ¬(factsGenerated (sigFacts 0) = true)
      decide +kernel
    · intro r hr
      rw [← checkedRanges_iff] at hr
      have : r = ⟨source, 0, 9⟩ ∨ r = ⟨source, 4, 5⟩ := by
        simpa [checkedRanges, retain, sigFacts, noFacts, plainMethod] using hr
      rcases this with rfl | rfl <;> rfl
  · exact .sig (x := plainMethod source _) (by exact List.mem_singleton.mpr rfl)
      ⟨_, rfl, _, List.mem_singleton.mpr rfl, .concrete (.cls (.ns [someOwner] .inst)), by simp [Sig.tmpls], .concrete _⟩ (.self _) rfl
      (List.mem_singleton.mpr rfl)

/-- So it is in the body of a callable. -/
theorem c63_no_generated_owner_in_body_fails (source : Nat) : ∃ t, tryNew source (bodyFacts source) = .ok t ∧
    (∃ s, toSnapshot t = .ok s) ∧ ∃ p, HasPartAnywhere t.facts p ∧ GeneratedPart p := by
  refine ⟨⟨source, bodyFacts source⟩, ?_, ?_, someOwner, ?_, ⟨_, rfl⟩⟩
  · rw [tryNew_iff]
    refine ⟨rfl, rfl, rfl, rfl, rfl, ?_, ?_⟩
    · intro p hp hg
      have := factsGenerated_iff.mpr ⟨p, hp, hg⟩
      revert this
      show ¬(factsGenerated (bodyFacts 0) = true)
      decide +kernel
    · intro r hr
      rw [← checkedRanges_iff] at hr
      have : r = ⟨source, 0, 9⟩ := by
        simpa [checkedRanges, retain, bodyFacts, noFacts] using hr
      rw [this]
  · exact ⟨plainSnap (bodyFacts source), rfl⟩
  · exact .body (f := bodyFacts source) (List.mem_singleton.mpr rfl)
      ⟨_, by exact List.mem_singleton.mpr rfl, 0, .self _⟩ (.self _) rfl (List.mem_singleton.mpr rfl)

/-- A snapshot on disk with an empty parameter name ends the server instead of being an error. -/
theorem c63_no_panic_fails (u : Uni) : fromSnapshot u
    { symbols := [], overrides := [], types := [], nodes := [], edges := [], unresolved := [], bodies := []
      methods := [⟨.method [] ['m'], .ns [] false, ⟨0, 9⟩, ⟨4, 5⟩, [], [⟨[], .required, none, none⟩], true, none, .pub, .available, none, none,
        [], none, none⟩] } = .panic := rfl

/-! ### examples -/

def asciiUni : Uni where
  xidStart c := c.isAlpha
  xidContinue c := c.isAlphanum || c == '_'
  upper c := c.isUpper
  lower c := c.isLower
  alpha c := c.isAlpha
  white c := c == ' '

def sampleTy : Ty := .hash [.cls (.ns [['K']] .inst)] [.array [.lit (.sym ['a']), .union [.clsRef (.ns [['A'], ['B']] .inst), .unknown]]]

/-- A class with a method, the type of a constant, a callable and two locals, in the file 7. -/
def sampleFacts : Facts :=
  { noFacts with
    symbols := [⟨.ns [['A'], ['B']] .inst, .cls, ⟨7, 6, 10⟩, ⟨7, 0, 40⟩⟩, ⟨.localVar ['x'], .localVar, ⟨7, 12, 13⟩, ⟨7, 12, 13⟩⟩]
    methods := [plainMethod 7 (some ⟨[⟨[], [], [⟨.required, .array (.concrete sampleTy)⟩], [], .receiver, false, .receiver⟩], none, none⟩)]
    types := [⟨.const (.const [['A'], ['C']]), sampleTy, ⟨7, 14, 20⟩, .literal⟩, ⟨.expr ⟨7, 1, 2⟩, .unknown, ⟨7, 1, 2⟩, .flow⟩]
    bodies := [⟨.const [['F']], ⟨true, [⟨['x'], .required, none⟩], [], .call (.param 0) ['m'] [.literal (.lit (.str ['s']))] [none], 3⟩, ⟨7, 30, 39⟩⟩]
    evidence := [1] }

example : ∃ t s r, tryNew 7 sampleFacts = .ok t ∧ toSnapshot t = .ok s ∧ fromSnapshot asciiUni s = .ok r ∧
    r.facts.symbols.length = 1 ∧ r.facts.methods.length = 1 ∧ r.facts.types.length = 1 ∧ r.facts.bodies.length = 1 ∧
    r.facts.symbols.map (fun x => x.range) = [⟨0, 0, 40⟩] ∧ (r.facts.bodies.map fun b => b.summary.nodes) = [3] :=
  ⟨⟨7, retain sampleFacts⟩, plainSnap (retain sampleFacts), ⟨0, (retain sampleFacts).inFile 0⟩, rfl, rfl, rfl, rfl, rfl, rfl, rfl,
    (by decide +kernel), (by decide +kernel)⟩

example : (instantiate ⟨7, retain sampleFacts⟩ 3).map (fun f => f.types.map fun t => t.range) = some [⟨3, 14, 20⟩] := by decide +kernel
example : instantiate ⟨6, retain sampleFacts⟩ 3 = none := rfl

end Verif.Snapshot
