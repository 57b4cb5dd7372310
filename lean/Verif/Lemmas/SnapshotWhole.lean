import Verif.Lemmas.SnapshotBodyBack
/-!
The facts of a whole file: what a template takes, how it is moved to another file, and what its snapshot gives back.
-/
namespace Verif.Snapshot

theorem isGenerated_iff {p : Str} : Owners.isGenerated p = true ↔ GeneratedPart p := by
  unfold Owners.isGenerated GeneratedPart
  exact List.isPrefixOf_iff_prefix

theorem fqnGenerated_iff {f : Fqn} : fqnGenerated f = true ↔ ∃ p ∈ f.parts, GeneratedPart p := by
  unfold fqnGenerated
  simp only [List.any_eq_true, isGenerated_iff]

/-- A generated owner is named in the type. -/
def GenIn (t : Ty) : Prop := ∃ n x q, Inside n t x ∧ x.name = some q ∧ fqnGenerated q = true

theorem genIn_leaf {t : Ty} (h : ∀ n x, Inside n t x → x = t) : GenIn t ↔ ∃ q, t.name = some q ∧ fqnGenerated q = true := by
  constructor
  · rintro ⟨n, x, q, hi, hn, hg⟩; obtain rfl := h n x hi; exact ⟨q, hn, hg⟩
  · rintro ⟨q, hn, hg⟩; exact ⟨0, t, q, .self t, hn, hg⟩

mutual
theorem tyGenerated_iff : ∀ t : Ty, tyGenerated t = true ↔ GenIn t
  | .cls f => by
    rw [genIn_leaf (by intro n x h; cases h; rfl)]; simp [tyGenerated, Ty.name]
  | .mod f => by
    rw [genIn_leaf (by intro n x h; cases h; rfl)]; simp [tyGenerated, Ty.name]
  | .clsRef f => by
    rw [genIn_leaf (by intro n x h; cases h; rfl)]; simp [tyGenerated, Ty.name]
  | .modRef f => by
    rw [genIn_leaf (by intro n x h; cases h; rfl)]; simp [tyGenerated, Ty.name]
  | .lit v => by
    rw [genIn_leaf (by intro n x h; cases h; rfl)]; simp [tyGenerated, Ty.name]
  | .unknown => by
    rw [genIn_leaf (by intro n x h; cases h; rfl)]; simp [tyGenerated, Ty.name]
  | .array ts => by
    simp only [tyGenerated, tysGenerated_iff ts]
    constructor
    · rintro ⟨t, ht, n, x, q, hi, h⟩; exact ⟨n + 1, x, q, .array ht hi, h⟩
    · rintro ⟨n, x, q, hi, hn, hg⟩
      cases hi with
      | self => cases hn
      | array ht hi => exact ⟨_, ht, _, x, q, hi, hn, hg⟩
  | .union ts => by
    simp only [tyGenerated, tysGenerated_iff ts]
    constructor
    · rintro ⟨t, ht, n, x, q, hi, h⟩; exact ⟨n + 1, x, q, .union ht hi, h⟩
    · rintro ⟨n, x, q, hi, hn, hg⟩
      cases hi with
      | self => cases hn
      | union ht hi => exact ⟨_, ht, _, x, q, hi, hn, hg⟩
  | .hash ks vs => by
    simp only [tyGenerated, Bool.or_eq_true, tysGenerated_iff ks, tysGenerated_iff vs]
    constructor
    · rintro (⟨t, ht, n, x, q, hi, h⟩ | ⟨t, ht, n, x, q, hi, h⟩)
      · exact ⟨n + 1, x, q, .key ht hi, h⟩
      · exact ⟨n + 1, x, q, .value ht hi, h⟩
    · rintro ⟨n, x, q, hi, hn, hg⟩
      cases hi with
      | self => cases hn
      | key ht hi => exact Or.inl ⟨_, ht, _, x, q, hi, hn, hg⟩
      | value ht hi => exact Or.inr ⟨_, ht, _, x, q, hi, hn, hg⟩
  | .shape fs r e s d => by
    simp only [tyGenerated, Bool.or_eq_true, fieldsGenerated_iff fs, restGenerated_iff r]
    constructor
    · rintro (⟨t, ht, n, x, q, hi, h⟩ | ⟨k, v, hr, ⟨n, x, q, hi, h⟩ | ⟨n, x, q, hi, h⟩⟩)
      · exact ⟨n + 1, x, q, .field ht hi, h⟩
      · exact ⟨n + 1, x, q, .restKey hr hi, h⟩
      · exact ⟨n + 1, x, q, .restValue hr hi, h⟩
    · rintro ⟨n, x, q, hi, hn, hg⟩
      cases hi with
      | self => cases hn
      | field ht hi => exact Or.inl ⟨_, ht, _, x, q, hi, hn, hg⟩
      | restKey hr hi => exact Or.inr ⟨_, _, hr, Or.inl ⟨_, x, q, hi, hn, hg⟩⟩
      | restValue hr hi => exact Or.inr ⟨_, _, hr, Or.inr ⟨_, x, q, hi, hn, hg⟩⟩
theorem tysGenerated_iff : ∀ l : List Ty, tysGenerated l = true ↔ ∃ t ∈ l, GenIn t
  | [] => by simp [tysGenerated]
  | t :: l => by simp only [tysGenerated, Bool.or_eq_true, tyGenerated_iff t, tysGenerated_iff l, List.exists_mem_cons_iff]
theorem fieldsGenerated_iff : ∀ l : List (Lit × Ty × Presence), fieldsGenerated l = true ↔ ∃ f ∈ l, GenIn f.2.1
  | [] => by simp [fieldsGenerated]
  | (k, t, p) :: l => by
    simp only [fieldsGenerated, Bool.or_eq_true, tyGenerated_iff t, fieldsGenerated_iff l, List.exists_mem_cons_iff]
theorem restGenerated_iff : ∀ r : Option (Ty × Ty), restGenerated r = true ↔ ∃ k v, r = some (k, v) ∧ (GenIn k ∨ GenIn v)
  | none => by simp [restGenerated]
  | some (k, v) => by
    simp only [restGenerated, Bool.or_eq_true, tyGenerated_iff k, tyGenerated_iff v, Option.some.injEq, Prod.mk.injEq]
    constructor
    · intro h; exact ⟨k, v, ⟨rfl, rfl⟩, h⟩
    · rintro ⟨_, _, ⟨rfl, rfl⟩, h⟩; exact h
end

theorem subjectGenerated_iff {s : Subject} : subjectGenerated s = true ↔ ∃ f ∈ s.fqns, fqnGenerated f = true := by
  cases s <;> simp [subjectGenerated, Subject.fqns]

theorem factsGenerated_iff {f : Facts} : factsGenerated f = true ↔ ∃ p, HasPart f p ∧ GeneratedPart p := by
  unfold factsGenerated
  simp only [Bool.or_eq_true, List.any_eq_true, subjectGenerated_iff, tyGenerated_iff, GenIn, fqnGenerated_iff, isGenerated_iff]
  constructor
  · rintro (((((((⟨x, hx, p, hp, h⟩ | ⟨x, hx, ⟨p, hp, h⟩ | ⟨p, hp, h⟩⟩) | ⟨x, hx, p, hp, h⟩) |
      ⟨x, hx, ⟨n, hn, p, hp, h⟩ | ⟨n, y, q, hi, hq, p, hp, h⟩⟩) | ⟨x, hx, p, hp, h⟩) | ⟨x, hx, ⟨p, hp, h⟩ | ⟨p, hp, h⟩⟩) |
      ⟨x, hx, (⟨p, hp, h⟩ | ⟨p, hp, h⟩) | ⟨p, hp, h⟩⟩) | ⟨x, hx, p, hp, h⟩)
    · exact ⟨p, .sym hx hp, h⟩
    · exact ⟨p, .method hx hp, h⟩
    · exact ⟨p, .owner hx hp, h⟩
    · exact ⟨p, .override hx hp, h⟩
    · exact ⟨p, .subject hx hn hp, h⟩
    · exact ⟨p, .type hx hi hq hp, h⟩
    · exact ⟨p, .node hx hp, h⟩
    · exact ⟨p, .source hx hp, h⟩
    · exact ⟨p, .target hx hp, h⟩
    · exact ⟨p, .unresolvedSource hx hp, h⟩
    · exact ⟨p, .unresolvedTarget hx hp, h⟩
    · exact ⟨p, .unresolvedContext hx hp, h⟩
    · exact ⟨p, .body hx hp, h⟩
  · rintro ⟨p, hp, h⟩
    cases hp with
    | sym hx hp => exact Or.inl (Or.inl (Or.inl (Or.inl (Or.inl (Or.inl (Or.inl ⟨_, hx, p, hp, h⟩))))))
    | method hx hp => exact Or.inl (Or.inl (Or.inl (Or.inl (Or.inl (Or.inl (Or.inr ⟨_, hx, Or.inl ⟨p, hp, h⟩⟩))))))
    | owner hx hp => exact Or.inl (Or.inl (Or.inl (Or.inl (Or.inl (Or.inl (Or.inr ⟨_, hx, Or.inr ⟨p, hp, h⟩⟩))))))
    | override hx hp => exact Or.inl (Or.inl (Or.inl (Or.inl (Or.inl (Or.inr ⟨_, hx, p, hp, h⟩)))))
    | subject hx hn hp => exact Or.inl (Or.inl (Or.inl (Or.inl (Or.inr ⟨_, hx, Or.inl ⟨_, hn, p, hp, h⟩⟩))))
    | type hx hi hq hp => exact Or.inl (Or.inl (Or.inl (Or.inl (Or.inr ⟨_, hx, Or.inr ⟨_, _, _, hi, hq, p, hp, h⟩⟩))))
    | node hx hp => exact Or.inl (Or.inl (Or.inl (Or.inr ⟨_, hx, p, hp, h⟩)))
    | source hx hp => exact Or.inl (Or.inl (Or.inr ⟨_, hx, Or.inl ⟨p, hp, h⟩⟩))
    | target hx hp => exact Or.inl (Or.inl (Or.inr ⟨_, hx, Or.inr ⟨p, hp, h⟩⟩))
    | unresolvedSource hx hp => exact Or.inl (Or.inr ⟨_, hx, Or.inl (Or.inl ⟨p, hp, h⟩)⟩)
    | unresolvedTarget hx hp => exact Or.inl (Or.inr ⟨_, hx, Or.inl (Or.inr ⟨p, hp, h⟩)⟩)
    | unresolvedContext hx hp => exact Or.inl (Or.inr ⟨_, hx, Or.inr ⟨p, hp, h⟩⟩)
    | body hx hp => exact Or.inr ⟨_, hx, p, hp, h⟩

theorem subjectRanges_mem {s : Subject} {r : Range} : r ∈ subjectRanges s ↔ s = .expr r := by
  cases s <;> simp [subjectRanges, eq_comm]

theorem checkedRanges_iff {f : Facts} {r : Range} : r ∈ checkedRanges f ↔ HasRange f r := by
  unfold checkedRanges
  simp only [List.mem_append, List.mem_flatMap, List.mem_map, List.mem_cons, List.not_mem_nil, or_false, subjectRanges_mem]
  constructor
  · rintro (((((((⟨x, hx, rfl | rfl⟩ | ⟨x, hx, rfl | rfl⟩) | ⟨x, hx, rfl⟩) | ⟨x, hx, rfl | h⟩) | ⟨x, hx, rfl⟩) | ⟨x, hx, rfl⟩) |
      ⟨x, hx, rfl⟩) | ⟨x, hx, rfl⟩)
    · exact .sym hx
    · exact .symName hx
    · exact .method hx
    · exact .methodName hx
    · exact .override hx
    · exact .type hx
    · exact .subject hx h
    · exact .node hx
    · exact .edge hx
    · exact .unresolved hx
    · exact .body hx
  · intro h
    cases h with
    | sym hx => exact Or.inl (Or.inl (Or.inl (Or.inl (Or.inl (Or.inl (Or.inl ⟨_, hx, Or.inl rfl⟩))))))
    | symName hx => exact Or.inl (Or.inl (Or.inl (Or.inl (Or.inl (Or.inl (Or.inl ⟨_, hx, Or.inr rfl⟩))))))
    | method hx => exact Or.inl (Or.inl (Or.inl (Or.inl (Or.inl (Or.inl (Or.inr ⟨_, hx, Or.inl rfl⟩))))))
    | methodName hx => exact Or.inl (Or.inl (Or.inl (Or.inl (Or.inl (Or.inl (Or.inr ⟨_, hx, Or.inr rfl⟩))))))
    | override hx => exact Or.inl (Or.inl (Or.inl (Or.inl (Or.inl (Or.inr ⟨_, hx, rfl⟩)))))
    | type hx => exact Or.inl (Or.inl (Or.inl (Or.inl (Or.inr ⟨_, hx, Or.inl rfl⟩))))
    | subject hx h => exact Or.inl (Or.inl (Or.inl (Or.inl (Or.inr ⟨_, hx, Or.inr h⟩))))
    | node hx => exact Or.inl (Or.inl (Or.inl (Or.inr ⟨_, hx, rfl⟩)))
    | edge hx => exact Or.inl (Or.inl (Or.inr ⟨_, hx, rfl⟩))
    | unresolved hx => exact Or.inl (Or.inr ⟨_, hx, rfl⟩)
    | body hx => exact Or.inr ⟨_, hx, rfl⟩

theorem keepType_iff {t : TyFact} : keepType t = true ↔ (∀ i n, t.subject ≠ .localVar i n) ∧ ∀ r, t.subject ≠ .expr r := by
  unfold keepType
  split <;> simp_all

theorem retain_kept (f : Facts) : Kept f (retain f) where
  symbols := rfl
  methods := rfl
  overrides := rfl
  types := ⟨keepType, rfl, fun _ => keepType_iff⟩
  nodes := rfl
  edges := rfl
  unresolved := rfl
  bodies := ⟨fun b => b.summary.captures.isEmpty, rfl, fun _ => List.isEmpty_iff⟩
  refs := rfl
  diagCandidates := rfl
  diags := rfl
  contexts := rfl
  evidence := rfl
  localReads := rfl

theorem kept_unique {f g h : Facts} (hg : Kept f g) (hh : Kept f h) : g = h := by
  obtain ⟨k1, hk1, hi1⟩ := hg.types
  obtain ⟨k2, hk2, hi2⟩ := hh.types
  obtain ⟨b1, hb1, hj1⟩ := hg.bodies
  obtain ⟨b2, hb2, hj2⟩ := hh.bodies
  have hk : k1 = k2 := by funext t; rw [Bool.eq_iff_iff, hi1, hi2]
  have hb : b1 = b2 := by funext t; rw [Bool.eq_iff_iff, hj1, hj2]
  have e1 := hg.symbols.trans hh.symbols.symm
  have e2 := hg.methods.trans hh.methods.symm
  have e3 := hg.overrides.trans hh.overrides.symm
  have e4 : g.types = h.types := by rw [hk1, hk2, hk]
  have e5 := hg.nodes.trans hh.nodes.symm
  have e6 := hg.edges.trans hh.edges.symm
  have e7 := hg.unresolved.trans hh.unresolved.symm
  have e8 : g.bodies = h.bodies := by rw [hb1, hb2, hb]
  have e9 := hg.refs.trans hh.refs.symm
  have e10 := hg.diagCandidates.trans hh.diagCandidates.symm
  have e11 := hg.diags.trans hh.diags.symm
  have e12 := hg.contexts.trans hh.contexts.symm
  have e13 := hg.evidence.trans hh.evidence.symm
  have e14 := hg.localReads.trans hh.localReads.symm
  cases g; cases h
  simp only at e1 e2 e3 e4 e5 e6 e7 e8 e9 e10 e11 e12 e13 e14
  subst e1 e2 e3 e4 e5 e6 e7 e8 e9 e10 e11 e12 e13 e14
  rfl

theorem foreign_none {source : Nat} {l : List Range} :
    l.findSome? (foreignRange source) = none ↔ ∀ r ∈ l, r.file = source := by
  rw [List.findSome?_eq_none_iff]
  constructor
  · intro h r hr
    have := h r hr
    unfold foreignRange at this
    split at this
    · cases this
    · rename_i hn; exact not_not.mp hn
  · intro h r hr
    unfold foreignRange
    rw [if_neg (by simp [h r hr])]

/-- Nothing of a project is in the facts. -/
structure Neutral (source : Nat) (f : Facts) : Prop where
  refs : f.refs = []
  diagCandidates : f.diagCandidates = []
  diags : f.diags = []
  contexts : f.contexts = []
  generated : ∀ p, HasPart f p → ¬GeneratedPart p
  ranges : ∀ r, HasRange f r → r.file = source

theorem tryNew_iff {source : Nat} {f : Facts} {t : Template} :
    tryNew source f = .ok t ↔ t = ⟨source, retain f⟩ ∧ Neutral source (retain f) := by
  unfold tryNew
  simp only
  split
  · rename_i h
    constructor
    · intro h; cases h
    · rintro ⟨rfl, hn⟩
      have hg : factsGenerated (retain f) = false := by
        rw [Bool.eq_false_iff, ne_eq, factsGenerated_iff]; rintro ⟨p, hp, hg⟩; exact hn.generated p hp hg
      simp [hn.refs, hn.diagCandidates, hn.diags, hn.contexts, hg] at h
  · rename_i h
    simp only [Bool.or_eq_true, Bool.not_eq_true', List.isEmpty_eq_false_iff, not_or, not_not, Bool.not_eq_true, ne_eq] at h
    obtain ⟨⟨⟨⟨h1, h2⟩, h3⟩, h4⟩, h5⟩ := h
    have hgen : ∀ p, HasPart (retain f) p → ¬GeneratedPart p := by
      intro p hp hg
      have := factsGenerated_iff.mpr ⟨p, hp, hg⟩
      rw [h5] at this; cases this
    cases hf : (checkedRanges (retain f)).findSome? (foreignRange source) with
    | some e =>
      simp only [reduceCtorEq, false_iff]
      rintro ⟨-, hn⟩
      rw [foreign_none.mpr fun r hr => hn.ranges r (checkedRanges_iff.mp hr)] at hf
      cases hf
    | none =>
      simp only [Except.ok.injEq]
      constructor
      · rintro rfl
        exact ⟨rfl, h1, h2, h3, h4, hgen, fun r hr => foreign_none.mp hf r (checkedRanges_iff.mpr hr)⟩
      · rintro ⟨rfl, -⟩; rfl

theorem tryNew_foreign {source a b : Nat} {f : Facts} (h : tryNew source f = .error (.foreign a b)) :
    a = source ∧ b ≠ source ∧ ∃ r, HasRange (retain f) r ∧ r.file = b := by
  unfold tryNew at h
  simp only at h
  split at h
  · cases h
  · split at h
    · rename_i e hf
      cases h
      obtain ⟨r, hr, hx⟩ := List.exists_of_findSome?_eq_some hf
      unfold foreignRange at hx
      split at hx
      · rename_i hn
        simp only [Option.some.injEq, Rejection.foreign.injEq] at hx
        obtain ⟨rfl, rfl⟩ := hx
        exact ⟨rfl, hn, r, checkedRanges_iff.mp hr, rfl⟩
      · cases hx
    · cases h

/-! ### moving to another file -/

theorem rebindList_some {α : Type} {f : α → Option α} {g : α → α} {l : List α} (h : ∀ a ∈ l, f a = some (g a)) :
    rebindList f l = some (l.map g) := by
  induction l with
  | nil => rfl
  | cons a l ih => simp only [rebindList, h a (by simp), ih fun x hx => h x (by simp [hx]), List.map_cons]

theorem rebindRange_some {source target : Nat} {r : Range} (h : r.file = source) :
    rebindRange source target r = some (r.inFile target) := by
  unfold rebindRange; rw [if_pos h]; rfl

theorem instantiate_some {t : Template} (h : ∀ r, HasRange t.facts r → r.file = t.source) (target : Nat) :
    instantiate t target = some (t.facts.inFile target) := by
  have h1 : rebindList (rebindSym t.source target) t.facts.symbols = some (t.facts.symbols.map (Sym.inFile target)) := by
    refine rebindList_some fun x hx => ?_
    simp only [rebindSym, rebindRange_some (h _ (.sym hx)), rebindRange_some (h _ (.symName hx))]; rfl
  have h2 : rebindList (rebindMethod t.source target) t.facts.methods = some (t.facts.methods.map (Method.inFile target)) := by
    refine rebindList_some fun x hx => ?_
    simp only [rebindMethod, rebindRange_some (h _ (.method hx)), rebindRange_some (h _ (.methodName hx))]; rfl
  have h3 : rebindList (rebindTyFact t.source target) t.facts.types = some (t.facts.types.map (TyFact.inFile target)) := by
    refine rebindList_some fun x hx => ?_
    have hs : rebindSubject t.source target x.subject = some (x.subject.inFile target) := by
      cases hs : x.subject with
      | expr r => simp only [rebindSubject, rebindRange_some (h _ (.subject hx hs))]; rfl
      | _ => rfl
    simp only [rebindTyFact, rebindRange_some (h _ (.type hx)), hs]; rfl
  have h4 := rebindList_some (l := t.facts.overrides) (g := Override.inFile target)
    (f := fun o => (rebindRange t.source target o.range).map fun r => { o with range := r })
    fun x hx => by simp only [rebindRange_some (h _ (.override hx))]; rfl
  have h5 := rebindList_some (l := t.facts.nodes) (g := Node.inFile target)
    (f := fun o => (rebindRange t.source target o.range).map fun r => { o with range := r })
    fun x hx => by simp only [rebindRange_some (h _ (.node hx))]; rfl
  have h6 := rebindList_some (l := t.facts.edges) (g := Edge.inFile target)
    (f := fun o => (rebindRange t.source target o.range).map fun r => { o with range := r })
    fun x hx => by simp only [rebindRange_some (h _ (.edge hx))]; rfl
  have h7 := rebindList_some (l := t.facts.unresolved) (g := Unresolved.inFile target)
    (f := fun o => (rebindRange t.source target o.range).map fun r => { o with range := r })
    fun x hx => by simp only [rebindRange_some (h _ (.unresolved hx))]; rfl
  have h8 := rebindList_some (l := t.facts.bodies) (g := Body.inFile target)
    (f := fun o => (rebindRange t.source target o.range).map fun r => { o with range := r })
    fun x hx => by simp only [rebindRange_some (h _ (.body hx))]; rfl
  unfold instantiate rebindAll
  rw [h1, h2, h4, h3, h5, h6, h7, h8]
  rfl

theorem subject_inFile_fqns {s : Subject} {file : Nat} : (s.inFile file).fqns = s.fqns := by cases s <;> rfl

theorem hasPart_inFile {f : Facts} {file : Nat} {p : Str} (h : HasPart (f.inFile file) p) : HasPart f p := by
  cases h with
  | sym hx hp => obtain ⟨y, hy, rfl⟩ := List.mem_map.mp hx; exact .sym hy hp
  | method hx hp => obtain ⟨y, hy, rfl⟩ := List.mem_map.mp hx; exact .method hy hp
  | owner hx hp => obtain ⟨y, hy, rfl⟩ := List.mem_map.mp hx; exact .owner hy hp
  | override hx hp => obtain ⟨y, hy, rfl⟩ := List.mem_map.mp hx; exact .override hy hp
  | subject hx hn hp =>
    obtain ⟨y, hy, rfl⟩ := List.mem_map.mp hx
    exact .subject hy (by simpa [TyFact.inFile, subject_inFile_fqns] using hn) hp
  | type hx hi hq hp => obtain ⟨y, hy, rfl⟩ := List.mem_map.mp hx; exact .type hy hi hq hp
  | node hx hp => obtain ⟨y, hy, rfl⟩ := List.mem_map.mp hx; exact .node hy hp
  | source hx hp => obtain ⟨y, hy, rfl⟩ := List.mem_map.mp hx; exact .source hy hp
  | target hx hp => obtain ⟨y, hy, rfl⟩ := List.mem_map.mp hx; exact .target hy hp
  | unresolvedSource hx hp => obtain ⟨y, hy, rfl⟩ := List.mem_map.mp hx; exact .unresolvedSource hy hp
  | unresolvedTarget hx hp => obtain ⟨y, hy, rfl⟩ := List.mem_map.mp hx; exact .unresolvedTarget hy hp
  | unresolvedContext hx hp => obtain ⟨y, hy, rfl⟩ := List.mem_map.mp hx; exact .unresolvedContext hy hp
  | body hx hp => obtain ⟨y, hy, rfl⟩ := List.mem_map.mp hx; exact .body hy hp

theorem hasRange_inFile {f : Facts} {file : Nat} {r : Range} (h : HasRange (f.inFile file) r) : r.file = file := by
  cases h with
  | subject hx hs =>
    obtain ⟨y, hy, rfl⟩ := List.mem_map.mp hx
    simp only [TyFact.inFile] at hs
    cases h : y.subject with
    | expr q => rw [h] at hs; cases hs; rfl
    | _ => rw [h] at hs; cases hs
  | _ hx => obtain ⟨y, hy, rfl⟩ := List.mem_map.mp hx; rfl

theorem range_inFile_self {r : Range} {file : Nat} (h : r.file = file) : r.inFile file = r := by
  cases r; simp only at h; subst h; rfl

theorem map_self {α : Type} {g : α → α} {l : List α} (h : ∀ a ∈ l, g a = a) : l.map g = l := by
  have : l.map g = l.map id := List.map_congr_left h
  simpa using this

theorem inFile_self {f : Facts} {file : Nat} (h : ∀ r, HasRange f r → r.file = file) : f.inFile file = f := by
  have h1 : f.symbols.map (Sym.inFile file) = f.symbols := map_self fun x hx => by
    unfold Sym.inFile; rw [range_inFile_self (h _ (.sym hx)), range_inFile_self (h _ (.symName hx))]
  have h2 : f.methods.map (Method.inFile file) = f.methods := map_self fun x hx => by
    unfold Method.inFile; rw [range_inFile_self (h _ (.method hx)), range_inFile_self (h _ (.methodName hx))]
  have h3 : f.overrides.map (Override.inFile file) = f.overrides := map_self fun x hx => by
    unfold Override.inFile; rw [range_inFile_self (h _ (.override hx))]
  have h4 : f.types.map (TyFact.inFile file) = f.types := map_self fun x hx => by
    have hs : x.subject.inFile file = x.subject := by
      cases hs : x.subject with
      | expr r => simp only [Subject.inFile, range_inFile_self (h _ (.subject hx hs))]
      | _ => rfl
    unfold TyFact.inFile; rw [range_inFile_self (h _ (.type hx)), hs]
  have h5 : f.nodes.map (Node.inFile file) = f.nodes := map_self fun x hx => by
    unfold Node.inFile; rw [range_inFile_self (h _ (.node hx))]
  have h6 : f.edges.map (Edge.inFile file) = f.edges := map_self fun x hx => by
    unfold Edge.inFile; rw [range_inFile_self (h _ (.edge hx))]
  have h7 : f.unresolved.map (Unresolved.inFile file) = f.unresolved := map_self fun x hx => by
    unfold Unresolved.inFile; rw [range_inFile_self (h _ (.unresolved hx))]
  have h8 : f.bodies.map (Body.inFile file) = f.bodies := map_self fun x hx => by
    unfold Body.inFile; rw [range_inFile_self (h _ (.body hx))]
  unfold Facts.inFile
  rw [h1, h2, h3, h4, h5, h6, h7, h8]

theorem inFile_inFile {f : Facts} {a b : Nat} : (f.inFile a).inFile b = f.inFile b := by
  unfold Facts.inFile
  simp only [List.map_map]
  congr 1
  all_goals first
    | rfl
    | (apply List.map_congr_left; intro x _; first | rfl | (simp only [Function.comp, TyFact.inFile]; cases x.subject <;> rfl))

/-- The facts hold nothing that is taken away. -/
structure Bare (f : Facts) : Prop where
  symbols : ∀ x ∈ f.symbols, x.kind ≠ .localVar
  types : ∀ x ∈ f.types, keepType x = true
  bodies : ∀ x ∈ f.bodies, x.summary.captures = []
  evidence : f.evidence = []
  localReads : f.localReads = []

theorem retain_bare (f : Facts) : Bare (retain f) where
  symbols := fun x hx => by simpa using (List.mem_filter.mp hx).2
  types := fun x hx => (List.mem_filter.mp hx).2
  bodies := fun x hx => by simpa using (List.mem_filter.mp hx).2
  evidence := rfl
  localReads := rfl

theorem retain_self {f : Facts} (h : Bare f) : retain f = f := by
  have h1 : f.symbols.filter (fun s => decide (s.kind ≠ .localVar)) = f.symbols :=
    List.filter_eq_self.mpr fun x hx => by simpa using h.symbols x hx
  have h2 : f.types.filter keepType = f.types := List.filter_eq_self.mpr h.types
  have h3 : f.bodies.filter (fun b => b.summary.captures.isEmpty) = f.bodies :=
    List.filter_eq_self.mpr fun x hx => by simpa using h.bodies x hx
  have h4 := h.evidence
  have h5 := h.localReads
  unfold retain
  rw [h1, h2, h3]
  cases f
  simp only at h4 h5
  subst h4 h5
  rfl

theorem bare_inFile {f : Facts} (h : Bare f) (file : Nat) : Bare (f.inFile file) where
  symbols := fun x hx => by obtain ⟨y, hy, rfl⟩ := List.mem_map.mp hx; exact h.symbols y hy
  types := fun x hx => by
    obtain ⟨y, hy, rfl⟩ := List.mem_map.mp hx
    have := h.types y hy
    unfold keepType at this ⊢
    simp only [TyFact.inFile]
    cases hs : y.subject <;> rw [hs] at this <;> first | rfl | cases this
  bodies := fun x hx => by obtain ⟨y, hy, rfl⟩ := List.mem_map.mp hx; exact h.bodies y hy
  evidence := h.evidence
  localReads := h.localReads

theorem neutral_inFile {f : Facts} {source : Nat} (h : Neutral source f) (file : Nat) : Neutral file (f.inFile file) where
  refs := h.refs
  diagCandidates := h.diagCandidates
  diags := h.diags
  contexts := h.contexts
  generated := fun p hp => h.generated p (hasPart_inFile hp)
  ranges := fun _ hr => hasRange_inFile hr

/-! ### the snapshot of a file -/

theorem mapR_all {α β : Type} {f : α → Res β} {g : α → β} {l : List α} (h : ∀ a ∈ l, f a = .ok (g a)) : mapR f l = .ok (l.map g) := by
  induction l with
  | nil => rfl
  | cons a l ih => simp only [mapR, h a (by simp), ih fun x hx => h x (by simp [hx]), Res.bind, List.map_cons]

theorem mapR_err {α β : Type} {f : α → Res β} {l : List α} (hp : ∀ a ∈ l, f a ≠ .panic) (he : ∃ a ∈ l, f a = .err) :
    mapR f l = .err := by
  induction l with
  | nil => obtain ⟨a, ha, -⟩ := he; cases ha
  | cons a l ih =>
    simp only [mapR]
    cases h : f a with
    | err => rfl
    | panic => exact absurd h (hp a (by simp))
    | ok b =>
      obtain ⟨x, hx, hxe⟩ := he
      rcases List.mem_cons.mp hx with rfl | hx
      · rw [h] at hxe; cases hxe
      · simp only [Res.bind, ih (fun y hy => hp y (by simp [hy])) ⟨x, hx, hxe⟩]

/-- The snapshot that is written when all bodies pass. -/
def plainSnap (f : Facts) : Snap :=
  { symbols := f.symbols.map snapSym, methods := f.methods.map snapMethod, overrides := f.overrides.map snapOverride
    types := f.types.map snapTyFact, nodes := f.nodes.map snapNode, edges := f.edges.map snapEdge
    unresolved := f.unresolved.map snapUnresolved, bodies := f.bodies.map plainBody }

theorem snapFacts_ok {f : Facts} (h : ∀ b ∈ f.bodies, b.summary.captures = [] ∧ BodyOk b.summary) :
    snapFacts f = .ok (plainSnap f) := by
  unfold snapFacts
  rw [mapR_all (g := plainBody) fun b hb => snapBody_iff.mpr ⟨(h b hb).1, (h b hb).2, rfl⟩]
  rfl

theorem snapFacts_err {f : Facts} (h : ¬∀ b ∈ f.bodies, b.summary.captures = [] ∧ BodyOk b.summary) : snapFacts f = .err := by
  simp only [Classical.not_forall] at h
  obtain ⟨b, hb, h⟩ := h
  unfold snapFacts
  rw [mapR_err (fun a _ => ?_) ⟨b, hb, snapBody_err h⟩]; · rfl
  intro hp
  rcases Classical.em (a.summary.captures = [] ∧ BodyOk a.summary) with h' | h'
  · rw [snapBody_iff.mpr ⟨h'.1, h'.2, rfl⟩] at hp; cases hp
  · rw [snapBody_err h'] at hp; cases hp

/-- The parts of `Fits` in the order in which the parts are restored. -/
theorem fits_iff {f : Facts} : Fits f ↔ (∀ x ∈ f.symbols, FqnFits x.fqn) ∧
    (∀ x ∈ f.methods, (FqnFits x.fqn ∧ FqnFits x.owner) ∧ ∀ t, x.HasType t → TyFits 1 t) ∧
    (∀ x ∈ f.overrides, FqnFits x.owner) ∧
    (∀ x ∈ f.types, (∀ n ∈ x.subject.fqns, FqnFits n) ∧ TyFits 0 x.ty) ∧
    (∀ x ∈ f.nodes, FqnFits x.fqn) ∧ (∀ x ∈ f.edges, FqnFits x.source ∧ FqnFits x.target) ∧
    (∀ x ∈ f.unresolved, FqnFits x.source ∧ x.target.length ≤ 4096 ∧ FqnFits x.context) ∧
    (∀ x ∈ f.bodies, FqnFits x.constant ∧ ∀ t, x.HasType t → TyFits 1 t) := by
  constructor
  · intro h
    exact ⟨h.symbols, fun x hx => ⟨h.methods x hx, h.sigs x hx⟩, h.overrides, fun x hx => ⟨h.subjects x hx, h.types x hx⟩, h.nodes,
      h.edges, h.unresolved, fun x hx => ⟨h.bodies x hx, h.literals x hx⟩⟩
  · rintro ⟨h1, h2, h3, h4, h5, h6, h7, h8⟩
    exact ⟨h1, fun x hx => (h2 x hx).1, fun x hx => (h2 x hx).2, h3, fun x hx => (h4 x hx).1, fun x hx => (h4 x hx).2, h5, h6, h7,
      fun x hx => (h8 x hx).1, fun x hx => (h8 x hx).2⟩

theorem restFacts_back {u : Uni} (hnul : u.upper '\x00' = false) {f : Facts} {source : Nat} (hm : Made u f) (hb : Bare f)
    (hn : Neutral source f) (hok : ∀ b ∈ f.bodies, BodyOk b.summary) (file : Nat) :
    Outcome (Fits f) (restFacts u (plainSnap f) file) (f.inFile file) := by
  unfold restFacts plainSnap
  refine Outcome.iff ?_ fits_iff.symm
  refine Outcome.bind (Outcome.mapR fun x hx => sym_back hnul (hm.symbols x hx) file) ?_
  refine Outcome.bind (Outcome.mapR fun x hx => method_back_fact hnul (hm.methods x hx) file) ?_
  refine Outcome.bind (Outcome.mapR fun x hx => override_back hnul (hm.overrides x hx) file) ?_
  refine Outcome.bind (Outcome.mapR fun x hx => tyFact_back hnul (hm.types x hx) file) ?_
  refine Outcome.bind (Outcome.mapR fun x hx => node_back hnul (hm.nodes x hx) file) ?_
  refine Outcome.bind (Outcome.mapR fun x hx => edge_back hnul (hm.edges x hx) file) ?_
  refine Outcome.bind (Outcome.mapR fun x hx => unresolved_back hnul (hm.unresolved x hx) file) ?_
  refine Outcome.map (Outcome.mapR fun x hx => body_back hnul (hm.bodies x hx) (hok x hx) (hb.bodies x hx) file) ?_
  unfold Facts.inFile
  rw [hn.refs, hn.diagCandidates, hn.diags, hn.contexts, hb.evidence, hb.localReads]

theorem restFacts_made {u : Uni} {s : Snap} {file : Nat} {f : Facts} (h : restFacts u s file = .ok f) :
    Made u f ∧ Fits f ∧ ∀ b ∈ f.bodies, BodyOk b.summary := by
  simp only [restFacts, bind_ok] at h
  obtain ⟨a1, h1, a2, h2, a3, h3, a4, h4, a5, h5, a6, h6, a7, h7, a8, h8, h⟩ := h
  cases h
  have g1 := fun x hx => (mapR_mem h1 x hx)
  have g2 := fun x hx => (mapR_mem h2 x hx)
  have g3 := fun x hx => (mapR_mem h3 x hx)
  have g4 := fun x hx => (mapR_mem h4 x hx)
  have g5 := fun x hx => (mapR_mem h5 x hx)
  have g6 := fun x hx => (mapR_mem h6 x hx)
  have g7 := fun x hx => (mapR_mem h7 x hx)
  have g8 := fun x hx => (mapR_mem h8 x hx)
  refine ⟨⟨?_, ?_, ?_, ?_, ?_, ?_, ?_, ?_⟩, fits_iff.mpr ⟨?_, ?_, ?_, ?_, ?_, ?_, ?_, ?_⟩, ?_⟩
  · intro x hx; obtain ⟨y, -, hy⟩ := g1 x hx; exact (sym_made hy).1
  · intro x hx; obtain ⟨y, -, hy⟩ := g2 x hx; exact (method_made_fact hy).1
  · intro x hx; obtain ⟨y, -, hy⟩ := g3 x hx; exact (override_made hy).1
  · intro x hx; obtain ⟨y, -, hy⟩ := g4 x hx; exact (tyFact_made hy).1
  · intro x hx; obtain ⟨y, -, hy⟩ := g5 x hx; exact (node_made hy).1
  · intro x hx; obtain ⟨y, -, hy⟩ := g6 x hx; exact (edge_made hy).1
  · intro x hx; obtain ⟨y, -, hy⟩ := g7 x hx; exact (unresolved_made hy).1
  · intro x hx; obtain ⟨y, -, hy⟩ := g8 x hx; exact (body_made hy).1
  · intro x hx; obtain ⟨y, -, hy⟩ := g1 x hx; exact (sym_made hy).2.1
  · intro x hx; obtain ⟨y, -, hy⟩ := g2 x hx; exact (method_made_fact hy).2.1
  · intro x hx; obtain ⟨y, -, hy⟩ := g3 x hx; exact (override_made hy).2.1
  · intro x hx; obtain ⟨y, -, hy⟩ := g4 x hx; exact (tyFact_made hy).2.1
  · intro x hx; obtain ⟨y, -, hy⟩ := g5 x hx; exact (node_made hy).2.1
  · intro x hx; obtain ⟨y, -, hy⟩ := g6 x hx; exact (edge_made hy).2.1
  · intro x hx; obtain ⟨y, -, hy⟩ := g7 x hx; exact (unresolved_made hy).2.1
  · intro x hx; obtain ⟨y, -, hy⟩ := g8 x hx; exact (body_made hy).2.2.2.1
  · intro x hx; obtain ⟨y, -, hy⟩ := g8 x hx; exact (body_made hy).2.1

theorem made_retain {u : Uni} {f : Facts} (h : Made u f) : Made u (retain f) where
  symbols := fun x hx => h.symbols x (List.mem_filter.mp hx).1
  methods := h.methods
  overrides := h.overrides
  types := fun x hx => h.types x (List.mem_filter.mp hx).1
  nodes := h.nodes
  edges := h.edges
  unresolved := h.unresolved
  bodies := fun x hx => h.bodies x (List.mem_filter.mp hx).1

theorem fits_retain {f : Facts} (h : Fits f) : Fits (retain f) where
  symbols := fun x hx => h.symbols x (List.mem_filter.mp hx).1
  methods := h.methods
  sigs := h.sigs
  overrides := h.overrides
  subjects := fun x hx => h.subjects x (List.mem_filter.mp hx).1
  types := fun x hx => h.types x (List.mem_filter.mp hx).1
  nodes := h.nodes
  edges := h.edges
  unresolved := h.unresolved
  bodies := fun x hx => h.bodies x (List.mem_filter.mp hx).1
  literals := fun x hx => h.literals x (List.mem_filter.mp hx).1

theorem fromSnapshot_ok {u : Uni} {s : Snap} {t : Template} :
    fromSnapshot u s = .ok t ↔ ∃ f, restFacts u s 0 = .ok f ∧ tryNew 0 f = .ok t := by
  unfold fromSnapshot
  rw [bind_ok]
  constructor
  · rintro ⟨f, hf, h⟩
    refine ⟨f, hf, ?_⟩
    split at h
    · cases h; assumption
    · cases h
  · rintro ⟨f, hf, h⟩
    exact ⟨f, hf, by rw [h]⟩

theorem fromSnapshot_panic {u : Uni} {s : Snap} (h : fromSnapshot u s = .panic) : ∃ m ∈ s.methods, ∃ p ∈ m.paramFacts, p.name = [] := by
  unfold fromSnapshot at h
  rw [bind_panic] at h
  rcases h with h | ⟨f, -, h⟩
  · simp only [restFacts, bind_panic, reduceCtorEq, and_false, exists_false, or_false] at h
    rcases h with h | ⟨_, -, h | ⟨_, -, h | ⟨_, -, h | ⟨_, -, h | ⟨_, -, h | ⟨_, -, h | ⟨_, -, h⟩⟩⟩⟩⟩⟩⟩
    · obtain ⟨_, -, h⟩ := mapR_panic h; exact absurd h sym_panic
    · obtain ⟨m, hm, h⟩ := mapR_panic h; exact ⟨m, hm, method_panic h⟩
    · obtain ⟨_, -, h⟩ := mapR_panic h; exact absurd h override_panic
    · obtain ⟨_, -, h⟩ := mapR_panic h; exact absurd h tyFact_panic
    · obtain ⟨_, -, h⟩ := mapR_panic h; exact absurd h node_panic
    · obtain ⟨_, -, h⟩ := mapR_panic h; exact absurd h edge_panic
    · obtain ⟨_, -, h⟩ := mapR_panic h; exact absurd h unresolved_panic
    · obtain ⟨_, -, h⟩ := mapR_panic h; exact absurd h body_panic
  · split at h <;> cases h

/-- What a template's snapshot gives back. -/
theorem snapshot_back {u : Uni} (hnul : u.upper '\x00' = false) {source : Nat} {f : Facts} {t : Template}
    (h : tryNew source f = .ok t) (hm : Made u t.facts) (hok : ∀ b ∈ t.facts.bodies, BodyOk b.summary) :
    toSnapshot t = .ok (plainSnap t.facts) ∧
      Outcome (Fits t.facts) (fromSnapshot u (plainSnap t.facts)) ⟨0, t.facts.inFile 0⟩ := by
  obtain ⟨rfl, hn⟩ := tryNew_iff.mp h
  have hb := retain_bare f
  refine ⟨snapFacts_ok fun b hb' => ⟨hb.bodies b hb', hok b hb'⟩, ?_⟩
  unfold fromSnapshot
  refine Outcome.map (restFacts_back hnul hm hb hn hok 0) ?_
  have : tryNew 0 ((retain f).inFile 0) = .ok ⟨0, (retain f).inFile 0⟩ := by
    have hr := retain_self (bare_inFile hb 0)
    rw [tryNew_iff, hr]
    exact ⟨rfl, neutral_inFile hn 0⟩
  rw [this]

end Verif.Snapshot
