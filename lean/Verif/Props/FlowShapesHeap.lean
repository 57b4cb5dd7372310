import Verif.Lemmas.FlowShapesHeap
/-!
C55: the types of hashes in variables describe the hashes that executions find there.

The theorems are about code in which hashes contain no hashes and only single hashes are changed or asked for keys (`Flat`).  Nothing is
assumed of the other code that runs in between, except that it changes no hash that it was never given.
-/
namespace Verif.FlowShapes
open Verif.Types

variable {n : Nat} {V : Type}

/-- Whatever the variables hold in the end is as their types say. -/
theorem c55_types_describe_values (L : Values V) {c : Code n} (hc : Flat c ⟨.empty, 0⟩) {S : Tracker n} (hr : runMethod c = some S) {σ τ : World n V}
    (hσ : ∀ x, σ.vars x = .imm L.nil) (he : L.Exec c σ τ) {x : Fin n} {t : Ty} (ht : S.env.types x = some t) : L.Describes τ t (τ.vars x) := by
  obtain ⟨_, _, _, S', h1, h2, _⟩ := run_calm c calm_empty hc
  rw [show run c ⟨.empty, 0⟩ = some S from hr] at h1; cases h1
  obtain ⟨ρ, W, h3⟩ := run_sim he calm_empty hc hr (.start σ hσ)
  exact h3.describes h2 ht

/-- A variable without a type holds nil. -/
theorem c55_unset_is_nil (L : Values V) {c : Code n} (hc : Flat c ⟨.empty, 0⟩) {S : Tracker n} (hr : runMethod c = some S) {σ τ : World n V}
    (hσ : ∀ x, σ.vars x = .imm L.nil) (he : L.Exec c σ τ) {x : Fin n} (ht : S.env.types x = none) : τ.vars x = .imm L.nil := by
  obtain ⟨ρ, W, h3⟩ := run_sim he calm_empty hc hr (.start σ hσ)
  exact h3.unset x ht

/-- If the type has only shapes, then the variable holds a hash that is as one of them says. -/
theorem c55_shapes_are_hashes (L : Values V) {c : Code n} (hc : Flat c ⟨.empty, 0⟩) {S : Tracker n} (hr : runMethod c = some S) {σ τ : World n V}
    (hσ : ∀ x, σ.vars x = .imm L.nil) (he : L.Exec c σ τ) {x : Fin n} {t : Ty} (ht : S.env.types x = some t) (hs : isShapeOnly t = true) :
    ∃ a o u, τ.vars x = .obj a ∧ τ.heap a = some o ∧ DeepAlt t u ∧ L.Fits u o := by
  rcases c55_types_describe_values L hc hr hσ he ht with ⟨u, h1, h2, _⟩ | ⟨u, a, o, h1, h2, h3, h4⟩
  · obtain ⟨l, e1, e2, e3⟩ := shapeAlts_ok t hs
    have := e3 u ((mem_shapeAlts e1 u).mpr h1)
    rw [h2] at this; cases this
  · exact ⟨a, o, u, h2, h3, h1, h4⟩

/-- What the type says of a field holds: a field that is not optional is there, and its value is of the type of the field; a key that a
closed shape does not have is not there. -/
theorem c55_fields_are_there (L : Values V) {c : Code n} (hc : Flat c ⟨.empty, 0⟩) {S : Tracker n} (hr : runMethod c = some S) {σ τ : World n V}
    (hσ : ∀ x, σ.vars x = .imm L.nil) (he : L.Exec c σ τ) {x : Fin n} {fs : List Field} {r : Option (Ty × Ty)} {isOpen z : Bool} {d : Nat}
    (ht : S.env.types x = some (.shape fs r isOpen z d)) : ∃ a o, τ.vars x = .obj a ∧ τ.heap a = some o ∧
    (∀ f ∈ fs, f.2.1 = false → ∃ v, o.fields f.1 = some v) ∧ (∀ f ∈ fs, ∀ v, o.fields f.1 = some v → L.Holds (.imm v) f.2.2) ∧
    (isOpen = false → ∀ k, (∀ f ∈ fs, f.1 ≠ k) → o.fields k = none) := by
  obtain ⟨a, o, u, h1, h2, h3, h4⟩ := c55_shapes_are_hashes L hc hr hσ he ht (shapeOnly_shape rfl)
  rw [(deepAlt_of_simple (shape_simple rfl)).mp h3] at h4
  obtain ⟨fs', r', o', z', d', e, _, h5, h6, _⟩ := h4
  cases e
  refine ⟨a, o, h1, h2, fun f hf hreq => ?_, fun f hf => (h5 f hf).2, fun ho k hk => ?_⟩
  · cases hv : o.fields f.1 with
    | some v => exact ⟨v, rfl⟩
    | none => rw [(h5 f hf).1 hv] at hreq; cases hreq
  · cases hv : o.fields k with
    | none => rfl
    | some v =>
      obtain ⟨f, hf, e⟩ := (h6 ho).2 k (by rw [hv]; simp)
      exact absurd e (hk f hf)

/-- The analysis of such code ends with an environment. -/
theorem c55_flat_code_completes {c : Code n} (hc : Flat c ⟨.empty, 0⟩) : ∃ S, runMethod c = some S := by
  obtain ⟨_, _, _, S, h, _⟩ := run_calm c calm_empty hc
  exact ⟨S, h⟩

/-! ### examples -/

set_option maxRecDepth 10000

/-- `0` is nil, the others are integers. -/
def ints : Values Nat where
  nil := 0
  has v t := v = .imm 0 ∧ t = nilTy ∨ (∃ k, v = .imm (k + 1) ∧ t = int) ∨ ∃ a, v = .obj a ∧ t = .hash [.unknown] [.unknown]
  has_nil := .inl ⟨rfl, rfl⟩
  has_hash a := .inr (.inr ⟨a, rfl, rfl⟩)

def soleState (E : Env n) (y : Fin n) : Option State → Bool
  | some (.proven _) => (E.types y).any isShapeOnly
  | _ => true

def soleB (E : Env n) (y : Fin n) : Bool :=
  match E.binds y with
  | none => true
  | some ids => decide (ids.card ≤ 1) && decide (∀ i ∈ ids, soleState E y (E.states i) = true)

theorem sole_of {E : Env n} {y : Fin n} (h : soleB E y = true) : Sole E y := by
  intro ids hb
  unfold soleB at h
  rw [hb] at h
  simp only [Bool.and_eq_true, decide_eq_true_eq] at h
  refine ⟨h.1, fun i hi s hs => ?_⟩
  have := h.2 i hi
  rw [hs] at this
  replace this : (E.types y).any isShapeOnly = true := this
  obtain ⟨t, h1, h2⟩ := Option.any_eq_true _ _ |>.mp this
  exact ⟨t, h1, h2⟩

def noShapeB : Ty → Bool
  | .cls _ => true
  | .unknown => true
  | _ => false

theorem noShape_of {t : Ty} (h : noShapeB t = true) : NoShape t := by
  cases t with
  | cls c => exact noShape_simple (by rintro us ⟨⟩) rfl
  | unknown => exact noShape_unknown
  | _ => cases h

def flatPartB (E : Env n) : Part n → Bool
  | .var y => (E.binds y).isNone
  | .typed t => noShapeB t

theorem flatPart_of {E : Env n} {p : Part n} (h : flatPartB E p = true) : FlatPart E p := by
  cases p with
  | var y => exact Option.isNone_iff_eq_none.mp h
  | typed t => exact noShape_of h

/-- A check for such code, apart from the kind of the conditions. -/
def flatB : Code n → Tracker n → Bool
  | .skip, _ => true
  | .assign _ (.read _), _ => true
  | .assign _ (.hash fs), S => fs.all fun f => flatPartB S.env f.2
  | .assign _ (.other t), _ => noShapeB t
  | .assign _ _, _ => false
  | .insert _ t, _ => noShapeB t
  | .setField y _ v, S => soleB S.env y && flatPartB S.env v
  | .change y _, S => soleB S.env y
  | .escape _, _ => true
  | .guard y _, S => soleB S.env y
  | .narrow _ _, _ => false
  | .seq a b, S => flatB a S && (run a S).all fun S' => flatB b S'
  | .branch a b, S => flatB a S && (run a S).all fun A => flatB b ⟨S.env, A.next⟩
  | .scratch a, S => flatB a S

/-- All conditions ask for keys. -/
def AsksKeys : Code n → Prop
  | .guard _ f => ∃ k b, f = presence k b
  | .seq a b => AsksKeys a ∧ AsksKeys b
  | .branch a b => AsksKeys a ∧ AsksKeys b
  | .scratch a => AsksKeys a
  | _ => True

theorem all_of {α : Type} {o : Option α} {p : α → Bool} (h : o.all p = true) {a : α} (ha : o = some a) : p a = true := by
  subst ha; exact h

theorem flat_of (c : Code n) : ∀ {S : Tracker n}, AsksKeys c → flatB c S = true → Flat c S := by
  induction c with
  | skip => intros; trivial
  | assign x v =>
    intro S _ h
    cases v with
    | read y => trivial
    | hash fs => exact fun f hf => flatPart_of (List.all_eq_true.mp h f hf)
    | other t => exact .inl (noShape_of h)
    | _ => cases h
  | insert x t => intro S _ h; exact noShape_of h
  | setField y k v =>
    intro S _ h
    replace h : (soleB S.env y && flatPartB S.env v) = true := h
    rw [Bool.and_eq_true] at h
    exact ⟨sole_of h.1, flatPart_of h.2⟩
  | change y m => intro S _ h; exact sole_of h
  | escape p => intros; trivial
  | guard y f => intro S hk h; exact ⟨sole_of h, hk⟩
  | narrow x t => intro S _ h; cases h
  | seq a b iha ihb =>
    intro S hk h
    replace h : (flatB a S && (run a S).all fun S' => flatB b S') = true := h
    rw [Bool.and_eq_true] at h
    exact ⟨iha hk.1 h.1, fun S' hS => ihb hk.2 (all_of h.2 hS)⟩
  | branch a b iha ihb =>
    intro S hk h
    replace h : (flatB a S && (run a S).all fun A => flatB b ⟨S.env, A.next⟩) = true := h
    rw [Bool.and_eq_true] at h
    exact ⟨iha hk.1 h.1, fun A hA => ihb hk.2 (all_of (p := fun A => flatB b ⟨S.env, A.next⟩) h.2 hA)⟩
  | scratch a iha => intro S hk h; exact iha hk h

/-- `x = {a: 1}; y = x; z = {c: 1}; if e then x[:b] = 1 end; y.delete(:a)`, and then under `if x.key?(:b)`. -/
def asked : Code 3 := seqs [.assign 0 (lit ['a']), .assign 1 (.read 0), .assign 2 (lit ['c']), .branch (.setField 0 (sym 'b') (.typed int)) .skip,
  .change 1 (.delete (sym 'a')), .guard 0 (presence (sym 'b') true)]

example : typeAfter asked 0 = some (some (shapeOf ['b'])) := by decide +kernel
example : typeAfter asked 1 = some (some (shapeOf ['b'])) := by decide +kernel

theorem asked_flat : Flat asked ⟨.empty, 0⟩ :=
  flat_of asked ⟨trivial, trivial, trivial, ⟨trivial, trivial⟩, trivial, ⟨_, _, rfl⟩, trivial⟩ (by decide +kernel)

/-- Nothing else is known at the start. -/
def start (n : Nat) : World n Nat := ⟨fun _ => .imm 0, fun _ => none, fun _ => False⟩

theorem holds_int (k : Nat) : ints.Holds (.imm (k + 1)) int := ⟨int, (deepAlt_of_simple (by rintro us ⟨⟩)).mpr rfl, rfl, .inr (.inr (.inl ⟨k, rfl, rfl⟩))⟩

/-- The code is executed, with `7` in the field that `x` has got. -/
theorem asked_runs : ∃ τ, ints.Exec asked (start 3) τ ∧ τ.vars 0 = .obj 0 ∧ ∃ o, τ.heap 0 = some o ∧ o.fields (sym 'b') = some 7 ∧ o.fields (sym 'a') = none := by
  refine ⟨_, .seq (.hash (a := 0) (.cons (v := 1) (holds_int 0) (.nil _)) rfl (fun h => h)) <| .seq (.read 1 0 _) <|
    .seq (.hash (a := 1) (.cons (v := 1) (holds_int 0) (.nil _)) rfl (fun h => h)) <| .seq (.left (.write (a := 0) (v := 7) rfl rfl rfl (holds_int 6))) <|
    .seq (.change (a := 0) rfl rfl (.inl rfl)) <| .seq (.guard (a := 0) rfl rfl (by decide +kernel)) (.skip _), rfl, _, rfl, ?_, ?_⟩ <;> rfl

example {S t} (h : runMethod asked = some S) (ht : S.env.types 0 = some t) : ∃ τ, ints.Describes τ t (τ.vars (0 : Fin 3)) := by
  obtain ⟨τ, he, _⟩ := asked_runs
  exact ⟨τ, c55_types_describe_values ints asked_flat h (fun _ => rfl) he ht⟩

/-! ### where it is not so -/

/-- `y = {a: 1}; z = {c: 1}; if e then x = y else x = z end; x[:b] = 1`. -/
def either : Code 3 := seqs [.assign 0 (lit ['a']), .assign 1 (lit ['c']), .branch (.assign 2 (.read 0)) (.assign 2 (.read 1)), .setField 2 (sym 'b') (.typed int)]

theorem fits_required {V : Type} {L : Values V} {u : Ty} {o : Obj V} (h : L.Fits u o) {k : Lit} (hk : ∃ fs r op z d t, u = .shape fs r op z d ∧ (k, false, t) ∈ fs) : o.fields k ≠ none := by
  obtain ⟨fs, r, op, z, d, t, rfl, hm⟩ := hk
  obtain ⟨_, _, _, _, _, e, _, h1, _⟩ := h
  cases e
  intro hn
  have := (h1 _ hm).1 hn
  cases this

theorem describes_shape {V : Type} {L : Values V} {σ : World n V} {u : Ty} (hu : u.isShape = true) {a : Addr} {o : Obj V} (ho : σ.heap a = some o)
    (h : L.Describes σ u (.obj a)) : L.Fits u o := by
  have hs : ∀ w, DeepAlt u w → w = u := fun w hw => (deepAlt_of_simple (shape_simple hu)).mp hw
  rcases h with ⟨w, h1, h2, _⟩ | ⟨w, b, o', h1, h2, h3, h4⟩
  · rw [hs w h1, hu] at h2; cases h2
  · cases h2
    rw [ho] at h3; cases h3
    rw [hs w h1] at h4; exact h4

/-- If `x` is one of two hashes, then the types of both say after a write that it happened to them: what `y` holds is not as its type says. -/
theorem c55_write_to_either_fails : typeAfter either 0 = some (some (shapeOf ['a', 'b'])) ∧
    ∃ τ, ints.Exec either (start 3) τ ∧ ¬ ints.Describes τ (shapeOf ['a', 'b']) (τ.vars 0) := by
  refine ⟨by decide +kernel, _, .seq (.hash (a := 0) (.cons (v := 1) (holds_int 0) (.nil _)) rfl (fun h => h)) <|
    .seq (.hash (a := 1) (.cons (v := 1) (holds_int 0) (.nil _)) rfl (fun h => h)) <| .seq (.right (.read 2 1 _)) <|
    .seq (.write (a := 1) (v := 7) rfl rfl rfl (holds_int 6)) (.skip _), fun h => ?_⟩
  refine fits_required (describes_shape (by decide +kernel) rfl h) (k := sym 'b') ?_ rfl
  have : (match shapeOf ['a', 'b'] with | .shape fs _ _ _ _ => decide ((sym 'b', false, int) ∈ fs) | _ => false) = true := by decide +kernel
  split at this
  · rename_i fs r op z d e
    exact ⟨fs, r, op, z, d, int, e, of_decide_eq_true this⟩
  · cases this

end Verif.FlowShapes
