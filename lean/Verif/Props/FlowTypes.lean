import Verif.Lemmas.FlowReads
/-!
C52: the types tracked for local variables, for values and for methods describe what the code computes, for the code of `Supported`;
and where they do not.
-/
namespace Verif.FlowTypes
open Verif.Types

variable {W : World} {K : Know} {s v : Bool} {e : Expr} {E : Env} {σ σ' : Store W} {t : List (Nat × W.V)}

theorem joinReturns_desc {ts : List Ty} {u r : Ty} {w : W.V} (h : joinReturns ts = some u) (hr : r ∈ ts) (hd : Desc W.toWorld r w) :
    Desc W.toWorld u w := by
  unfold joinReturns at h
  split at h
  · cases h; simp [Desc]
  · split at h
    · cases h
    · cases h
      exact desc_union_of_mem hr hd

theorem joinReturns_none {ts : List Ty} (h : joinReturns ts = none) : ts = [] := by
  unfold joinReturns at h
  split at h
  · cases h
  · split at h
    · exact List.isEmpty_iff.mp ‹_›
    · cases h

/-- **C52**: when code has ended with a value, every variable has the type in the environment, and the value has the type of the
code if the value is used. -/
theorem c52_variables_and_value (hR : Right W K) (hK : FineKnow W s K) (hE : FineEnv W s E) (he : Supported W s v e) {d : Nat}
    (hA : Agrees W E σ) {w : W.V} (h : run W e σ t (.val w) σ') :
    (∀ x, DescOpt W ((track K d e E).env x) (σ' x)) ∧ (v = true → Desc W.toWorld (track K d e E).ty w) := by
  have g := (sound hR e v d E (supported_ok hK e v he d E hE) σ t _ σ' hA h).val w rfl
  exact ⟨g.2, g.1⟩

/-- **C52**: the type of a method describes what it returns, at its end or by `return`. -/
theorem c52_method_type (hR : Right W K) (hK : FineKnow W s K) (hE : FineEnv W s E) (he : Supported W s true e) {u : Ty}
    (hu : methodType K E e = some u) (hA : Agrees W E σ) {o : Out W.V} (h : run W e σ t o σ') {w : W.V} (ho : o = .val w ∨ o = .ret w) :
    Desc W.toWorld u w := by
  have g := sound hR e true 0 E (supported_ok hK e true he 0 E hE) σ t o σ' hA h
  have key : ∃ r ∈ (track K 0 e E).rets ++ (if diverges e then [] else [(track K 0 e E).ty]), Desc W.toWorld r w := by
    rcases ho with rfl | rfl
    · have nd : diverges e = false := by
        cases hd : diverges e with
        | false => rfl
        | true => exact absurd (run_diverges e hd _ _ _ _ h) (by simp [Out.isVal])
      exact ⟨_, by rw [nd]; simp, (g.val w rfl).1 rfl⟩
    · obtain ⟨r, h1, h2⟩ := g.ret w rfl
      exact ⟨r, List.mem_append_left _ h1, h2⟩
  obtain ⟨r, h1, h2⟩ := key
  exact joinReturns_desc hu h1 h2

/-- **C52**: a method for which there is no type never returns. -/
theorem c52_method_without_type_never_returns (hR : Right W K) (hK : FineKnow W s K) (hE : FineEnv W s E) (he : Supported W s true e)
    (hu : methodType K E e = none) (hA : Agrees W E σ) {o : Out W.V} (h : run W e σ t o σ') (w : W.V) : o ≠ .val w ∧ o ≠ .ret w := by
  have g := sound hR e true 0 E (supported_ok hK e true he 0 E hE) σ t o σ' hA h
  have hn := joinReturns_none hu
  rw [List.append_eq_nil_iff] at hn
  refine ⟨?_, ?_⟩
  · rintro rfl
    cases hd : diverges e with
    | false => rw [hd] at hn; simp at hn
    | true => exact absurd (run_diverges e hd _ _ _ _ h) (by simp [Out.isVal])
  · rintro rfl
    obtain ⟨r, h1, -⟩ := g.ret w rfl
    rw [hn.1] at h1
    cases h1

/-- **C52**: the type shown for a read of a variable, outside of loops and `ensure` clauses, describes every value read there. -/
theorem c52_read_type (hR : Right W K) (hK : FineKnow W s K) (hE : FineEnv W s E) (he : Supported W s v e) {d : Nat}
    (hA : Agrees W E σ) {o : Out W.V} (h : run W e σ t o σ') {i : Nat} (hi : (sites e).count i ≤ 1) (hl : i ∉ loopSites e) {u : Ty}
    (hu : readType (track K d e E).reads i = some u) {w : W.V} (hw : (i, w) ∈ t) : Desc W.toWorld u w := by
  unfold readType at hu
  obtain ⟨p, hp, rfl⟩ := Option.map_eq_some_iff.mp hu
  have h1 := List.mem_reverse.mp (List.mem_of_find?_eq_some hp)
  have h2 := List.find?_some hp
  simp only [beq_iff_eq] at h2
  obtain ⟨j, u⟩ := p
  simp only at h2
  subst h2
  exact (sound_reads hR j e v d E (supported_ok hK e v he d E hE) hi hl σ t o σ' hA h).ok w u hw h1

/-- **C52**: when code is interrupted by an exception, every variable has the type in the environment from which the `rescue` clauses
are tracked. -/
theorem c52_variables_in_rescue (hR : Right W K) (hK : FineKnow W s K) (hE : FineEnv W s E) (he : Supported W s v e)
    (hp : protectable e = true) {d : Nat} (hA : Agrees W E σ) (h : run W e σ t .raised σ') (x : Nat) :
    DescOpt W (rescueEnv E (track K d e E).obs x) (σ' x) := by
  obtain ⟨ob, g1, g2⟩ := (sound hR e v d E (supported_ok hK e v he d E hE) σ t _ σ' hA h).cov hp
  exact agrees_rescueEnv hA (covered_mono (track_static K e hp d E).obs hA g1 g2) x

/-! ### a world -/

inductive V1 where
  | nil | tru | fls | user | main
  | int (n : Int)
  | lit (l : Lit)
  | cls (c : String)

def classOf : V1 → String
  | .nil => "NilClass"
  | .tru => "TrueClass"
  | .fls => "FalseClass"
  | .user => "User"
  | .main => "Main"
  | .int _ => "Integer"
  | .lit l => if l.isString then "String" else "Symbol"
  | .cls _ => "Class"

def Inst1 (n : Name) (v : V1) : Prop := n = nameOf "Object" ∨ n = nameOf (classOf v)

def Truthy1 (v : V1) : Prop := v ≠ .nil ∧ v ≠ .fls

/-- The methods of this world; `any` returns anything. -/
inductive Send1 : V1 → String → Option V1 → V1 → Prop
  | isNil {v m w} : m = "nil?" → (Truthy1 w ↔ v = .nil) → Send1 v m none w
  | not {v m w} : m = "!" → (Truthy1 w ↔ ¬ Truthy1 v) → Send1 v m none w
  | isA {v m c w} : m = "is_a?" → (Truthy1 w ↔ Inst1 (nameOf c) v) → Send1 v m (some (.cls c)) w
  | kindOf {v m c w} : m = "kind_of?" → (Truthy1 w ↔ Inst1 (nameOf c) v) → Send1 v m (some (.cls c)) w
  | instanceOf {v m c w} : m = "instance_of?" → (Truthy1 w ↔ classOf v = c) → Send1 v m (some (.cls c)) w
  | new {c m a} : c = "User" → m = "new" → Send1 (.cls c) m a .user
  | plus {m a n} : m = "+" → Send1 (.int a) m n (.int (a + 1))
  | any {v m a w} : m = "any" → Send1 v m a w

/-- A world in which everything is an `Object`. -/
def world1 : World where
  V := V1
  inst := Inst1
  modInst _ _ := False
  clsRef n v := ∃ c, v = .cls c ∧ nameOf c = n
  modRef _ _ := False
  lit := .lit
  isArr _ := False
  elem _ _ := False
  isHash _ := False
  entry _ _ _ := False
  lit_inj := by intro a b h; injection h
  string := by
    intro l
    cases h : l.isString
    · simp only [Inst1, classOf, h]; decide
    · simp only [Inst1, classOf, h]; decide
  symbol := by
    intro l
    cases h : l.isString
    · simp only [Inst1, classOf, h]; decide
    · simp only [Inst1, classOf, h]; decide
  lit_arr := by intro l h; exact h
  lit_hash := by intro l h; exact h
  nil := .nil
  truthy := Truthy1
  send := Send1
  const := .cls
  self := .main
  top _ := True
  nil_inst := by
    intro v
    cases v with
    | lit l =>
      cases h : l.isString
      · simp only [Inst1, classOf, h, reduceCtorEq, iff_false]; decide
      · simp only [Inst1, classOf, h, reduceCtorEq, iff_false]; decide
    | _ => simp only [Inst1, classOf, reduceCtorEq, iff_false, iff_true]; decide
  nil_falsy := by simp [Truthy1]
  false_falsy := by
    intro v h
    cases v with
    | fls => simp [Truthy1]
    | lit l =>
      exfalso
      revert h
      cases h : l.isString
      · simp only [Inst1, classOf, h]; decide
      · simp only [Inst1, classOf, h]; decide
    | _ => exfalso; revert h; simp only [Inst1, classOf]; decide
  clsRef_truthy := by rintro n v ⟨c, rfl, -⟩; simp [Truthy1]
  modRef_truthy := by intro _ _ h; exact h.elim
  lit_truthy := by intro l; simp [Truthy1]
  arr_truthy := by intro _ h; exact h.elim
  hash_truthy := by intro _ h; exact h.elim
  send_nil := by
    intro v w h
    cases h with
    | isNil _ h => exact h
    | not h _ | plus h | any h | new _ h => exact absurd h (by decide)
  send_not := by
    intro v w h
    cases h with
    | not _ h => exact h
    | isNil h _ | plus h | any h | new _ h => exact absurd h (by decide)
  send_isA := by
    intro c v w _ h
    cases h with
    | isA _ h => exact h
    | kindOf h _ | instanceOf h _ | plus h | any h | new _ h => exact absurd h (by decide)
  send_kindOf := by
    intro c v w _ h
    cases h with
    | kindOf _ h => exact h
    | isA h _ | instanceOf h _ | plus h | any h | new _ h => exact absurd h (by decide)
  send_instanceOf := by
    intro c v w _ h hw
    cases h with
    | instanceOf _ h => exact .inr (by rw [h.mp hw])
    | isA h _ | kindOf h _ | plus h | any h | new _ h => exact absurd h (by decide)
  send_new := by
    intro c a w _ h
    cases h with
    | new hc _ => subst hc; exact .inr rfl
    | isNil h _ | not h _ | isA h _ | kindOf h _ | instanceOf h _ | any h => exact absurd h (by decide)
  never := by
    intro m a w hm h
    cases h with
    | isNil h _ | not h _ | isA h _ | kindOf h _ | instanceOf h _ | any h => subst h; simp at hm
  never_module := by
    intro c m a w _ hm h
    cases h with
    | isNil h _ | not h _ | isA h _ | kindOf h _ | instanceOf h _ | any h | new _ h => subst h; simp at hm

def intTy : Ty := .cls (nameOf "Integer")
def objTy : Ty := .cls (nameOf "Object")

/-- What is known about it. -/
def know1 : Know where
  resolve t m := if t = intTy ∧ m = "+" then some intTy else none
  const c := .clsRef (nameOf c)
  self := .unknown

theorem int_iff {v : V1} : Desc world1.toWorld intTy v ↔ ∃ n, v = .int n := by
  show Inst1 _ v ↔ _
  cases v with
  | lit l =>
    cases h : l.isString
    · simp only [Inst1, classOf, h, reduceCtorEq, exists_false, iff_false]; decide
    · simp only [Inst1, classOf, h, reduceCtorEq, exists_false, iff_false]; decide
  | int n => exact ⟨fun _ => ⟨n, rfl⟩, fun _ => .inr rfl⟩
  | _ => simp only [Inst1, classOf, reduceCtorEq, exists_false, iff_false]; decide

theorem string_iff {v : V1} : Desc world1.toWorld stringTy v ↔ ∃ l, v = .lit l ∧ l.isString = true := by
  show Inst1 _ v ↔ _
  cases v with
  | lit l =>
    cases h : l.isString
    · simp only [Inst1, classOf, h]
      constructor
      · intro h; exact absurd h (by decide)
      · rintro ⟨l', h', h''⟩; cases h'; simp [h] at h''
    · simp only [Inst1, classOf, h]
      exact ⟨fun _ => ⟨l, rfl, h⟩, fun _ => .inr rfl⟩
  | _ => simp only [Inst1, classOf, reduceCtorEq, false_and, exists_false, iff_false]; decide

theorem right1 : Right world1 know1 := by
  refine ⟨?_, ?_, trivial⟩
  · intro t m u v a w h hd hs
    simp only [know1] at h
    split at h
    · rename_i hc
      obtain ⟨rfl, rfl⟩ := hc
      cases h
      cases hs with
      | plus _ => exact int_iff.mpr ⟨_, rfl⟩
      | isNil h _ | not h _ | isA h _ | kindOf h _ | instanceOf h _ | any h | new _ h => exact absurd h (by decide)
    · cases h
  · intro c
    exact ⟨c, rfl, rfl⟩

theorem simple_cls {n : Name} : Simple (.cls n) := by intro us h; cases h

theorem fine_cls {s : Bool} {n : Name} (h : s = true → ∀ v, Inst1 n v → Truthy1 v) : Fine world1 s (.cls n) := by
  refine ⟨⟨_, .self simple_cls⟩, ?_, ?_⟩
  · intro u hu; cases hu; exact ⟨simple_cls, rfl⟩
  · intro hs
    refine .inr ?_
    intro u hu; cases hu
    exact .inr (.inr (h hs))

theorem fine_int {s : Bool} : Fine world1 s intTy := fine_cls (by
  intro _ v h
  obtain ⟨n, rfl⟩ := int_iff.mp h
  simp [Truthy1])

theorem fine_string {s : Bool} : Fine world1 s stringTy := fine_cls (by
  intro _ v h
  obtain ⟨l, rfl, -⟩ := string_iff.mp h
  simp [Truthy1])

theorem know1_fine {s : Bool} : FineKnow world1 s know1 := by
  refine ⟨?_, ?_, fine_unknown⟩
  · intro t m u h
    simp only [know1] at h
    split at h
    · cases h; exact fine_int
    · cases h
  · intro c
    have hs : Simple (.clsRef (nameOf c)) := by intro us h; cases h
    refine ⟨⟨_, .self hs⟩, ?_, ?_⟩
    · intro u hu; cases hu; exact ⟨hs, rfl⟩
    · intro _
      refine .inr ?_
      intro u hu; cases hu
      refine .inr (.inr ?_)
      rintro v ⟨c, rfl, -⟩
      simp [world1, Truthy1]

/-! ### an example -/

def int : Expr := .lit intTy
def str : Expr := .lit stringTy
def nilE : Expr := .lit nilTy
def anyE : Expr := .call0 .self "any"

/-- The parameter `x` is an `Integer` or `nil`. -/
def params1 : Env := fun x => if x = 0 then some (.union [intTy, nilTy]) else none

/-- ```
return "" if x.nil?
y = x + 1
begin
  y = y + 1
rescue
  y = ""
end
z = y || nil
while any
  x = 0
end
z
``` -/
def method1 : Expr :=
  .seq (.ifE (.call0 (.read 0 0) "nil?") (.ret str) nilE)
  (.seq (.write 1 (.call (.read 0 1) "+" int))
  (.seq (.beginE (.write 1 (.call (.read 1 2) "+" int)) (.cons (.const "Error") (.write 1 str) .nil) nilE)
  (.seq (.write 2 (.orE (.read 1 3) nilE))
  (.seq (.loopE true anyE (.write 0 int))
  (.read 2 5)))))

theorem fine_nilTy {s : Bool} : Fine world1 s nilTy := by
  refine ⟨⟨_, .self simple_cls⟩, ?_, ?_⟩
  · intro u hu; cases hu; exact ⟨simple_cls, rfl⟩
  · intro _
    refine .inr ?_
    intro u hu; cases hu
    exact .inl rfl

theorem params1_fine {s : Bool} : FineEnv world1 s params1 := by
  intro x t h
  simp only [params1] at h
  split at h
  · cases h
    refine ⟨⟨intTy, .member (by simp)⟩, ?_, ?_⟩
    · intro u hu
      cases hu with
      | member hu =>
        simp only [List.mem_cons, List.not_mem_nil, or_false] at hu
        rcases hu with rfl | rfl <;> exact ⟨simple_cls, rfl⟩
      | self h => exact absurd rfl (h _)
    · intro _
      refine .inr ?_
      intro u hu
      cases hu with
      | member hu =>
        simp only [List.mem_cons, List.not_mem_nil, or_false] at hu
        rcases hu with rfl | rfl
        · refine .inr (.inr ?_)
          intro v hv
          obtain ⟨n, rfl⟩ := int_iff.mp hv
          simp [world1, Truthy1]
        · exact .inl rfl
      | self h => exact absurd rfl (h _)
  · cases h

theorem method1_supported : Supported world1 true true method1 := by
  dsimp only [method1, anyE, int, str, nilE, Supported, SupportedC]
  refine ⟨⟨⟨fun _ => trivial, (by simp [isExpr]), (by intro c h; cases h), (by intro c h; cases h)⟩, ⟨fun _ => fine_string, by simp [isExpr]⟩,
      fine_nilTy, ?_, by simp [FineTest]⟩, ?_⟩
  · refine ⟨?_, ?_⟩
    · intro _ _
      exact .inr ⟨0, .nil, by simp [written]⟩
    · intro _ h; exact absurd h (by decide)
  refine ⟨⟨fun _ => trivial, (by simp [isExpr]), (by intro c h; cases h), by decide, (by intro c h; cases h)⟩, ?_⟩
  refine ⟨⟨⟨fun _ => trivial, (by simp [isExpr]), (by intro c h; cases h), by decide, (by intro c h; cases h)⟩, .inr rfl,
    ⟨by decide, fine_string, trivial⟩, rfl, fine_nilTy⟩, ?_⟩
  refine ⟨⟨rfl, trivial, fine_nilTy⟩, ?_⟩
  refine ⟨⟨rfl, rfl, rfl, ⟨fun _ => trivial, (by simp [isExpr]), (by intro c h; cases h), (by intro c h; cases h)⟩, fine_int, by decide, by decide⟩, trivial⟩

/-- The method has type `Integer | String`, and returns nothing else. -/
example : methodType know1 params1 method1 = some (.union [intTy, stringTy]) := by decide +kernel

example {σ σ' : Store world1} (hσ : (∃ n, σ 0 = .int n) ∨ σ 0 = .nil) (h0 : ∀ x, x ≠ 0 → σ x = .nil) {t : List (Nat × V1)} {w : V1}
    (h : run world1 method1 σ t (.val w) σ' ∨ run world1 method1 σ t (.ret w) σ') : (∃ n, w = .int n) ∨ ∃ l, w = .lit l ∧ l.isString = true := by
  have hA : Agrees world1 params1 σ := by
    intro x
    simp only [params1]
    split
    · rename_i hx
      subst hx
      refine descAny_iff.mpr ?_
      rcases hσ with ⟨n, hn⟩ | hn
      · exact ⟨intTy, by simp, by rw [hn]; exact int_iff.mpr ⟨n, rfl⟩⟩
      · exact ⟨nilTy, by simp, by rw [hn]; exact desc_nil⟩
    · exact h0 x ‹_›
  have key : Desc world1.toWorld (.union [intTy, stringTy]) w := by
    rcases h with h | h
    · exact c52_method_type right1 know1_fine params1_fine method1_supported (by decide +kernel) hA h (.inl rfl)
    · exact c52_method_type right1 know1_fine params1_fine method1_supported (by decide +kernel) hA h (.inr rfl)
  obtain ⟨u, hu, hd⟩ := descAny_iff.mp key
  simp only [List.mem_cons, List.not_mem_nil, or_false] at hu
  rcases hu with rfl | rfl
  · exact .inl (int_iff.mp hd)
  · exact .inr (string_iff.mp hd)

/-- The read of `y` after the `begin` has type `Integer | String`. -/
example : readType (track know1 0 method1 params1).reads 3 = some (.union [intTy, stringTy]) ∧ (sites method1).count 3 ≤ 1 ∧
    3 ∉ loopSites method1 := by decide +kernel

/-! ### where the types are wrong -/

/-- Nothing has been assigned. -/
def env0 : Env := fun _ => none
def store0 : Store world1 := fun _ => V1.nil

theorem agrees0 : Agrees world1 env0 store0 := fun _ => rfl

/-- After the code, the variable has a value that its type does not describe. -/
def WrongAfter (E : Env) (σ : Store world1) (e : Expr) (x : Nat) : Prop :=
  ∃ t w σ', run world1 e σ t (.val w) σ' ∧ ¬ DescOpt world1 ((track know1 0 e E).env x) (σ' x)

/-- At the site, a value is read that the type recorded there does not describe. -/
def WrongRead (E : Env) (σ : Store world1) (e : Expr) (i : Nat) : Prop :=
  ∃ t o σ' w u, run world1 e σ t o σ' ∧ (i, w) ∈ t ∧ readType (track know1 0 e E).reads i = some u ∧ ¬ Desc world1.toWorld u w

/-- The code has a value that its type does not describe. -/
def WrongValue (E : Env) (σ : Store world1) (e : Expr) : Prop :=
  ∃ t w σ', run world1 e σ t (.val w) σ' ∧ ¬ Desc world1.toWorld (track know1 0 e E).ty w

section
variable {σ σ₁ σ₂ : Store world1} {a b : Expr} {t₁ t₂ : List (Nat × V1)} {v w : V1} {o : Out V1}

theorem r_write {x : Nat} (h : run world1 a σ t₁ (.val v) σ₁) : run world1 (.write x a) σ (t₁ ++ []) (.val v) (σ₁.set x v) :=
  Bind.next h StoreB.val

theorem r_seq (h : run world1 a σ t₁ (.val v) σ₁) (h' : run world1 b σ₁ t₂ o σ₂) : run world1 (.seq a b) σ (t₁ ++ t₂) o σ₂ :=
  Bind.next h h'

theorem r_int : run world1 int σ [] (.val (V1.int 0)) σ := Some'.val (int_iff.mpr ⟨0, rfl⟩)

def strV : V1 := .lit ⟨true, []⟩

theorem r_str : run world1 str σ [] (.val strV) σ := Some'.val (string_iff.mpr ⟨_, rfl, rfl⟩)

theorem r_nil : run world1 nilE σ [] (.val V1.nil) σ := Some'.val desc_nil

theorem r_read {x i : Nat} : run world1 (.read x i) σ [(i, σ x)] (.val (σ x)) σ := ReadB.val

theorem r_any (w : V1) : run world1 anyE σ ([] ++ []) (.val w) σ :=
  Bind.next (Some'.val rfl) (Some'.val (Send1.any rfl))

theorem r_done {w : Bool} {c : Expr} (h : run world1 c σ t₁ (.val v) σ₁) (hv : ¬ (Truthy1 v ↔ w = true)) :
    run world1 (.loopE w c b) σ t₁ (.val V1.nil) σ₁ := LoopB.done h hv

theorem r_once {w : Bool} {c : Expr} {v' v'' : V1} {t₃ : List (Nat × V1)} {σ₃ : Store world1} (h : run world1 c σ t₁ (.val v) σ₁)
    (hv : Truthy1 v ↔ w = true) (h' : run world1 b σ₁ t₂ (.val v') σ₂) (h'' : run world1 c σ₂ t₃ (.val v'') σ₃)
    (hv' : ¬ (Truthy1 v'' ↔ w = true)) : run world1 (.loopE w c b) σ (t₁ ++ t₂ ++ t₃) (.val V1.nil) σ₃ :=
  LoopB.again h hv h' (.inl trivial) (LoopB.done h'' hv')
end

theorem not_int_str : ¬ Desc world1.toWorld intTy strV := by
  intro h
  obtain ⟨n, h⟩ := int_iff.mp h
  cases h

theorem not_int_nil : ¬ Desc world1.toWorld intTy V1.nil := by
  intro h
  obtain ⟨n, h⟩ := int_iff.mp h
  cases h

theorem not_str_int {n : Int} : ¬ Desc world1.toWorld stringTy (V1.int n) := by
  intro h
  obtain ⟨l, h, -⟩ := string_iff.mp h
  cases h

theorem not_nil_int {n : Int} : ¬ Desc world1.toWorld nilTy (V1.int n) := by
  intro h
  cases desc_nilTy.mp h

theorem not_nil_str : ¬ Desc world1.toWorld nilTy strV := by
  intro h
  cases desc_nilTy.mp h

theorem not_str_nil : ¬ Desc world1.toWorld stringTy V1.nil := by
  intro h
  obtain ⟨l, h, -⟩ := string_iff.mp h
  cases h

theorem wrong_after {E : Env} {σ σ' : Store world1} {e : Expr} {x : Nat} {t : List (Nat × V1)} {w : V1} {u : Ty}
    (h : run world1 e σ t (.val w) σ') (hu : (track know1 0 e E).env x = some u) (hd : ¬ Desc world1.toWorld u (σ' x)) :
    WrongAfter E σ e x := ⟨t, w, σ', h, by rw [hu]; exact hd⟩

/-- ```
x = 1; y = ""
while any
  z = x; x = y; y = z
end
``` -/
def rotation : Expr :=
  .seq (.write 0 int) (.seq (.write 1 str)
    (.loopE true anyE (.seq (.write 2 (.read 0 0)) (.seq (.write 0 (.read 1 1)) (.write 1 (.read 2 2))))))

/-- Ten passes over a loop that exchanges two variables end where they started. -/
theorem c52_exchange_in_loop_fails : WrongAfter env0 store0 rotation 0 := by
  refine wrong_after (u := intTy) (r_seq (r_write r_int) (r_seq (r_write r_str)
    (r_once (r_any .tru) (by simp [Truthy1]) (r_seq (r_write r_read) (r_seq (r_write r_read) (r_write r_read))) (r_any .nil)
      (by simp [Truthy1])))) (by decide +kernel) ?_
  simp [Store.set]
  exact not_int_str

/-- ```
x = 1
while any
  x
  x = ""
end
``` -/
def loopRead : Expr := .seq (.write 0 int) (.loopE true anyE (.seq (.read 0 0) (.write 0 str)))

/-- What is shown for a read in a loop is the type of the last pass. -/
theorem c52_read_in_loop_fails : WrongRead env0 store0 loopRead 0 := by
  refine ⟨_, _, _, V1.int 0, stringTy, r_seq (r_write r_int)
    (r_once (r_any .tru) (by simp [Truthy1]) (r_seq r_read (r_write r_str)) (r_any .nil) (by simp [Truthy1])), ?_, by decide +kernel, not_str_int⟩
  exact (List.mem_cons_self : ((0 : Nat), V1.int 0) ∈ [((0 : Nat), V1.int 0)])

/-- `while any; 1; end`: the value is nil. -/
theorem c52_value_of_loop_fails : WrongValue env0 store0 (.loopE true anyE int) := by
  refine ⟨_, _, _, r_done (r_any .nil) (by simp [Truthy1]), ?_⟩
  have : (track know1 0 (.loopE true anyE int) env0).ty = intTy := by decide +kernel
  rw [this]
  exact not_int_nil

/-- ```
x = 1
while any
  x = ""
  break if any
  x = 1
end
``` -/
def loopBreak : Expr := .seq (.write 0 int) (.loopE true anyE (.seq (.write 0 str) (.seq (.ifE anyE .brk nilE) (.write 0 int))))

/-- The path of `break` is lost. -/
theorem c52_break_fails : WrongAfter env0 store0 loopBreak 0 := by
  refine wrong_after (u := intTy) (r_seq (r_write r_int)
    (LoopB.break (r_any .tru) (by simp [world1, Truthy1]) (Bind.next (r_write r_str) (Bind.leaves (Bind.next (r_any .tru)
      (Cond.yes (by simp [world1, Truthy1]) Now.now)) (by simp [Out.isVal]))))) (by decide +kernel) ?_
  simp [Store.set]
  exact not_int_str

/-- ```
x = 1
while (y = x; any)
  x = ""
end
``` -/
def loopCond : Expr := .seq (.write 0 int) (.loopE true (.seq (.write 1 (.read 0 0)) anyE) (.write 0 str))

/-- The condition of a loop is tracked only once, before the body. -/
theorem c52_loop_condition_fails : WrongAfter env0 store0 loopCond 1 := by
  refine wrong_after (u := intTy) (r_seq (r_write r_int)
    (r_once (r_seq (r_write r_read) (r_any .tru)) (by simp [Truthy1]) (r_write r_str) (r_seq (r_write r_read) (r_any .nil)) (by simp [Truthy1])))
    (by decide +kernel) ?_
  simp [Store.set]
  exact not_int_str

/-- `x = 1 if x.nil?` -/
def defaultValue : Expr := .ifE (.call0 (.read 0 0) "nil?") (.write 0 int) nilE

/-- A parameter without a type is not in the environment, where missing means `nil`. -/
theorem c52_untyped_parameter_fails : WrongAfter env0 (store0.set 0 strV) defaultValue 0 := by
  refine wrong_after (u := .union [intTy, nilTy]) (Bind.next (Bind.next r_read (Some'.val (Send1.isNil (w := .fls) rfl (by simp [Truthy1, Store.set, strV]))))
    (Cond.no (by simp [world1, Truthy1]) r_nil)) (by decide +kernel) ?_
  simp only [Store.set]
  rintro (h | h | h)
  · exact not_int_str h
  · exact not_nil_str h
  · exact h

/-- `x = nil; x ||= 1` -/
def opAssign : Expr := .seq (.write 0 nilE) (.opWrite 0 int)

/-- Assignments with an operator are not tracked. -/
theorem c52_operator_assignment_fails : WrongAfter env0 store0 opAssign 0 := by
  refine wrong_after (u := nilTy) (w := V1.int 0) (r_seq (r_write r_nil) (Either.right (Bind.next r_int (Bind.next (Some'.val rfl) StoreB.val))))
    (by decide +kernel) ?_
  simp [Store.set]
  exact not_nil_int

/-- `x = 1; any(x = "")` -/
def argument : Expr := .seq (.write 0 int) (.call .self "any" (.write 0 str))

/-- Assignments in arguments are not tracked. -/
theorem c52_assignment_in_argument_fails : WrongAfter env0 store0 argument 0 := by
  refine wrong_after (u := intTy) (w := V1.nil) (r_seq (r_write r_int)
    (Bind.next (Some'.val rfl) (Bind.next (r_write r_str) (Some'.val (Send1.any rfl))))) (by decide +kernel) ?_
  simp [Store.set]
  exact not_int_str

def intOrNil : Expr := .lit (.union [intTy, nilTy])

/-- `if x.nil? then return else x = (an Integer or nil) end` -/
def reassigned : Expr := .ifE (.call0 (.read 0 0) "nil?") (.ret nilE) (.write 0 intOrNil)

/-- The condition is taken to hold for the variable after it has been assigned again. -/
theorem c52_narrowing_after_assignment_fails : Agrees world1 params1 (store0.set 0 (V1.int 0)) ∧
    WrongAfter params1 (store0.set 0 (V1.int 0)) reassigned 0 := by
  refine ⟨?_, ?_⟩
  · intro x
    by_cases hx : x = 0
    · subst hx; exact .inl (int_iff.mpr ⟨0, rfl⟩)
    · simp [params1, Store.set, hx]; rfl
  · refine wrong_after (u := intTy) (w := V1.nil)
      (Bind.next (Bind.next r_read (Some'.val (Send1.isNil (w := .fls) rfl (by simp [Truthy1, Store.set]))))
      (Cond.no (by simp [world1, Truthy1]) (Bind.next (Some'.val (.inr (.inl desc_nil))) StoreB.val))) (by decide +kernel) ?_
    simp [Store.set]
    exact not_int_nil

/-- `return if x.instance_of?(Object)` -/
def exactClass : Expr := .ifE (.call (.read 0 0) "instance_of?" (.const "Object")) (.ret nilE) nilE

def paramsObj : Env := fun x => if x = 0 then some (.union [objTy, stringTy]) else none

/-- What is not an instance of exactly `Object` may still be an `Object`. -/
theorem c52_instance_of_fails : Agrees world1 paramsObj (store0.set 0 (V1.int 0)) ∧
    WrongAfter paramsObj (store0.set 0 (V1.int 0)) exactClass 0 := by
  refine ⟨?_, ?_⟩
  · intro x
    by_cases hx : x = 0
    · subst hx; exact .inl (.inl rfl)
    · simp [paramsObj, Store.set, hx]; rfl
  · refine wrong_after (u := stringTy) (w := V1.nil)
      (Bind.next (Bind.next r_read (Bind.next (Some'.val rfl) (Some'.val (Send1.instanceOf (w := .fls) rfl (by simp [Truthy1, Store.set, classOf])))))
      (Cond.no (by simp [world1, Truthy1]) r_nil)) (by decide +kernel) ?_
    simp [Store.set]
    exact not_str_int

/-- ```
begin
  return if x.nil?
  x = ""
rescue
end
``` -/
def protectedTest : Expr :=
  .beginE (.seq (.ifE (.call0 (.read 0 0) "nil?") (.ret nilE) nilE) (.write 0 str)) (.cons nilE nilE .nil) nilE

/-- An exception before the test reaches the clause with a value that the test excludes. -/
theorem c52_narrowing_before_rescue_fails : Agrees world1 params1 store0 ∧ WrongAfter params1 store0 protectedTest 0 := by
  refine ⟨?_, ?_⟩
  · intro x
    simp only [params1]
    split
    · exact .inr (.inl desc_nil)
    · rfl
  · refine wrong_after (u := .union [intTy, stringTy]) (w := V1.nil)
      (Ensure.normal (Rescue.handled (Bind.leaves (Bind.leaves (Bind.leaves ReadB.raise (by simp [Out.isVal])) (by simp [Out.isVal])) (by simp [Out.isVal]))
        (Bind.next r_nil (Either.left r_nil))) r_nil) (by decide +kernel) ?_
    rintro (h | h | h)
    · exact not_int_nil h
    · exact not_str_nil h
    · exact h

/-- ```
x = 1
begin
  x = ""
ensure
  x
end
``` -/
def ensureRead : Expr := .seq (.write 0 int) (.beginE (.write 0 str) .nil (.read 0 0))

/-- What is shown for a read in `ensure` is its type if no exception has been raised. -/
theorem c52_read_in_ensure_fails : WrongRead env0 store0 ensureRead 0 := by
  refine ⟨_, .raised, _, V1.int 0, stringTy, r_seq (r_write r_int)
    (Ensure.normal (Rescue.handled (Bind.leaves Some'.raise (by simp [Out.isVal])) Now.now) r_read), ?_, by decide +kernel, not_str_int⟩
  exact (List.mem_cons_self : ((0 : Nat), V1.int 0) ∈ [((0 : Nat), V1.int 0)])

/-- `o && 1` for an `Object` `o` -/
def objAnd : Expr := .andE (.lit objTy) int

/-- An `Object` is taken to be truthy, though it may be `nil`. -/
theorem c52_truthiness_of_object_fails : WrongValue env0 store0 objAnd := by
  refine ⟨_, V1.nil, _, Bind.next (Some'.val (.inl rfl)) (Cond.no (by simp [world1, Truthy1]) Now.now), ?_⟩
  have : (track know1 0 objAnd env0).ty = intTy := by decide +kernel
  rw [this]
  exact not_int_nil

end Verif.FlowTypes
