import Verif.Lemmas.SnapshotFacts
/-!
Bodies of constants: what the check accepts, and that a checked body comes back.
-/
namespace Verif.Snapshot

/-! ### the check -/

mutual
theorem hasUnknown_iff : ∀ t : Ty, hasUnknown t = true ↔ ∃ n, Inside n t .unknown
  | .cls f => by simp only [hasUnknown, Bool.false_eq_true, false_iff]; rintro ⟨n, h⟩; cases h
  | .mod f => by simp only [hasUnknown, Bool.false_eq_true, false_iff]; rintro ⟨n, h⟩; cases h
  | .clsRef f => by simp only [hasUnknown, Bool.false_eq_true, false_iff]; rintro ⟨n, h⟩; cases h
  | .modRef f => by simp only [hasUnknown, Bool.false_eq_true, false_iff]; rintro ⟨n, h⟩; cases h
  | .lit v => by simp only [hasUnknown, Bool.false_eq_true, false_iff]; rintro ⟨n, h⟩; cases h
  | .unknown => by simp only [hasUnknown, true_iff]; exact ⟨0, .self _⟩
  | .array ts => by
    simp only [hasUnknown, hasUnknownList_iff ts]
    constructor
    · rintro ⟨t, ht, n, h⟩; exact ⟨n + 1, .array ht h⟩
    · rintro ⟨n, h⟩; cases h with | array ht h => exact ⟨_, ht, _, h⟩
  | .union ts => by
    simp only [hasUnknown, hasUnknownList_iff ts]
    constructor
    · rintro ⟨t, ht, n, h⟩; exact ⟨n + 1, .union ht h⟩
    · rintro ⟨n, h⟩; cases h with | union ht h => exact ⟨_, ht, _, h⟩
  | .hash ks vs => by
    simp only [hasUnknown, Bool.or_eq_true, hasUnknownList_iff ks, hasUnknownList_iff vs]
    constructor
    · rintro (⟨t, ht, n, h⟩ | ⟨t, ht, n, h⟩)
      · exact ⟨n + 1, .key ht h⟩
      · exact ⟨n + 1, .value ht h⟩
    · rintro ⟨n, h⟩
      cases h with
      | key ht h => exact Or.inl ⟨_, ht, _, h⟩
      | value ht h => exact Or.inr ⟨_, ht, _, h⟩
  | .shape fs r e s d => by
    simp only [hasUnknown, Bool.or_eq_true, hasUnknownFields_iff fs, hasUnknownRest_iff r]
    constructor
    · rintro (⟨f, hf, n, h⟩ | ⟨k, v, hr, ⟨n, h⟩ | ⟨n, h⟩⟩)
      · exact ⟨n + 1, .field hf h⟩
      · exact ⟨n + 1, .restKey hr h⟩
      · exact ⟨n + 1, .restValue hr h⟩
    · rintro ⟨n, h⟩
      cases h with
      | field hf h => exact Or.inl ⟨_, hf, _, h⟩
      | restKey hr h => exact Or.inr ⟨_, _, hr, Or.inl ⟨_, h⟩⟩
      | restValue hr h => exact Or.inr ⟨_, _, hr, Or.inr ⟨_, h⟩⟩
theorem hasUnknownList_iff : ∀ l : List Ty, hasUnknownList l = true ↔ ∃ t ∈ l, ∃ n, Inside n t .unknown
  | [] => by simp [hasUnknownList]
  | t :: l => by simp only [hasUnknownList, Bool.or_eq_true, hasUnknown_iff t, hasUnknownList_iff l, List.exists_mem_cons_iff]
theorem hasUnknownFields_iff : ∀ l : List (Lit × Ty × Presence),
    hasUnknownFields l = true ↔ ∃ f ∈ l, ∃ n, Inside n f.2.1 .unknown
  | [] => by simp [hasUnknownFields]
  | (k, t, p) :: l => by
    simp only [hasUnknownFields, Bool.or_eq_true, hasUnknown_iff t, hasUnknownFields_iff l, List.exists_mem_cons_iff]
theorem hasUnknownRest_iff : ∀ r : Option (Ty × Ty),
    hasUnknownRest r = true ↔ ∃ k v, r = some (k, v) ∧ ((∃ n, Inside n k .unknown) ∨ ∃ n, Inside n v .unknown)
  | none => by simp [hasUnknownRest]
  | some (k, v) => by
    simp only [hasUnknownRest, Bool.or_eq_true, hasUnknown_iff k, hasUnknown_iff v, Option.some.injEq, Prod.mk.injEq]
    constructor
    · intro h; exact ⟨k, v, ⟨rfl, rfl⟩, h⟩
    · rintro ⟨_, _, ⟨rfl, rfl⟩, h⟩; exact h
end

theorem before_iff {a b : List Nat} : Before a b ↔ Store.lexLe b a = false := by
  constructor
  · rintro ⟨h1, h2⟩
    rw [Bool.eq_false_iff]
    intro h; exact h2 (Types.lexLe_antisymm h1 h)
  · intro h
    refine ⟨?_, ?_⟩
    · rcases Store.lexLe_total a b with h' | h'
      · exact h'
      · rw [h'] at h; cases h
    · rintro rfl; rw [Store.lexLe_refl] at h; cases h

theorem before_trans {a b c : List Nat} (h1 : Before a b) (h2 : Before b c) : Before a c := by
  rw [before_iff, Bool.eq_false_iff]
  intro h
  have := Store.lexLe_trans _ _ _ h h1.1
  exact h2.2 (Types.lexLe_antisymm h2.1 this)

theorem notRising_iff : ∀ l : List (List Nat), notRising l = false ↔ l.Pairwise Before
  | [] => by simp [notRising]
  | [a] => by simp [notRising]
  | a :: b :: l => by
    simp only [notRising, Bool.or_eq_false_iff, notRising_iff (b :: l), ← before_iff]
    constructor
    · rintro ⟨h1, h2⟩
      refine List.Pairwise.cons (fun x hx => ?_) h2
      rcases List.mem_cons.mp hx with rfl | hx
      · exact h1
      · exact before_trans h1 ((List.pairwise_cons.mp h2).1 x hx)
    · intro h
      obtain ⟨h1, h2⟩ := List.pairwise_cons.mp h
      exact ⟨h1 b (by simp), h2⟩

/-- Everything in an expression satisfies `Q`, with the depth counted from `d`. -/
def EGood (Q : Nat → Expr → Prop) (d : Nat) (e : Expr) : Prop := ∀ n x, InsideE n e x → Q (d + n) x

section
variable {Q : Nat → Expr → Prop} {d : Nat}

theorem egood_literal {t : Ty} : EGood Q d (.literal t) ↔ Q d (.literal t) :=
  ⟨fun h => h 0 _ (.self _), fun h n x hx => by cases hx; exact h⟩
theorem egood_param {t : Nat} : EGood Q d (.param t) ↔ Q d (.param t) :=
  ⟨fun h => h 0 _ (.self _), fun h n x hx => by cases hx; exact h⟩
theorem egood_capture {t : Str} : EGood Q d (.capture t) ↔ Q d (.capture t) :=
  ⟨fun h => h 0 _ (.self _), fun h n x hx => by cases hx; exact h⟩

theorem egood_array {es : List Expr} : EGood Q d (.array es) ↔ Q d (.array es) ∧ ∀ e ∈ es, EGood Q (d + 1) e := by
  constructor
  · intro h
    refine ⟨h 0 _ (.self _), fun e he n x hx => ?_⟩
    have := h (n + 1) x (.array he hx)
    rwa [show d + (n + 1) = d + 1 + n by omega] at this
  · rintro ⟨h1, h2⟩ n x hx
    cases hx with
    | self => exact h1
    | @array n _ _ _ he hx => have := h2 _ he n x hx; rwa [show d + (n + 1) = d + 1 + n by omega]

theorem egood_union {es : List Expr} : EGood Q d (.union es) ↔ Q d (.union es) ∧ ∀ e ∈ es, EGood Q (d + 1) e := by
  constructor
  · intro h
    refine ⟨h 0 _ (.self _), fun e he n x hx => ?_⟩
    have := h (n + 1) x (.union he hx)
    rwa [show d + (n + 1) = d + 1 + n by omega] at this
  · rintro ⟨h1, h2⟩ n x hx
    cases hx with
    | self => exact h1
    | @union n _ _ _ he hx => have := h2 _ he n x hx; rwa [show d + (n + 1) = d + 1 + n by omega]

theorem egood_shape {fs : List (Lit × Expr)} : EGood Q d (.shape fs) ↔ Q d (.shape fs) ∧ ∀ f ∈ fs, EGood Q (d + 1) f.2 := by
  constructor
  · intro h
    refine ⟨h 0 _ (.self _), fun e he n x hx => ?_⟩
    have := h (n + 1) x (.shape he hx)
    rwa [show d + (n + 1) = d + 1 + n by omega] at this
  · rintro ⟨h1, h2⟩ n x hx
    cases hx with
    | self => exact h1
    | @shape n _ _ _ he hx => have := h2 _ he n x hx; rwa [show d + (n + 1) = d + 1 + n by omega]

theorem egood_call {r : Expr} {m : Str} {as : List Expr} {ks : List (Option Lit)} :
    EGood Q d (.call r m as ks) ↔ Q d (.call r m as ks) ∧ EGood Q (d + 1) r ∧ ∀ a ∈ as, EGood Q (d + 1) a := by
  constructor
  · intro h
    refine ⟨h 0 _ (.self _), fun n x hx => ?_, fun e he n x hx => ?_⟩
    · have := h (n + 1) x (.receiver hx)
      rwa [show d + (n + 1) = d + 1 + n by omega] at this
    · have := h (n + 1) x (.arg he hx)
      rwa [show d + (n + 1) = d + 1 + n by omega] at this
  · rintro ⟨h1, h2, h3⟩ n x hx
    cases hx with
    | self => exact h1
    | @receiver n _ _ _ _ _ hx => have := h2 n x hx; rwa [show d + (n + 1) = d + 1 + n by omega]
    | @arg n _ _ _ _ _ _ he hx => have := h3 _ he n x hx; rwa [show d + (n + 1) = d + 1 + n by omega]

end

theorem size_pos (e : Expr) : 1 ≤ e.size := by cases e <;> simp only [Expr.size] <;> omega

def Bounded (p : Nat) (c : List Str) (k : Nat) (x : Expr) : Prop := k ≤ 8 ∧ NodeOk p c x

/-- The guards at the top of the check. -/
theorem check_top {d n m : Nat} {P : Prop} {r : Option Nat} (h : d ≤ 8 → n + 1 ≤ 64 → (r = some m ↔ P)) :
    ((if d > maxBodyDepth then none else if n + 1 > maxBodyNodes then none else r) = some m) ↔ d ≤ 8 ∧ n + 1 ≤ 64 ∧ P := by
  unfold maxBodyDepth maxBodyNodes
  by_cases hd : d > 8
  · rw [if_pos hd]; simp only [reduceCtorEq, false_iff]; omega
  · rw [if_neg hd]
    by_cases hn : n + 1 > 64
    · rw [if_pos hn]; simp only [reduceCtorEq, false_iff]; omega
    · rw [if_neg hn, h (by omega) (by omega)]
      constructor
      · intro hp; exact ⟨by omega, by omega, hp⟩
      · exact fun hp => hp.2.2

theorem check_guard {c : Prop} [Decidable c] {m : Nat} {P : Prop} {r : Option Nat} (h : ¬c → (r = some m ↔ P)) :
    ((if c then none else r) = some m) ↔ ¬c ∧ P := by
  by_cases hc : c
  · rw [if_pos hc]; simp [hc]
  · rw [if_neg hc, h hc]; simp [hc]

mutual
theorem checkExpr_iff {p : Nat} {c : List Str} : ∀ (e : Expr) (d n m : Nat),
    checkExpr p c e d n = some m ↔ EGood (Bounded p c) d e ∧ m = n + e.size ∧ m ≤ 64
  | .literal t, d, n, m => by
    simp only [checkExpr, Expr.size, egood_literal, Bounded, NodeOk]
    rw [check_top fun _ _ => check_guard (c := hasUnknown t = true) (m := m) (P := m = n + 1) fun _ => by
      simp only [Option.some.injEq]; exact eq_comm, hasUnknown_iff]
    constructor
    · rintro ⟨h1, h2, h3, h4⟩; exact ⟨⟨h1, h3⟩, h4, by omega⟩
    · rintro ⟨⟨h1, h3⟩, h4, h5⟩; exact ⟨h1, by omega, h3, h4⟩
  | .param i, d, n, m => by
    simp only [checkExpr, Expr.size, egood_param, Bounded, NodeOk]
    rw [check_top fun _ _ => check_guard (c := i ≥ p) (m := m) (P := m = n + 1) fun _ => by
      simp only [Option.some.injEq]; exact eq_comm]
    constructor
    · rintro ⟨h1, h2, h3, h4⟩; exact ⟨⟨h1, by omega⟩, h4, by omega⟩
    · rintro ⟨⟨h1, h3⟩, h4, h5⟩; exact ⟨h1, by omega, by omega, h4⟩
  | .capture name, d, n, m => by
    simp only [checkExpr, Expr.size, egood_capture, Bounded, NodeOk]
    rw [check_top fun _ _ => check_guard (c := (!c.contains name) = true) (m := m) (P := m = n + 1) fun _ => by
      simp only [Option.some.injEq]; exact eq_comm]
    simp only [Bool.not_eq_true', Bool.not_eq_false, List.contains_iff_mem]
    constructor
    · rintro ⟨h1, h2, h3, h4⟩; exact ⟨⟨h1, h3⟩, h4, by omega⟩
    · rintro ⟨⟨h1, h3⟩, h4, h5⟩; exact ⟨h1, by omega, h3, h4⟩
  | .array es, d, n, m => by
    simp only [checkExpr, Expr.size, egood_array, Bounded, NodeOk]
    rw [check_top fun _ h => checkExprs_iff es (d + 1) (n + 1) m h]
    constructor
    · rintro ⟨h1, h2, h3, h4, h5⟩; exact ⟨⟨⟨h1, trivial⟩, h3⟩, by omega, h5⟩
    · rintro ⟨⟨⟨h1, -⟩, h3⟩, h4, h5⟩; exact ⟨h1, by omega, h3, by omega, h5⟩
  | .shape fs, d, n, m => by
    simp only [checkExpr, Expr.size, egood_shape, Bounded, NodeOk]
    rw [check_top fun _ h => check_guard (c := notRising (fs.map fun f => f.1.enc) = true) fun _ =>
      checkFields_iff fs (d + 1) (n + 1) m h, Bool.not_eq_true, notRising_iff, List.pairwise_map]
    constructor
    · rintro ⟨h1, h2, h6, h3, h4, h5⟩; exact ⟨⟨⟨h1, h6⟩, h3⟩, by omega, h5⟩
    · rintro ⟨⟨⟨h1, h6⟩, h3⟩, h4, h5⟩; exact ⟨h1, by omega, h6, h3, by omega, h5⟩
  | .call r name as ks, d, n, m => by
    simp only [checkExpr, Expr.size, egood_call, Bounded, NodeOk]
    rw [check_top fun _ h => check_guard (c := as.length ≠ ks.length) (m := m)
      (P := EGood (Bounded p c) (d + 1) r ∧ (∀ a ∈ as, EGood (Bounded p c) (d + 1) a) ∧ m = n + 1 + r.size + sizes as ∧ m ≤ 64)
      fun _ => ?_]
    · simp only [ne_eq, Decidable.not_not]
      constructor
      · rintro ⟨h1, h2, h3, h4, h5, h6, h7⟩; exact ⟨⟨⟨h1, h3⟩, h4, h5⟩, by omega, h7⟩
      · rintro ⟨⟨⟨h1, h3⟩, h4, h5⟩, h6, h7⟩; exact ⟨h1, by omega, h3, h4, h5, by omega, h7⟩
    · cases hr : checkExpr p c r (d + 1) (n + 1) with
      | none =>
        simp only [reduceCtorEq, false_iff]
        rintro ⟨h4, -, h6, h7⟩
        have := (checkExpr_iff r (d + 1) (n + 1) (n + 1 + r.size)).mpr ⟨h4, rfl, by omega⟩
        rw [hr] at this; cases this
      | some k =>
        obtain ⟨h4, h5, h6⟩ := (checkExpr_iff r (d + 1) (n + 1) k).mp hr
        simp only
        rw [checkExprs_iff as (d + 1) k m h6, h5]
        constructor
        · rintro ⟨h7, h8, h9⟩; exact ⟨h4, h7, by omega, h9⟩
        · rintro ⟨-, h7, h8, h9⟩; exact ⟨h7, by omega, h9⟩
  | .union es, d, n, m => by
    simp only [checkExpr, Expr.size, egood_union, Bounded, NodeOk]
    rw [check_top fun _ h => check_guard (c := es.isEmpty = true ∨ es.length > maxBodyVariants) fun _ =>
      checkExprs_iff es (d + 1) (n + 1) m h]
    have : ¬(es.isEmpty = true ∨ es.length > maxBodyVariants) ↔ 1 ≤ es.length ∧ es.length ≤ 8 := by
      unfold maxBodyVariants
      cases es <;> simp
    rw [this]
    constructor
    · rintro ⟨h1, h2, h6, h3, h4, h5⟩; exact ⟨⟨⟨h1, h6⟩, h3⟩, by omega, h5⟩
    · rintro ⟨⟨⟨h1, h6⟩, h3⟩, h4, h5⟩; exact ⟨h1, by omega, h6, h3, by omega, h5⟩
theorem checkExprs_iff {p : Nat} {c : List Str} : ∀ (l : List Expr) (d n m : Nat), n ≤ 64 →
    (checkExprs p c l d n = some m ↔ (∀ e ∈ l, EGood (Bounded p c) d e) ∧ m = n + sizes l ∧ m ≤ 64)
  | [], d, n, m, hn => by
    simp only [checkExprs, sizes, Option.some.injEq, List.not_mem_nil, false_implies, implies_true, true_and]
    omega
  | e :: l, d, n, m, hn => by
    simp only [checkExprs, sizes, List.forall_mem_cons]
    cases hr : checkExpr p c e d n with
    | none =>
      simp only [reduceCtorEq, false_iff]
      rintro ⟨⟨h4, -⟩, h6, h7⟩
      have := (checkExpr_iff e d n (n + e.size)).mpr ⟨h4, rfl, by omega⟩
      rw [hr] at this; cases this
    | some k =>
      obtain ⟨h4, h5, h6⟩ := (checkExpr_iff e d n k).mp hr
      simp only
      rw [checkExprs_iff l d k m h6, h5]
      constructor
      · rintro ⟨h7, h8, h9⟩; exact ⟨⟨h4, h7⟩, by omega, h9⟩
      · rintro ⟨⟨-, h7⟩, h8, h9⟩; exact ⟨h7, by omega, h9⟩
theorem checkFields_iff {p : Nat} {c : List Str} : ∀ (l : List (Lit × Expr)) (d n m : Nat), n ≤ 64 →
    (checkFields p c l d n = some m ↔ (∀ f ∈ l, EGood (Bounded p c) d f.2) ∧ m = n + fieldSizes l ∧ m ≤ 64)
  | [], d, n, m, hn => by
    simp only [checkFields, fieldSizes, Option.some.injEq, List.not_mem_nil, false_implies, implies_true, true_and]
    omega
  | (k, e) :: l, d, n, m, hn => by
    simp only [checkFields, fieldSizes, List.forall_mem_cons]
    cases hr : checkExpr p c e d n with
    | none =>
      simp only [reduceCtorEq, false_iff]
      rintro ⟨⟨h4, -⟩, h6, h7⟩
      have := (checkExpr_iff e d n (n + e.size)).mpr ⟨h4, rfl, by omega⟩
      rw [hr] at this; cases this
    | some k =>
      obtain ⟨h4, h5, h6⟩ := (checkExpr_iff e d n k).mp hr
      simp only
      rw [checkFields_iff l d k m h6, h5]
      constructor
      · rintro ⟨h7, h8, h9⟩; exact ⟨⟨h4, h7⟩, by omega, h9⟩
      · rintro ⟨⟨-, h7⟩, h8, h9⟩; exact ⟨h7, by omega, h9⟩
end

theorem sizes_append (a b : List Expr) : sizes (a ++ b) = sizes a + sizes b := by
  induction a with
  | nil => simp [sizes]
  | cons e a ih => simp only [List.cons_append, sizes, ih]; omega

theorem checkDefaults_eq {p : Nat} {c : List Str} : ∀ (l : List BodyParam) (n : Nat),
    checkDefaults p c l n = checkExprs p c (l.filterMap fun q => q.dflt) 0 n
  | [], n => rfl
  | q :: l, n => by
    cases hq : q.dflt with
    | none => simp only [checkDefaults, hq, checkDefaults_eq l, List.filterMap_cons]
    | some e =>
      simp only [checkDefaults, hq, List.filterMap_cons, checkExprs]
      cases checkExpr p c e 0 n with
      | none => rfl
      | some k => simp only [checkDefaults_eq l]

/-- What the check of the parameters asks, with the names before. -/
theorem checkParams_iff : ∀ (l : List BodyParam) (seen : List Str),
    checkParams seen l = true ↔ (∀ p ∈ l, p.name ≠ []) ∧ (∀ p ∈ l, p.name ∉ seen) ∧ (l.Pairwise fun a b => a.name ≠ b.name) ∧
      (∀ p ∈ l, (p.dflt.isSome ↔ p.kind = .optional)) ∧ ∀ pre p post, l = pre ++ p :: post → p.kind = .rest → post = []
  | [], seen => by simp [checkParams]
  | p :: l, seen => by
    simp only [checkParams]
    have hrest : (∀ pre q post, p :: l = pre ++ q :: post → q.kind = .rest → post = []) ↔
        (p.kind = .rest → l = []) ∧ ∀ pre q post, l = pre ++ q :: post → q.kind = .rest → post = [] := by
      constructor
      · intro h
        exact ⟨fun hk => h [] p l rfl hk, fun pre q post hl hk => h (p :: pre) q post (by rw [hl]; rfl) hk⟩
      · rintro ⟨h1, h2⟩ pre q post hl hk
        cases pre with
        | nil => simp only [List.nil_append, List.cons.injEq] at hl; obtain ⟨rfl, rfl⟩ := hl; exact h1 hk
        | cons a pre => simp only [List.cons_append, List.cons.injEq] at hl; exact h2 pre q post hl.2 hk
    rw [hrest]
    have hkind : (match p.kind with
        | .required => p.dflt.isNone
        | .optional => p.dflt.isSome
        | .rest => p.dflt.isNone && l.isEmpty) = true ↔ ((p.dflt.isSome ↔ p.kind = .optional) ∧ (p.kind = .rest → l = [])) := by
      cases p.kind <;> cases p.dflt <;> simp
    split
    · rename_i h
      simp only [Bool.false_eq_true, false_iff]
      rintro ⟨h1, h2, -⟩
      simp only [Bool.or_eq_true, List.isEmpty_iff, List.contains_iff_mem] at h
      rcases h with h | h
      · exact h1 p (by simp) h
      · exact h2 p (by simp) h
    · rename_i h
      simp only [Bool.or_eq_true, List.isEmpty_iff, List.contains_iff_mem, not_or] at h
      rw [Bool.and_eq_true, checkParams_iff l (p.name :: seen)]
      simp only [List.pairwise_cons, List.forall_mem_cons]
      constructor
      · rintro ⟨hk, h1, h2, h3, h4, h5⟩
        have hk := hkind.mp hk
        exact ⟨⟨h.1, h1⟩, ⟨h.2, fun q hq hm => h2 q hq (by simp [hm])⟩, ⟨fun q hq he => h2 q hq (by simp [he]), h3⟩,
          ⟨hk.1, h4⟩, hk.2, h5⟩
      · rintro ⟨⟨-, h1⟩, ⟨-, h2⟩, ⟨h3, h3'⟩, ⟨h4, h4'⟩, h5, h5'⟩
        refine ⟨hkind.mpr ⟨h4, h5⟩, h1, fun q hq hm => ?_, h3', h4', h5'⟩
        rcases List.mem_cons.mp hm with hm | hm
        · exact h3 q hq hm.symm
        · exact h2 q hq hm

/-- The check accepts exactly the bodies within the bounds. -/
theorem check_iff (s : Summary) : s.check = true ↔ BodyOk s := by
  unfold Summary.check
  split
  · rename_i h
    simp only [Bool.false_eq_true, false_iff]
    intro hb
    unfold maxBodyParams maxBodyCaptures maxBodyNodes at h
    have h1 := hb.params
    have h2 := hb.captures
    have h3 := hb.bound
    omega
  rename_i hlim
  unfold maxBodyParams maxBodyCaptures maxBodyNodes at hlim
  split
  · rename_i h
    simp only [Bool.false_eq_true, false_iff]
    intro hb
    have := (notRising_iff (s.captures.map fun c => c.map Char.toNat)).mpr (List.pairwise_map.mpr hb.rising)
    rw [this] at h; cases h
  rename_i hrise
  rw [Bool.not_eq_true, notRising_iff, List.pairwise_map] at hrise
  split
  · rename_i h
    simp only [Bool.false_eq_true, false_iff]
    intro hb
    have := (checkParams_iff s.params []).mpr ⟨hb.named, fun _ _ => List.not_mem_nil, hb.distinct, hb.defaults, hb.last⟩
    rw [this] at h; cases h
  rename_i hpar
  simp only [Bool.not_eq_true', Bool.not_eq_false] at hpar
  obtain ⟨p1, -, p3, p4, p5⟩ := (checkParams_iff s.params []).mp hpar
  have hlast : sizes s.exprs = sizes (s.params.filterMap fun q => q.dflt) + s.result.size := by
    unfold Summary.exprs; rw [sizes_append]; simp only [sizes]; omega
  have hex : ∀ P : Expr → Prop, (∀ e ∈ s.exprs, P e) ↔ (∀ e ∈ s.params.filterMap fun q => q.dflt, P e) ∧ P s.result := by
    intro P; unfold Summary.exprs; simp only [List.forall_mem_append, List.forall_mem_singleton]
  have hgood : ∀ e, EGood (Bounded s.params.length s.captures) 0 e ↔
      ∀ n x, InsideE n e x → n ≤ 8 ∧ NodeOk s.params.length s.captures x := by
    intro e; unfold EGood Bounded; simp only [Nat.zero_add]
  rw [checkDefaults_eq]
  have hall : BodyOk s ↔ (∀ e ∈ s.params.filterMap fun q => q.dflt, EGood (Bounded s.params.length s.captures) 0 e) ∧
      EGood (Bounded s.params.length s.captures) 0 s.result ∧ s.nodes = sizes s.exprs ∧ s.nodes ≤ 64 := by
    constructor
    · intro hb
      have := (hex _).mp hb.nodes
      exact ⟨fun e he => (hgood e).mpr (this.1 e he), (hgood _).mpr this.2, hb.counted, hb.bound⟩
    · rintro ⟨h1, h2, h3, h4⟩
      exact ⟨by omega, by omega, hrise, p1, p3, p4, p5, (hex _).mpr ⟨fun e he => (hgood e).mp (h1 e he), (hgood _).mp h2⟩, h3, h4⟩
  rw [hall]
  cases hd : checkExprs s.params.length s.captures (s.params.filterMap fun q => q.dflt) 0 0 with
  | none =>
    simp only [Bool.false_eq_true, false_iff]
    rintro ⟨h1, -, h3, h4⟩
    have := (checkExprs_iff (p := s.params.length) (c := s.captures) _ 0 0 (0 + sizes (s.params.filterMap fun q => q.dflt))
      (by omega)).mpr ⟨h1, rfl, by omega⟩
    rw [hd] at this; cases this
  | some n =>
    obtain ⟨h1, h2, h3⟩ := (checkExprs_iff _ 0 0 n (by omega)).mp hd
    simp only
    cases hr : checkExpr s.params.length s.captures s.result 0 n with
    | none =>
      simp only [Bool.false_eq_true, false_iff]
      rintro ⟨-, h4, h5, h6⟩
      have := (checkExpr_iff (p := s.params.length) (c := s.captures) s.result 0 n (n + s.result.size)).mpr ⟨h4, rfl, by omega⟩
      rw [hr] at this; cases this
    | some k =>
      obtain ⟨h4, h5, h6⟩ := (checkExpr_iff _ 0 n k).mp hr
      simp only [beq_iff_eq]
      constructor
      · intro h; exact ⟨h1, h4, by omega, by omega⟩
      · rintro ⟨-, -, h, -⟩; omega

end Verif.Snapshot
