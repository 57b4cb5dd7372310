import Verif.Spec.JavaSource
/-!
C83: where the members of a class file are declared in Java source.
-/
namespace Verif.JavaSource

/-! ### Limits -/

/-- The depths of the nodes on a stack and below them, in the order in which they are visited. -/
def stackDepths : List (Node × Nat) → List Nat
  | [] => []
  | (n, d) :: s => d :: (depths (d + 1) n.kids ++ stackDepths s)

theorem stackDepths_append : ∀ a b, stackDepths (a ++ b) = stackDepths a ++ stackDepths b
  | [], _ => rfl
  | (n, d) :: s, b => by simp only [List.cons_append, stackDepths, stackDepths_append s b, List.append_assoc]

theorem stackDepths_nodes (d : Nat) : ∀ f : Forest, stackDepths (f.nodes.map (fun c => (c, d))) = depths d f
  | .nil => rfl
  | .cons i k n => by simp only [Forest.nodes, List.map_cons, stackDepths, depths, stackDepths_nodes d n]

theorem walk_spec (l : Limits) : ∀ (k : Nat) (s : List (Node × Nat)) (n : Nat), stackSize s ≤ k →
    (walk l s n = some .nodes ↔
      l.nodes - n < (stackDepths s).length ∧ ∀ d ∈ (stackDepths s).take (l.nodes - n), d ≤ l.depth) ∧
    (walk l s n = some .depth ↔ ∃ d ∈ (stackDepths s).take (l.nodes - n), l.depth < d) ∧
    walk l s n ≠ some .bytes ∧ walk l s n ≠ some .parse
  | k, [], n, _ => by
    rw [walk]
    simp [stackDepths]
  | 0, (x, d) :: s, n, h => by
    simp only [stackSize] at h
    omega
  | k + 1, (x, d) :: s, n, h => by
    rw [walk]
    by_cases h1 : n + 1 > l.nodes
    · rw [if_pos h1]
      have h0 : l.nodes - n = 0 := by omega
      rw [h0]
      simp [stackDepths]
    · rw [if_neg h1]
      have h0 : l.nodes - n = (l.nodes - (n + 1)) + 1 := by omega
      have hd : stackDepths (pushKids x (d + 1) s) = depths (d + 1) x.kids ++ stackDepths s := by
        rw [pushKids_eq, stackDepths_append, stackDepths_nodes]
      have hs : stackSize (pushKids x (d + 1) s) ≤ k := by
        rw [pushKids_eq, stackSize_append, stackSize_nodes]
        simp only [stackSize] at h
        omega
      have ih := walk_spec l k (pushKids x (d + 1) s) (n + 1) hs
      rw [hd] at ih
      rw [h0]
      simp only [stackDepths, List.take_succ_cons, List.length_cons]
      by_cases h2 : d > l.depth
      · rw [if_pos h2]
        refine ⟨⟨(fun e => by cases e), fun e => ?_⟩, ⟨fun _ => ⟨d, List.mem_cons_self, h2⟩, fun _ => rfl⟩, by simp, by simp⟩
        have := e.2 d List.mem_cons_self
        omega
      · rw [if_neg h2]
        refine ⟨?_, ?_, ih.2.2⟩
        · rw [ih.1]
          constructor
          · rintro ⟨a, b⟩
            refine ⟨by omega, fun e he => ?_⟩
            rcases List.mem_cons.1 he with rfl | he
            · omega
            · exact b e he
          · rintro ⟨a, b⟩
            exact ⟨by omega, fun e he => b e (List.mem_cons_of_mem _ he)⟩
        · rw [ih.2.1]
          constructor
          · rintro ⟨e, he, hl⟩
            exact ⟨e, List.mem_cons_of_mem _ he, hl⟩
          · rintro ⟨e, he, hl⟩
            rcases List.mem_cons.1 he with rfl | he
            · omega
            · exact ⟨e, he, hl⟩

/-- The tree is accepted exactly when it has at most so many nodes and none of them is too deep; otherwise the error tells which
limit is passed first, in document order. -/
theorem c83_limits (root : Node) (l : Limits) :
    let ds := 0 :: depths 1 root.kids
    (enforce root l = none ↔ ds.length ≤ l.nodes ∧ ∀ d ∈ ds, d ≤ l.depth) ∧
    (enforce root l = some .nodes ↔ l.nodes < ds.length ∧ ∀ d ∈ ds.take l.nodes, d ≤ l.depth) ∧
    (enforce root l = some .depth ↔ ∃ d ∈ ds.take l.nodes, l.depth < d) := by
  intro ds
  have hs : stackDepths [(root, 0)] = ds := by simp [stackDepths, ds]
  have h := walk_spec l _ [(root, 0)] 0 (Nat.le_refl _)
  rw [hs, Nat.sub_zero] at h
  refine ⟨?_, h.1, h.2.1⟩
  constructor
  · intro e
    have e : walk l [(root, 0)] 0 = none := e
    rw [e] at h
    have n1 := fun x => h.1.2 x
    have n2 := fun x => h.2.1.2 x
    have hle : ∀ d ∈ ds.take l.nodes, d ≤ l.depth := by
      intro d hd
      by_contra hc
      exact absurd (n2 ⟨d, hd, by omega⟩) (by simp)
    have hlen : ds.length ≤ l.nodes := by
      by_contra hc
      exact absurd (n1 ⟨by omega, hle⟩) (by simp)
    rw [List.take_of_length_le hlen] at hle
    exact ⟨hlen, hle⟩
  · rintro ⟨a, b⟩
    show walk l [(root, 0)] 0 = none
    cases e : walk l [(root, 0)] 0 with
    | none => rfl
    | some x =>
      cases x with
      | bytes => exact absurd e h.2.2.1
      | parse => exact absurd e h.2.2.2
      | nodes =>
        have := (h.1.1 e).1
        omega
      | depth =>
        obtain ⟨d, hd, hl⟩ := h.2.1.1 e
        have := b d (List.mem_of_mem_take hd)
        omega

/-! ### The name of the class -/

theorem splitDollar_ne (t : Text) : splitDollar t ≠ [] := by
  cases t with
  | nil => simp [splitDollar]
  | cons c cs =>
    simp only [splitDollar]
    split
    · simp
    · split <;> simp

theorem splitDollar_join : ∀ t : Text, joinWith '$' (splitDollar t) = t
  | [] => rfl
  | c :: cs => by
    have ih := splitDollar_join cs
    simp only [splitDollar]
    split
    · rename_i h
      cases e : splitDollar cs with
      | nil => exact absurd e (splitDollar_ne cs)
      | cons s ss => rw [e] at ih; simp only [joinWith, ih, h, List.nil_append]
    · cases e : splitDollar cs with
      | nil => exact absurd e (splitDollar_ne cs)
      | cons s ss =>
        rw [e] at ih
        cases ss with
        | nil => simp only [joinWith] at ih ⊢; rw [ih]
        | cons u us => simp only [joinWith, List.cons_append] at ih ⊢; rw [ih]

theorem splitDollar_parts : ∀ (t : Text), ∀ p ∈ splitDollar t, '$' ∉ p ∧ ∀ c ∈ p, c ∈ t
  | [], p, h => by
    simp only [splitDollar, List.mem_singleton] at h
    subst h
    simp
  | c :: cs, p, h => by
    have ih := splitDollar_parts cs
    simp only [splitDollar] at h
    split at h
    · rcases List.mem_cons.1 h with rfl | h
      · simp
      · exact ⟨(ih p h).1, fun x hx => List.mem_cons_of_mem _ ((ih p h).2 x hx)⟩
    · rename_i hc
      cases e : splitDollar cs with
      | nil => exact absurd e (splitDollar_ne cs)
      | cons s ss =>
        rw [e] at h ih
        rcases List.mem_cons.1 h with rfl | h
        · have := ih s List.mem_cons_self
          refine ⟨?_, fun x hx => ?_⟩
          · intro hm
            rcases List.mem_cons.1 hm with hm | hm
            · exact hc hm.symm
            · exact this.1 hm
          · rcases List.mem_cons.1 hx with rfl | hx
            · exact List.mem_cons_self
            · exact List.mem_cons_of_mem _ (this.2 x hx)
        · have := ih p (List.mem_cons_of_mem _ h)
          exact ⟨this.1, fun x hx => List.mem_cons_of_mem _ (this.2 x hx)⟩

theorem splitDollar_plain : ∀ t : Text, '$' ∉ t → splitDollar t = [t]
  | [], _ => rfl
  | c :: cs, h => by
    have hc : c ≠ '$' := fun e => h (by rw [e]; exact List.mem_cons_self)
    simp only [splitDollar, if_neg hc, splitDollar_plain cs (fun e => h (List.mem_cons_of_mem _ e))]

theorem splitDollar_cons : ∀ (t u : Text), '$' ∉ t → splitDollar (t ++ '$' :: u) = t :: splitDollar u
  | [], u, _ => by simp only [List.nil_append, splitDollar, if_true]
  | c :: cs, u, h => by
    have hc : c ≠ '$' := fun e => h (by rw [e]; exact List.mem_cons_self)
    have ih := splitDollar_cons cs u (fun e => h (List.mem_cons_of_mem _ e))
    simp only [List.cons_append, splitDollar, if_neg hc, ih]

theorem splitDollar_of_join : ∀ cs : List Text, cs ≠ [] → (∀ p ∈ cs, '$' ∉ p) → splitDollar (joinWith '$' cs) = cs
  | [], h, _ => absurd rfl h
  | [t], _, h => splitDollar_plain t (h t List.mem_cons_self)
  | t :: u :: ts, _, h => by
    simp only [joinWith]
    rw [splitDollar_cons _ _ (h t List.mem_cons_self),
      splitDollar_of_join (u :: ts) (by simp) (fun p hp => h p (List.mem_cons_of_mem _ hp))]

theorem rsplitSlash_none : ∀ t : Text, rsplitSlash t = none ↔ '/' ∉ t
  | [] => by simp [rsplitSlash]
  | c :: cs => by
    have ih := rsplitSlash_none cs
    simp only [rsplitSlash]
    cases e : rsplitSlash cs with
    | none =>
      have := ih.1 e
      by_cases hc : c = '/'
      · simp [hc]
      · simp only [if_neg hc, List.mem_cons, true_iff, not_or]
        exact ⟨fun h => hc h.symm, this⟩
    | some x =>
      have : '/' ∈ cs := by
        by_contra hn
        rw [ih.2 hn] at e
        cases e
      simp [this]

theorem rsplitSlash_some : ∀ (t a b : Text), rsplitSlash t = some (a, b) ↔ t = a ++ '/' :: b ∧ '/' ∉ b
  | [], a, b => by simp [rsplitSlash]
  | c :: cs, a, b => by
    have ih := rsplitSlash_some cs
    simp only [rsplitSlash]
    cases e : rsplitSlash cs with
    | none =>
      have hn := (rsplitSlash_none cs).1 e
      by_cases hc : c = '/'
      · subst hc
        simp only [if_true, Option.some.injEq, Prod.mk.injEq]
        constructor
        · rintro ⟨rfl, rfl⟩
          exact ⟨rfl, hn⟩
        · rintro ⟨h, _⟩
          cases a with
          | nil => simp only [List.nil_append, List.cons.injEq] at h; exact ⟨rfl, h.2⟩
          | cons x xs =>
            simp only [List.cons_append, List.cons.injEq] at h
            exact absurd (by rw [h.2]; simp) hn
      · simp only [if_neg hc]
        constructor
        · intro h; cases h
        · rintro ⟨h, _⟩
          cases a with
          | nil => simp only [List.nil_append, List.cons.injEq] at h; exact absurd h.1 hc
          | cons x xs =>
            simp only [List.cons_append, List.cons.injEq] at h
            exact absurd (by rw [h.2]; simp) hn
    | some x =>
      obtain ⟨p, q⟩ := x
      have hx := (ih p q).1 e
      simp only [Option.some.injEq, Prod.mk.injEq]
      constructor
      · rintro ⟨rfl, rfl⟩
        exact ⟨by rw [hx.1]; rfl, hx.2⟩
      · rintro ⟨h, hb⟩
        cases a with
        | nil =>
          simp only [List.nil_append, List.cons.injEq] at h
          exact absurd (by rw [← h.2, hx.1]; simp) hb
        | cons y ys =>
          simp only [List.cons_append, List.cons.injEq] at h
          have := (ih ys b).2 ⟨h.2, hb⟩
          rw [e] at this
          simp only [Option.some.injEq, Prod.mk.injEq] at this
          exact ⟨by rw [h.1, this.1], this.2⟩

theorem joinWith_mem (s : Char) : ∀ (cs : List Text) (x : Char), x ∈ joinWith s cs → x = s ∨ ∃ p ∈ cs, x ∈ p
  | [], x, h => by simp [joinWith] at h
  | [t], x, h => Or.inr ⟨t, List.mem_cons_self, h⟩
  | t :: u :: ts, x, h => by
    simp only [joinWith, List.mem_append, List.mem_cons] at h
    rcases h with h | h | h
    · exact Or.inr ⟨t, List.mem_cons_self, h⟩
    · exact Or.inl h
    · rcases joinWith_mem s (u :: ts) x h with h | ⟨p, hp, hx⟩
      · exact Or.inl h
      · exact Or.inr ⟨p, List.mem_cons_of_mem _ hp, hx⟩

theorem checkParts (cs : List Text) (h : cs ≠ []) :
    (cs.isEmpty || cs.any (fun n => n.isEmpty || n.all digit)) = false ↔ ∀ p ∈ cs, p ≠ [] ∧ ∃ c ∈ p, digit c = false := by
  rw [Bool.or_eq_false_iff]
  constructor
  · rintro ⟨_, h2⟩ p hp
    have := List.any_eq_false.1 h2 p hp
    simp only [Bool.or_eq_true, not_or, List.isEmpty_iff, List.all_eq_true] at this
    refine ⟨this.1, ?_⟩
    by_contra hc
    refine this.2 (fun c hc' => ?_)
    cases e : digit c with
    | true => rfl
    | false => exact absurd ⟨c, hc', e⟩ hc
  · intro h2
    refine ⟨by cases cs with | nil => exact absurd rfl h | cons _ _ => rfl, ?_⟩
    apply List.any_eq_false.2
    intro p hp
    obtain ⟨a, c, hc, hd⟩ := h2 p hp
    simp only [Bool.or_eq_true, not_or, List.isEmpty_iff, List.all_eq_true]
    exact ⟨a, fun hall => by rw [hall c hc] at hd; cases hd⟩

/-- The name of a class file is read as a package and the names of classes inside each other exactly when it is made of them, and no
part is empty or a number, as the parts of anonymous and local classes are. -/
theorem c83_name (name package : Text) (classes : List Text) :
    splitName name = some (package, classes) ↔
      classes ≠ [] ∧ (∀ p ∈ classes, ClassPart p) ∧
        ((package = [] ∧ name = joinWith '$' classes) ∨
          ∃ d, name = d ++ '/' :: joinWith '$' classes ∧ package = d.map (fun c => if c = '/' then '.' else c)) := by
  have key : ∀ t : Text, '/' ∉ t → ∀ cs : List Text,
      ((if (splitDollar t).isEmpty || (splitDollar t).any (fun n => n.isEmpty || n.all digit) then none
        else some (splitDollar t)) = some cs ↔ cs ≠ [] ∧ (∀ p ∈ cs, ClassPart p) ∧ t = joinWith '$' cs) := by
    intro t ht cs
    have hne := splitDollar_ne t
    constructor
    · intro h
      cases e : ((splitDollar t).isEmpty || (splitDollar t).any (fun n => n.isEmpty || n.all digit)) with
      | true => rw [e] at h; simp at h
      | false =>
        rw [e] at h
        simp only [Bool.false_eq_true, if_false, Option.some.injEq] at h
        subst h
        have hp := (checkParts _ hne).1 e
        refine ⟨hne, fun p hm => ?_, (splitDollar_join t).symm⟩
        have := splitDollar_parts t p hm
        exact ⟨(hp p hm).1, (hp p hm).2, this.1, fun hs => ht (this.2 _ hs)⟩
    · rintro ⟨h0, h1, h2⟩
      have hs : splitDollar t = cs := by rw [h2]; exact splitDollar_of_join cs h0 (fun p hp => (h1 p hp).2.2.1)
      rw [hs]
      have := (checkParts cs h0).2 (fun p hp => ⟨(h1 p hp).1, (h1 p hp).2.1⟩)
      rw [this]
      simp
  have hslash : ∀ cs : List Text, (∀ p ∈ cs, ClassPart p) → '/' ∉ joinWith '$' cs := by
    intro cs hcs hm
    rcases joinWith_mem '$' cs _ hm with h | ⟨p, hp, hx⟩
    · cases h
    · exact (hcs p hp).2.2.2 hx
  have comb : ∀ (pk t : Text), splitName name = (if (splitDollar t).isEmpty || (splitDollar t).any (fun n => n.isEmpty || n.all digit) then none
        else some (pk, splitDollar t)) → (splitName name = some (package, classes) ↔ package = pk ∧
          (if (splitDollar t).isEmpty || (splitDollar t).any (fun n => n.isEmpty || n.all digit) then none
        else some (splitDollar t)) = some classes) := by
    intro pk t h
    rw [h]
    cases ((splitDollar t).isEmpty || (splitDollar t).any (fun n => n.isEmpty || n.all digit)) with
    | true => simp
    | false =>
      simp only [Bool.false_eq_true, if_false, Option.some.injEq, Prod.mk.injEq]
      exact ⟨fun ⟨a, b⟩ => ⟨a.symm, b⟩, fun ⟨a, b⟩ => ⟨a.symm, b⟩⟩
  cases e : rsplitSlash name with
  | none =>
    have hn := (rsplitSlash_none name).1 e
    rw [comb [] name (by simp only [splitName, e]), key name hn]
    constructor
    · rintro ⟨a, b, c, d⟩
      exact ⟨b, c, Or.inl ⟨a, d⟩⟩
    · rintro ⟨b, c, ⟨a, d⟩ | ⟨d, hd, _⟩⟩
      · exact ⟨a, b, c, d⟩
      · exact absurd (by rw [hd]; simp) hn
  | some x =>
    obtain ⟨p, q⟩ := x
    have hx := (rsplitSlash_some name p q).1 e
    rw [comb (p.map (fun x => if x = '/' then '.' else x)) q (by simp only [splitName, e]), key q hx.2]
    constructor
    · rintro ⟨a, b, c, d⟩
      exact ⟨b, c, Or.inr ⟨p, by rw [hx.1, d], a⟩⟩
    · rintro ⟨b, c, ⟨_, d⟩ | ⟨d, hd, hp⟩⟩
      · exact absurd (by rw [← d, hx.1]; simp) (hslash classes c)
      · have := (rsplitSlash_some name d (joinWith '$' classes)).2 ⟨hd, hslash classes c⟩
        rw [e] at this
        simp only [Option.some.injEq, Prod.mk.injEq] at this
        exact ⟨by rw [hp, this.1], b, c, this.2⟩

/-! ### The package of the source -/

theorem stripPrefix_some : ∀ (p t u : Text), stripPrefix p t = some u ↔ t = p ++ u
  | [], t, u => by simp [stripPrefix]
  | p :: ps, [], u => by simp [stripPrefix]
  | p :: ps, c :: cs, u => by
    have ih := stripPrefix_some ps cs u
    simp only [stripPrefix, List.cons_append, List.cons.injEq]
    by_cases h : p = c
    · rw [if_pos h, ih]
      exact ⟨fun e => ⟨h.symm, e⟩, fun e => e.2⟩
    · rw [if_neg h]
      exact ⟨(fun e => by cases e), fun e => absurd e.1.symm h⟩

theorem stripSuffix_some (s t u : Text) : stripSuffix s t = some u ↔ t = u ++ s := by
  simp only [stripSuffix, Option.map_eq_some_iff]
  constructor
  · rintro ⟨a, ha, rfl⟩
    have := (stripPrefix_some _ _ _).1 ha
    have := congrArg List.reverse this
    simpa using this
  · intro h
    exact ⟨u.reverse, (stripPrefix_some _ _ _).2 (by rw [h]; simp), by simp⟩

theorem dropWhile_split (f : Char → Bool) : ∀ t : Text, ∃ a, t = a ++ t.dropWhile f ∧ (∀ c ∈ a, f c = true) ∧
    ∀ c, (t.dropWhile f).head? = some c → f c = false
  | [] => ⟨[], by simp⟩
  | c :: cs => by
    obtain ⟨a, h1, h2, h3⟩ := dropWhile_split f cs
    cases e : f c with
    | true =>
      refine ⟨c :: a, ?_, ?_, ?_⟩
      · simp only [List.dropWhile_cons, e, if_true, List.cons_append]
        exact congrArg _ h1
      · intro x hx
        rcases List.mem_cons.1 hx with rfl | hx
        · exact e
        · exact h2 x hx
      · simp only [List.dropWhile_cons, e, if_true]
        exact h3
    | false =>
      refine ⟨[], ?_, by simp, ?_⟩
      · simp [List.dropWhile_cons, e]
      · intro x hx
        simp only [List.dropWhile_cons, e, Bool.false_eq_true, if_false, List.head?_cons, Option.some.injEq] at hx
        rw [← hx]; exact e

theorem dropWhile_app (f : Char → Bool) : ∀ (a b : Text), (∀ c ∈ a, f c = true) → (∀ c, b.head? = some c → f c = false) →
    (a ++ b).dropWhile f = b
  | [], b, _, h => by
    cases b with
    | nil => rfl
    | cons c cs => simp [List.dropWhile_cons, h c rfl]
  | c :: cs, b, h1, h2 => by
    simp only [List.cons_append, List.dropWhile_cons, h1 c List.mem_cons_self, if_true]
    exact dropWhile_app f cs b (fun x hx => h1 x (List.mem_cons_of_mem _ hx)) h2

theorem trim_spec (t p : Text) : trim t = p ↔ Trimmed t p := by
  constructor
  · rintro rfl
    obtain ⟨a, h1, h2, h3⟩ := dropWhile_split ws t
    obtain ⟨b, k1, k2, k3⟩ := dropWhile_split ws (t.dropWhile ws).reverse
    have e : t.dropWhile ws = trim t ++ b.reverse := by
      have := congrArg List.reverse k1
      simpa [trim] using this
    refine ⟨a, b.reverse, ?_, h2, fun c hc => k2 c (by simpa using hc), ?_, ?_⟩
    · rw [List.append_assoc, ← e, ← h1]
    · intro c hc
      apply h3
      rw [e]
      cases ht : trim t with
      | nil => rw [ht] at hc; cases hc
      | cons x xs => rw [ht] at hc; simpa using hc
    · intro c hc
      apply k3
      rw [trim, List.getLast?_reverse] at hc
      exact hc
  · rintro ⟨a, b, rfl, ha, hb, h1, h2⟩
    cases p with
    | nil =>
      have : ∀ c ∈ a ++ [] ++ b, ws c = true := by
        intro c hc
        simp only [List.append_nil, List.mem_append] at hc
        rcases hc with hc | hc
        · exact ha c hc
        · exact hb c hc
      have e : (a ++ [] ++ b).dropWhile ws = [] := by
        have := dropWhile_app ws (a ++ [] ++ b) [] this (by simp)
        rwa [List.append_nil] at this
      simp only [trim, e, List.reverse_nil, List.dropWhile_nil]
    | cons x xs =>
      have e : (a ++ (x :: xs) ++ b).dropWhile ws = (x :: xs) ++ b := by
        rw [List.append_assoc]
        refine dropWhile_app ws a _ ha (fun c hc => h1 c ?_)
        simpa using hc
      have e2 : (b.reverse ++ (x :: xs).reverse).dropWhile ws = (x :: xs).reverse := by
        refine dropWhile_app ws _ _ (fun c hc => hb c (by simpa using hc)) (fun c hc => h2 c ?_)
        rw [List.head?_reverse] at hc
        exact hc
      rw [trim, e, List.reverse_append, e2, List.reverse_reverse]

/-- The package of the source: empty without a declaration, otherwise what stands between `package` and `;` in the first one, without
white space at its ends; none when the text of the declaration is of another form. -/
theorem c83_package (root : Node) (p : Text) :
    sourcePackage root = some p ↔
      ((∀ c ∈ root.namedKids, c.info.kind ≠ .package) ∧ p = []) ∨
        ∃ a c b t, root.namedKids = a ++ c :: b ∧ (∀ x ∈ a, x.info.kind ≠ .package) ∧ c.info.kind = .package ∧
          c.info.text = kwPackage ++ t ++ [';'] ∧ Trimmed t p := by
  simp only [sourcePackage]
  cases e : root.namedKids.find? (fun c => decide (c.info.kind = .package)) with
  | none =>
    have hn : ∀ c ∈ root.namedKids, c.info.kind ≠ .package := by
      intro c hc
      have := List.find?_eq_none.1 e c hc
      simpa using this
    constructor
    · intro h
      exact Or.inl ⟨hn, by simpa using h.symm⟩
    · rintro (⟨_, rfl⟩ | ⟨a, c, b, t, hl, _, hk, _⟩)
      · rfl
      · exact absurd hk (hn c (by rw [hl]; simp))
  | some c =>
    obtain ⟨hk, a, b, hl, ha⟩ := List.find?_eq_some_iff_append.1 e
    have hk : c.info.kind = .package := by simpa using hk
    have ha : ∀ x ∈ a, x.info.kind ≠ .package := fun x hx => by simpa using ha x hx
    have step : (match stripPrefix kwPackage c.info.text with
        | none => none
        | some t => match stripSuffix [';'] t with
          | none => none
          | some t => some (trim t)) = some p ↔ ∃ t, c.info.text = kwPackage ++ t ++ [';'] ∧ Trimmed t p := by
      constructor
      · intro h
        cases h1 : stripPrefix kwPackage c.info.text with
        | none => rw [h1] at h; cases h
        | some t =>
          rw [h1] at h
          dsimp only at h
          cases h2 : stripSuffix [';'] t with
          | none => rw [h2] at h; cases h
          | some u =>
            rw [h2] at h
            simp only [Option.some.injEq] at h
            have h1 := (stripPrefix_some _ _ _).1 h1
            have h2 := (stripSuffix_some _ _ _).1 h2
            exact ⟨u, by rw [h1, h2, List.append_assoc], (trim_spec u p).1 h⟩
      · rintro ⟨t, ht, hp⟩
        have h1 : stripPrefix kwPackage c.info.text = some (t ++ [';']) :=
          (stripPrefix_some _ _ _).2 (by rw [ht, List.append_assoc])
        have h2 : stripSuffix [';'] (t ++ [';']) = some t := (stripSuffix_some _ _ _).2 rfl
        rw [h1]
        dsimp only
        rw [h2]
        simp only [(trim_spec t p).2 hp]
    refine Iff.trans step ?_
    constructor
    · rintro ⟨t, ht, hp⟩
      exact Or.inr ⟨a, c, b, t, hl, ha, hk, ht, hp⟩
    · rintro (⟨hn, _⟩ | ⟨a', c', b', t, hl', ha', hk', ht, hp⟩)
      · exact absurd hk (hn c (by rw [hl]; simp))
      · have e' : root.namedKids.find? (fun c => decide (c.info.kind = .package)) = some c' :=
          List.find?_eq_some_iff_append.2 ⟨by simpa using hk', a', b', hl', fun x hx => by simpa using ha' x hx⟩
        rw [e] at e'
        cases e'
        exact ⟨t, ht, hp⟩

/-! ### The class -/

theorem find_spec (expected : List Text) : ∀ (f : Forest) (st : List Text),
    (find expected f st).1 = ((decls st f).find? (fun x => decide (x.1 = expected))).map (·.2) ∧
    ((find expected f st).1 = none → (find expected f st).2 = st)
  | .nil, st => ⟨rfl, fun _ => rfl⟩
  | .cons i k n, st => by
    have ihn := find_spec expected n st
    simp only [find, decls]
    by_cases hn : i.named = false
    · rw [if_pos hn, if_pos hn, List.nil_append]
      exact ihn
    · rw [if_neg hn, if_neg hn, List.find?_append]
      by_cases ht : isType i.kind = true
      · rw [if_pos ht, if_pos ht]
        cases hc : (⟨i, k⟩ : Node).child .name with
        | none => exact ihn
        | some name =>
          dsimp only
          have ihk := find_spec expected k (st ++ [name.info.text])
          by_cases he : st ++ [name.info.text] = expected
          · rw [if_pos he]
            refine ⟨?_, (fun h => by cases h)⟩
            simp [he]
          · rw [if_neg he, List.find?_cons_of_neg (by simpa using he)]
            cases hf : find expected k (st ++ [name.info.text]) with
            | mk r s =>
              rw [hf] at ihk
              cases r with
              | some x =>
                dsimp only at ihk ⊢
                refine ⟨?_, (fun h => by cases h)⟩
                rw [Option.map_or, ← ihk.1]
                rfl
              | none =>
                dsimp only at ihk ⊢
                have hs := ihk.2 rfl
                rw [hs, List.dropLast_concat]
                refine ⟨?_, ihn.2⟩
                rw [Option.map_or, ← ihk.1, ihn.1]
                rfl
      · rw [if_neg ht, if_neg ht]
        have ihk := find_spec expected k st
        cases hf : find expected k st with
        | mk r s =>
          rw [hf] at ihk
          cases r with
          | some x =>
            dsimp only at ihk ⊢
            refine ⟨?_, (fun h => by cases h)⟩
            rw [Option.map_or, ← ihk.1]
            rfl
          | none =>
            dsimp only at ihk ⊢
            have hs := ihk.2 rfl
            rw [hs]
            refine ⟨?_, ihn.2⟩
            rw [Option.map_or, ← ihk.1, ihn.1]
            rfl

/-- The class is the first declaration of a type, in document order, for which the names of the declarations around it and its own
are the expected ones; and the stack of names is left as it was when there is none. -/
theorem c83_class (expected : List Text) (f : Forest) (st : List Text) :
    (∀ n, (find expected f st).1 = some n ↔
      ∃ a b, decls st f = a ++ (expected, n) :: b ∧ ∀ x ∈ a, x.1 ≠ expected) ∧
    ((find expected f st).1 = none ↔ ∀ x ∈ decls st f, x.1 ≠ expected) ∧
    ((find expected f st).1 = none → (find expected f st).2 = st) := by
  have h := find_spec expected f st
  refine ⟨fun n => ?_, ?_, h.2⟩
  · rw [h.1, Option.map_eq_some_iff]
    constructor
    · rintro ⟨x, hx, rfl⟩
      obtain ⟨h1, a, b, h2, h3⟩ := List.find?_eq_some_iff_append.1 hx
      have h1 : x.1 = expected := by simpa using h1
      exact ⟨a, b, by rw [h2, ← h1], fun y hy => by simpa using h3 y hy⟩
    · rintro ⟨a, b, h2, h3⟩
      exact ⟨(expected, n), List.find?_eq_some_iff_append.2 ⟨by simp, a, b, h2, fun y hy => by simpa using h3 y hy⟩, rfl⟩
  · rw [h.1, Option.map_eq_none_iff, List.find?_eq_none]
    simp

/-! ### Types of parameters -/

theorem normalizeFrom_balanced (d : Nat) {g : Text} (h : Balanced g) : ∀ t, normalizeFrom (d + 1) (g ++ t) = normalizeFrom (d + 1) t := by
  induction h generalizing d with
  | nil => intro t; rfl
  | char c g h1 h2 _ ih =>
    intro t
    simp only [List.cons_append, normalizeFrom, if_neg h1, if_neg h2]
    rw [if_pos (Or.inl (Nat.succ_pos d))]
    exact ih d t
  | group a b _ _ iha ihb =>
    intro t
    have : ('<' :: a ++ '>' :: b) ++ t = '<' :: (a ++ '>' :: (b ++ t)) := by simp
    rw [this, normalizeFrom, if_pos rfl, iha (d + 1), normalizeFrom, if_neg (by decide), if_pos rfl]
    exact ihb d t

/-- A type of source is read without white space and without its type arguments. -/
theorem c83_erased (t u : Text) (h : Erases t u) : normalize t = u := by
  unfold normalize
  induction h with
  | nil => rfl
  | keep c t u h1 h2 h3 _ ih =>
    rw [normalizeFrom, if_neg h1, if_neg h2, if_neg (by simp [h3]), ih]
  | space c t u h3 _ ih =>
    have h1 : c ≠ '<' := by rintro rfl; exact absurd h3 (by decide)
    have h2 : c ≠ '>' := by rintro rfl; exact absurd h3 (by decide)
    rw [normalizeFrom, if_neg h1, if_neg h2, if_pos (Or.inr h3), ih]
  | group g t u hg _ ih =>
    have : '<' :: g ++ '>' :: t = '<' :: (g ++ '>' :: t) := by simp
    rw [this, normalizeFrom, if_pos rfl, normalizeFrom_balanced 0 hg, normalizeFrom, if_neg (by decide), if_pos rfl]
    exact ih

theorem normalizeFrom_clean : ∀ (t : Text) (d : Nat), ∀ c ∈ normalizeFrom d t, c ≠ '<' ∧ c ≠ '>' ∧ ws c = false
  | [], d, c, h => by simp [normalizeFrom] at h
  | x :: xs, d, c, h => by
    simp only [normalizeFrom] at h
    split at h
    · exact normalizeFrom_clean xs _ c h
    · split at h
      · exact normalizeFrom_clean xs _ c h
      · split at h
        · exact normalizeFrom_clean xs _ c h
        · rename_i h1 h2 h3
          rcases List.mem_cons.1 h with rfl | h
          · refine ⟨h1, h2, ?_⟩
            cases e : ws c with
            | false => rfl
            | true => exact absurd (Or.inr e) h3
          · exact normalizeFrom_clean xs _ c h

/-- For every text, also one that is not balanced, the result has no white space and no angle brackets, and reading it again changes
nothing. -/
theorem c83_clean (t : Text) : (∀ c ∈ normalize t, c ≠ '<' ∧ c ≠ '>' ∧ ws c = false) ∧ normalize (normalize t) = normalize t := by
  refine ⟨normalizeFrom_clean t 0, ?_⟩
  have : ∀ u : Text, (∀ c ∈ u, c ≠ '<' ∧ c ≠ '>' ∧ ws c = false) → Erases u u := by
    intro u
    induction u with
    | nil => intro _; exact Erases.nil
    | cons c u ih =>
      intro h
      have hc := h c List.mem_cons_self
      exact Erases.keep c u u hc.1 hc.2.1 hc.2.2 (ih (fun x hx => h x (List.mem_cons_of_mem _ hx)))
  exact c83_erased _ _ (this _ (normalizeFrom_clean t 0))

theorem isParam_iff (p : Node) : isParam p = true ↔ (p.info.kind = .formal ∨ p.info.kind = .spread ∨ p.info.kind = .receiver) := by
  unfold isParam
  cases p.info.kind <;> simp

theorem or_some {α : Type} (a b : Option α) (x : α) : a.or b = some x ↔ a = some x ∨ (a = none ∧ b = some x) := by
  cases a <;> cases b <;> simp

theorem paramLoop_spec : ∀ (l : List Node) (acc ts : List Text),
    paramLoop l acc = some ts ↔ ∃ us, ts = acc ++ us ∧ List.Forall₂ Declares (l.filter isParam) us
  | [], acc, ts => by
    simp only [paramLoop, Option.some.injEq, List.filter_nil, List.forall₂_nil_left_iff]
    constructor
    · rintro rfl; exact ⟨[], by simp, rfl⟩
    · rintro ⟨us, h, rfl⟩; simpa using h.symm
  | p :: ps, acc, ts => by
    simp only [paramLoop]
    by_cases hp : p.info.kind = .formal ∨ p.info.kind = .spread ∨ p.info.kind = .receiver
    · rw [if_pos hp, List.filter_cons_of_pos ((isParam_iff p).2 hp)]
      have hdecl : ∀ ty, (p.child .type_).or (firstType p) = some ty → ∀ t, Declares p t ↔
          t = normalize (if p.info.kind = .spread then ty.info.text ++ ['[', ']'] else ty.info.text) := by
        intro ty h t
        have e : ∀ x : Node, normalize (x.info.text ++ if p.info.kind = .spread then ['[', ']'] else []) =
            normalize (if p.info.kind = .spread then x.info.text ++ ['[', ']'] else x.info.text) := by
          intro x
          by_cases hs : p.info.kind = .spread
          · rw [if_pos hs, if_pos hs]
          · rw [if_neg hs, if_neg hs, List.append_nil]
        constructor
        · rintro ⟨ty', h', rfl⟩
          have := (or_some _ _ _).2 h'
          rw [h] at this
          cases this
          exact e ty
        · intro ht
          exact ⟨ty, (or_some _ _ _).1 h, by rw [ht, e]⟩
      cases e : (p.child .type_).or (firstType p) with
      | none =>
        constructor
        · intro h; cases h
        · rintro ⟨us, _, h⟩
          cases h with
          | cons h1 _ =>
            obtain ⟨ty, h', _⟩ := h1
            rw [(or_some _ _ _).2 h'] at e
            cases e
      | some ty =>
        dsimp only
        rw [paramLoop_spec ps]
        constructor
        · rintro ⟨us, h1, h2⟩
          exact ⟨_ :: us, by rw [h1, List.append_assoc]; rfl, List.Forall₂.cons ((hdecl ty e _).2 rfl) h2⟩
        · rintro ⟨us, h1, h2⟩
          cases h2 with
          | cons h3 h4 =>
            rename_i t us'
            have := (hdecl ty e _).1 h3
            exact ⟨us', by rw [h1, this, List.append_assoc]; rfl, h4⟩
    · rw [if_neg hp, List.filter_cons_of_neg (by rw [isParam_iff]; exact hp)]
      exact paramLoop_spec ps acc ts

/-- The types of the parameters of a declaration are read in order, one for each parameter. -/
theorem c83_parameters (n : Node) (ts : List Text) : paramTypes n = some ts ↔ Params n ts := by
  simp only [paramTypes, Params]
  by_cases hk : n.info.kind = .compact
  · rw [if_pos hk]
    constructor
    · intro h; exact Or.inl ⟨hk, by simpa using h.symm⟩
    · rintro (⟨_, rfl⟩ | ⟨h, _⟩)
      · rfl
      · exact absurd hk h
  · rw [if_neg hk]
    cases e : n.child .parameters with
    | none =>
      constructor
      · intro h; cases h
      · rintro (⟨h, _⟩ | ⟨_, ps, h, _⟩)
        · exact absurd h hk
        · cases h
    | some ps =>
      dsimp only
      rw [paramLoop_spec]
      constructor
      · rintro ⟨us, h1, h2⟩
        exact Or.inr ⟨hk, ps, rfl, by rw [h1]; exact h2⟩
      · rintro (⟨h, _⟩ | ⟨_, ps', h, h2⟩)
        · exact absurd h hk
        · cases h
          exact ⟨ts, rfl, h2⟩

theorem takeWhile_mem (f : Char → Bool) : ∀ (t : Text), ∀ c ∈ t.takeWhile f, f c = true ∧ c ∈ t
  | [], c, h => by simp at h
  | x :: xs, c, h => by
    rw [List.takeWhile_cons] at h
    cases e : f x with
    | false => rw [e] at h; simp at h
    | true =>
      rw [e] at h
      simp only [if_true] at h
      rcases List.mem_cons.1 h with rfl | h
      · exact ⟨e, List.mem_cons_self⟩
      · exact ⟨(takeWhile_mem f xs c h).1, List.mem_cons_of_mem _ (takeWhile_mem f xs c h).2⟩

theorem takeWhile_app (f : Char → Bool) : ∀ (a b : Text), (∀ c ∈ a, f c = true) → (∀ c, b.head? = some c → f c = false) →
    (a ++ b).takeWhile f = a
  | [], b, _, h => by
    cases b with
    | nil => rfl
    | cons c cs => simp [List.takeWhile_cons, h c rfl]
  | c :: cs, b, h1, h2 => by
    simp only [List.cons_append, List.takeWhile_cons, h1 c List.mem_cons_self, if_true]
    rw [takeWhile_app f cs b (fun x hx => h1 x (List.mem_cons_of_mem _ hx)) h2]

theorem simpleName_plain : ∀ d : Ty, NoDot d → ∀ c ∈ simpleName d, c ≠ '.' ∧ c ≠ '$'
  | .object n, h, c, hc => by
    have := takeWhile_mem _ n.reverse c (by simpa [simpleName, lastPart] using hc)
    simp only [Bool.and_eq_true, decide_eq_true_eq, List.mem_reverse] at this
    exact ⟨fun e => h (e ▸ this.2), by simpa using this.1.2⟩
  | .array e, h, c, hc => by
    simp only [simpleName, List.mem_append] at hc
    rcases hc with hc | hc
    · exact simpleName_plain e h c hc
    · revert c; decide
  | .byte, _, c, hc => by revert c; decide
  | .char, _, c, hc => by revert c; decide
  | .double, _, c, hc => by revert c; decide
  | .float, _, c, hc => by revert c; decide
  | .int, _, c, hc => by revert c; decide
  | .long, _, c, hc => by revert c; decide
  | .short, _, c, hc => by revert c; decide
  | .boolean, _, c, hc => by revert c; decide
  | .void, _, c, hc => by revert c; decide

/-- A type of source matches a type of the descriptor exactly when its last name is the simple name of that type. -/
theorem c83_type (s : Text) (d : Ty) (h : NoDot d) : typeMatches s d = true ↔ d ≠ .void ∧ sourceSimple s = simpleName d := by
  unfold typeMatches
  by_cases hv : d = .void
  · rw [if_pos hv]; simp [hv]
  · rw [if_neg hv]
    have hp := simpleName_plain d h
    generalize simpleName d = e at hp
    have hall : ∀ c ∈ e.reverse, (decide (c ≠ '.') && decide (c ≠ '$')) = true := by
      intro c hc
      have := hp c (by simpa using hc)
      simp [this.1, this.2]
    simp only [ne_eq, hv, not_false_eq_true, true_and, Bool.or_eq_true, decide_eq_true_eq]
    constructor
    · rintro (rfl | hm)
      · have := takeWhile_app (fun c => decide (c ≠ '.') && decide (c ≠ '$')) s.reverse [] hall (by simp)
        rw [List.append_nil] at this
        rw [sourceSimple, this, List.reverse_reverse]
      · cases hs : stripSuffix e s with
        | none => rw [hs] at hm; cases hm
        | some p =>
          rw [hs] at hm
          have hs := (stripSuffix_some _ _ _).1 hs
          have hl : p.getLast? = some '.' ∨ p.getLast? = some '$' := by simpa using hm
          have := takeWhile_app (fun c => decide (c ≠ '.') && decide (c ≠ '$')) e.reverse p.reverse hall (by
            intro c hc
            rw [List.head?_reverse] at hc
            rcases hl with hl | hl <;> (rw [hl] at hc; cases hc; decide))
          rw [sourceSimple, hs, List.reverse_append, this, List.reverse_reverse]
    · intro hs
      have hsplit : s = (s.reverse.dropWhile (fun c => decide (c ≠ '.') && decide (c ≠ '$'))).reverse ++ e := by
        have := List.takeWhile_append_dropWhile (p := fun c => decide (c ≠ '.') && decide (c ≠ '$')) (l := s.reverse)
        have := congrArg List.reverse this
        rw [List.reverse_append, List.reverse_reverse] at this
        rw [← hs]
        exact this.symm
      obtain ⟨_, _, _, hd⟩ := dropWhile_split (fun c => decide (c ≠ '.') && decide (c ≠ '$')) s.reverse
      generalize hq : s.reverse.dropWhile (fun c => decide (c ≠ '.') && decide (c ≠ '$')) = q at hsplit hd
      cases q with
      | nil => exact Or.inl (by simpa using hsplit)
      | cons x xs =>
        refine Or.inr ?_
        rw [(stripSuffix_some e s _).2 hsplit]
        have := hd x rfl
        simp only [List.getLast?_reverse, List.head?_cons, Option.some.injEq, Bool.or_eq_true, decide_eq_true_eq]
        by_cases h1 : x = '.'
        · exact Or.inl h1
        · refine Or.inr ?_
          by_contra h2
          simp [h1, h2] at this

theorem all_zip_iff (ps : List Ty) (hd : ∀ d ∈ ps, NoDot d) : ∀ (ts : List Text), typesMatch ts ps = true ↔
    (∀ d ∈ ps, d ≠ .void) ∧ ts.map sourceSimple = ps.map simpleName := by
  induction ps with
  | nil => intro ts; cases ts <;> simp [typesMatch]
  | cons d ps ih =>
    intro ts
    cases ts with
    | nil => simp [typesMatch]
    | cons t ts =>
      have ih := ih (fun x hx => hd x (List.mem_cons_of_mem _ hx)) ts
      have h1 := c83_type t d (hd d List.mem_cons_self)
      simp only [typesMatch, Bool.and_eq_true, decide_eq_true_eq] at ih
      simp only [typesMatch, List.length_cons, List.zip_cons_cons, List.all_cons, Bool.and_eq_true, decide_eq_true_eq, h1,
        List.map_cons, List.cons.injEq, List.mem_cons, forall_eq_or_imp]
      constructor
      · rintro ⟨a, ⟨b, c⟩, e⟩
        have := ih.1 ⟨by omega, e⟩
        exact ⟨⟨b, this.1⟩, c, this.2⟩
      · rintro ⟨⟨b, c⟩, e, g⟩
        have := ih.2 ⟨c, g⟩
        exact ⟨by omega, ⟨b, e⟩, this.2⟩

/-- Two methods whose descriptors both match the types of one declaration have parameters with the same simple names. -/
theorem c83_overloads (ts : List Text) (ps qs : List Ty) (hp : ∀ d ∈ ps, NoDot d) (hq : ∀ d ∈ qs, NoDot d)
    (h1 : typesMatch ts ps = true) (h2 : typesMatch ts qs = true) : ps.map simpleName = qs.map simpleName := by
  rw [← ((all_zip_iff ps hp ts).1 h1).2, ((all_zip_iff qs hq ts).1 h2).2]

/-! ### Members -/

theorem getLast_mem' {l : Text} {c : Char} (h : l.getLast? = some c) : c ∈ l := List.mem_of_getLast? h

theorem head_mem' {l : Text} {c : Char} (h : l.head? = some c) : c ∈ l := List.mem_of_mem_head? h

theorem word_self (w : Text) (h : w ≠ []) (hw : ∀ c ∈ w, ws c = false) (x : Text) : Word x w ↔ x = w := by
  constructor
  · rintro ⟨hx, _, a, b, e, ha, hb⟩
    have ea : a = [] := by
      by_contra hc
      obtain ⟨c, hl⟩ : ∃ c, a.getLast? = some c := by
        cases e' : a.getLast? with
        | none => exact absurd (List.getLast?_eq_none_iff.1 e') hc
        | some c => exact ⟨c, rfl⟩
      have := hw c (by rw [e]; simp [getLast_mem' hl])
      rw [ha c hl] at this
      cases this
    have eb : b = [] := by
      cases b with
      | nil => rfl
      | cons c cs =>
        have := hw c (by rw [e]; simp)
        rw [hb c rfl] at this
        cases this
    rw [e, ea, eb]
    simp
  · rintro rfl
    exact ⟨h, hw, [], [], by simp, by simp, by simp⟩

theorem word_space (cur cs : Text) (c : Char) (hc : ws c = true) (hcur : ∀ x ∈ cur, ws x = false) (w : Text) :
    Word w (cur ++ c :: cs) ↔ (cur ≠ [] ∧ w = cur) ∨ Word w cs := by
  constructor
  · rintro ⟨hne, hw, a, b, e, ha, hb⟩
    have hcw : c ∉ w := fun h => by rw [hw c h] at hc; cases hc
    rw [List.append_assoc] at e
    rcases List.append_eq_append_iff.1 e.symm with ⟨x, h1, h2⟩ | ⟨x, h1, h2⟩
    · have ea : a = [] := by
        by_contra hcon
        obtain ⟨y, hl⟩ : ∃ y, a.getLast? = some y := by
          cases e' : a.getLast? with
          | none => exact absurd (List.getLast?_eq_none_iff.1 e') hcon
          | some y => exact ⟨y, rfl⟩
        have := hcur y (by rw [h1]; simp [getLast_mem' hl])
        rw [ha y hl] at this
        cases this
      rw [ea, List.nil_append] at h1
      subst h1
      rcases List.append_eq_append_iff.1 h2 with ⟨y, h3, h4⟩ | ⟨y, h3, h4⟩
      · cases y with
        | nil => rw [List.append_nil] at h3; exact Or.inl ⟨by rw [h3]; exact hne, h3.symm⟩
        | cons z zs =>
          have h5 := hcur z (by rw [h3]; simp)
          rw [hb z (by rw [h4]; rfl)] at h5
          cases h5
      · cases y with
        | nil => rw [List.append_nil] at h3; exact Or.inl ⟨by rw [← h3]; exact hne, h3⟩
        | cons z zs =>
          simp only [List.cons_append, List.cons.injEq] at h4
          exact absurd (by rw [h3, h4.1]; simp) hcw
    · cases x with
      | nil =>
        cases w with
        | nil => exact absurd rfl hne
        | cons z zs =>
          simp only [List.nil_append, List.cons_append, List.cons.injEq] at h2
          exact absurd (by rw [h2.1]; simp) hcw
      | cons z zs =>
        simp only [List.cons_append, List.cons.injEq] at h2
        refine Or.inr ⟨hne, hw, zs, b, by rw [h2.2, List.append_assoc], fun y hy => ha y ?_, hb⟩
        rw [h1]
        cases zs with
        | nil => cases hy
        | cons u us => simpa using hy
  · rintro (⟨h, rfl⟩ | ⟨hne, hw, a, b, e, ha, hb⟩)
    · exact ⟨h, hcur, [], c :: cs, by simp, by simp, fun y hy => by simp only [List.head?_cons, Option.some.injEq] at hy; rw [← hy]; exact hc⟩
    · refine ⟨hne, hw, cur ++ c :: a, b, by rw [e]; simp, fun y hy => ?_, hb⟩
      cases a with
      | nil => simp only [List.getLast?_append, List.getLast?_singleton, Option.some_or, Option.some.injEq] at hy; rw [← hy]; exact hc
      | cons u us => exact ha y (by simpa using hy)

theorem words_spec : ∀ (t cur w : Text), (∀ x ∈ cur, ws x = false) → (w ∈ wordsFrom cur t ↔ Word w (cur ++ t))
  | [], cur, w, h => by
    simp only [wordsFrom, List.append_nil]
    by_cases hc : cur = []
    · rw [if_pos hc]
      subst hc
      constructor
      · intro h; cases h
      · rintro ⟨hne, _, a, b, e, _⟩
        have : w = [] := by
          have := congrArg List.length e
          simp only [List.length_nil, List.length_append] at this
          exact List.length_eq_zero_iff.1 (by omega)
        exact absurd this hne
    · rw [if_neg hc, word_self cur hc h, List.mem_singleton]
  | c :: cs, cur, w, h => by
    simp only [wordsFrom]
    cases e : ws c with
    | true =>
      simp only [if_true]
      have ih := words_spec cs [] w (by simp)
      rw [word_space cur cs c e h w]
      by_cases hc : cur = []
      · rw [if_pos hc, ih, List.nil_append]
        simp [hc]
      · rw [if_neg hc, List.mem_cons, ih, List.nil_append]
        simp [hc]
    | false =>
      simp only [Bool.false_eq_true, if_false]
      rw [words_spec cs (cur ++ [c]) w (by
        intro x hx
        rcases List.mem_append.1 hx with hx | hx
        · exact h x hx
        · rw [List.mem_singleton.1 hx]; exact e)]
      simp

/-- A declaration counts as static exactly when `static` is a word of its modifiers. -/
theorem c83_static (n : Node) : isStatic n = true ↔ ∃ c ∈ n.namedKids, c.info.kind = .modifiers ∧ Word kwStatic c.info.text := by
  simp only [isStatic, List.any_eq_true, Bool.and_eq_true, decide_eq_true_eq]
  constructor
  · rintro ⟨c, hc, hk, w, hw, rfl⟩
    exact ⟨c, hc, hk, by simpa using (words_spec c.info.text [] _ (by simp)).1 hw⟩
  · rintro ⟨c, hc, hk, hw⟩
    exact ⟨c, hc, hk, kwStatic, (words_spec c.info.text [] _ (by simp)).2 (by simpa using hw), rfl⟩

theorem candidate_spec (m : Method) (ps : List Ty) (n : Node) (x : Cand) :
    candidate m ps n = some x ↔ x.1 = n ∧ Fits m ps n x.2.1 x.2.2 := by
  obtain ⟨n', name', ts'⟩ := x
  simp only [candidate]
  by_cases h1 : isCtor n.info.kind ≠ decide (m.name = .init)
  · rw [if_pos h1]
    constructor
    · intro h; cases h
    · rintro ⟨_, h⟩
      refine absurd ?_ h1
      have := h.kind
      by_cases hi : m.name = .init
      · simp [hi, this.2 hi]
      · cases e : isCtor n.info.kind with
        | false => simp [hi]
        | true => exact absurd (this.1 e) hi
  · rw [if_neg h1]
    have h1 : isCtor n.info.kind = decide (m.name = .init) := by simpa using h1
    have hk : isCtor n.info.kind = true ↔ m.name = .init := by rw [h1]; simp
    cases e : n.child .name with
    | none =>
      constructor
      · intro h; cases h
      · rintro ⟨_, h⟩
        have := h.named
        rw [e] at this
        cases this
    | some name =>
      dsimp only
      by_cases h2 : m.name ≠ .init ∧ m.name ≠ .name name.info.text
      · rw [if_pos h2]
        constructor
        · intro h; cases h
        · rintro ⟨_, h⟩
          have hn := h.named
          rw [e] at hn
          cases hn
          rcases h.same with h3 | h3
          · exact absurd h3 h2.1
          · exact absurd h3 h2.2
      · rw [if_neg h2]
        by_cases h3 : isStatic n ≠ m.isStatic
        · rw [if_pos h3]
          constructor
          · intro h; cases h
          · rintro ⟨_, h⟩; exact absurd h.static_ h3
        · rw [if_neg h3]
          cases e2 : paramTypes n with
          | none =>
            constructor
            · intro h; cases h
            · rintro ⟨_, h⟩
              have := (c83_parameters n _).2 h.params
              rw [e2] at this
              cases this
          | some ts =>
            dsimp only
            by_cases h4 : ts.length ≠ ps.length
            · rw [if_pos h4]
              constructor
              · intro h; cases h
              · rintro ⟨_, h⟩
                have := (c83_parameters n _).2 h.params
                rw [e2] at this
                cases this
                exact absurd h.count h4
            · rw [if_neg h4]
              constructor
              · intro h
                cases h
                refine ⟨rfl, hk, e, ?_, by simpa using h3, (c83_parameters n _).1 e2, by simpa using h4⟩
                by_cases hi : m.name = .init
                · exact Or.inl hi
                · refine Or.inr ?_
                  by_contra hc
                  exact h2 ⟨hi, hc⟩
              · rintro ⟨rfl, h⟩
                have h5 := h.named
                rw [e] at h5
                cases h5
                have h6 := (c83_parameters n' _).2 h.params
                rw [e2] at h6
                cases h6
                rfl

theorem allFits_iff (m : Method) (ps : List Ty) : ∀ (nodes : List Node) (cs : List Cand),
    AllFits m ps nodes cs ↔ nodes.filterMap (candidate m ps) = cs
  | [], cs => by
    constructor
    · intro h; cases h; rfl
    · intro h; cases h; exact AllFits.nil
  | n :: ns, cs => by
    rw [List.filterMap_cons]
    cases e : candidate m ps n with
    | none =>
      have hno : ∀ name ts, ¬ Fits m ps n name ts := by
        intro name ts h
        have := (candidate_spec m ps n (n, name, ts)).2 ⟨rfl, h⟩
        rw [e] at this
        cases this
      dsimp only
      constructor
      · intro h
        cases h with
        | fit _ _ _ _ _ h1 _ => exact absurd h1 (hno _ _)
        | skip _ _ _ _ h2 => exact (allFits_iff m ps ns cs).1 h2
      · intro h
        exact AllFits.skip n ns cs hno ((allFits_iff m ps ns cs).2 h)
    | some x =>
      obtain ⟨n', name, ts⟩ := x
      have hx := (candidate_spec m ps n _).1 e
      obtain ⟨rfl, hx⟩ := hx
      dsimp only
      constructor
      · intro h
        cases h with
        | fit _ name' ts' _ cs' h1 h2 =>
          have := (candidate_spec m ps n' (n', name', ts')).2 ⟨rfl, h1⟩
          rw [e] at this
          cases this
          rw [(allFits_iff m ps ns cs').1 h2]
        | skip _ _ _ h1 _ => exact absurd hx (h1 _ _)
      · intro h
        subst h
        exact AllFits.fit n' name ts ns _ hx ((allFits_iff m ps ns _).2 rfl)

theorem byType_spec (ps : List Ty) (cs : List Cand) (c : Cand) :
    byType ps cs = [c] ↔ cs = [c] ∨ (2 ≤ cs.length ∧ cs.filter (fun c => typesMatch c.2.2 ps) = [c]) := by
  unfold byType
  by_cases h : cs.length > 1
  · rw [if_pos h]
    have hne : cs ≠ [c] := by rintro rfl; simp at h
    dsimp only
    by_cases h2 : (cs.filter (fun c => typesMatch c.2.2 ps)).length = 1
    · rw [if_pos h2]
      exact ⟨fun e => Or.inr ⟨h, e⟩, fun e => e.elim (fun e => absurd e hne) (·.2)⟩
    · rw [if_neg h2]
      exact ⟨fun e => absurd e hne, fun e => e.elim id (fun e => absurd (by rw [e.2]; rfl) h2)⟩
  · rw [if_neg h]
    exact ⟨Or.inl, fun e => e.elim id (fun e => absurd e.1 (by omega))⟩

theorem decides_iff (line : Option Nat) (ps : List Ty) (cs : List Cand) (c : Cand) :
    byType ps (byLine line cs) = [c] ↔ Decides line ps cs c := by
  cases line with
  | none =>
    simp only [byLine, byType_spec, Decides]
    constructor
    · intro h; exact Or.inr ⟨(fun n e => by cases e), h⟩
    · rintro (⟨n, e, _⟩ | ⟨_, h⟩)
      · cases e
      · exact h
  | some n =>
    simp only [byLine, Decides]
    by_cases h : (cs.filter (fun c => onLine n c.1)).length = 1
    · rw [if_pos h]
      have hb : byType ps (cs.filter (fun c => onLine n c.1)) = cs.filter (fun c => onLine n c.1) := by
        unfold byType
        rw [if_neg (by omega)]
      rw [hb]
      constructor
      · intro e; exact Or.inl ⟨n, rfl, e⟩
      · rintro (⟨n', e, h'⟩ | ⟨h', _⟩)
        · cases e; exact h'
        · exact absurd h (h' n rfl)
    · rw [if_neg h, byType_spec]
      constructor
      · intro e; exact Or.inr ⟨(fun n' e' => by cases e'; exact h), e⟩
      · rintro (⟨n', e, h'⟩ | ⟨_, h'⟩)
        · cases e
          exact absurd (by rw [h']; rfl) h
        · exact h'

/-- A method is located at a declaration exactly when its descriptor can be read and, of all declarations that fit by kind, name,
`static` and number of parameters, the line of its code, its being alone or the types of its parameters decide for this one. -/
theorem c83_method (m : Method) (nodes : List Node) (loc : Location Method) :
    locateMethod m nodes = some loc ↔
      m.name ≠ .clinit ∧ ∃ ps cs c, m.params = some ps ∧ AllFits m ps nodes cs ∧ Decides m.firstLine ps cs c ∧
        loc = ⟨m, c.1.range, c.2.1.range⟩ := by
  unfold locateMethod
  by_cases h : m.name = .clinit
  · rw [if_pos h]
    exact ⟨(fun e => by cases e), fun e => absurd h e.1⟩
  · rw [if_neg h]
    cases e : m.params with
    | none =>
      constructor
      · intro e'; cases e'
      · rintro ⟨_, ps, cs, c, h1, _⟩; cases h1
    | some ps =>
      dsimp only
      generalize hcs : nodes.filterMap (candidate m ps) = cs
      have hall := (allFits_iff m ps nodes cs).2 hcs
      constructor
      · intro h1
        refine ⟨h, ps, cs, ?_⟩
        split at h1
        · cases h1
        · cases hb : byType ps (byLine m.firstLine cs) with
          | nil => rw [hb] at h1; cases h1
          | cons c tl =>
            cases tl with
            | nil =>
              rw [hb] at h1
              cases h1
              exact ⟨c, rfl, hall, (decides_iff _ _ _ _).1 hb, rfl⟩
            | cons _ _ => rw [hb] at h1; cases h1
      · rintro ⟨_, ps', cs', c, h1, h2, h3, rfl⟩
        cases h1
        have h2 := (allFits_iff m ps nodes cs').1 h2
        rw [hcs] at h2
        subst h2
        have hb := (decides_iff _ _ _ _).2 h3
        have hne : cs.isEmpty = false := by
          cases cs with
          | nil =>
            rcases h3 with ⟨n, _, h3⟩ | ⟨_, h3 | ⟨h3, _⟩⟩
            · cases h3
            · cases h3
            · simp at h3
          | cons _ _ => rfl
        rw [hne, hb]
        simp

theorem fieldMatches_spec (f : FieldInfo) (n : Node) (x : Node × Node) : x ∈ fieldMatches f n ↔ x.1 = n ∧ Names f n x.2 := by
  obtain ⟨n', name⟩ := x
  simp only [fieldMatches, Names]
  by_cases hk : n.info.kind = .enumConstant
  · rw [if_pos hk]
    cases e : n.child .name with
    | none => simp [hk]
    | some y =>
      dsimp only
      by_cases ht : y.info.text = f.name
      · rw [if_pos ht]
        simp only [List.mem_singleton, Prod.mk.injEq, hk, Option.some.injEq]
        constructor
        · rintro ⟨a, rfl⟩; exact ⟨a, Or.inl ⟨trivial, rfl, ht⟩⟩
        · rintro ⟨a, ⟨_, b, _⟩ | ⟨b, _⟩⟩
          · exact ⟨a, b.symm⟩
          · exact absurd rfl b
      · rw [if_neg ht]
        simp only [hk, Option.some.injEq]
        constructor
        · intro h; cases h
        · rintro ⟨a, ⟨_, rfl, c⟩ | ⟨b, _⟩⟩
          · exact absurd c ht
          · exact absurd rfl b
  · rw [if_neg hk, List.mem_filterMap]
    constructor
    · rintro ⟨c, hc, h⟩
      unfold declaratorMatch at h
      split at h
      · cases h
      · rename_i hd
        cases e : c.child .name with
        | none => rw [e] at h; cases h
        | some y =>
          rw [e] at h
          dsimp only at h
          by_cases ht : y.info.text = f.name
          · rw [if_pos ht] at h
            cases h
            exact ⟨rfl, Or.inr ⟨hk, c, hc, by simpa using hd, e, ht⟩⟩
          · rw [if_neg ht] at h; cases h
    · rintro ⟨rfl, ⟨h, _⟩ | ⟨_, c, hc, hd, e, ht⟩⟩
      · exact absurd h hk
      · exact ⟨c, hc, by unfold declaratorMatch; rw [if_neg (by simpa using hd), e]; simp [ht]⟩

/-- A located field is declared there, and nowhere else among the declarations. -/
theorem c83_field (f : FieldInfo) (nodes : List Node) (loc : Location FieldInfo) (h : locateField f nodes = some loc) :
    ∃ n ∈ nodes, ∃ name, Names f n name ∧ loc = ⟨f, n.range, name.range⟩ ∧
      ∀ n' ∈ nodes, ∀ name', Names f n' name' → n' = n ∧ name' = name := by
  unfold locateField at h
  have hm : ∀ x : Node × Node, x ∈ nodes.flatMap (fieldMatches f) ↔ x.1 ∈ nodes ∧ Names f x.1 x.2 := by
    intro x
    rw [List.mem_flatMap]
    constructor
    · rintro ⟨n, hn, hx⟩
      have := (fieldMatches_spec f n x).1 hx
      rw [this.1]
      exact ⟨hn, this.2⟩
    · rintro ⟨hn, hx⟩
      exact ⟨x.1, hn, (fieldMatches_spec f x.1 x).2 ⟨rfl, hx⟩⟩
  generalize nodes.flatMap (fieldMatches f) = l at h hm
  cases l with
  | nil => cases h
  | cons x tl =>
    cases tl with
    | cons y ys => cases h
    | nil =>
      obtain ⟨d, name⟩ := x
      simp only [Option.some.injEq] at h
      have := (hm (d, name)).1 List.mem_cons_self
      refine ⟨d, this.1, name, this.2, h.symm, fun n' hn name' hn' => ?_⟩
      have := (hm (n', name')).2 ⟨hn, hn'⟩
      simp only [List.mem_singleton, Prod.mk.injEq] at this
      exact this

theorem fieldMatches_once (f : FieldInfo) (n name : Node) (h : NamesOnce f n name) : fieldMatches f n = [(n, name)] := by
  unfold fieldMatches
  rcases h with ⟨h1, h2, h3⟩ | ⟨h1, a, c, b, hl, ⟨h2, h3, h4⟩, hno⟩
  · rw [if_pos h1, h2]
    simp [h3]
  · rw [if_neg h1, hl, List.filterMap_append, List.filterMap_cons]
    have hnil : ∀ l : List Node, (∀ x ∈ l, ∀ y, ¬ FieldName f x y) → l.filterMap (declaratorMatch f n) = [] := by
      intro l hx
      apply List.filterMap_eq_nil_iff.2
      intro x hm
      unfold declaratorMatch
      split
      · rfl
      · rename_i hd
        cases e : x.child .name with
        | none => rfl
        | some y =>
          dsimp only
          by_cases ht : y.info.text = f.name
          · exact absurd ⟨by simpa using hd, e, ht⟩ (hx x hm y)
          · rw [if_neg ht]
    rw [hnil a (fun x hx => hno x (Or.inl hx)), hnil b (fun x hx => hno x (Or.inr hx))]
    have : declaratorMatch f n c = some (n, name) := by
      unfold declaratorMatch
      rw [if_neg (by simpa using h2), h3]
      simp [h4]
    rw [this]
    rfl

/-- A field that is declared exactly once is located. -/
theorem c83_field_found (f : FieldInfo) (a b : List Node) (n name : Node) (h : NamesOnce f n name)
    (hno : ∀ x, x ∈ a ∨ x ∈ b → ∀ y, ¬ Names f x y) : locateField f (a ++ n :: b) = some ⟨f, n.range, name.range⟩ := by
  have hnil : ∀ l : List Node, (∀ x ∈ l, ∀ y, ¬ Names f x y) → l.flatMap (fieldMatches f) = [] := by
    intro l hl
    apply List.flatMap_eq_nil_iff.2
    intro x hx
    cases e : fieldMatches f x with
    | nil => rfl
    | cons y ys =>
      have := (fieldMatches_spec f x y).1 (by rw [e]; exact List.mem_cons_self)
      exact absurd this.2 (hl x hx y.2)
  unfold locateField
  rw [List.flatMap_append, List.flatMap_cons, hnil a (fun x hx => hno x (Or.inl hx)), hnil b (fun x hx => hno x (Or.inr hx)),
    fieldMatches_once f n name h]
  rfl

/-! ### The whole -/

theorem locate_inv (c : ClassFile) (len : Nat) (tree : Option (Node × Bool)) (l : Limits) (loc : ClassLocation)
    (h : locate c len tree l = some (.ok (some loc))) :
    len ≤ l.bytes ∧ len ≤ 4294967295 ∧ ∃ root, tree = some (root, false) ∧ enforce root l = none ∧
      ∃ package classes cls name body, splitName c.name = some (package, classes) ∧ sourcePackage root = some package ∧
        (find classes root.kids []).1 = some cls ∧ cls.child .name = some name ∧ cls.child .body = some body ∧
        loc = ⟨c.name, cls.range, name.range, c.methods.filterMap (locateMethod · (directKids body methodKinds)),
          c.fields.filterMap (locateField · (directKids body fieldKinds))⟩ := by
  unfold locate at h
  by_cases h1 : len > l.bytes ∨ len > 4294967295
  · rw [if_pos h1] at h; cases h
  · rw [if_neg h1] at h
    refine ⟨by omega, by omega, ?_⟩
    cases tree with
    | none => cases h
    | some x =>
      obtain ⟨root, err⟩ := x
      dsimp only at h
      cases err with
      | true => simp at h
      | false =>
        simp only [Bool.false_eq_true, if_false] at h
        refine ⟨root, rfl, ?_⟩
        cases he : enforce root l with
        | some e => rw [he] at h; cases h
        | none =>
          rw [he] at h
          refine ⟨rfl, ?_⟩
          dsimp only at h
          cases hs : splitName c.name with
          | none => rw [hs] at h; cases h
          | some y =>
            obtain ⟨package, classes⟩ := y
            rw [hs] at h
            dsimp only at h
            by_cases hp : sourcePackage root ≠ some package
            · rw [if_pos hp] at h; cases h
            · rw [if_neg hp] at h
              have hp : sourcePackage root = some package := by simpa using hp
              cases hf : (find classes root.kids []).1 with
              | none => rw [hf] at h; cases h
              | some cls =>
                rw [hf] at h
                dsimp only at h
                cases hn : cls.child .name with
                | none => rw [hn] at h; cases h
                | some name =>
                  cases hb : cls.child .body with
                  | none => rw [hn, hb] at h; cases h
                  | some body =>
                    rw [hn, hb] at h
                    dsimp only at h
                    simp only [Option.some.injEq, Res.ok.injEq] at h
                    exact ⟨package, classes, cls, name, body, rfl, hp, hf, hn, hb, h.symm⟩

/-- What is located is the class of the source with the names and the package of the class file, first in document order; the source
is without errors and within the limits; and the members come in the order of the class file, each at most as often as there. -/
theorem c83_result (c : ClassFile) (len : Nat) (tree : Option (Node × Bool)) (l : Limits) (loc : ClassLocation)
    (h : locate c len tree l = some (.ok (some loc))) :
    len ≤ l.bytes ∧ loc.name = c.name ∧
      (∃ root classes package cls, tree = some (root, false) ∧ splitName c.name = some (package, classes) ∧
        sourcePackage root = some package ∧ loc.declaration = cls.range ∧
        (∃ a b, decls [] root.kids = a ++ (classes, cls) :: b ∧ ∀ x ∈ a, x.1 ≠ classes) ∧
        (0 :: depths 1 root.kids).length ≤ l.nodes ∧ ∀ d ∈ depths 1 root.kids, d ≤ l.depth) ∧
      (loc.methods.map (·.member)).Sublist c.methods ∧ (loc.fields.map (·.member)).Sublist c.fields := by
  obtain ⟨h1, h2, root, h3, h4, package, classes, cls, name, body, h5, h6, h7, h8, h9, rfl⟩ := locate_inv c len tree l loc h
  have hl := (c83_limits root l).1.1 h4
  refine ⟨h1, rfl, ⟨root, classes, package, cls, h3, h5, h6, rfl, ((c83_class classes root.kids []).1 cls).1 h7, hl.1,
    fun d hd => hl.2 d (List.mem_cons_of_mem _ hd)⟩, ?_, ?_⟩
  · have : ∀ (ms : List Method) (ns : List Node), ((ms.filterMap (locateMethod · ns)).map (·.member)).Sublist ms := by
      intro ms ns
      induction ms with
      | nil => exact List.Sublist.slnil
      | cons m ms ih =>
        rw [List.filterMap_cons]
        cases e : locateMethod m ns with
        | none => exact ih.cons m
        | some loc =>
          obtain ⟨_, ps, cs, c, _, _, _, rfl⟩ := (c83_method m ns loc).1 e
          exact ih.cons₂ m
    exact this _ _
  · have : ∀ (fs : List FieldInfo) (ns : List Node), ((fs.filterMap (locateField · ns)).map (·.member)).Sublist fs := by
      intro fs ns
      induction fs with
      | nil => exact List.Sublist.slnil
      | cons f fs ih =>
        rw [List.filterMap_cons]
        cases e : locateField f ns with
        | none => exact ih.cons f
        | some loc =>
          obtain ⟨_, _, _, _, rfl, _⟩ := c83_field f ns loc e
          exact ih.cons₂ f
    exact this _ _

theorem nested_node (lo hi : Nat) : ∀ (f : Forest), Nested lo hi f → ∀ n ∈ f.nodes,
    lo ≤ n.info.start ∧ n.info.start ≤ n.info.stop ∧ n.info.stop ≤ hi ∧ Nested n.info.start n.info.stop n.kids
  | .nil, _, n, hn => by cases hn
  | .cons i k x, h, n, hn => by
    simp only [Nested] at h
    simp only [Forest.nodes] at hn
    rcases List.mem_cons.1 hn with rfl | hn
    · exact ⟨h.1, h.2.1, h.2.2.1, h.2.2.2.1⟩
    · exact nested_node lo hi x h.2.2.2.2 n hn

theorem nested_decl : ∀ (f : Forest) (lo hi : Nat) (st : List Text), Nested lo hi f → ∀ x ∈ decls st f,
    x.2.info.start ≤ x.2.info.stop ∧ Nested x.2.info.start x.2.info.stop x.2.kids
  | .nil, _, _, _, _, x, hx => by cases hx
  | .cons i k n, lo, hi, st, h, x, hx => by
    simp only [Nested] at h
    simp only [decls] at hx
    rcases List.mem_append.1 hx with hx | hx
    · split at hx
      · cases hx
      · split at hx
        · cases e : (⟨i, k⟩ : Node).child .name with
          | none => rw [e] at hx; cases hx
          | some name =>
            rw [e] at hx
            dsimp only at hx
            rcases List.mem_cons.1 hx with rfl | hx
            · exact ⟨h.2.1, h.2.2.2.1⟩
            · exact nested_decl k _ _ _ h.2.2.2.1 x hx
        · exact nested_decl k _ _ _ h.2.2.2.1 x hx
    · exact nested_decl n _ _ _ h.2.2.2.2 x hx

/-- One range inside another. -/
def Range.In (a b : Range) : Prop := b.start ≤ a.start ∧ a.start ≤ a.stop ∧ a.stop ≤ b.stop

theorem nested_child (n c : Node) (f : Field) (h : Nested n.info.start n.info.stop n.kids) (hc : n.child f = some c) :
    c.range.In n.range ∧ Nested c.info.start c.info.stop c.kids := by
  have := nested_node _ _ _ h c (List.mem_of_find?_eq_some hc)
  exact ⟨⟨this.1, this.2.1, this.2.2.1⟩, this.2.2.2⟩

theorem nested_kid (n c : Node) (h : Nested n.info.start n.info.stop n.kids) (hc : c ∈ n.namedKids) :
    c.range.In n.range ∧ Nested c.info.start c.info.stop c.kids := by
  have := nested_node _ _ _ h c (List.mem_filter.1 hc).1
  exact ⟨⟨this.1, this.2.1, this.2.2.1⟩, this.2.2.2⟩

theorem Range.In.trans {a b c : Range} (h : a.In b) (h' : b.In c) : a.In c := by
  simp only [Range.In] at *
  omega

theorem allFits_mem (m : Method) (ps : List Ty) (nodes : List Node) (cs : List Cand) (h : AllFits m ps nodes cs) :
    ∀ c ∈ cs, c.1 ∈ nodes ∧ Fits m ps c.1 c.2.1 c.2.2 := by
  have h := (allFits_iff m ps nodes cs).1 h
  intro c hc
  rw [← h] at hc
  obtain ⟨n, hn, hx⟩ := List.mem_filterMap.1 hc
  have := (candidate_spec m ps n c).1 hx
  rw [this.1]
  exact ⟨hn, this.2⟩

theorem decides_mem (line : Option Nat) (ps : List Ty) (cs : List Cand) (c : Cand) (h : Decides line ps cs c) : c ∈ cs := by
  rcases h with ⟨n, _, h⟩ | ⟨_, h | ⟨_, h⟩⟩
  · exact (List.mem_filter.1 (by rw [h]; exact List.mem_cons_self : c ∈ cs.filter (fun c => onLine n c.1))).1
  · rw [h]; exact List.mem_cons_self
  · exact (List.mem_filter.1 (by rw [h]; exact List.mem_cons_self : c ∈ cs.filter (fun c => typesMatch c.2.2 ps))).1

/-- In a tree whose nodes are inside their parents, the name of the class and the declarations of the members are inside the class,
and the name of a member is inside its declaration. -/
theorem c83_inside (c : ClassFile) (len : Nat) (root : Node) (l : Limits) (loc : ClassLocation)
    (h : locate c len (some (root, false)) l = some (.ok (some loc))) (hn : Nested root.info.start root.info.stop root.kids) :
    loc.nameRange.In loc.declaration ∧
      (∀ m ∈ loc.methods, m.declaration.In loc.declaration ∧ m.nameRange.In m.declaration) ∧
      (∀ f ∈ loc.fields, f.declaration.In loc.declaration ∧ f.nameRange.In f.declaration) := by
  obtain ⟨_, _, root', h3, _, package, classes, cls, name, body, _, _, h7, h8, h9, rfl⟩ := locate_inv c len _ l loc h
  cases h3
  obtain ⟨a, b, hd, _⟩ := ((c83_class classes root.kids []).1 cls).1 h7
  have hcls := nested_decl root.kids _ _ [] hn (classes, cls) (by rw [hd]; simp)
  have hname := nested_child cls name .name hcls.2 h8
  have hbody := nested_child cls body .body hcls.2 h9
  refine ⟨hname.1, ?_, ?_⟩
  · intro m hm
    obtain ⟨x, _, hx⟩ := List.mem_filterMap.1 hm
    obtain ⟨_, ps, cs, c, _, h2, h3, rfl⟩ := (c83_method x _ m).1 hx
    have hc := allFits_mem x ps _ cs h2 c (decides_mem _ _ _ _ h3)
    have hk := nested_kid body c.1 hbody.2 (List.mem_filter.1 hc.1).1
    exact ⟨hk.1.trans hbody.1, (nested_child c.1 c.2.1 .name hk.2 hc.2.named).1⟩
  · intro f hf
    obtain ⟨x, _, hx⟩ := List.mem_filterMap.1 hf
    obtain ⟨n, hmem, nm, h2, rfl, _⟩ := c83_field x _ f hx
    have hk := nested_kid body n hbody.2 (List.mem_filter.1 hmem).1
    refine ⟨hk.1.trans hbody.1, ?_⟩
    rcases h2 with ⟨_, h2, _⟩ | ⟨_, d, hd', _, h2, _⟩
    · exact (nested_child n nm .name hk.2 h2).1
    · have hk2 := nested_kid n d hk.2 hd'
      exact (nested_child d nm .name hk2.2 h2).1.trans hk2.1

/-! ### Examples -/

def leaf (k : Kind) (f : Field) (a b : Nat) (t : Text) : Forest → Forest := Forest.cons ⟨k, f, true, a, b, 0, 0, t⟩ .nil
def node (k : Kind) (f : Field) (a b : Nat) (kids : Forest) : Forest → Forest := Forest.cons ⟨k, f, true, a, b, 0, 0, []⟩ kids
def rows (r s : Nat) : Forest → Forest
  | .nil => .nil
  | .cons i k n => .cons { i with row := r, endRow := s } k n

def tA : Text := ['A']
def tB : Text := ['B']
def tF : Text := ['f']
def tX : Text := ['x']
def tInt : Text := ['i', 'n', 't']
def tString : Text := ['S', 't', 'r', 'i', 'n', 'g']
def tP : Text := ['p']
def jString : Ty := .object ['j', 'a', 'v', 'a', '/', 'l', 'a', 'n', 'g', '/', 'S', 't', 'r', 'i', 'n', 'g']
def jObject : Ty := .object ['j', 'a', 'v', 'a', '/', 'l', 'a', 'n', 'g', '/', 'O', 'b', 'j', 'e', 'c', 't']

/-- A parameter of a type. -/
def param (a : Nat) (t : Text) (next : Forest) : Forest :=
  node .formal .none a (a + 10) (leaf .ty .type_ a (a + 6) t .nil) next

/-- A method with a name and parameters. -/
def meth (a : Nat) (name : Text) (ps : Forest) (next : Forest) : Forest :=
  node .method .none a (a + 50) (leaf .other .name (a + 5) (a + 6) name (node .other .parameters (a + 10) (a + 40) ps .nil)) next

/-- A class with a name and a body. -/
def cls (k : Kind) (a : Nat) (name : Text) (body : Forest) (next : Forest) : Forest :=
  node k .none a (a + 300) (leaf .other .name (a + 6) (a + 7) name (node .other .body (a + 10) (a + 300) body .nil)) next

def packageDecl (next : Forest) : Forest :=
  leaf .package .none 0 10 ['p', 'a', 'c', 'k', 'a', 'g', 'e', ' ', 'p', ' ', ';'] next

def program (kids : Forest) : Node := ⟨⟨.other, .none, true, 0, 1000, 0, 99, []⟩, kids⟩

def limits : Limits := ⟨100000, 1000, 50⟩

def nameA : Text := ['p', '/', 'A']
def nameAB : Text := ['p', '/', 'A', '$', 'B']

def method (name : MethodName) (ps : List Ty) : Method := ⟨name, [], some ps, false, none⟩

def exBody : Forest :=
  node .field .none 120 130 (node .declarator .none 124 129 (leaf .other .name 124 125 tX .nil) .nil)
    (meth 140 tF (param 150 tInt .nil) (meth 200 tF (param 210 tString .nil) (cls .class_ 260 tB .nil .nil)))

def exTree : Node := program (packageDecl (cls .class_ 100 tA exBody .nil))

/-- A class with a field, two overloads and a class inside. -/
theorem c83_example :
    locate ⟨nameA, [method (.name tF) [jString], method .clinit [], method (.name tF) [.int], method .init []], [⟨tX, []⟩, ⟨tF, []⟩]⟩
        500 (some (exTree, false)) limits =
      some (.ok (some ⟨nameA, ⟨100, 400⟩, ⟨106, 107⟩,
        [⟨method (.name tF) [jString], ⟨200, 250⟩, ⟨205, 206⟩⟩, ⟨method (.name tF) [.int], ⟨140, 190⟩, ⟨145, 146⟩⟩],
        [⟨⟨tX, []⟩, ⟨120, 130⟩, ⟨124, 125⟩⟩]⟩)) ∧
    locate ⟨nameAB, [], []⟩ 500 (some (exTree, false)) limits =
      some (.ok (some ⟨nameAB, ⟨260, 560⟩, ⟨266, 267⟩, [], []⟩)) ∧
    locate ⟨nameA, [], []⟩ 500 (some (exTree, false)) ⟨100000, 10, 50⟩ = some (.err .nodes) ∧
    locate ⟨tA, [], []⟩ 500 (some (exTree, false)) limits = some (.ok none) ∧
    normalize ['M', 'a', 'p', '<', 'K', ',', ' ', 'L', '<', 'V', '>', '>', ' ', '[', ']'] = ['M', 'a', 'p', '[', ']'] := by
  decide +kernel

/-- Not so: a class inside a method is taken for the class inside the class that has its name. -/
theorem c83_local_fails :
    let tree := program (packageDecl (cls .class_ 100 tA
      (node .method .none 120 190 (leaf .other .name 125 126 tF (node .other .parameters 127 129 .nil
        (node .other .body 130 190 (cls .class_ 140 tB .nil .nil) .nil)))
        (cls .class_ 260 tB .nil .nil)) .nil))
    locate ⟨nameAB, [], []⟩ 500 (some (tree, false)) limits =
      some (.ok (some ⟨nameAB, ⟨140, 440⟩, ⟨146, 147⟩, [], []⟩)) := by
  decide +kernel

/-- Not so: two methods of a class are located at one declaration, though the types of one of them are others; a bridge method, or an
overload that the source does not have. -/
theorem c83_alone_fails :
    let ns := (meth 140 tF (param 150 tInt .nil) .nil).nodes
    (locateMethod (method (.name tF) [.int]) ns).map (·.declaration) = some ⟨140, 190⟩ ∧
    (locateMethod (method (.name tF) [jObject]) ns).map (·.declaration) = some ⟨140, 190⟩ := by
  decide +kernel

/-- Not so: methods and fields of an enum are not located, since the grammar puts them into a node of their own (here `other`) in the
body. -/
theorem c83_enum_fails :
    let tree := program (packageDecl (cls .enum_ 100 tA
      (node .enumConstant .none 112 113 (leaf .other .name 112 113 tX .nil)
        (node .other .none 115 300 (meth 140 tF .nil .nil) .nil)) .nil))
    locate ⟨nameA, [method (.name tF) []], [⟨tX, []⟩]⟩ 500 (some (tree, false)) limits =
      some (.ok (some ⟨nameA, ⟨100, 400⟩, ⟨106, 107⟩, [], [⟨⟨tX, []⟩, ⟨112, 113⟩, ⟨112, 113⟩⟩]⟩)) := by
  decide +kernel

/-- Not so: the constants of an interface are not located, since the grammar has another kind for them. -/
theorem c83_constant_fails :
    let tree := program (packageDecl (cls .interface_ 100 tA
      (node .other .none 120 130 (node .declarator .none 124 129 (leaf .other .name 124 125 tX .nil) .nil) .nil) .nil))
    locate ⟨nameA, [], [⟨tX, []⟩]⟩ 500 (some (tree, false)) limits =
      some (.ok (some ⟨nameA, ⟨100, 400⟩, ⟨106, 107⟩, [], []⟩)) := by
  decide +kernel

/-- Not so: a method whose receiver is written as a parameter is not located. -/
theorem c83_receiver_fails :
    let ns := (meth 140 tF (node .receiver .none 150 156 (leaf .ty .none 150 151 tA .nil) (param 160 tInt .nil)) .nil).nodes
    locateMethod (method (.name tF) [.int]) ns = none := by
  decide +kernel

/-- Not so: the short constructor of a record is not located for the descriptor of the constructor, and it hides the constructor
without parameters. -/
theorem c83_compact_fails :
    let short : Forest → Forest := node .compact .none 120 130 (leaf .other .name 120 121 tA .nil)
    let plain := node .constructor .none 140 160 (leaf .other .name 140 141 tA (node .other .parameters 141 143 .nil .nil)) .nil
    locateMethod (method .init [.int]) (short plain).nodes = none ∧
    locateMethod (method .init []) (short plain).nodes = none ∧
    (locateMethod (method .init []) plain.nodes).map (·.declaration) = some ⟨140, 160⟩ := by
  decide +kernel

/-- Not so: the word `static` in the text of an annotation makes a method static. -/
theorem c83_annotation_fails :
    let ms := leaf .modifiers .none 140 150 ['@', 'D', '(', '"', 'a', ' ', 's', 't', 'a', 't', 'i', 'c', ' ', 'b', '"', ')']
    let ns := (node .method .none 140 190 (ms (leaf .other .name 155 156 tF (node .other .parameters 157 159 .nil .nil))) .nil).nodes
    locateMethod (method (.name tF) []) ns = none := by
  decide +kernel

/-- Not so: of two overloads one whose type is a type variable is not located, nor one whose array is written behind its name. -/
theorem c83_variable_fails :
    let ns := (meth 140 tF (param 150 ['T'] .nil) (meth 200 tF (param 210 tString .nil) .nil)).nodes
    locateMethod (method (.name tF) [jObject]) ns = none ∧
    (locateMethod (method (.name tF) [jString]) ns).map (·.declaration) = some ⟨200, 250⟩ ∧
    locateMethod (method (.name tF) [.array jString]) ns = none := by
  decide +kernel

end Verif.JavaSource
