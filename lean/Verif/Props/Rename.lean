import Verif.Spec.Rename
/-! C47: renaming a local variable. -/
namespace Verif.Rename

/-- What the visitor sees of an occurrence: name, scope number, place. -/
abbrev Seen := Nat × Nat × Nat × Nat

def seen (stack : List Nat) (name depth start stop : Nat) : List Seen :=
  match stack[depth]? with
  | some d => [(name, d, start, stop)]
  | none => []

mutual
def emit (stack : List Nat) (c : Nat) : Node → List Seen
  | .use name depth start stop => seen stack name depth start stop
  | .write name depth start stop value => seen stack name depth start stop ++ emitAll stack c value
  | .param name start stop default => seen stack name 0 start stop ++ emitAll stack c default
  | .silent _ _ _ default => emitAll stack c default
  | .scope _ head body => emitAll (c :: stack) (c + 1) head ++ emitAll (c :: stack) (c + 1 + (labelsAll head).length) body
  | .other children => emitAll stack c children

def emitAll (stack : List Nat) (c : Nat) : List Node → List Seen
  | [] => []
  | n :: l => emit stack c n ++ emitAll stack (c + (labels n).length) l
end

/-- What happens to the rest of the state. -/
def act (s : St) (e : Seen) : St :=
  match s.phase with
  | .findTarget =>
    if s.targetName.isNone && (decide (e.2.2.1 ≤ s.cursor) && decide (s.cursor < e.2.2.2)) then
      { s with targetName := some e.1, targetScope := some e.2.1 }
    else s
  | .collect =>
    match s.targetName, s.targetScope with
    | some n, some d => if e.1 = n ∧ e.2.1 = d then { s with ranges := s.ranges ++ [e.2.2] } else s
    | _, _ => s

def moved (s : St) (stack : List Nat) (next : Nat) : St := { s with stack := stack, next := next }

theorem act_moved (s : St) (e : Seen) (st : List Nat) (nx : Nat) : act (moved s st nx) e = moved (act s e) st nx := by
  obtain ⟨cu, sk, nt, tn, ts, rs, ph⟩ := s
  unfold act moved
  cases ph with
  | findTarget => simp only; split <;> rfl
  | collect =>
    cases tn with
    | none => rfl
    | some n =>
      cases ts with
      | none => rfl
      | some d => simp only; split <;> rfl

theorem fold_moved (l : List Seen) (s : St) (st : List Nat) (nx : Nat) : l.foldl act (moved s st nx) = moved (l.foldl act s) st nx := by
  induction l generalizing s with
  | nil => rfl
  | cons e l ih => simp only [List.foldl_cons, act_moved, ih]

theorem moved_moved (s : St) (a b : List Nat) (x y : Nat) : moved (moved s a x) b y = moved s b y := rfl

theorem process_eq (s : St) (name depth start stop : Nat) :
    process s name depth start stop = (seen s.stack name depth start stop).foldl act s := by
  unfold process seen
  cases s.stack[depth]? with
  | none => rfl
  | some d =>
    simp only [List.foldl_cons, List.foldl_nil]
    unfold act
    cases s.phase <;> rfl

theorem process_moved (s : St) (st : List Nat) (c name depth start stop : Nat) :
    process (moved s st c) name depth start stop = moved ((seen st name depth start stop).foldl act s) st c := by
  rw [process_eq, fold_moved]; rfl

mutual
theorem visit_eq : ∀ (n : Node) (s : St) (st : List Nat) (c : Nat),
    visit n (moved s st c) = moved ((emit st c n).foldl act s) st (c + (labels n).length)
  | .use name depth start stop, s, st, c => by
    simp only [visit, emit, labels, List.length_nil, Nat.add_zero, process_moved]
  | .write name depth start stop value, s, st, c => by
    simp only [visit, emit, labels, process_moved, visitAll_eq, List.foldl_append]
  | .param name start stop default, s, st, c => by
    simp only [visit, emit, labels, process_moved, visitAll_eq, List.foldl_append]
  | .silent name start stop default, s, st, c => by
    simp only [visit, emit, labels, visitAll_eq]
  | .scope label head body, s, st, c => by
    have h1 : push (moved s st c) = moved s (c :: st) (c + 1) := rfl
    simp only [visit, emit, labels, h1, visitAll_eq, List.foldl_append, List.length_cons, List.length_append]
    have h2 : ∀ x k, pop (moved x (c :: st) k) = moved x st k := fun _ _ => rfl
    rw [h2]
    congr 1
    omega
  | .other children, s, st, c => by
    simp only [visit, emit, labels, visitAll_eq]

theorem visitAll_eq : ∀ (l : List Node) (s : St) (st : List Nat) (c : Nat),
    visitAll l (moved s st c) = moved ((emitAll st c l).foldl act s) st (c + (labelsAll l).length)
  | [], s, st, c => by simp [visitAll, emitAll, labelsAll]
  | n :: l, s, st, c => by
    simp only [visitAll, emitAll, labelsAll, visit_eq, visitAll_eq, List.foldl_append, List.length_append, Nat.add_assoc]
end

/-! ### scope numbers and scopes -/

/-- The scope a number stands for. -/
def scopeOf (L : List Nat) : Nat → Option Nat
  | 0 => none
  | i + 1 => L[i]?

def toOcc (L : List Nat) (e : Seen) : Occ := ⟨e.1, scopeOf L e.2.1, e.2.2.1, e.2.2.2⟩

theorem seen_occ (L : List Nat) (stack : List Nat) (name depth start stop : Nat) :
    occ (stack.map (scopeOf L)) name depth start stop = (seen stack name depth start stop).map (toOcc L) := by
  unfold occ seen
  rw [List.getElem?_map]
  cases stack[depth]? <;> rfl

/-- The labels of a piece stand in `L` where its numbers say. -/
def Placed (L : List Nat) (c : Nat) (ls : List Nat) : Prop := ∀ j, j < ls.length → scopeOf L (c + j) = ls[j]?

theorem Placed.left {L : List Nat} {c : Nat} {a b : List Nat} (h : Placed L c (a ++ b)) : Placed L c a := by
  intro j hj
  rw [h j (by simp; omega), List.getElem?_append_left hj]

theorem Placed.right {L : List Nat} {c : Nat} {a b : List Nat} (h : Placed L c (a ++ b)) : Placed L (c + a.length) b := by
  intro j hj
  have := h (a.length + j) (by simp; omega)
  rw [← Nat.add_assoc] at this
  rw [this, List.getElem?_append_right (by omega)]
  congr 1; omega

mutual
theorem emit_occs (L : List Nat) : ∀ (n : Node) (stack : List Nat) (c : Nat), Plain n → Placed L c (labels n) →
    occs (stack.map (scopeOf L)) n = (emit stack c n).map (toOcc L)
  | .use name depth start stop, stack, c, _, _ => by simp only [occs, emit, seen_occ]
  | .write name depth start stop value, stack, c, hp, hl => by
    simp only [occs, emit, seen_occ, List.map_append]
    rw [emitAll_occs L value stack c hp hl]
  | .param name start stop default, stack, c, hp, hl => by
    simp only [occs, emit, seen_occ, List.map_append]
    rw [emitAll_occs L default stack c hp hl]
  | .silent name start stop default, stack, c, hp, _ => by cases hp
  | .scope label head body, stack, c, hp, hl => by
    obtain ⟨h1, h2, h3⟩ := hp
    simp only [occs, emit, List.map_append]
    simp only [labels] at hl
    have h0 : scopeOf L c = some label := by simpa using hl 0 (by simp)
    have hr : Placed L (c + 1) (labelsAll head ++ labelsAll body) := Placed.right (a := [label]) hl
    have e1 := emitAll_occs L head (c :: stack) (c + 1) h2 hr.left
    have e2 := emitAll_occs L body (c :: stack) (c + 1 + (labelsAll head).length) h3 hr.right
    rw [← e1, ← e2, List.map_cons, h0, h1, h1 (some label :: _)]
  | .other children, stack, c, hp, hl => by
    simp only [occs, emit]
    exact emitAll_occs L children stack c hp hl

theorem emitAll_occs (L : List Nat) : ∀ (l : List Node) (stack : List Nat) (c : Nat), PlainAll l → Placed L c (labelsAll l) →
    occsAll (stack.map (scopeOf L)) l = (emitAll stack c l).map (toOcc L)
  | [], stack, c, _, _ => rfl
  | n :: l, stack, c, hp, hl => by
    simp only [labelsAll] at hl
    simp only [occsAll, emitAll, List.map_append]
    rw [emit_occs L n stack c hp.1 hl.left, emitAll_occs L l stack _ hp.2 hl.right]
end

theorem seen_lt {stack : List Nat} {name depth start stop : Nat} {e : Seen} (h : e ∈ seen stack name depth start stop) : e.2.1 ∈ stack := by
  unfold seen at h
  split at h
  · rw [List.mem_singleton] at h
    subst h
    exact List.mem_of_getElem? (by assumption)
  · cases h

mutual
/-- Only numbers given out are seen. -/
theorem emit_lt : ∀ (n : Node) (stack : List Nat) (c : Nat), (∀ i ∈ stack, i < c) → ∀ e ∈ emit stack c n, e.2.1 < c + (labels n).length
  | .use name depth start stop, stack, c, hs, e, he => by
    simp only [emit] at he
    have := hs _ (seen_lt he)
    omega
  | .write name depth start stop value, stack, c, hs, e, he => by
    simp only [emit, List.mem_append, labels] at he ⊢
    rcases he with he | he
    · have := hs _ (seen_lt he); omega
    · exact emitAll_lt value stack c hs e he
  | .param name start stop default, stack, c, hs, e, he => by
    simp only [emit, List.mem_append, labels] at he ⊢
    rcases he with he | he
    · have := hs _ (seen_lt he); omega
    · exact emitAll_lt default stack c hs e he
  | .silent name start stop default, stack, c, hs, e, he => by
    simp only [emit, labels] at he ⊢
    exact emitAll_lt default stack c hs e he
  | .scope label head body, stack, c, hs, e, he => by
    simp only [emit, List.mem_append, labels, List.length_cons, List.length_append] at he ⊢
    have hs' : ∀ k, c + 1 ≤ k → ∀ i ∈ c :: stack, i < k := by
      intro k hk i hi
      rcases List.mem_cons.mp hi with rfl | hi
      · omega
      · have := hs i hi; omega
    rcases he with he | he
    · have := emitAll_lt head (c :: stack) (c + 1) (hs' _ (Nat.le_refl _)) e he; omega
    · have := emitAll_lt body (c :: stack) _ (hs' _ (by omega)) e he; omega
  | .other children, stack, c, hs, e, he => by
    simp only [emit, labels] at he ⊢
    exact emitAll_lt children stack c hs e he

theorem emitAll_lt : ∀ (l : List Node) (stack : List Nat) (c : Nat), (∀ i ∈ stack, i < c) → ∀ e ∈ emitAll stack c l, e.2.1 < c + (labelsAll l).length
  | [], stack, c, _, e, he => by simp only [emitAll] at he; cases he
  | n :: l, stack, c, hs, e, he => by
    simp only [emitAll, List.mem_append, labelsAll, List.length_append] at he ⊢
    rcases he with he | he
    · have := emit_lt n stack c hs e he; omega
    · have := emitAll_lt l stack (c + (labels n).length) (fun i hi => by have := hs i hi; omega) e he; omega
end

theorem scopeOf_inj {L : List Nat} (hn : L.Nodup) {i j : Nat} (hi : i ≤ L.length) (hj : j ≤ L.length) (h : scopeOf L i = scopeOf L j) : i = j := by
  cases i with
  | zero =>
    cases j with
    | zero => rfl
    | succ j =>
      simp only [scopeOf] at h
      rw [List.getElem?_eq_getElem (by omega)] at h; cases h
  | succ i =>
    cases j with
    | zero =>
      simp only [scopeOf] at h
      rw [List.getElem?_eq_getElem (by omega)] at h; cases h
    | succ j =>
      simp only [scopeOf] at h
      have := (List.getElem?_inj (by omega) hn).mp h
      omega

/-! ### the two passes -/

theorem find_pass (l : List Seen) (s : St) (hp : s.phase = .findTarget) (hn : s.targetName = none) :
    l.foldl act s = match l.find? fun e => decide (e.2.2.1 ≤ s.cursor) && decide (s.cursor < e.2.2.2) with
      | none => s
      | some e => { s with targetName := some e.1, targetScope := some e.2.1 } := by
  have done : ∀ (l : List Seen) (t : St), t.phase = .findTarget → t.targetName.isNone = false → l.foldl act t = t := by
    intro l
    induction l with
    | nil => intro t _ _; rfl
    | cons e l ih =>
      intro t h1 h2
      have : act t e = t := by simp [act, h1, h2]
      rw [List.foldl_cons, this, ih t h1 h2]
  induction l with
  | nil => rfl
  | cons e l ih =>
    rw [List.foldl_cons, List.find?_cons]
    cases hc : (decide (e.2.2.1 ≤ s.cursor) && decide (s.cursor < e.2.2.2)) with
    | true =>
      simp only
      have : act s e = { s with targetName := some e.1, targetScope := some e.2.1 } := by simp [act, hp, hn, hc]
      rw [this]
      exact done l _ hp rfl
    | false =>
      simp only
      have : act s e = s := by simp [act, hp, hc]
      rw [this, ih]

theorem collect_pass (l : List Seen) (s : St) (hp : s.phase = .collect) {n d : Nat} (hn : s.targetName = some n) (hd : s.targetScope = some d) :
    (l.foldl act s).ranges = s.ranges ++ (l.filter fun e => decide (e.1 = n ∧ e.2.1 = d)).map (·.2.2) := by
  induction l generalizing s with
  | nil => simp
  | cons e l ih =>
    rw [List.foldl_cons, List.filter_cons]
    by_cases hc : e.1 = n ∧ e.2.1 = d
    · have : act s e = { s with ranges := s.ranges ++ [e.2.2] } := by simp [act, hp, hn, hd, hc]
      rw [this, ih _ (by exact hp) (by exact hn) (by exact hd)]
      simp [hc]
    · have : act s e = s := by simp [act, hp, hn, hd, hc]
      rw [this, ih s hp hn hd]
      simp [hc]

/-- **C47**, partial: in a file without keyword parameters, block-local variables and local variables where a class, `class <<`
or definition is introduced, renaming changes exactly the occurrences of the variable under the cursor, each once and in order.
Missing: those constructs, where occurrences are overlooked (`c47_superclass_missed`, `c47_keyword_missed`). -/
theorem c47_rename_partial (cursor : Nat) (root : Node) (hp : Plain root) (hl : (labels root).Nodup) :
    findRenameTargets cursor root = renamed cursor root := by
  have hplaced : Placed (labels root) 1 (labels root) := by
    intro j hj
    rw [show 1 + j = j + 1 by omega]
    rfl
  have ho : occs [none] root = (emit [0] 1 root).map (toOcc (labels root)) := emit_occs (labels root) root [0] 1 hp hplaced
  have hlt := emit_lt root [0] 1 (by simp)
  unfold findRenameTargets renamed
  simp only
  rw [show ({ cursor, stack := [0], next := 1, targetName := none, targetScope := none, ranges := [], phase := .findTarget } : St) =
    moved { cursor, stack := [0], next := 1, targetName := none, targetScope := none, ranges := [], phase := .findTarget } [0] 1 from rfl, visit_eq]
  generalize hE : emit [0] 1 root = E at ho hlt
  rw [find_pass E _ rfl rfl, ho, List.find?_map]
  rw [show ((fun o : Occ => decide (o.start ≤ cursor) && decide (cursor < o.stop)) ∘ toOcc (labels root)) =
    fun e : Seen => decide (e.2.2.1 ≤ cursor) && decide (cursor < e.2.2.2) from rfl]
  cases hf : E.find? fun e : Seen => decide (e.2.2.1 ≤ cursor) && decide (cursor < e.2.2.2) with
  | none => simp [moved]
  | some t =>
    simp only [moved, Option.isNone_some, Bool.or_self, Bool.false_eq_true, if_false, Option.map_some]
    rw [show ({ cursor := cursor, stack := [0], next := 1, targetName := some t.1, targetScope := some t.2.1, ranges := [], phase := .collect } : St) =
      moved { cursor := cursor, stack := [0], next := 1, targetName := some t.1, targetScope := some t.2.1, ranges := [], phase := .collect } [0] 1 from rfl, visit_eq, hE]
    simp only [moved]
    rw [collect_pass E _ rfl rfl rfl, List.nil_append, List.filter_map, List.map_map]
    have ht := List.mem_of_find?_eq_some hf
    have : E.filter (fun e => decide (e.1 = t.1 ∧ e.2.1 = t.2.1)) =
        E.filter ((fun o => decide (Same o (toOcc (labels root) t))) ∘ toOcc (labels root)) := by
      apply List.filter_congr
      intro e he
      simp only [Function.comp, decide_eq_decide]
      constructor
      · rintro ⟨h1, h2⟩; exact ⟨h1, by simp [toOcc, h2]⟩
      · rintro ⟨h1, h2⟩
        refine ⟨h1, scopeOf_inj hl ?_ ?_ h2⟩
        · have := hlt e he; omega
        · have := hlt t ht; omega
    rw [this]
    rfl

/-! ### examples -/

/-- Example: `x = 1; f { |y| x + y }; g { |x| x }; x`. -/
theorem c47_example :
    let root := Node.other [.write 1 0 0 1 [], .scope 10 [] [.param 2 11 12 [], .use 1 1 14 15, .use 2 0 18 19],
      .scope 20 [] [.param 1 25 26 [], .use 1 0 28 29], .use 1 0 33 34]
    findRenameTargets 14 root = [(0, 1), (14, 15), (33, 34)] ∧ findRenameTargets 28 root = [(25, 26), (28, 29)] ∧
    findRenameTargets 11 root = [(11, 12), (18, 19)] ∧ findRenameTargets 30 root = [] := by
  decide

/-- **C47** fails: `base = Object; class A < base; end`: the superclass is looked for in the class, so renaming overlooks it. -/
theorem c47_superclass_missed :
    let root := Node.other [.write 1 0 0 4 [], .scope 15 [.use 1 0 25 29] []]
    findRenameTargets 0 root = [(0, 4)] ∧ renamed 0 root = [(0, 4), (25, 29)] := by
  decide

/-- **C47** fails: `def m(k:) k end`: the keyword itself is not renamed. -/
theorem c47_keyword_missed :
    let root := Node.other [.scope 0 [] [.silent 1 6 7 [], .use 1 0 10 11]]
    findRenameTargets 10 root = [(10, 11)] ∧ renamed 10 root = [(6, 7), (10, 11)] := by
  decide

end Verif.Rename
