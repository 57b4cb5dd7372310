import Verif.Spec.Lens
import Verif.Lemmas.Sort
/-!
Lemmas about the lenses: the orders, the visitor with its stack, the search for classes.
-/
namespace Verif.Lens

/-! ### Orders -/

theorem lexLe_total (a b : List Nat) : lexLe a b = true ∨ lexLe b a = true := by
  simp only [lexLe, decide_eq_true_eq]
  exact List.le_total a b

theorem lexLe_trans {a b c : List Nat} (h : lexLe a b = true) (k : lexLe b c = true) : lexLe a c = true := by
  simp only [lexLe, decide_eq_true_eq] at *
  exact List.le_trans h k

theorem lexLe_antisymm {a b : List Nat} (h : lexLe a b = true) (k : lexLe b a = true) : a = b := by
  simp only [lexLe, decide_eq_true_eq] at *
  exact List.le_antisymm h k

theorem key_isOrder {α : Type} (f : α → List Nat) : IsOrder (fun a b => lexLe (f a) (f b)) :=
  ⟨fun a b => lexLe_total (f a) (f b), fun _ _ _ h k => lexLe_trans h k⟩

theorem textLe_isOrder {α : Type} (u : α → Name) (f : α → List Nat) : IsOrder (fun a b => textLe (u a) (f a) (u b) (f b)) := by
  constructor
  · intro a b
    simp only [textLe]
    by_cases h : u a = u b
    · rw [if_pos h, if_pos h.symm]
      exact lexLe_total _ _
    · rw [if_neg h, if_neg (fun k => h k.symm)]
      exact lexLe_total _ _
  · intro a b c
    simp only [textLe]
    by_cases h : u a = u b
    · rw [if_pos h, h]
      by_cases k : u b = u c
      · rw [if_pos k, if_pos k]
        exact lexLe_trans
      · rw [if_neg k, if_neg k]
        exact fun _ x => x
    · rw [if_neg h]
      by_cases k : u b = u c
      · rw [if_pos k, ← k, if_neg h]
        exact fun x _ => x
      · rw [if_neg k]
        intro x y
        by_cases l : u a = u c
        · rw [← l] at y
          exact absurd (lexLe_antisymm x y) h
        · rw [if_neg l]
          exact lexLe_trans x y

theorem locLe_isOrder : IsOrder locLe := textLe_isOrder Loc.uri (fun l => [l.line, l.char])

theorem usageLe_isOrder : IsOrder usageLe := by
  have o := textLe_isOrder (fun a : Mix × Loc => a.2.uri) (fun a => [a.2.line, a.2.char])
  constructor
  · intro a b
    simp only [usageLe]
    by_cases h : a.1.key = b.1.key
    · rw [if_pos h, if_pos h.symm]
      exact o.total a b
    · rw [if_neg h, if_neg (fun k => h k.symm)]
      simp only [decide_eq_true_eq]
      omega
  · intro a b c
    simp only [usageLe]
    by_cases h : a.1.key = b.1.key
    · rw [if_pos h, h]
      by_cases k : b.1.key = c.1.key
      · rw [if_pos k, if_pos k]
        exact o.trans a b c
      · rw [if_neg k, if_neg k]
        exact fun _ x => x
    · rw [if_neg h]
      by_cases k : b.1.key = c.1.key
      · rw [if_pos k, ← k, if_neg h]
        exact fun x _ => x
      · rw [if_neg k]
        simp only [decide_eq_true_eq]
        intro x y
        rw [if_neg (by omega)]
        simp only [decide_eq_true_eq]
        omega

/-! ### The search -/

/-- The classes that one edge contributes. -/
def gives (g : Graph) (t : Ns) (e : EdgeFact) : List Range :=
  if follows t e = true then ((nodesFor g e.source).filter (fun n => n.kind = .cls)).map NodeFact.range else []

/-- The module that one edge puts into the queue. -/
def pushes (g : Graph) (t : Ns) (e : EdgeFact) : List Ns :=
  if follows t e = true ∧ (nodesFor g e.source).any (fun n => n.kind = .cls) = false ∧
      (nodesFor g e.source).any (fun n => n.kind = .module) = true then [e.source] else []

theorem visitEdge_eq (g : Graph) (t : Ns) (s : Search) (e : EdgeFact) :
    visitEdge g t s e = ⟨s.result ++ gives g t e, pushes g t e ++ s.queue, s.visited⟩ := by
  simp only [visitEdge, gives, pushes]
  by_cases h : follows t e = false
  · simp [h]
  · have h' : follows t e = true := by simpa using h
    rw [if_neg h, if_pos h']
    by_cases c : (nodesFor g e.source).any (fun n => n.kind = .cls) = true
    · rw [if_pos c, if_neg (fun x => by rw [c] at x; cases x.2.1)]
      rfl
    · rw [if_neg c]
      have c' : (nodesFor g e.source).any (fun n => n.kind = .cls) = false := by simpa using c
      have nil : (nodesFor g e.source).filter (fun n => n.kind = .cls) = [] := by
        rw [List.filter_eq_nil_iff]
        intro n hn k
        rw [List.any_eq_false] at c'
        exact c' n hn k
      rw [nil]
      by_cases m : (nodesFor g e.source).any (fun n => n.kind = .module) = true
      · rw [if_pos m, if_pos ⟨h', c', m⟩]
        simp
      · rw [if_neg m, if_neg (fun x => m x.2.2)]
        simp

theorem fold_eq (g : Graph) (t : Ns) (es : List EdgeFact) (s : Search) :
    es.foldl (visitEdge g t) s = ⟨s.result ++ es.flatMap (gives g t), (es.reverse.flatMap (pushes g t)) ++ s.queue, s.visited⟩ := by
  induction es generalizing s with
  | nil => simp
  | cons e es ih =>
    rw [List.foldl_cons, visitEdge_eq, ih]
    simp

theorem pushes_length (g : Graph) (t : Ns) (es : List EdgeFact) : (es.flatMap (pushes g t)).length ≤ es.length := by
  induction es with
  | nil => simp
  | cons e es ih =>
    rw [List.flatMap_cons, List.length_append, List.length_cons]
    have : (pushes g t e).length ≤ 1 := by
      simp only [pushes]
      split <;> simp
    omega

theorem mem_pushes {g : Graph} {t : Ns} {e : EdgeFact} {n : Ns} (h : n ∈ pushes g t e) : n = e.source := by
  simp only [pushes] at h
  split at h
  · simpa using h
  · cases h

theorem mem_flat_pushes {g : Graph} {t : Ns} {es : List EdgeFact} {n : Ns} (h : n ∈ es.flatMap (pushes g t)) :
    ∃ e ∈ es, n = e.source := by
  obtain ⟨e, he, k⟩ := List.mem_flatMap.mp h
  exact ⟨e, he, mem_pushes k⟩

/-- How many of the candidates are not visited. -/
def left (cands visited : List Ns) : Nat := (cands.filter (fun n => decide (n ∉ visited))).length

theorem left_le (cands visited : List Ns) : left cands visited ≤ cands.length := List.length_filter_le _ _

theorem left_mono (cands visited : List Ns) (t : Ns) : left cands (visited ++ [t]) ≤ left cands visited := by
  simp only [left]
  induction cands with
  | nil => simp
  | cons c cs ih =>
    simp only [List.filter_cons]
    by_cases hv : c ∈ visited
    · have : c ∈ visited ++ [t] := by simp [hv]
      simp [hv] at *
      exact ih
    · by_cases ht : c = t
      · subst ht
        simp [hv] at *
        omega
      · simp [hv, ht] at *
        exact ih

theorem left_lt {cands visited : List Ns} {t : Ns} (h : t ∈ cands) (hv : t ∉ visited) :
    left cands (visited ++ [t]) < left cands visited := by
  induction cands with
  | nil => cases h
  | cons c cs ih =>
    have mono := left_mono cs visited t
    simp only [left, List.filter_cons] at *
    by_cases hc : c = t
    · subst hc
      simp [hv] at *
      omega
    · have h' : t ∈ cs := by
        rcases List.mem_cons.mp h with h | h
        · exact absurd h.symm hc
        · exact h
      have := ih h'
      by_cases hcv : c ∈ visited
      · simp [hcv, hc] at *
        exact this
      · simp [hcv, hc] at *
        exact this

/-- What the search keeps while it runs. -/
structure Inv (g : Graph) (Reach : Ns → Prop) (s : Search) : Prop where
  sound : ∀ n, n ∈ s.queue ∨ n ∈ s.visited → Reach n
  result : ∀ r, r ∈ s.result → ∃ t, Reach t ∧ ∃ e ∈ g.edges, r ∈ gives g t e
  found : ∀ t ∈ s.visited, ∀ e ∈ g.edges, ∀ r ∈ gives g t e, r ∈ s.result
  closed : ∀ t ∈ s.visited, ∀ e ∈ g.edges, ∀ n ∈ pushes g t e, n ∈ s.visited ∨ n ∈ s.queue

theorem search_inv (g : Graph) (Reach : Ns → Prop) (step : ∀ t, Reach t → ∀ e ∈ g.edges, ∀ n ∈ pushes g t e, Reach n)
    (cands : List Ns) (hc : ∀ e ∈ g.edges, e.source ∈ cands) (n : Nat) (s : Search) (inv : Inv g Reach s)
    (hq : ∀ x ∈ s.queue, x ∈ cands)
    (fuel : s.queue.length + (g.edges.length + 1) * left cands s.visited ≤ n) :
    Inv g Reach (searchLoop g n s) ∧ (searchLoop g n s).queue = [] ∧
      ∀ x, x ∈ s.queue ∨ x ∈ s.visited → x ∈ (searchLoop g n s).visited := by
  induction n generalizing s with
  | zero =>
    have : s.queue = [] := List.length_eq_zero_iff.mp (by omega)
    refine ⟨inv, this, ?_⟩
    intro x hx
    rw [this] at hx
    exact hx.resolve_left (by simp)
  | succ n ih =>
    simp only [searchLoop]
    cases hs : s.queue with
    | nil =>
      refine ⟨inv, hs, ?_⟩
      intro x hx
      exact hx.resolve_left (by simp)
    | cons t q =>
      dsimp only
      rw [hs] at fuel hq
      have hqq : ∀ x ∈ q, x ∈ cands := fun x hx => hq x (List.mem_cons_of_mem _ hx)
      rw [List.length_cons] at fuel
      split
      · rename_i hv
        have inv' : Inv g Reach { s with queue := q } := by
          refine ⟨?_, inv.result, inv.found, ?_⟩
          · rintro x (hx | hx)
            · exact inv.sound x (Or.inl (by rw [hs]; exact List.mem_cons_of_mem _ hx))
            · exact inv.sound x (Or.inr hx)
          · intro t' ht e he x hx
            rcases inv.closed t' ht e he x hx with k | k
            · exact Or.inl k
            · rw [hs] at k
              rcases List.mem_cons.mp k with k | k
              · exact Or.inl (by rw [k]; exact hv)
              · exact Or.inr k
        obtain ⟨a, b, c⟩ := ih { s with queue := q } inv' hqq (by dsimp only; omega)
        refine ⟨a, b, ?_⟩
        rintro x (hx | hx)
        · rcases List.mem_cons.mp hx with hx | hx
          · exact c x (Or.inr (by rw [hx]; exact hv))
          · exact c x (Or.inl hx)
        · exact c x (Or.inr hx)
      · rename_i hv
        have ht : Reach t := inv.sound t (Or.inl (by rw [hs]; exact List.mem_cons_self))
        rw [fold_eq]
        dsimp only
        have inv' : Inv g Reach ⟨s.result ++ g.edges.flatMap (gives g t),
            (g.edges.reverse.flatMap (pushes g t)) ++ q, s.visited ++ [t]⟩ := by
          refine ⟨?_, ?_, ?_, ?_⟩
          · rintro x (hx | hx)
            · rcases List.mem_append.mp hx with hx | hx
              · obtain ⟨e, he, k⟩ := List.mem_flatMap.mp hx
                exact step t ht e (List.mem_reverse.mp he) x k
              · exact inv.sound x (Or.inl (by rw [hs]; exact List.mem_cons_of_mem _ hx))
            · rcases List.mem_append.mp hx with hx | hx
              · exact inv.sound x (Or.inr hx)
              · rw [List.mem_singleton.mp hx]
                exact ht
          · intro r hr
            rcases List.mem_append.mp hr with hr | hr
            · exact inv.result r hr
            · obtain ⟨e, he, k⟩ := List.mem_flatMap.mp hr
              exact ⟨t, ht, e, he, k⟩
          · intro t' ht' e he r hr
            rcases List.mem_append.mp ht' with ht' | ht'
            · exact List.mem_append_left _ (inv.found t' ht' e he r hr)
            · rw [List.mem_singleton.mp ht'] at hr
              exact List.mem_append_right _ (List.mem_flatMap.mpr ⟨e, he, hr⟩)
          · intro t' ht' e he x hx
            rcases List.mem_append.mp ht' with ht' | ht'
            · rcases inv.closed t' ht' e he x hx with k | k
              · exact Or.inl (List.mem_append_left _ k)
              · rw [hs] at k
                rcases List.mem_cons.mp k with k | k
                · exact Or.inl (List.mem_append_right _ (by rw [k]; exact List.mem_singleton_self _))
                · exact Or.inr (List.mem_append_right _ k)
            · rw [List.mem_singleton.mp ht'] at hx
              exact Or.inr (List.mem_append_left _ (List.mem_flatMap.mpr ⟨e, List.mem_reverse.mpr he, hx⟩))
        have htc : t ∈ cands := hq t List.mem_cons_self
        have lt := left_lt htc hv
        have len := pushes_length g t g.edges.reverse
        rw [List.length_reverse] at len
        obtain ⟨a, b, c⟩ := ih _ inv'
          (by
            intro x hx
            rcases List.mem_append.mp hx with hx | hx
            · obtain ⟨e, he, k⟩ := mem_flat_pushes hx
              rw [k]
              exact hc e (List.mem_reverse.mp he)
            · exact hqq x hx)
          (by
            dsimp only
            rw [List.length_append]
            have : (g.edges.length + 1) * (left cands (s.visited ++ [t]) + 1) ≤ (g.edges.length + 1) * left cands s.visited :=
              Nat.mul_le_mul_left _ lt
            rw [Nat.mul_add, Nat.mul_one] at this
            omega)
        refine ⟨a, b, ?_⟩
        rintro x (hx | hx)
        · rcases List.mem_cons.mp hx with hx | hx
          · exact c x (Or.inr (List.mem_append_right _ (by rw [hx]; exact List.mem_singleton_self _)))
          · exact c x (Or.inl (List.mem_append_right _ hx))
        · exact c x (Or.inr (List.mem_append_left _ hx))

/-! ### The visitor -/

/-- The names that the declarations around leave on the stack. -/
def lastNames (around : List Cst) : List Name :=
  around.flatMap (fun c => if constantName c = [] then [] else [(constantName c).getLastD []])

/-- What the collector records for a declaration. -/
def record (valid : Name → Bool) (d : List Cst × Cst × Nat × Nat) : Option Mod :=
  if constantName d.2.1 = [] then none
  else (computeFqn valid (lastNames d.1) (constantName d.2.1)).map (fun f => ⟨f, d.2.2.1, d.2.2.2⟩)

theorem lastNames_snoc (around : List Cst) (c : Cst) :
    lastNames (around ++ [c]) = lastNames around ++ (if constantName c = [] then [] else [(constantName c).getLastD []]) := by
  simp [lastNames]

theorem leave_stack (ms : List Mod) (around : List Cst) (c : Cst) :
    leave c ⟨ms, lastNames (around ++ [c])⟩ = ⟨ms, lastNames around⟩ := by
  rw [lastNames_snoc]
  simp only [leave]
  by_cases h : constantName c = []
  · simp [h]
  · simp [h]

theorem visit_eq (valid : Name → Bool) (t : Syn) (around : List Cst) (ms : List Mod) :
    visit valid t ⟨ms, lastNames around⟩ = ⟨ms ++ (decls around t).filterMap (record valid), lastNames around⟩ := by
  induction t generalizing around ms with
  | nil => simp [visit, decls]
  | module c a b head body next _ ihb ihn =>
    have enter : enterModule valid c a b ⟨ms, lastNames around⟩ =
        ⟨ms ++ (record valid (around, c, a, b)).toList, lastNames (around ++ [c])⟩ := by
      rw [lastNames_snoc]
      simp only [enterModule, record]
      by_cases h : constantName c = []
      · simp [h]
      · rw [if_neg h, if_neg h, if_neg h]
        cases computeFqn valid (lastNames around) (constantName c) <;> simp
    simp only [visit, decls]
    rw [enter, ihb, leave_stack, ihn]
    rw [List.cons_append, List.filterMap_cons, List.filterMap_append]
    cases record valid (around, c, a, b) <;> simp
  | cls c head body next _ ihb ihn =>
    have enter : enterClass c ⟨ms, lastNames around⟩ = ⟨ms, lastNames (around ++ [c])⟩ := by
      rw [lastNames_snoc]
      simp only [enterClass]
      by_cases h : constantName c = [] <;> simp [h]
    simp only [visit, decls]
    rw [enter, ihb, leave_stack, ihn, List.filterMap_append]
    simp
  | other kids next ihk ihn =>
    simp only [visit, decls]
    rw [ihk, ihn, List.filterMap_append]
    simp

end Verif.Lens
