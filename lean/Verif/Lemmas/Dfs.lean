import Verif.Spec.Mro
import Mathlib.Tactic.Tauto
import Mathlib.Tactic.Push
/-! Depth-first walks that list a node between two groups of its successors. -/
namespace Verif.Mro

/-- The walk of `build_mro` for any two successor functions. -/
def dfs (pre post : Nat → List Nat) : Nat → Nat → St → Option St
  | 0, _, _ => none
  | fuel + 1, n, st =>
    if n ∈ st.vis then some st
    else
      (each (dfs pre post fuel) (pre n) { st with vis := n :: st.vis }).bind fun st =>
      each (dfs pre post fuel) (post n) { st with chain := st.chain ++ [n] }

theorem each_append (f : Nat → St → Option St) (l l' : List Nat) (st : St) :
    each f (l ++ l') st = (each f l st).bind (each f l') := by
  induction l generalizing st with
  | nil => rfl
  | cons m l ih =>
    simp only [List.cons_append, each]
    cases f m st with
    | none => rfl
    | some st' => simpa using ih st'

theorem each_congr {f g : Nat → St → Option St} (h : ∀ m st, f m st = g m st) (l : List Nat) (st : St) :
    each f l st = each g l st := by
  induction l generalizing st with
  | nil => rfl
  | cons m l ih =>
    simp only [each, h]
    cases g m st with
    | none => rfl
    | some st' => simpa using ih st'

section
variable {R : Nat → Nat → Prop}

theorem Avoid.mono {V W : Nat → Prop} (hVW : ∀ x, W x → V x) {a b : Nat} (h : Avoid R V a b) : Avoid R W a b := by
  induction h with
  | refl h => exact .refl (fun hw => h (hVW _ hw))
  | step _ r hk ih => exact .step ih r (fun hw => hk (hVW _ hw))

theorem Avoid.head {V : Nat → Prop} {a b c : Nat} (ha : ¬ V a) (r : R a b) (h : Avoid R V b c) : Avoid R V a c := by
  induction h with
  | refl h => exact .step (.refl ha) r h
  | step _ r' hk ih => exact .step ih r' hk

theorem Avoid.trans {V : Nat → Prop} {a b c : Nat} (h : Avoid R V a b) (h' : Avoid R V b c) : Avoid R V a c := by
  induction h' with
  | refl _ => exact h
  | step _ r' hk ih => exact .step ih r' hk

theorem Avoid.left {V : Nat → Prop} {a b : Nat} (h : Avoid R V a b) : ¬ V a := by
  induction h with
  | refl h => exact h
  | step _ _ _ ih => exact ih

theorem Avoid.right {V : Nat → Prop} {a b : Nat} (h : Avoid R V a b) : ¬ V b := by
  cases h with
  | refl h => exact h
  | step _ _ hk => exact hk

theorem Avoid.reach {V : Nat → Prop} {a b : Nat} (h : Avoid R V a b) : Reach R a b := h.mono (fun _ hw => hw.elim)

theorem Before.append_left {l : List Nat} {a b : Nat} (l' : List Nat) (h : Before l a b) : Before (l' ++ l) a b := by
  obtain ⟨x, y, rfl, hx⟩ := h
  exact ⟨l' ++ x, y, by simp, by simp [hx]⟩

theorem Before.append_right {l : List Nat} {a b : Nat} (l' : List Nat) (h : Before l a b) : Before (l ++ l') a b := by
  obtain ⟨x, y, rfl, hx⟩ := h
  exact ⟨x, y ++ l', by simp, hx⟩

theorem before_of {l l' : List Nat} {a b : Nat} (h : a ∈ l) (h' : b ∈ l') : Before (l ++ l') a b := by
  obtain ⟨x, y, rfl⟩ := List.append_of_mem h'
  exact ⟨l ++ x, y, by simp, by simp [h]⟩

/-- What a walk from `roots` does. -/
structure Res (R : Nat → Nat → Prop) (pre : Nat → List Nat) (roots : List Nat) (st st' : St) (new : List Nat) : Prop where
  chain : st'.chain = st.chain ++ new
  nodup : new.Nodup
  fresh : ∀ x ∈ new, x ∉ st.vis
  vis : ∀ x, x ∈ st'.vis ↔ x ∈ st.vis ∨ x ∈ new
  sound : ∀ x ∈ new, ∃ r ∈ roots, Avoid R (· ∈ st.vis) r x
  closed : ∀ x ∈ new, ∀ y, R x y → y ∈ st'.vis
  roots : ∀ r ∈ roots, r ∈ st'.vis
  order : ∀ x ∈ new, ∀ p ∈ pre x, p ∈ st.vis ∨ Reach R p x ∨ Before new p x

theorem Res.nil {pre : Nat → List Nat} (st : St) : Res R pre [] st st [] :=
  ⟨by simp, List.nodup_nil, fun _ h => (by cases h), by simp, fun _ h => (by cases h), fun _ h => (by cases h),
    fun _ h => (by cases h), fun _ h => (by cases h)⟩

theorem Res.append {pre : Nat → List Nat} {l l' : List Nat} {st st1 st2 : St} {n1 n2 : List Nat}
    (h1 : Res R pre l st st1 n1) (h2 : Res R pre l' st1 st2 n2) : Res R pre (l ++ l') st st2 (n1 ++ n2) := by
  constructor
  · rw [h2.chain, h1.chain, List.append_assoc]
  · rw [List.nodup_append]
    refine ⟨h1.nodup, h2.nodup, ?_⟩
    intro a ha b hb hab
    subst hab
    exact h2.fresh a hb ((h1.vis a).mpr (.inr ha))
  · intro x hx
    rcases List.mem_append.mp hx with h | h
    · exact h1.fresh x h
    · intro hv; exact h2.fresh x h ((h1.vis x).mpr (.inl hv))
  · intro x
    rw [h2.vis, h1.vis, List.mem_append, or_assoc]
  · intro x hx
    rcases List.mem_append.mp hx with h | h
    · obtain ⟨r, hr, ha⟩ := h1.sound x h
      exact ⟨r, List.mem_append_left _ hr, ha⟩
    · obtain ⟨r, hr, ha⟩ := h2.sound x h
      exact ⟨r, List.mem_append_right _ hr, ha.mono fun y hy => (h1.vis y).mpr (.inl hy)⟩
  · intro x hx y hxy
    rcases List.mem_append.mp hx with h | h
    · exact (h2.vis y).mpr (.inl (h1.closed x h y hxy))
    · exact h2.closed x h y hxy
  · intro r hr
    rcases List.mem_append.mp hr with h | h
    · exact (h2.vis r).mpr (.inl (h1.roots r h))
    · exact h2.roots r h
  · intro x hx p hp
    rcases List.mem_append.mp hx with h | h
    · rcases h1.order x h p hp with h | h | h
      · exact .inl h
      · exact .inr (.inl h)
      · exact .inr (.inr (h.append_right _))
    · rcases h2.order x h p hp with h' | h' | h'
      · rcases (h1.vis p).mp h' with h'' | h''
        · exact .inl h''
        · exact .inr (.inr (before_of h'' h))
      · exact .inr (.inl h')
      · exact .inr (.inr (h'.append_left _))

theorem each_res {pre : Nat → List Nat} {f : Nat → St → Option St}
    (hf : ∀ m st st', f m st = some st' → ∃ new, Res R pre [m] st st' new) :
    ∀ l st st', each f l st = some st' → ∃ new, Res R pre l st st' new := by
  intro l
  induction l with
  | nil =>
    intro st st' h
    simp only [each, Option.some.injEq] at h
    subst h
    exact ⟨[], .nil st⟩
  | cons m l ih =>
    intro st st' h
    simp only [each] at h
    cases hm : f m st with
    | none => rw [hm] at h; cases h
    | some st1 =>
      rw [hm] at h
      obtain ⟨n1, r1⟩ := hf m st st1 hm
      obtain ⟨n2, r2⟩ := ih st1 st' h
      exact ⟨n1 ++ n2, r1.append r2⟩

/-- One node: the part before it, itself, the part after it. -/
theorem Res.node {pre post : Nat → List Nat} (hR : ∀ n m, R n m ↔ m ∈ pre n ∨ m ∈ post n) {n : Nat} {st st1 st2 : St}
    {n1 n2 : List Nat} (hn : n ∉ st.vis) (h1 : Res R pre (pre n) { st with vis := n :: st.vis } st1 n1)
    (h2 : Res R pre (post n) { st1 with chain := st1.chain ++ [n] } st2 n2) :
    Res R pre [n] st st2 (n1 ++ n :: n2) := by
  have v1 : ∀ x, x ∈ st1.vis ↔ (x = n ∨ x ∈ st.vis) ∨ x ∈ n1 := fun x => by rw [h1.vis]; simp
  have v2 : ∀ x, x ∈ st2.vis ↔ ((x = n ∨ x ∈ st.vis) ∨ x ∈ n1) ∨ x ∈ n2 := fun x => by rw [h2.vis]; simp [v1]
  have f1 : ∀ x ∈ n1, x ≠ n ∧ x ∉ st.vis := fun x hx => by simpa using h1.fresh x hx
  have f2 : ∀ x ∈ n2, (x ≠ n ∧ x ∉ st.vis) ∧ x ∉ n1 := fun x hx => by
    have := h2.fresh x hx
    simp only [v1] at this
    push Not at this
    exact this
  have s1 : ∀ x ∈ n1, Avoid R (· ∈ st.vis) n x := by
    intro x hx
    obtain ⟨r, hr, ha⟩ := h1.sound x hx
    exact .head hn ((hR n r).mpr (.inl hr)) (ha.mono fun y hy => List.mem_cons_of_mem _ hy)
  have s2 : ∀ x ∈ n2, Avoid R (· ∈ st.vis) n x := by
    intro x hx
    obtain ⟨r, hr, ha⟩ := h2.sound x hx
    exact .head hn ((hR n r).mpr (.inr hr)) (ha.mono fun y hy => (v1 y).mpr (.inl (.inr hy)))
  constructor
  · rw [h2.chain]; simp only; rw [h1.chain]; simp
  · rw [List.nodup_append]
    refine ⟨h1.nodup, List.nodup_cons.mpr ⟨fun h => (f2 n h).1.1 rfl, h2.nodup⟩, ?_⟩
    intro a ha b hb hab
    subst hab
    rcases List.mem_cons.mp hb with h | h
    · exact (f1 a ha).1 h
    · exact (f2 a h).2 ha
  · intro x hx
    rcases List.mem_append.mp hx with h | h
    · exact (f1 x h).2
    · rcases List.mem_cons.mp h with h | h
      · subst h; exact hn
      · exact (f2 x h).1.2
  · intro x
    rw [v2]
    simp only [List.mem_append, List.mem_cons]
    tauto
  · intro x hx
    refine ⟨n, List.mem_singleton.mpr rfl, ?_⟩
    rcases List.mem_append.mp hx with h | h
    · exact s1 x h
    · rcases List.mem_cons.mp h with h | h
      · subst h; exact .refl hn
      · exact s2 x h
  · intro x hx y hxy
    rcases List.mem_append.mp hx with h | h
    · have := h1.closed x h y hxy
      rw [v1] at this
      exact (v2 y).mpr (.inl this)
    · rcases List.mem_cons.mp h with h | h
      · subst h
        rcases (hR x y).mp hxy with h | h
        · have := h1.roots y h
          rw [v1] at this
          exact (v2 y).mpr (.inl this)
        · exact h2.roots y h
      · exact h2.closed x h y hxy
  · intro r hr
    rw [List.mem_singleton] at hr
    subst hr
    exact (v2 r).mpr (.inl (.inl (.inl rfl)))
  · intro x hx p hp
    rcases List.mem_append.mp hx with h | h
    · rcases h1.order x h p hp with h' | h' | h'
      · rcases List.mem_cons.mp h' with h'' | h''
        · subst h''; exact .inr (.inl (s1 x h).reach)
        · exact .inl h''
      · exact .inr (.inl h')
      · exact .inr (.inr (h'.append_right _))
    · rcases List.mem_cons.mp h with h | hx2
      · subst h
        have := h1.roots p hp
        rcases (v1 p).mp this with (h' | h') | h'
        · subst h'; exact .inr (.inl (.refl (fun h => h)))
        · exact .inl h'
        · exact .inr (.inr (before_of h' (List.mem_cons_self)))
      · rcases h2.order x hx2 p hp with h' | h' | h'
        · rcases (v1 p).mp h' with (h' | h') | h'
          · subst h'; exact .inr (.inl (s2 x hx2).reach)
          · exact .inl h'
          · exact .inr (.inr (before_of h' (List.mem_cons_of_mem _ hx2)))
        · exact .inr (.inl h')
        · refine .inr (.inr ?_)
          have := h'.append_left (n1 ++ [n])
          simpa using this

theorem dfs_res {pre post : Nat → List Nat} (hR : ∀ n m, R n m ↔ m ∈ pre n ∨ m ∈ post n) :
    ∀ fuel n st st', dfs pre post fuel n st = some st' → ∃ new, Res R pre [n] st st' new := by
  intro fuel
  induction fuel with
  | zero => intro n st st' h; cases h
  | succ fuel ih =>
    intro n st st' h
    unfold dfs at h
    split at h
    · rename_i hn
      simp only [Option.some.injEq] at h
      subst h
      exact ⟨[], ⟨by simp, List.nodup_nil, fun _ h => (by cases h), by simp, fun _ h => (by cases h),
        fun _ h => (by cases h), fun r hr => (by rw [List.mem_singleton] at hr; exact hr ▸ hn), fun _ h => (by cases h)⟩⟩
    · rename_i hn
      cases hp : each (dfs pre post fuel) (pre n) { st with vis := n :: st.vis } with
      | none => rw [hp] at h; cases h
      | some st1 =>
        rw [hp] at h
        obtain ⟨n1, r1⟩ := each_res ih _ _ _ hp
        obtain ⟨n2, r2⟩ := each_res ih _ _ _ h
        exact ⟨_, Res.node hR hn r1 r2⟩

/-- What the walk lists: what can be reached from the roots without entering nodes visited before. -/
theorem Res.mem {pre : Nat → List Nat} {roots : List Nat} {st st' : St} {new : List Nat} (h : Res R pre roots st st' new)
    (x : Nat) : x ∈ new ↔ ∃ r ∈ roots, Avoid R (· ∈ st.vis) r x := by
  refine ⟨h.sound x, ?_⟩
  rintro ⟨r, hr, ha⟩
  induction ha with
  | refl hv =>
    rcases (h.vis r).mp (h.roots r hr) with h' | h'
    · exact absurd h' hv
    · exact h'
  | step ha rr hk ih =>
    rcases (h.vis _).mp (h.closed _ ih _ rr) with h' | h'
    · exact absurd h' hk
    · exact h'

/-! ### enough fuel -/

/-- Nodes of the universe not visited yet. -/
def left (U vis : List Nat) : Nat := (U.filter (fun x => decide (x ∉ vis))).length

theorem left_mono {U v v' : List Nat} (h : ∀ x ∈ v, x ∈ v') : left U v' ≤ left U v := by
  unfold left
  apply List.Sublist.length_le
  apply List.monotone_filter_right
  intro a ha
  simp only [decide_eq_true_eq] at *
  exact fun hv => ha (h a hv)

theorem left_cons {U v : List Nat} {n : Nat} (hn : n ∈ U) (hv : n ∉ v) : left U (n :: v) < left U v := by
  unfold left
  induction U with
  | nil => cases hn
  | cons a U ih =>
    have hle : left U (n :: v) ≤ left U v := left_mono (fun x hx => List.mem_cons_of_mem _ hx)
    unfold left at hle
    simp only [List.filter_cons]
    by_cases ha : a = n
    · subst ha
      simp only [List.mem_cons, true_or, not_true_eq_false, decide_false, Bool.false_eq_true, if_false, hv,
        not_false_eq_true, decide_true, if_true, List.length_cons]
      simp only [List.mem_cons] at hle
      omega
    · have hn' : n ∈ U := (List.mem_cons.mp hn).resolve_left (fun h => ha h.symm)
      have := ih hn'
      by_cases hav : a ∈ v <;> simp [List.mem_cons, ha, hav] at this ⊢ <;> omega

theorem dfs_some {pre post : Nat → List Nat} {U : List Nat} (hU : ∀ n m, m ∈ pre n ∨ m ∈ post n → m ∈ U) :
    ∀ fuel n st, n ∈ U → left U st.vis < fuel → ∃ st', dfs pre post fuel n st = some st' := by
  intro fuel
  induction fuel with
  | zero => intro n st _ h; omega
  | succ fuel ih =>
    intro n st hn h
    have grow : ∀ l st st', each (dfs pre post fuel) l st = some st' → ∀ x ∈ st.vis, x ∈ st'.vis := by
      intro l st st' h x hx
      obtain ⟨new, r⟩ := each_res (dfs_res (R := fun n m => m ∈ pre n ∨ m ∈ post n) (fun _ _ => Iff.rfl) fuel) l st st' h
      exact (r.vis x).mpr (.inl hx)
    have all : ∀ l st, (∀ m ∈ l, m ∈ U) → left U st.vis < fuel → ∃ st', each (dfs pre post fuel) l st = some st' := by
      intro l
      induction l with
      | nil => intro st _ _; exact ⟨st, rfl⟩
      | cons m l ihl =>
        intro st hl hst
        obtain ⟨st1, h1⟩ := ih m st (hl m (List.mem_cons_self)) hst
        have hg := grow [m] st st1 (by simp [each, h1])
        obtain ⟨st2, h2⟩ := ihl st1 (fun x hx => hl x (List.mem_cons_of_mem _ hx)) (Nat.lt_of_le_of_lt (left_mono hg) hst)
        exact ⟨st2, by simp [each, h1, h2]⟩
    unfold dfs
    split
    · exact ⟨st, rfl⟩
    · rename_i hv
      have hl := left_cons hn hv
      obtain ⟨st1, h1⟩ := all (pre n) { st with vis := n :: st.vis } (fun m hm => hU n m (.inl hm)) (by simp only; omega)
      have hg := grow _ _ _ h1
      have := left_mono (U := U) hg
      simp only at this
      obtain ⟨st2, h2⟩ := all (post n) { st1 with chain := st1.chain ++ [n] } (fun m hm => hU n m (.inr hm)) (by simp only; omega)
      exact ⟨st2, by simp [h1, h2]⟩

end
end Verif.Mro
