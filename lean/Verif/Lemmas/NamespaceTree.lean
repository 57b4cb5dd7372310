import Verif.Model.NamespaceTree
import Verif.Lemmas.Sort

/-!
Lemmas about the tree of namespaces: the procedure of the code, which takes nodes out of a map while it goes through the keys
in any order, builds the tree that is given by the parents.
-/
namespace Verif.NamespaceTree

/-- `j` is `i` or below it, all namespaces between being there. -/
inductive Below (all : List Item) (i : Item) : Item → Prop
  | self : Below all i i
  | child {j k : Item} : Below all i j → k ∈ all → parent k.path = some j.path → Below all i k

/-- The items directly below a path, in the order of the map of children. -/
def kidsOf (all : List Item) (p : Path) : List Item := (stableSort fqnOrder all).filter (fun i => parent i.path = some p)

/-- The tree by parents. -/
def ideal (all : List Item) : Nat → Item → Tree
  | 0, i => .node i [] []
  | n + 1, i => .node i
      (sortNames (((kidsOf all i.path).filter (fun j => j.kind = .module)).map (ideal all n)))
      (sortNames (((kidsOf all i.path).filter (fun j => j.kind ≠ .module)).map (ideal all n)))

theorem mem_kidsOf {all : List Item} {p : Path} {j : Item} : j ∈ kidsOf all p ↔ j ∈ all ∧ parent j.path = some p := by
  simp [kidsOf, List.mem_filter, mem_stableSort]

theorem parent_some {p q : Path} (h : parent p = some q) : p ≠ [] ∧ q ≠ [] ∧ q = p.dropLast ∧ p.length = q.length + 1 := by
  unfold parent at h
  split at h
  · cases h
  · next hl =>
    simp only [Option.some.injEq] at h
    subst h
    have : p.dropLast.length = p.length - 1 := List.length_dropLast
    refine ⟨fun h => by simp [h] at hl, fun h => ?_, rfl, by omega⟩
    rw [h] at this
    simp at this
    omega

theorem Below.prefix {all : List Item} {i j : Item} (h : Below all i j) : i.path <+: j.path := by
  induction h with
  | self => exact List.prefix_refl _
  | child h hk hp ih =>
    obtain ⟨_, _, hq, _⟩ := parent_some hp
    rw [hq] at ih
    exact ih.trans (List.dropLast_prefix _)

theorem Below.length {all : List Item} {i j : Item} (h : Below all i j) : i.path.length ≤ j.path.length := h.prefix.length_le

theorem Below.mem {all : List Item} {i j : Item} (hi : i ∈ all) (h : Below all i j) : j ∈ all := by
  cases h with
  | self => exact hi
  | child _ hk _ => exact hk

theorem Below.trans {all : List Item} {i j k : Item} (h : Below all i j) (h' : Below all j k) : Below all i k := by
  induction h' with
  | self => exact h
  | child _ hk hp ih => exact .child ih hk hp

theorem prefix_of_length {p q r : Path} (h1 : p <+: r) (h2 : q <+: r) (h : p.length ≤ q.length) : p <+: q :=
  List.prefix_of_prefix_length_le h1 h2 h

/-- Strictly below is below a child. -/
theorem Below.cases_child {all : List Item} {i j : Item} (h : Below all i j) :
    j = i ∨ ∃ k, k ∈ all ∧ parent k.path = some i.path ∧ Below all k j := by
  induction h with
  | self => exact .inl rfl
  | @child j k h hk hp ih =>
    right
    cases ih with
    | inl e =>
      subst e
      exact ⟨k, hk, hp, .self⟩
    | inr e =>
      obtain ⟨m, hm, hmp, hb⟩ := e
      exact ⟨m, hm, hmp, .child hb hk hp⟩

theorem below_child {all : List Item} {i k j : Item} (hk : k ∈ all) (hp : parent k.path = some i.path) (h : Below all k j) :
    Below all i j := (Below.child .self hk hp).trans h

/-- The parents of everything strictly longer than the top are there. -/
theorem Below.parents {all : List Item} {i j : Item} (h : Below all i j) (hi : i ∈ all) {q : Path} (hq : q <+: j.path)
    (hl : i.path.length < q.length) : ∃ k ∈ all, parent q = some k.path := by
  induction h with
  | self =>
    have := hq.length_le
    omega
  | @child m k h hk hp ih =>
    obtain ⟨_, _, hd, hlen⟩ := parent_some hp
    by_cases hqk : q.length = k.path.length
    · have : q = k.path := hq.eq_of_length hqk
      exact ⟨m, h.mem hi, by rw [this]; exact hp⟩
    · have hle := hq.length_le
      refine ih (prefix_of_length hq ?_ (by omega))
      rw [hd]
      exact List.dropLast_prefix _

section
variable {all : List Item} (hnd : (all.map Item.path).Nodup)

include hnd in
theorem unique {i j : Item} (hi : i ∈ all) (hj : j ∈ all) (h : i.path = j.path) : i = j :=
  List.inj_on_of_nodup_map hnd hi hj h

include hnd in
/-- Things below two different children of one namespace are different. -/
theorem siblings {p : Path} {a b j : Item} (ha : a ∈ all) (hb : b ∈ all) (hpa : parent a.path = some p)
    (hpb : parent b.path = some p) (h1 : Below all a j) (h2 : Below all b j) : a = b := by
  obtain ⟨_, _, _, la⟩ := parent_some hpa
  obtain ⟨_, _, _, lb⟩ := parent_some hpb
  have := prefix_of_length h1.prefix h2.prefix (by omega)
  exact unique hnd ha hb (this.eq_of_length (by omega))

theorem children_eq (p : Path) : children all p = (kidsOf all p).map Item.path := rfl

include hnd in
theorem kidsOf_nodup (p : Path) : ((kidsOf all p).map Item.path).Nodup := by
  have h1 : ((stableSort fqnOrder all).map Item.path).Nodup := ((stableSort_perm all).map _).nodup_iff.mpr hnd
  exact h1.sublist (List.Sublist.map _ List.filter_sublist)

include hnd in
theorem find_mem {l : List Item} (hl : ∀ j ∈ l, j ∈ all) {i : Item} (hi : i ∈ l) :
    l.find? (fun j => j.path = i.path) = some i := by
  cases h : l.find? (fun j => j.path = i.path) with
  | none =>
    have := List.find?_eq_none.mp h i hi
    simp at this
  | some j =>
    have h1 := List.mem_of_find?_eq_some h
    have h2 := List.find?_some h
    simp only [decide_eq_true_eq] at h2
    rw [unique hnd (hl j h1) (hl i hi) h2]

/-- The state agrees with a set of items that are still there and the rest being done. -/
structure Agrees (all : List Item) (b : Build) (rest : Item → Prop) : Prop where
  lookup : ∀ j, j ∈ b.lookup ↔ j ∈ all ∧ rest j
  processed : ∀ j ∈ all, j.path ∈ b.processed → ¬ rest j

/-- One child of the loop in `build`. -/
def buildStep (kids : Path → List Path) (n : Nat) (acc : List Tree × List Tree × Build) (c : Path) : List Tree × List Tree × Build :=
  match acc.2.2.lookup.find? (fun j => j.path = c) with
  | none => acc
  | some j =>
    let b := { acc.2.2 with lookup := acc.2.2.lookup.filter (fun k => k.path ≠ c) }
    let t := if c ∈ b.processed then (.node j [] [], b) else build kids n j b
    if j.kind = .module then (acc.1 ++ [t.1], acc.2.1, t.2) else (acc.1, acc.2.1 ++ [t.1], t.2)

theorem build_succ (kids : Path → List Path) (n : Nat) (i : Item) (b : Build) :
    build kids (n + 1) i b =
      let r := (kids i.path).foldl (buildStep kids n) ([], [], { b with processed := i.path :: b.processed })
      (.node i (sortNames r.1) (sortNames r.2.1), r.2.2) := rfl

include hnd in
theorem build_spec : ∀ (n : Nat) (i : Item) (b : Build) (rest : Item → Prop), i ∈ all →
    (∀ j ∈ all, j.path.length < i.path.length + n) → Agrees all b rest → ¬ rest i →
    (∀ j, Below all i j → j ≠ i → rest j) →
    (build (children all) n i b).1 = ideal all n i ∧
    Agrees all (build (children all) n i b).2 (fun j => rest j ∧ ¬ Below all i j) ∧
    (∀ j, Below all i j → j.path ∈ (build (children all) n i b).2.processed) ∧
    (∀ p, p ∈ b.processed → p ∈ (build (children all) n i b).2.processed)
  | 0, i, b, rest, hi, hlen, _, _, _ => absurd (hlen i hi) (by omega)
  | n + 1, i, b, rest, hi, hlen, hag, hri, hbelow => by
    -- the loop over the children
    have loop : ∀ (ks : List Item) (acc : List Tree × List Tree × Build) (rest' : Item → Prop),
        (∀ k ∈ ks, k ∈ all ∧ parent k.path = some i.path) → (ks.map Item.path).Nodup →
        Agrees all acc.2.2 rest' → (∀ k ∈ ks, ∀ j, Below all k j → rest' j) →
        let r := (ks.map Item.path).foldl (buildStep (children all) n) acc
        r.1 = acc.1 ++ (ks.filter (fun j => j.kind = .module)).map (ideal all n) ∧
        r.2.1 = acc.2.1 ++ (ks.filter (fun j => j.kind ≠ .module)).map (ideal all n) ∧
        Agrees all r.2.2 (fun j => rest' j ∧ ∀ k ∈ ks, ¬ Below all k j) ∧
        (∀ k ∈ ks, ∀ j, Below all k j → j.path ∈ r.2.2.processed) ∧
        (∀ p, p ∈ acc.2.2.processed → p ∈ r.2.2.processed) := by
      intro ks
      induction ks with
      | nil =>
        intro acc rest' _ _ hag' _
        refine ⟨by simp, by simp, ⟨fun j => ?_, fun j hj hp => ?_⟩, fun k hk => (by cases hk), fun p hp => hp⟩
        · simp [hag'.lookup]
        · exact fun h => hag'.processed j hj hp h.1
      | cons k ks ih =>
        intro acc rest' hks hndk hag' hbel
        obtain ⟨hk, hkp⟩ := hks k List.mem_cons_self
        simp only [List.map_cons, List.nodup_cons] at hndk
        have hkrest : rest' k := hbel k List.mem_cons_self k .self
        have hkl : k ∈ acc.2.2.lookup := (hag'.lookup k).mpr ⟨hk, hkrest⟩
        have hfind : acc.2.2.lookup.find? (fun j => j.path = k.path) = some k :=
          find_mem hnd (fun j hj => ((hag'.lookup j).mp hj).1) hkl
        have hnp : k.path ∉ acc.2.2.processed := fun h => hag'.processed k hk h hkrest
        have hag2 : Agrees all { acc.2.2 with lookup := acc.2.2.lookup.filter (fun m => m.path ≠ k.path) } (fun j => rest' j ∧ j ≠ k) := by
          refine ⟨fun j => ?_, fun j hj hp => ?_⟩
          · simp only [List.mem_filter, hag'.lookup, ne_eq, decide_not, Bool.not_eq_true', decide_eq_false_iff_not]
            constructor
            · rintro ⟨⟨h1, h2⟩, h3⟩
              exact ⟨h1, h2, fun e => h3 (by rw [e])⟩
            · rintro ⟨h1, h2, h3⟩
              exact ⟨⟨h1, h2⟩, fun e => h3 (unique hnd h1 hk e)⟩
          · exact fun h => hag'.processed j hj hp h.1
        obtain ⟨hlk1, _, _, hlk2⟩ := parent_some hkp
        have hb := build_spec n k { acc.2.2 with lookup := acc.2.2.lookup.filter (fun m => m.path ≠ k.path) }
          (fun j => rest' j ∧ j ≠ k) hk (fun j hj => by have := hlen j hj; omega) hag2 (fun h => h.2 rfl)
          (fun j hj hne => ⟨hbel k List.mem_cons_self j hj, hne⟩)
        obtain ⟨hb1, hb2, hb3, hb4⟩ := hb
        have hstep : buildStep (children all) n acc k.path =
            if k.kind = .module then (acc.1 ++ [ideal all n k], acc.2.1, (build (children all) n k { acc.2.2 with lookup := acc.2.2.lookup.filter (fun m => m.path ≠ k.path) }).2)
            else (acc.1, acc.2.1 ++ [ideal all n k], (build (children all) n k { acc.2.2 with lookup := acc.2.2.lookup.filter (fun m => m.path ≠ k.path) }).2) := by
          simp only [buildStep, hfind]
          rw [if_neg hnp, hb1]
        have hbst : (buildStep (children all) n acc k.path).2.2 = (build (children all) n k { acc.2.2 with lookup := acc.2.2.lookup.filter (fun m => m.path ≠ k.path) }).2 := by
          rw [hstep]; split <;> rfl
        have hag3 : Agrees all (buildStep (children all) n acc k.path).2.2 (fun j => rest' j ∧ ¬ Below all k j) := by
          rw [hbst]
          refine ⟨fun j => ?_, fun j hj hp h => hb2.processed j hj hp ⟨⟨h.1, fun e => h.2 (by rw [e]; exact .self)⟩, h.2⟩⟩
          rw [hb2.lookup]
          constructor
          · rintro ⟨h1, ⟨h2, _⟩, h3⟩
            exact ⟨h1, h2, h3⟩
          · rintro ⟨h1, h2, h3⟩
            exact ⟨h1, ⟨h2, fun e => h3 (by rw [e]; exact .self)⟩, h3⟩
        have ih' := ih (buildStep (children all) n acc k.path) (fun j => rest' j ∧ ¬ Below all k j)
          (fun m hm => hks m (List.mem_cons_of_mem _ hm)) hndk.2 hag3 (by
            intro m hm j hj
            refine ⟨hbel m (List.mem_cons_of_mem _ hm) j hj, fun hkj => ?_⟩
            obtain ⟨hm1, hm2⟩ := hks m (List.mem_cons_of_mem _ hm)
            have := siblings hnd hk hm1 hkp hm2 hkj hj
            exact hndk.1 (by rw [this]; exact List.mem_map_of_mem hm))
        simp only [List.map_cons, List.foldl_cons]
        obtain ⟨e1, e2, e3, e4, e5⟩ := ih'
        refine ⟨?_, ?_, ⟨fun j => ?_, fun j hj hp h => ?_⟩, fun m hm j hj => ?_, fun p hp => ?_⟩
        · rw [e1, hstep]
          by_cases hkk : k.kind = .module <;> simp [hkk]
        · rw [e2, hstep]
          by_cases hkk : k.kind = .module <;> simp [hkk]
        · rw [e3.lookup]
          constructor
          · rintro ⟨h1, ⟨h2, h3⟩, h4⟩
            refine ⟨h1, h2, fun m hm => ?_⟩
            cases List.mem_cons.mp hm with
            | inl e => rw [e]; exact h3
            | inr hm => exact h4 m hm
          · rintro ⟨h1, h2, h3⟩
            exact ⟨h1, ⟨h2, h3 k List.mem_cons_self⟩, fun m hm => h3 m (List.mem_cons_of_mem _ hm)⟩
        · exact e3.processed j hj hp ⟨⟨h.1, h.2 k List.mem_cons_self⟩, fun m hm => h.2 m (List.mem_cons_of_mem _ hm)⟩
        · cases List.mem_cons.mp hm with
          | inl e =>
            subst e
            refine e5 _ ?_
            rw [hbst]
            exact hb3 j hj
          | inr hm => exact e4 m hm j hj
        · refine e5 p ?_
          rw [hbst]
          exact hb4 p hp
    have hagi : Agrees all { b with processed := i.path :: b.processed } rest := by
      refine ⟨hag.lookup, fun j hj hp h => ?_⟩
      cases List.mem_cons.mp hp with
      | inl e => exact hri (unique hnd hj hi e ▸ h)
      | inr e => exact hag.processed j hj e h
    have hl := loop (kidsOf all i.path) ([], [], { b with processed := i.path :: b.processed }) rest
      (fun k hk => mem_kidsOf.mp hk) (kidsOf_nodup hnd i.path) hagi (by
        intro k hk j hj
        obtain ⟨hk1, hk2⟩ := mem_kidsOf.mp hk
        refine hbelow j (below_child hk1 hk2 hj) (fun e => ?_)
        have := hj.length
        obtain ⟨_, _, _, hh⟩ := parent_some hk2
        rw [e] at this
        omega)
    rw [build_succ]
    simp only [children_eq, List.nil_append] at hl ⊢
    obtain ⟨l1, l2, l3, l4, l5⟩ := hl
    refine ⟨?_, ⟨fun j => ?_, fun j hj hp h => ?_⟩, fun j hj => ?_, fun p hp => ?_⟩
    · rw [l1, l2]
      rfl
    · rw [l3.lookup]
      constructor
      · rintro ⟨h1, h2, h3⟩
        refine ⟨h1, h2, fun hb => ?_⟩
        cases hb.cases_child with
        | inl e => exact hri (e ▸ h2)
        | inr e =>
          obtain ⟨k, hk1, hk2, hk3⟩ := e
          exact h3 k (mem_kidsOf.mpr ⟨hk1, hk2⟩) hk3
      · rintro ⟨h1, h2, h3⟩
        refine ⟨h1, h2, fun k hk hb => h3 ?_⟩
        obtain ⟨hk1, hk2⟩ := mem_kidsOf.mp hk
        exact below_child hk1 hk2 hb
    · refine l3.processed j hj hp ⟨h.1, fun k hk hb => h.2 ?_⟩
      obtain ⟨hk1, hk2⟩ := mem_kidsOf.mp hk
      exact below_child hk1 hk2 hb
    · cases hj.cases_child with
      | inl e =>
        subst e
        exact l5 _ List.mem_cons_self
      | inr e =>
        obtain ⟨k, hk1, hk2, hk3⟩ := e
        exact l4 k (mem_kidsOf.mpr ⟨hk1, hk2⟩) j hk3
    · exact l5 p (List.mem_cons_of_mem _ hp)

/-- A namespace whose parent is not there. -/
def IsRoot (all : List Item) (i : Item) : Prop := ∀ q, parent i.path = some q → ∀ j ∈ all, j.path ≠ q

include hnd in
/-- Things below two different roots are different. -/
theorem roots_disjoint {a b j : Item} (ha : a ∈ all) (hb : b ∈ all) (hra : IsRoot all a) (hrb : IsRoot all b)
    (h1 : Below all a j) (h2 : Below all b j) : a = b := by
  have key : ∀ {a b : Item}, a ∈ all → b ∈ all → IsRoot all b → Below all a j → Below all b j →
      a.path.length ≤ b.path.length → a = b := by
    intro a b ha hb hrb h1 h2 hl
    by_cases h : a.path.length = b.path.length
    · exact unique hnd ha hb ((prefix_of_length h1.prefix h2.prefix hl).eq_of_length h)
    · obtain ⟨k, hk, hp⟩ := h1.parents ha h2.prefix (by omega)
      exact absurd rfl (hrb _ hp k hk)
  rcases Nat.le_total a.path.length b.path.length with h | h
  · exact key ha hb hrb h1 h2 h
  · exact (key hb ha hra h2 h1 h).symm

/-- Everything is below a root. -/
theorem exists_root : ∀ (n : Nat) (j : Item), j.path.length ≤ n → j ∈ all → ∃ r ∈ all, IsRoot all r ∧ Below all r j
  | 0, j, hn, hj => ⟨j, hj, fun q hq => by obtain ⟨_, _, _, h⟩ := parent_some hq; omega, .self⟩
  | n + 1, j, hn, hj => by
    by_cases h : IsRoot all j
    · exact ⟨j, hj, h, .self⟩
    · simp only [IsRoot, not_forall, ne_eq, not_not] at h
      obtain ⟨q, hq, k, hk, hkq⟩ := h
      obtain ⟨_, _, _, hl⟩ := parent_some hq
      rw [← hkq] at hl hq
      obtain ⟨r, hr, hrr, hb⟩ := exists_root n k (by omega) hk
      exact ⟨r, hr, hrr, .child hb hj hq⟩

instance (all : List Item) (i : Item) : Decidable (IsRoot all i) :=
  match h : parent i.path with
  | none => isTrue (fun q hq => by rw [h] at hq; cases hq)
  | some q =>
    if h' : ∀ j ∈ all, j.path ≠ q then isTrue (fun q' hq' => by rw [h] at hq'; cases hq'; exact h')
    else isFalse (fun hr => h' (hr q h))

include hnd in
/-- The loop over the names: whatever their order, the roots are taken in this order, each with all that is below it. -/
theorem roots_spec (fuel : Nat) (hfuel : ∀ j ∈ all, j.path.length < fuel) : ∀ (is done : List Item) (acc : List Tree × Build),
    (∀ i ∈ is, i ∈ all) → (∀ i ∈ done, i ∈ all ∧ IsRoot all i) → (is.map Item.path).Nodup → (∀ i ∈ is, i ∉ done) →
    Agrees all acc.2 (fun j => ∀ r ∈ done, ¬ Below all r j) →
    (∀ r ∈ done, ∀ j, Below all r j → j.path ∈ acc.2.processed) →
    ((is.map Item.path).foldl (rootStep (children all) fuel) acc).1 =
      acc.1 ++ (is.filter (fun i => decide (IsRoot all i))).map (ideal all fuel)
  | [], done, acc, _, _, _, _, _, _ => by simp
  | i :: is, done, acc, his, hdone, hndi, hnot, hag, hproc => by
    simp only [List.map_cons, List.nodup_cons] at hndi
    have hi := his i List.mem_cons_self
    simp only [List.map_cons, List.foldl_cons]
    by_cases hr : IsRoot all i
    · have hrest : ∀ r ∈ done, ¬ Below all r i := by
        intro r hrd hb
        obtain ⟨h1, h2⟩ := hdone r hrd
        have := roots_disjoint hnd h1 hi h2 hr hb .self
        exact hnot i List.mem_cons_self (this ▸ hrd)
      have hnp : i.path ∉ acc.2.processed := fun h => hag.processed i hi h hrest
      have hil : i ∈ acc.2.lookup := (hag.lookup i).mpr ⟨hi, hrest⟩
      have hfind : acc.2.lookup.find? (fun j => j.path = i.path) = some i :=
        find_mem hnd (fun j hj => ((hag.lookup j).mp hj).1) hil
      have hpar : hasParent acc.2.lookup i.path = false := by
        unfold hasParent
        cases hq : parent i.path with
        | none => rfl
        | some q =>
          simp only [List.any_eq_false, decide_eq_true_eq]
          exact fun j hj => hr q hq j ((hag.lookup j).mp hj).1
      have hag2 : Agrees all { acc.2 with lookup := acc.2.lookup.filter (fun k => k.path ≠ i.path) }
          (fun j => (∀ r ∈ done, ¬ Below all r j) ∧ j ≠ i) := by
        refine ⟨fun j => ?_, fun j hj hp h => hag.processed j hj hp h.1⟩
        simp only [List.mem_filter, hag.lookup, ne_eq, decide_not, Bool.not_eq_true', decide_eq_false_iff_not]
        constructor
        · rintro ⟨⟨h1, h2⟩, h3⟩
          exact ⟨h1, h2, fun e => h3 (by rw [e])⟩
        · rintro ⟨h1, h2, h3⟩
          exact ⟨⟨h1, h2⟩, fun e => h3 (unique hnd h1 hi e)⟩
      obtain ⟨b1, b2, b3, b4⟩ := build_spec hnd fuel i { acc.2 with lookup := acc.2.lookup.filter (fun k => k.path ≠ i.path) }
        (fun j => (∀ r ∈ done, ¬ Below all r j) ∧ j ≠ i) hi (fun j hj => by have := hfuel j hj; omega) hag2 (fun h => h.2 rfl)
        (fun j hj hne => ⟨fun r hrd hb => hnot i List.mem_cons_self
          (roots_disjoint hnd (hdone r hrd).1 hi (hdone r hrd).2 hr hb hj ▸ hrd), hne⟩)
      have hstep : rootStep (children all) fuel acc i.path = (acc.1 ++ [ideal all fuel i],
          (build (children all) fuel i { acc.2 with lookup := acc.2.lookup.filter (fun k => k.path ≠ i.path) }).2) := by
        unfold rootStep
        rw [if_neg hnp, hpar]
        simp only [Bool.false_eq_true, if_false, hfind]
        rw [b1]
      rw [hstep]
      have ih := roots_spec fuel hfuel is (i :: done) (acc.1 ++ [ideal all fuel i],
          (build (children all) fuel i { acc.2 with lookup := acc.2.lookup.filter (fun k => k.path ≠ i.path) }).2)
        (fun j hj => his j (List.mem_cons_of_mem _ hj))
        (fun j hj => by
          cases List.mem_cons.mp hj with
          | inl e => rw [e]; exact ⟨hi, hr⟩
          | inr h => exact hdone j h)
        hndi.2
        (fun j hj hd => by
          cases List.mem_cons.mp hd with
          | inl e => exact hndi.1 (e ▸ List.mem_map_of_mem hj)
          | inr h => exact hnot j (List.mem_cons_of_mem _ hj) h)
        (by
          refine ⟨fun j => ?_, fun j hj hp h => ?_⟩
          · rw [b2.lookup]
            constructor
            · rintro ⟨h1, ⟨h2, _⟩, h3⟩
              refine ⟨h1, fun r hrd => ?_⟩
              cases List.mem_cons.mp hrd with
              | inl e => rw [e]; exact h3
              | inr h => exact h2 r h
            · rintro ⟨h1, h2⟩
              exact ⟨h1, ⟨fun r hrd => h2 r (List.mem_cons_of_mem _ hrd), fun e => h2 i List.mem_cons_self (e ▸ .self)⟩, h2 i List.mem_cons_self⟩
          · exact b2.processed j hj hp ⟨⟨fun r hrd => h r (List.mem_cons_of_mem _ hrd), fun e => h i List.mem_cons_self (e ▸ .self)⟩, h i List.mem_cons_self⟩)
        (by
          intro r hrd j hb
          cases List.mem_cons.mp hrd with
          | inl e => subst e; exact b3 j hb
          | inr h => exact b4 _ (hproc r h j hb))
      rw [ih]
      simp [hr]
    · have hstep : rootStep (children all) fuel acc i.path = acc := by
        unfold rootStep
        split
        · rfl
        · next hnp =>
          have hrest : ∀ r ∈ done, ¬ Below all r i := fun r hrd hb => hnp (hproc r hrd i hb)
          simp only [IsRoot, not_forall, ne_eq, not_not] at hr
          obtain ⟨q, hq, k, hk, hkq⟩ := hr
          have hkl : k ∈ acc.2.lookup := by
            refine (hag.lookup k).mpr ⟨hk, fun r hrd hb => hrest r hrd (.child hb hi ?_)⟩
            rw [hkq]; exact hq
          have : hasParent acc.2.lookup i.path = true := by
            unfold hasParent
            rw [hq]
            exact List.any_eq_true.mpr ⟨k, hkl, by simpa using hkq⟩
          simp only [this, if_true]
      rw [hstep]
      have ih := roots_spec fuel hfuel is done acc (fun j hj => his j (List.mem_cons_of_mem _ hj)) hdone hndi.2
        (fun j hj => hnot j (List.mem_cons_of_mem _ hj)) hag hproc
      rw [ih]
      simp [hr]

end

end Verif.NamespaceTree
