import Verif.Model.Arena
import Verif.Lemmas.Sort
/-! Lemmas about the fact arena, id indexes and incremental placement. -/
namespace Verif

variable {α β : Type}

theorem Outcome.bind_ok {σ τ : Type} (s : σ) (f : σ → Outcome τ) : (Outcome.ok s).bind f = f s := rfl

/-- Sorting commutes with filtering. -/
theorem stableSort_filter {le : α → α → Bool} (o : IsOrder le) (p : α → Bool) (l : List α) :
    (stableSort le l).filter p = stableSort le (l.filter p) := by
  refine stableSort_unique o ((stableSort_sorted o l).sublist (List.filter_sublist)) ?_
  intro k
  rw [List.filter_filter, List.filter_filter]
  have h : ∀ m : List α, m.filter (fun a => (le a k && le k a) && p a) = (m.filter (fun a => le a k && le k a)).filter p := by
    intro m; rw [List.filter_filter]; congr 1; funext a; rw [Bool.and_comm]
  rw [h, h, filter_stableSort]
  intro a b ha hb
  simp only [Bool.and_eq_true] at ha hb
  exact o.trans _ _ _ ha.1 hb.2

/-- Sorting a prefix first makes no difference. -/
theorem stableSort_append_left {le : α → α → Bool} (o : IsOrder le) (l m : List α) :
    stableSort le (stableSort le l ++ m) = stableSort le (l ++ m) := by
  refine stableSort_unique o (stableSort_sorted o _) ?_
  intro k
  have heq : ∀ a b, (le a k && le k a) = true → (le b k && le k b) = true → le a b = true := by
    intro a b ha hb
    simp only [Bool.and_eq_true] at ha hb
    exact o.trans _ _ _ ha.1 hb.2
  rw [filter_stableSort heq, List.filter_append, List.filter_append, filter_stableSort heq]

/-- Sorting commutes with a map that carries the order. -/
theorem stableSort_map {le : α → α → Bool} {le' : β → β → Bool} {f : α → β} {l : List α}
    (h : ∀ a ∈ l, ∀ b ∈ l, le' (f a) (f b) = le a b) : stableSort le' (l.map f) = (stableSort le l).map f := by
  induction l with
  | nil => rfl
  | cons a l ih =>
    simp only [List.map_cons, stableSort]
    rw [ih (fun x hx y hy => h x (by simp [hx]) y (by simp [hy]))]
    have : ∀ m : List α, (∀ b ∈ m, b ∈ l) → insertSorted le' (f a) (m.map f) = (insertSorted le a m).map f := by
      intro m hm
      induction m with
      | nil => rfl
      | cons b m ihm =>
        simp only [List.map_cons, insertSorted]
        rw [h a (by simp) b (by simp [hm b (by simp)])]
        split
        · rfl
        · rw [ihm (fun x hx => hm x (by simp [hx]))]; rfl
    exact this _ (fun b hb => mem_stableSort.mp hb)

namespace Store

theorem lexLe_refl (l : List Nat) : lexLe l l = true := by
  induction l with
  | nil => rfl
  | cons a l ih => simp [lexLe, ih]

theorem lexLe_total (l m : List Nat) : lexLe l m = true ∨ lexLe m l = true := by
  induction l generalizing m with
  | nil => exact .inl (by simp [lexLe])
  | cons a l ih =>
    cases m with
    | nil => exact .inr (by simp [lexLe])
    | cons b m =>
      rcases Nat.lt_trichotomy a b with h | rfl | h
      · exact .inl (by simp [lexLe, h])
      · rcases ih m with h | h
        · exact .inl (by simp [lexLe, h])
        · exact .inr (by simp [lexLe, h])
      · exact .inr (by simp [lexLe, h])

theorem lexLe_trans : ∀ l m n : List Nat, lexLe l m = true → lexLe m n = true → lexLe l n = true := by
  intro l
  induction l with
  | nil => intros; simp [lexLe]
  | cons a l ih =>
    intro m n h1 h2
    cases m with
    | nil => simp [lexLe] at h1
    | cons b m =>
      cases n with
      | nil => simp [lexLe] at h2
      | cons c n =>
        simp only [lexLe] at h1 h2 ⊢
        split at h1
        · split at h2
          · have : a < c := by omega
            simp [this]
          · split at h2
            · have : a < c := by omega
              simp [this]
            · simp at h2
        · split at h1
          · split at h2
            · have : a < c := by omega
              simp [this]
            · split at h2
              · have : a = c := by omega
                subst this
                simp [ih m n h1 h2]
              · simp at h2
          · simp at h1

/-- `sort_by_key` compares by a total preorder. -/
theorem leBy_order (key : α → List Nat) : IsOrder (leBy key) :=
  ⟨fun _ _ => lexLe_total _ _, fun _ _ _ => lexLe_trans _ _ _⟩

/-- Pairs compare by their facts. -/
theorem leBy_snd {le : α → α → Bool} (o : IsOrder le) : IsOrder (fun (x y : Nat × α) => le x.2 y.2) :=
  ⟨fun _ _ => o.total _ _, fun _ _ _ => o.trans _ _ _⟩

/-- C19 core: placing one file's facts, for any order that compares the file first. -/
theorem place_eq_sort {T : Type} [DecidableEq T] {le : T → T → Bool} (o : IsOrder le) {fileOf : T → Nat} {f : Nat}
    {pre new : List T} {sort : List T → Outcome (List T)}
    (hord : ∀ a b, le a b = true → fileOf a ≤ fileOf b) (hlt : ∀ a b, fileOf a < fileOf b → le a b = true)
    (hs : Sorted le pre) (hne : new ≠ []) (hold : ∀ a ∈ pre, fileOf a ≠ f) (hnew : ∀ a ∈ new, fileOf a = f)
    (hsort : sort new = .ok (stableSort le new)) :
    place (pre ++ new) new.length f fileOf sort = .ok (stableSort le (pre ++ new)) := by
  have hlen : 0 < new.length := List.length_pos_iff.mpr hne
  -- the prefix splits into smaller and larger files
  have hsplit : pre = pre.filter (fun a => decide (fileOf a < f)) ++ pre.filter (fun a => !decide (fileOf a < f)) := by
    clear hsort hnew hne hlen
    induction pre with
    | nil => rfl
    | cons a l ih =>
      have hp := List.pairwise_cons.mp hs
      have ih := ih hp.2 (fun x hx => hold x (by simp [hx]))
      by_cases ha : fileOf a < f
      · simp only [List.filter_cons, ha, decide_true, if_true, Bool.not_true, Bool.false_eq_true, if_false,
          List.cons_append]
        rw [← ih]
      · have : l.filter (fun a => decide (fileOf a < f)) = [] := by
          rw [List.filter_eq_nil_iff]
          intro x hx
          have := hord _ _ (hp.1 x hx)
          simp; omega
        rw [this] at ih
        simp only [List.filter_cons, ha, decide_false, Bool.not_false, if_true, Bool.false_eq_true, if_false, this,
          List.nil_append]
        rw [List.nil_append] at ih
        rw [← ih]
  generalize hA : pre.filter (fun a => decide (fileOf a < f)) = A at hsplit
  generalize hB : pre.filter (fun a => !decide (fileOf a < f)) = B at hsplit
  have hA' : ∀ a ∈ A, fileOf a < f := by
    intro a ha; rw [← hA] at ha; simpa using (List.mem_filter.mp ha).2
  have hB' : ∀ b ∈ B, f < fileOf b := by
    intro b hb; rw [← hB] at hb
    have h1 := List.mem_filter.mp hb
    have h2 := hold b h1.1
    have h3 : ¬ fileOf b < f := by simpa using h1.2
    omega
  -- the sorted whole
  have hres : stableSort le (pre ++ new) = A ++ stableSort le new ++ B := by
    symm
    have hsA : Sorted le A := hA ▸ hs.sublist List.filter_sublist
    have hsB : Sorted le B := hB ▸ hs.sublist List.filter_sublist
    refine stableSort_unique o ?_ ?_
    · refine List.pairwise_append.mpr ⟨List.pairwise_append.mpr ⟨hsA, stableSort_sorted o new, ?_⟩, hsB, ?_⟩
      · intro a ha b hb
        have := hnew b (mem_stableSort.mp hb)
        exact hlt _ _ (by rw [this]; exact hA' a ha)
      · intro a ha b hb
        refine hlt _ _ ?_
        rcases List.mem_append.mp ha with h | h
        · exact Nat.lt_trans (hA' a h) (hB' b hb)
        · rw [hnew a (mem_stableSort.mp h)]; exact hB' b hb
    · intro k
      have heq : ∀ a b, (le a k && le k a) = true → (le b k && le k b) = true → le a b = true := by
        intro a b ha hb
        simp only [Bool.and_eq_true] at ha hb
        exact o.trans _ _ _ ha.1 hb.2
      rw [hsplit]
      simp only [List.filter_append]
      rw [filter_stableSort heq, List.append_assoc, List.append_assoc]
      congr 1
      by_cases hk : fileOf k = f
      · have : B.filter (fun a => le a k && le k a) = [] := by
          rw [List.filter_eq_nil_iff]
          intro b hb hc
          simp only [Bool.and_eq_true] at hc
          have h1 := hord _ _ hc.1
          have h2 := hB' b hb
          omega
        rw [this, List.append_nil, List.nil_append]
      · have : new.filter (fun a => le a k && le k a) = [] := by
          rw [List.filter_eq_nil_iff]
          intro b hb hc
          simp only [Bool.and_eq_true] at hc
          have h1 := hord _ _ hc.1
          have h2 := hord _ _ hc.2
          have h3 := hnew b hb
          omega
        rw [this, List.append_nil, List.nil_append]
  -- run the code
  have hstart : (pre ++ new).length - new.length = pre.length := by simp
  have hcond : 0 < new.length ∧ new.length ≤ (pre ++ new).length := ⟨hlen, by simp⟩
  rw [place, if_pos hcond]
  simp only [hstart, List.drop_left, List.take_left, hsort, Outcome.bind_ok]
  have hpp : partitionPoint (fun id => decide (fileOf id < f)) pre = .ok A.length := by
    rw [partitionPoint, hA, hB, if_pos hsplit]
  rw [hpp, Outcome.bind_ok]
  have hnot : ((pre[A.length]?).any (fun e => fileOf e == f)) = false := by
    cases hg : pre[A.length]? with
    | none => rfl
    | some e => simpa using hold e (List.mem_of_getElem? hg)
  rw [hnot]
  simp only [Bool.false_eq_true, if_false]
  rw [hres]
  split
  · rw [hsplit]
    have hl : (stableSort le new).length = new.length := (stableSort_perm new).length_eq
    simp only [List.append_assoc, List.take_left, List.drop_left, rotateRight, List.length_append, hl]
    rw [show B.length + new.length - new.length = B.length by omega]
    simp only [List.drop_left, List.take_left]
  · rename_i h
    have : A.length = pre.length := by omega
    rw [hsplit, List.length_append] at this
    have hBn : B = [] := List.length_eq_zero_iff.mp (by omega)
    rw [hsplit, hBn]; simp

/-- The arena holds exactly the logged facts, at their logged ids; all other slots are on the free list, once. -/
structure ArenaOk (A : Arena α) (log : List (Nat × α)) : Prop where
  live : ∀ i a, (i, a) ∈ log ↔ A.get i = some a
  nodup : (log.map (·.1)).Nodup
  freeNodup : A.free.Nodup
  free : ∀ i, i ∈ A.free ↔ A.slots[i]? = some none

theorem arenaOk_empty : ArenaOk (Arena.empty : Arena α) [] :=
  ⟨by simp [Arena.empty, Arena.get], by simp, by simp [Arena.empty], by simp [Arena.empty]⟩

theorem ArenaOk.insert {A : Arena α} {log : List (Nat × α)} (h : ArenaOk A log) (a : α) :
    ∃ A' id, A.insert a = .ok (A', id) ∧ ArenaOk A' (log ++ [(id, a)]) ∧ ∀ x ∈ log, x.1 ≠ id := by
  unfold Arena.insert
  cases hf : A.free with
  | nil =>
    have hfresh : ∀ x ∈ log, x.1 ≠ A.slots.length := by
      intro x hx he
      have := (h.live x.1 x.2).mp hx
      rw [he] at this
      simp [Arena.get] at this
    refine ⟨_, _, rfl, ⟨?_, ?_, ?_, ?_⟩, hfresh⟩
    · intro i b
      rw [List.mem_append, h.live]
      simp only [Arena.get, List.mem_singleton, Prod.mk.injEq]
      rcases Nat.lt_trichotomy i A.slots.length with hi | rfl | hi
      · rw [List.getElem?_append_left hi]
        constructor
        · rintro (h1 | ⟨h1, _⟩)
          · exact h1
          · omega
        · exact .inl
      · simp [eq_comm]
      · have h1 : (A.slots ++ [some a])[i]? = none := List.getElem?_eq_none (by simp; omega)
        have h2 : A.slots[i]? = none := List.getElem?_eq_none (by omega)
        rw [h1, h2]; simp; omega
    · rw [List.map_append, List.nodup_append]
      refine ⟨h.nodup, by simp, ?_⟩
      intro x hx y hy
      obtain ⟨p, hp, rfl⟩ := List.mem_map.mp hx
      simp at hy; subst hy
      exact hfresh p hp
    · simp
    · intro i
      have := h.free i
      simp only [hf, List.not_mem_nil, false_iff] at this ⊢
      intro hc
      rcases Nat.lt_trichotomy i A.slots.length with hi | rfl | hi
      · rw [List.getElem?_append_left hi] at hc; exact this hc
      · simp at hc
      · rw [List.getElem?_eq_none (by simp; omega)] at hc; simp at hc
  | cons id rest =>
    have hid : A.slots[id]? = some none := (h.free id).mp (by simp [hf])
    simp only [hid]
    have hlen : id < A.slots.length := (List.getElem?_eq_some_iff.mp hid).1
    have hfresh : ∀ x ∈ log, x.1 ≠ id := by
      intro x hx he
      have := (h.live x.1 x.2).mp hx
      rw [he] at this
      simp [Arena.get, hid] at this
    have hnd := h.freeNodup
    rw [hf, List.nodup_cons] at hnd
    refine ⟨_, _, rfl, ⟨?_, ?_, ?_, ?_⟩, hfresh⟩
    · intro i b
      rw [List.mem_append, h.live]
      simp only [Arena.get, List.mem_singleton, Prod.mk.injEq]
      by_cases hi : i = id
      · subst hi
        rw [List.getElem?_set_self hlen, hid]
        simp [eq_comm]
      · rw [List.getElem?_set_ne (Ne.symm hi)]
        simp [hi]
    · rw [List.map_append, List.nodup_append]
      refine ⟨h.nodup, by simp, ?_⟩
      intro x hx y hy
      obtain ⟨p, hp, rfl⟩ := List.mem_map.mp hx
      simp at hy; subst hy
      exact hfresh p hp
    · exact hnd.2
    · intro i
      have := h.free i
      rw [hf, List.mem_cons] at this
      by_cases hi : i = id
      · subst hi
        simp only [List.getElem?_set_self hlen]
        simp [hnd.1]
      · simp only [List.getElem?_set_ne (Ne.symm hi)]
        rw [← this]; simp [hi]

theorem ArenaOk.take {A : Arena α} {log : List (Nat × α)} (h : ArenaOk A log) {id : Nat} {a : α} (hm : (id, a) ∈ log) :
    ∃ A', A.take id = some (a, A') ∧ ArenaOk A' (log.filter (fun x => decide (x.1 ≠ id))) := by
  have hg := (h.live id a).mp hm
  have hs : A.slots[id]? = some (some a) := by
    unfold Arena.get at hg
    cases hx : A.slots[id]? with
    | none => rw [hx] at hg; simp at hg
    | some o => rw [hx] at hg; simp at hg; rw [hg]
  have hlen : id < A.slots.length := (List.getElem?_eq_some_iff.mp hs).1
  refine ⟨_, by simp only [Arena.take, hg]; rfl, ⟨?_, ?_, ?_, ?_⟩⟩
  · intro i b
    rw [List.mem_filter, h.live]
    simp only [Arena.get]
    by_cases hi : i = id
    · subst hi
      rw [List.getElem?_set_self hlen]
      simp
    · rw [List.getElem?_set_ne (Ne.symm hi)]
      simp [hi]
  · exact h.nodup.sublist ((List.filter_sublist).map _)
  · refine List.nodup_cons.mpr ⟨?_, h.freeNodup⟩
    intro hc
    have := (h.free id).mp hc
    rw [hs] at this; simp at this
  · intro i
    rw [List.mem_cons, h.free]
    by_cases hi : i = id
    · subst hi
      simp [List.getElem?_set_self hlen]
    · simp only [List.getElem?_set_ne (Ne.symm hi)]
      simp [hi]

/-- The ids of the logged facts satisfying `p`, stably sorted. -/
def sortedIds (le : α → α → Bool) (log : List (Nat × α)) (p : α → Bool) : List Nat :=
  (stableSort (fun x y => le x.2 y.2) (log.filter (fun x => p x.2))).map (·.1)

theorem ArenaOk.sortIds {A : Arena α} {log : List (Nat × α)} (h : ArenaOk A log) (le : α → α → Bool)
    {ps : List (Nat × α)} (hp : ∀ x ∈ ps, x ∈ log) :
    A.sortIds le (ps.map (·.1)) = .ok ((stableSort (fun x y => le x.2 y.2) ps).map (·.1)) := by
  have hg : ∀ x ∈ ps, A.get x.1 = some x.2 := fun x hx => (h.live x.1 x.2).mp (hp x hx)
  have hall : (ps.map (·.1)).all (fun i => (A.get i).isSome) = true := by
    rw [List.all_eq_true]
    intro i hi
    obtain ⟨x, hx, rfl⟩ := List.mem_map.mp hi
    rw [hg x hx]; rfl
  rw [Arena.sortIds, if_pos hall]
  congr 1
  apply stableSort_map
  intro x hx y hy
  simp only [hg x hx, hg y hy]

theorem ArenaOk.clone {A : Arena α} {log : List (Nat × α)} (h : ArenaOk A log)
    {ps : List (Nat × α)} (hp : ∀ x ∈ ps, x ∈ log) : A.clone (ps.map (·.1)) = ps.map (·.2) := by
  induction ps with
  | nil => rfl
  | cons x ps ih =>
    have ih := ih (fun y hy => hp y (by simp [hy]))
    have hx : A.get x.1 = some x.2 := (h.live x.1 x.2).mp (hp x (by simp))
    simp only [Arena.clone, List.map_cons, List.filterMap_cons, hx] at ih ⊢
    rw [ih]

/-- Reading a sorted bucket gives the sorted facts. -/
theorem ArenaOk.clone_sortedIds {A : Arena α} {log : List (Nat × α)} (h : ArenaOk A log) (le : α → α → Bool)
    (p : α → Bool) : A.clone (sortedIds le log p) = stableSort le ((log.map (·.2)).filter p) := by
  rw [sortedIds, h.clone (fun x hx => (List.mem_filter.mp (mem_stableSort.mp hx)).1), List.filter_map]
  exact (stableSort_map (fun _ _ _ _ => rfl)).symm

theorem sortedIds_append {le : α → α → Bool} {log : List (Nat × α)} {p : α → Bool} {new : List (Nat × α)}
    (h : ∀ x ∈ new, p x.2 = false) : sortedIds le (log ++ new) p = sortedIds le log p := by
  rw [sortedIds, List.filter_append, List.filter_eq_nil_iff (l := new).mpr (fun x hx => by simp [h x hx]), List.append_nil]
  rfl

/-- Pushing ids and sorting the bucket again. -/
theorem ArenaOk.sortIds_push {A : Arena α} {log new : List (Nat × α)} {le : α → α → Bool} (o : IsOrder le)
    (h : ArenaOk A (log ++ new)) (p : α → Bool) :
    A.sortIds le (sortedIds le log p ++ (new.filter (fun x => p x.2)).map (·.1)) = .ok (sortedIds le (log ++ new) p) := by
  rw [sortedIds, ← List.map_append, h.sortIds le]
  · rw [stableSort_append_left (leBy_snd o), sortedIds, List.filter_append]
  · intro x hx
    rcases List.mem_append.mp hx with hx | hx
    · exact List.mem_append.mpr (.inl (List.mem_filter.mp (mem_stableSort.mp hx)).1)
    · exact List.mem_append.mpr (.inr (List.mem_filter.mp hx).1)

theorem stableSort_congr {T : Type} {le le' : T → T → Bool} {l : List T}
    (h : ∀ a ∈ l, ∀ b ∈ l, le' a b = le a b) : stableSort le' l = stableSort le l := by
  have := stableSort_map (le := le) (le' := le') (f := fun x => x) (l := l) h
  simpa using this

/-- Placing the ids of one file's new facts in a bucket that is sorted and free of that file. -/
theorem ArenaOk.place {A : Arena α} {log new : List (Nat × α)} {le : α → α → Bool} (o : IsOrder le)
    (h : ArenaOk A (log ++ new)) {file : α → Nat} {f : Nat}
    (hord : ∀ a b, le a b = true → file a ≤ file b) (hlt : ∀ a b, file a < file b → le a b = true)
    (hold : ∀ x ∈ log, file x.2 ≠ f) (hnew : ∀ x ∈ new, file x.2 = f) (p : α → Bool)
    (hne : new.filter (fun x => p x.2) ≠ []) :
    A.place le file (sortedIds le log p ++ (new.filter (fun x => p x.2)).map (·.1))
      (new.filter (fun x => p x.2)).length f = .ok (sortedIds le (log ++ new) p) := by
  obtain ⟨d, hd⟩ := List.exists_mem_of_ne_nil _ hne
  have hg : ∀ x ∈ log ++ new, A.get x.1 = some x.2 := fun x hx => (h.live x.1 x.2).mp hx
  let F : Nat → α := fun i => (A.get i).getD d.2
  have hF : ∀ x ∈ log ++ new, F x.1 = x.2 := by intro x hx; simp [F, hg x hx]
  let le' : Nat → Nat → Bool := fun i j => le (F i) (F j)
  have o' : IsOrder le' := ⟨fun _ _ => o.total _ _, fun _ _ _ => o.trans _ _ _⟩
  have hsorted_mem : ∀ x ∈ stableSort (fun x y => le x.2 y.2) (log.filter (fun x => p x.2)), x ∈ log ++ new := fun x hx =>
    List.mem_append.mpr (.inl (List.mem_filter.mp (mem_stableSort.mp hx)).1)
  have hnew_mem : ∀ x ∈ new.filter (fun x => p x.2), x ∈ log ++ new := fun x hx =>
    List.mem_append.mpr (.inr (List.mem_filter.mp hx).1)
  have hall : (sortedIds le log p ++ (new.filter (fun x => p x.2)).map (·.1)).all (fun i => (A.get i).isSome) = true := by
    rw [List.all_eq_true]
    intro i hi
    rcases List.mem_append.mp hi with hi | hi
    · obtain ⟨x, hx, rfl⟩ := List.mem_map.mp hi
      rw [hg x (hsorted_mem x hx)]; rfl
    · obtain ⟨x, hx, rfl⟩ := List.mem_map.mp hi
      rw [hg x (hnew_mem x hx)]; rfl
  rw [Arena.place, if_pos hall]
  have hlen : (new.filter (fun x => p x.2)).length = ((new.filter (fun x => p x.2)).map (·.1)).length := by simp
  rw [hlen]
  -- ids of dead facts do not occur, so the default does not matter
  have hfile : ∀ x ∈ log ++ new, ((A.get x.1).map file).getD 0 = file x.2 := by
    intro x hx; simp [hg x hx]
  have hcongr : ∀ (ids : List Nat) (n : Nat) (fo fo' : Nat → Nat) (srt : List Nat → Outcome (List Nat)),
      (∀ i ∈ ids, fo i = fo' i) → Store.place ids n f fo srt = Store.place ids n f fo' srt := by
    intro ids n fo fo' srt he
    unfold Store.place
    split
    · cases hs : srt (ids.drop (ids.length - n)) with
      | ok tail =>
        simp only [hs, Outcome.bind_ok]
        have ht : (ids.take (ids.length - n) ++ tail).take (ids.length - n) = ids.take (ids.length - n) := by
          rw [List.take_append_of_le_length (by simp), List.take_take, Nat.min_self]
        rw [ht]
        have hm : ∀ i ∈ ids.take (ids.length - n), fo i = fo' i := fun i hi => he i (List.mem_of_mem_take hi)
        have h1 : partitionPoint (fun id => decide (fo id < f)) (ids.take (ids.length - n))
            = partitionPoint (fun id => decide (fo' id < f)) (ids.take (ids.length - n)) := by
          unfold partitionPoint
          rw [List.filter_congr (q := fun id => decide (fo' id < f)) (fun i hi => by rw [hm i hi]),
            List.filter_congr (p := fun x => !decide (fo x < f)) (q := fun x => !decide (fo' x < f))
              (fun i hi => by rw [hm i hi])]
        rw [h1]
        cases partitionPoint (fun id => decide (fo' id < f)) (ids.take (ids.length - n)) with
        | ok k =>
          simp only [Outcome.bind_ok]
          have h2 : ((ids.take (ids.length - n))[k]?).any (fun e => fo e == f)
              = ((ids.take (ids.length - n))[k]?).any (fun e => fo' e == f) := by
            cases hk : (ids.take (ids.length - n))[k]? with
            | none => rfl
            | some e => simp only [Option.any_some]; rw [hm e (List.mem_of_getElem? hk)]
          rw [h2]
        | disabled => rfl
        | panic => rfl
      | disabled => simp only [hs]; rfl
      | panic => simp only [hs]; rfl
    · rfl
  rw [hcongr _ _ _ (fun i => file (F i)) _ ?_]
  · have hsortedMap : stableSort le' ((log.filter (fun x => p x.2)).map (·.1)) = sortedIds le log p := by
      refine stableSort_map ?_
      intro x hx y hy
      have hx' : x ∈ log ++ new := List.mem_append.mpr (.inl (List.mem_filter.mp hx).1)
      have hy' : y ∈ log ++ new := List.mem_append.mpr (.inl (List.mem_filter.mp hy).1)
      simp only [le', hF x hx', hF y hy']
    rw [place_eq_sort (le := le') o' (fun a b => hord _ _) (fun a b => hlt _ _)]
    · congr 1
      rw [← hsortedMap, stableSort_append_left o', ← List.map_append, ← List.filter_append]
      refine stableSort_map ?_
      intro x hx y hy
      simp only [le', hF x (List.mem_filter.mp hx).1, hF y (List.mem_filter.mp hy).1]
    · rw [← hsortedMap]; exact stableSort_sorted o' _
    · intro he; exact hne (List.map_eq_nil_iff.mp he)
    · intro i hi
      obtain ⟨x, hx, rfl⟩ := List.mem_map.mp hi
      simp only [hF x (hsorted_mem x hx)]
      exact hold x (List.mem_filter.mp (mem_stableSort.mp hx)).1
    · intro i hi
      obtain ⟨x, hx, rfl⟩ := List.mem_map.mp hi
      simp only [hF x (hnew_mem x hx)]
      exact hnew x (List.mem_filter.mp hx).1
    · rw [h.sortIds le hnew_mem]
      congr 1
      refine (stableSort_map ?_).symm
      intro x hx y hy
      simp only [le', hF x (hnew_mem x hx), hF y (hnew_mem y hy)]
  · intro i hi
    rcases List.mem_append.mp hi with hi | hi
    · obtain ⟨x, hx, rfl⟩ := List.mem_map.mp hi
      simp only [hfile x (hsorted_mem x hx), hF x (hsorted_mem x hx)]
    · obtain ⟨x, hx, rfl⟩ := List.mem_map.mp hi
      simp only [hfile x (hnew_mem x hx), hF x (hnew_mem x hx)]

/-- `retain(|id| id != stale)`. -/
theorem sortedIds_remove {le : α → α → Bool} (o : IsOrder le) (log : List (Nat × α)) (p : α → Bool) (id : Nat) :
    (sortedIds le log p).filter (fun i => decide (i ≠ id))
      = sortedIds le (log.filter (fun x => decide (x.1 ≠ id))) p := by
  have hcomm : (log.filter (fun x => decide (x.1 ≠ id))).filter (fun x => p x.2)
      = (log.filter (fun x => p x.2)).filter (fun x => decide (x.1 ≠ id)) := by
    rw [List.filter_filter, List.filter_filter]; congr 1; funext a; rw [Bool.and_comm]
  rw [sortedIds, sortedIds, hcomm, List.filter_map,
    ← stableSort_filter (leBy_snd o) (fun x : Nat × α => decide (x.1 ≠ id))]
  rfl

/-- A bucket that does not contain the removed fact stays. -/
theorem sortedIds_remove_other {le : α → α → Bool} {A : Arena α} {log : List (Nat × α)} (h : ArenaOk A log)
    {p : α → Bool} {id : Nat} {a : α} (hm : (id, a) ∈ log) (hp : p a = false) :
    sortedIds le (log.filter (fun x => decide (x.1 ≠ id))) p = sortedIds le log p := by
  rw [sortedIds, sortedIds, List.filter_filter]
  congr 2
  apply List.filter_congr
  intro x hx
  by_cases hi : x.1 = id
  · have : x.2 = a := by
      have h1 := (h.live x.1 x.2).mp hx
      have h2 := (h.live id a).mp hm
      rw [hi, h2] at h1; exact (Option.some.inj h1).symm
    simp [hi, this, hp]
  · simp [hi]

theorem mem_sortedIds {le : α → α → Bool} {log : List (Nat × α)} {p : α → Bool} {i : Nat} :
    i ∈ sortedIds le log p ↔ ∃ a, (i, a) ∈ log ∧ p a = true := by
  simp only [sortedIds, List.mem_map, mem_stableSort, List.mem_filter]
  constructor
  · rintro ⟨⟨j, a⟩, ⟨h1, h2⟩, rfl⟩; exact ⟨a, h1, h2⟩
  · rintro ⟨a, h1, h2⟩; exact ⟨(i, a), ⟨h1, h2⟩, rfl⟩

/-- The live facts, in arena order, are the logged facts in some order. -/
theorem ArenaOk.all_perm {A : Arena α} {log : List (Nat × α)} (h : ArenaOk A log) :
    A.all.Perm (log.map (·.2)) := by
  -- enumerate the arena
  let en : List (Nat × α) := (A.slots.zipIdx).filterMap (fun q => q.1.map (fun a => (q.2, a)))
  have hmem : ∀ i a, (i, a) ∈ en ↔ A.get i = some a := by
    intro i a
    simp only [en, List.mem_filterMap, Prod.exists, Option.map_eq_some_iff, Prod.mk.injEq, Arena.get]
    constructor
    · rintro ⟨o, j, hm, b, rfl, rfl, rfl⟩
      have := List.mem_zipIdx_iff_getElem?.mp hm
      simp only at this
      rw [this]; rfl
    · intro hg
      cases hx : A.slots[i]? with
      | none => rw [hx] at hg; simp at hg
      | some o =>
        rw [hx] at hg
        simp only [Option.join_some] at hg
        exact ⟨o, i, List.mem_zipIdx_iff_getElem?.mpr hx, a, hg, rfl, rfl⟩
  have hnd : (en.map (·.1)).Nodup := by
    have hsub : (en.map (·.1)).Sublist (A.slots.zipIdx.map (·.2)) := by
      have : ∀ l : List (Option α × Nat),
          ((l.filterMap (fun q => q.1.map (fun a => (q.2, a)))).map (·.1)).Sublist (l.map (·.2)) := by
        intro l
        induction l with
        | nil => exact .refl _
        | cons q l ih =>
          obtain ⟨o, n⟩ := q
          cases o with
          | none => exact ih.cons n
          | some b => exact ih.cons_cons n
      exact this _
    refine List.Nodup.sublist hsub ?_
    rw [List.zipIdx_map_snd]
    exact List.nodup_range'
  have hperm : en.Perm log := by
    refine (List.perm_ext_iff_of_nodup (List.Nodup.of_map _ hnd) (List.Nodup.of_map _ h.nodup)).mpr ?_
    rintro ⟨i, a⟩
    rw [hmem, h.live]
  have hall : A.all = en.map (·.2) := by
    have : ∀ (l : List (Option α)) (n : Nat),
        l.filterMap id = ((l.zipIdx n).filterMap (fun q => q.1.map (fun a => (q.2, a)))).map (·.2) := by
      intro l
      induction l with
      | nil => intro n; rfl
      | cons o l ih =>
        intro n
        cases o with
        | none => simpa [List.zipIdx_cons] using ih (n + 1)
        | some b => simpa [List.zipIdx_cons] using ih (n + 1)
    exact this _ 0
  rw [hall]
  exact hperm.map _

theorem upd_self {κ ω : Type} [DecidableEq κ] (m : κ → ω) (k : κ) (ids : ω) : upd m k ids k = ids := by
  simp [upd]

theorem upd_ne {κ ω : Type} [DecidableEq κ] (m : κ → ω) {k k' : κ} (h : k' ≠ k) (ids : ω) :
    upd m k ids k' = m k' := by
  simp [upd, h]

/-- Removing logged facts one id at a time. -/
theorem foldl_remove {σ : Type} (P : σ → List (Nat × α) → Prop) (step : σ → Nat → σ) (q : α → Prop)
    (hstep : ∀ s log i a, P s log → (i, a) ∈ log → q a → P (step s i) (log.filter (fun x => decide (x.1 ≠ i))))
    (ids : List Nat) {s : σ} {log : List (Nat × α)} (h : P s log) (hnd : ids.Nodup)
    (hm : ∀ i ∈ ids, ∃ a, (i, a) ∈ log ∧ q a) :
    P (ids.foldl step s) (log.filter (fun x => decide (x.1 ∉ ids))) := by
  induction ids generalizing s log with
  | nil => simpa using h
  | cons i ids ih =>
    obtain ⟨a, h1, h2⟩ := hm i (by simp)
    have hc := List.nodup_cons.mp hnd
    have := ih (hstep s log i a h h1 h2) hc.2 (by
      intro j hj
      obtain ⟨b, hb1, hb2⟩ := hm j (by simp [hj])
      refine ⟨b, List.mem_filter.mpr ⟨hb1, ?_⟩, hb2⟩
      have : j ≠ i := fun e => hc.1 (e ▸ hj)
      simpa using this)
    rw [List.filter_filter] at this
    rw [List.foldl_cons]
    convert this using 2
    funext x
    simp [List.mem_cons, not_or, Bool.and_comm]

theorem sortedIds_nodup {le : α → α → Bool} {A : Arena α} {log : List (Nat × α)} (h : ArenaOk A log) (p : α → Bool) :
    (sortedIds le log p).Nodup :=
  ((stableSort_perm _).map _).nodup_iff.mpr (h.nodup.sublist ((List.filter_sublist).map _))

theorem ArenaOk.unique {A : Arena α} {log : List (Nat × α)} (h : ArenaOk A log) {i : Nat} {a b : α} (ha : (i, a) ∈ log)
    (hb : (i, b) ∈ log) : a = b := by
  have e1 := (h.live i a).mp ha
  have e2 := (h.live i b).mp hb
  rw [e1] at e2; exact Option.some.inj e2

/-- Dropping the ids of a bucket drops exactly the facts of that bucket. -/
theorem filter_not_sortedIds {le : α → α → Bool} {A : Arena α} {log : List (Nat × α)} (h : ArenaOk A log) (p : α → Bool) :
    log.filter (fun x => decide (x.1 ∉ sortedIds le log p)) = log.filter (fun x => !p x.2) := by
  apply List.filter_congr
  intro x hx
  have : x.1 ∈ sortedIds le log p ↔ p x.2 = true := by
    rw [mem_sortedIds]
    constructor
    · rintro ⟨a, ha, hp⟩
      rw [h.unique hx ha]; exact hp
    · intro hp; exact ⟨x.2, hx, hp⟩
  simp [this]

section Index
variable {κ : Type} [DecidableEq κ] {le : α → α → Bool} {keyOf : α → Option κ}

/-- Does the fact have key `k`? -/
def hasKey (keyOf : α → Option κ) (k : κ) (a : α) : Bool := decide (keyOf a = some k)

/-- The index lists, for every key, exactly the logged facts with that key, sorted. -/
def IdxOk (le : α → α → Bool) (keyOf : α → Option κ) (log : List (Nat × α)) (m : κ → List Nat) : Prop :=
  ∀ k, m k = sortedIds le log (hasKey keyOf k)

/-- The index lists the sorted facts of `log` followed by the facts of `new`. -/
def IdxApp (le : α → α → Bool) (keyOf : α → Option κ) (log new : List (Nat × α)) (m : κ → List Nat) : Prop :=
  ∀ k, m k = sortedIds le log (hasKey keyOf k) ++ (new.filter (fun x => hasKey keyOf k x.2)).map (·.1)

theorem idxOk_empty : IdxOk le keyOf [] (fun _ => []) := fun _ => rfl

theorem IdxOk.app {log : List (Nat × α)} {m : κ → List Nat} (h : IdxOk le keyOf log m) : IdxApp le keyOf log [] m := by
  intro k; simpa using h k

theorem IdxApp.push {log new : List (Nat × α)} {m : κ → List Nat} (h : IdxApp le keyOf log new m) (id : Nat) (a : α) :
    IdxApp le keyOf log (new ++ [(id, a)]) (push m (keyOf a) id) := by
  intro k
  rw [List.filter_append, List.map_append, ← List.append_assoc, ← h k]
  cases hk : keyOf a with
  | none => simp [Store.push, hasKey, hk]
  | some k' =>
    by_cases he : k = k'
    · subst he; simp [Store.push, upd, hasKey, hk]
    · simp [Store.push, upd, hasKey, hk, he, Ne.symm he]

theorem IdxOk.remove (o : IsOrder le) {A : Arena α} {log : List (Nat × α)} {m : κ → List Nat} (h : IdxOk le keyOf log m)
    (ha : ArenaOk A log) {id : Nat} {a : α} (hm : (id, a) ∈ log) :
    IdxOk le keyOf (log.filter (fun x => decide (x.1 ≠ id))) (retain m (keyOf a) id) := by
  intro k
  cases hk : keyOf a with
  | none =>
    simp only [retain]
    rw [h k, sortedIds_remove_other ha hm (by simp [hasKey, hk])]
  | some k' =>
    by_cases he : k = k'
    · subst he
      simp only [retain, upd, if_true]
      rw [h k, sortedIds_remove o]
    · simp only [retain, upd, if_neg he]
      rw [h k, sortedIds_remove_other ha hm (by simp [hasKey, hk, Ne.symm he])]

/-- Push one fact and sort its bucket. -/
theorem IdxOk.add (o : IsOrder le) {A : Arena α} {log : List (Nat × α)} {m : κ → List Nat} (h : IdxOk le keyOf log m)
    {id : Nat} {a : α} (ha : ArenaOk A (log ++ [(id, a)])) :
    ∃ m', A.sortKey le (keyOf a) (push m (keyOf a) id) = .ok m' ∧ IdxOk le keyOf (log ++ [(id, a)]) m' := by
  have hp := h.app.push id a
  rw [List.nil_append] at hp
  cases hk : keyOf a with
  | none =>
    refine ⟨_, rfl, ?_⟩
    intro k
    rw [hk] at hp
    rw [hp k, sortedIds_append (by simp [hasKey, hk])]
    simp [hasKey, hk]
  | some k' =>
    rw [hk] at hp
    have hs := ha.sortIds_push o (hasKey keyOf k')
    rw [← hp k'] at hs
    refine ⟨_, by simp only [Arena.sortKey, hs, Outcome.bind_ok]; rfl, ?_⟩
    intro k
    by_cases he : k = k'
    · subst he; simp [upd]
    · simp only [upd, if_neg he]
      rw [hp k, sortedIds_append (by simp [hasKey, hk, Ne.symm he])]
      simp [hasKey, hk, Ne.symm he]

/-- Sort all touched buckets. -/
theorem IdxApp.sortKeys (o : IsOrder le) {A : Arena α} {log new : List (Nat × α)} {m : κ → List Nat}
    (h : IdxApp le keyOf log new m) (ha : ArenaOk A (log ++ new)) {ks : List κ} (hnd : ks.Nodup)
    (hks : ∀ x ∈ new, ∀ k, keyOf x.2 = some k → k ∈ ks) :
    ∃ m', A.sortKeys le ks m = .ok m' ∧ IdxOk le keyOf (log ++ new) m' := by
  have key : ∀ (ks : List κ) (m : κ → List Nat), ks.Nodup →
      (∀ k ∈ ks, m k = sortedIds le log (hasKey keyOf k) ++ (new.filter (fun x => hasKey keyOf k x.2)).map (·.1)) →
      (∀ k, k ∉ ks → m k = sortedIds le (log ++ new) (hasKey keyOf k)) →
      ∃ m', A.sortKeys le ks m = .ok m' ∧ IdxOk le keyOf (log ++ new) m' := by
    intro ks
    induction ks with
    | nil => intro m _ _ ho; exact ⟨m, rfl, fun k => ho k (by simp)⟩
    | cons k ks ih =>
      intro m hnd hi ho
      have hc := List.nodup_cons.mp hnd
      have hs := ha.sortIds_push o (hasKey keyOf k)
      rw [← hi k (by simp)] at hs
      obtain ⟨m', e1, e2⟩ := ih (upd m k (sortedIds le (log ++ new) (hasKey keyOf k))) hc.2 (by
        intro k' hk'
        have : k' ≠ k := fun e => hc.1 (e ▸ hk')
        simp only [upd, if_neg this]
        exact hi k' (by simp [hk'])) (by
        intro k' hk'
        by_cases he : k' = k
        · subst he; simp [upd]
        · simp only [upd, if_neg he]
          exact ho k' (by simp [he, hk']))
      exact ⟨m', by simp only [Arena.sortKeys, Arena.sortKey, hs, Outcome.bind_ok]; exact e1, e2⟩
  refine key ks m hnd (fun k _ => h k) ?_
  intro k hk
  rw [h k, sortedIds_append, List.filter_eq_nil_iff.mpr]
  · simp
  · intro x hx hc
    exact hk (hks x hx k (by simpa [hasKey] using hc))
  · intro x hx
    have : keyOf x.2 ≠ some k := fun e => hk (hks x hx k e)
    simp [hasKey, this]

theorem note_nodup {ks : List κ} (h : ks.Nodup) (k : Option κ) : (note ks k).Nodup := by
  cases k with
  | none => exact h
  | some k =>
    simp only [note]
    split
    · exact h
    · rename_i hn
      rw [List.nodup_append]
      refine ⟨h, by simp, ?_⟩
      intro a ha b hb
      simp only [List.mem_singleton] at hb
      subst hb
      exact fun e => hn (e ▸ ha)

theorem mem_note {ks : List κ} {k : Option κ} {x : κ} : x ∈ note ks k ↔ x ∈ ks ∨ k = some x := by
  cases k with
  | none => simp [note]
  | some k =>
    simp only [note]
    split
    · rename_i h
      simp only [Option.some.injEq]
      exact ⟨.inl, fun h' => h'.elim id (fun e => e ▸ h)⟩
    · simp [eq_comm]

end Index

end Store
end Verif
