import Verif.Spec.RbsAncestors
import Verif.Lemmas.RbsTypes
import Mathlib.Data.List.Forall2
/-!
Lemmas about the search through what a class inherits from.
-/
namespace Verif.RbsAncestors
open Verif.Types
open Verif.Yard (Text Unicode)
open Verif.RbsTypes (Rbs code strip find_reverse)
open Verif.RbsTemplates (Method)
open Verif.HigherOrder (Out)

variable {U : Unicode} {L : Loader}

theorem get_iff {c : Name} {d : Decl} : L.get c = some d ↔ ∃ pre post, L = pre ++ d :: post ∧ d.name = c ∧ ∀ o ∈ post, o.name ≠ c := by
  unfold Loader.get
  rw [find_reverse]
  simp

theorem node_iff {c : Name} {d : Decl} : L.node c = some d ↔ Declared L c d := by
  unfold Loader.node Loader.getClass Loader.getModule Declared
  rw [← get_iff]
  cases h : L.get c with
  | none => simp
  | some e =>
    rw [Option.filter_some, Option.filter_some]
    constructor
    · rcases hk : e.kind with _ | _ | _ <;> simp <;> rintro rfl <;> simp [hk]
    · rintro ⟨h1, h2⟩
      obtain rfl := Option.some.inj h2
      rcases hk : e.kind with _ | _ | _ <;> simp_all

theorem node_none {c : Name} : L.node c = none ↔ ∀ d, ¬ Declared L c d := by
  rw [Option.eq_none_iff_forall_ne_some]
  exact forall_congr' fun d => not_congr node_iff

theorem declared_unique {c : Name} {d e : Decl} (h : Declared L c d) (h' : Declared L c e) : d = e := by
  rw [← node_iff] at h h'
  exact Option.some.inj (h.symm.trans h')

theorem declared_name {c : Name} {d : Decl} (h : Declared L c d) : d.name = c := by
  obtain ⟨-, pre, post, -, h, -⟩ := h
  exact h

theorem declared_mem {c : Name} {d : Decl} (h : Declared L c d) : c ∈ L.map (·.name) := by
  obtain ⟨-, pre, post, rfl, rfl, -⟩ := h
  simp

theorem target_iff {t : Rbs} {c : Name} : target t = some c ↔ Names t c := by
  have key : ∀ n : Text, code (strip n) = c ↔ ((∃ r, n = ':' :: ':' :: r ∧ c = code r) ∨ ((∀ r, n ≠ ':' :: ':' :: r) ∧ c = code n)) := by
    intro n
    by_cases h : ∃ r, n = ':' :: ':' :: r
    · obtain ⟨r, rfl⟩ := h
      simp [strip, eq_comm]
    · have h' : ∀ r, n ≠ ':' :: ':' :: r := fun r e => h ⟨r, e⟩
      rw [RbsTypes.strip_other h']
      constructor
      · exact fun e => .inr ⟨h', e.symm⟩
      · rintro (⟨r, e, -⟩ | ⟨-, e⟩)
        · exact absurd e (h' r)
        · exact e.symm
  unfold Names target
  split
  · rename_i n
    simp [key]
  · rename_i n args
    simp [key]
  · rename_i h1 h2
    constructor
    · rintro ⟨⟩
    · rintro ⟨n, rfl | ⟨args, rfl⟩, -⟩
      · exact absurd rfl (h1 n)
      · exact absurd rfl (h2 n args)

theorem includes_iff {ms : List Member} {ts : List Rbs} : Includes ms ts ↔ includes ms = ts := by
  constructor
  · intro h
    induction h with
    | nil => rfl
    | here _ ih => simpa [includes] using ih
    | @skip m ms ts hm _ ih =>
      cases m with
      | incl t => exact absurd rfl (hm t)
      | _ => simpa [includes] using ih
  · rintro rfl
    induction ms with
    | nil => exact .nil
    | cons m ms ih =>
      cases m with
      | incl t => exact .here ih
      | _ => exact .skip (by intro t e; cases e) ih

/-- The superclass as a list. -/
def supers (d : Decl) : List Rbs :=
  if d.kind = .cls then
    match d.superclass with
    | some t => [t]
    | none => if d.name = basicName then [] else [.cls "Object".toList]
  else []

theorem super_iff {d : Decl} {us : List Rbs} (hk : d.kind ≠ .other) : Super d us ↔ supers d = us := by
  constructor
  · intro h
    cases h with
    | some h1 h2 => simp [supers, h1, h2]
    | object h1 h2 h3 => simp [supers, h1, h2, h3, basicName]
    | basic h1 h2 h3 => simp [supers, h1, h2, h3, basicName]
    | mod h1 => simp [supers, h1]
  · rintro rfl
    unfold supers
    split
    · rename_i h1
      split
      · rename_i t h2
        exact .some h1 h2
      · rename_i h2
        split
        · rename_i h3; exact .basic h1 h2 h3
        · rename_i h3; exact .object h1 h2 h3
    · rename_i h1
      refine .mod ?_
      rcases h : d.kind with _ | _ | _
      · exact absurd h h1
      · rfl
      · exact absurd h hk

/-- What a declaration inherits from. -/
def parents (d : Decl) : List Rbs := includes d.members ++ supers d

theorem nextNames_node {c : Name} {d : Decl} (h : Declared L c d) : nextNames L c = (parents d).filterMap target := by
  have hn := node_iff.mpr h
  have hname := declared_name h
  unfold Loader.node at hn
  unfold nextNames parents supers
  rw [List.filterMap_append]
  cases hc : L.getClass c with
  | some e =>
    rw [hc] at hn
    obtain rfl : e = d := Option.some.inj hn
    have hk : e.kind = .cls := by
      unfold Loader.getClass at hc
      simpa using (Option.filter_eq_some_iff.mp hc).2
    rw [if_pos hk, hname]
    cases hs : e.superclass with
    | some t => cases ht : target t <;> simp [hs, ht]
    | none =>
      by_cases hb : c = basicName
      · simp [hb, hs]
      · have ho : List.filterMap target [Rbs.cls "Object".toList] = [objectName] := rfl
        simp only [hs, if_neg hb, ho]
  | none =>
    rw [hc] at hn
    simp only at hn
    have hk : d.kind = .mod := by
      unfold Loader.getModule at hn
      simpa using (Option.filter_eq_some_iff.mp hn).2
    rw [hn]
    simp [hk]

theorem nextNames_none {c : Name} (h : L.node c = none) : nextNames L c = [] := by
  unfold Loader.node at h
  unfold nextNames
  cases hc : L.getClass c with
  | some d => rw [hc] at h; cases h
  | none => rw [hc] at h; simp only at h; rw [h]

theorem inherits_iff {c c' : Name} : Inherits L c c' ↔ c' ∈ nextNames L c := by
  constructor
  · rintro ⟨d, ts, us, t, hd, hi, hs, ht, hn⟩
    rw [nextNames_node hd, List.mem_filterMap]
    rw [includes_iff] at hi
    rw [super_iff hd.1] at hs
    subst hi hs
    exact ⟨t, ht, target_iff.mpr hn⟩
  · intro h
    cases hd : L.node c with
    | none => rw [nextNames_none hd] at h; cases h
    | some d =>
      rw [node_iff] at hd
      rw [nextNames_node hd, List.mem_filterMap] at h
      obtain ⟨t, ht, hn⟩ := h
      exact ⟨d, _, _, t, hd, includes_iff.mpr rfl, (super_iff hd.1).mpr rfl, ht, target_iff.mp hn⟩

/-! ### The order of the search -/

def orderAll (f : List Name → Name → List Name) : List Name → List Name → List Name
  | _, [] => []
  | V, d :: ds => f V d ++ orderAll f (V ++ f V d) ds

/-- The declarations that are visited, in the order they are visited in. -/
def order (L : Loader) : Nat → List Name → Name → List Name
  | 0, _, _ => []
  | n + 1, V, c => if c ∈ V ∨ L.node c = none then [] else c :: orderAll (order L n) (V ++ [c]) (nextNames L c)

/-- How many declarations are not visited yet. -/
def room (L : Loader) (V : List Name) : Nat := ((L.map (·.name)).filter fun c => !decide (c ∈ V)).length

theorem filter_length_lt {α : Type} {p q : α → Bool} {l : List α} (h : ∀ a ∈ l, p a = true → q a = true) {a : α} (ha : a ∈ l) (hp : p a = false)
    (hq : q a = true) : (l.filter p).length < (l.filter q).length := by
  induction l with
  | nil => cases ha
  | cons b l ih =>
    have h2 : (l.filter p).length ≤ (l.filter q).length := by
      clear ih ha
      induction l with
      | nil => simp
      | cons e l ih =>
        have hi := ih fun a ha => h a (by simp only [List.mem_cons] at ha ⊢; tauto)
        have he := h e (by simp)
        by_cases hpe : p e = true
        · simp [hpe, he hpe, hi]
        · by_cases hqe : q e = true
          · simp [hpe, hqe]; omega
          · simp [hpe, hqe, hi]
    rcases List.mem_cons.mp ha with rfl | ha
    · simp [hp, hq]; omega
    · have hi := ih (fun a ha => h a (List.mem_cons_of_mem _ ha)) ha
      have hb := h b List.mem_cons_self
      by_cases hpb : p b = true
      · simp [hpb, hb hpb, hi]
      · by_cases hqb : q b = true
        · simp [hpb, hqb]; omega
        · simp [hpb, hqb, hi]

theorem room_mono {V V' : List Name} (h : V ⊆ V') : room L V' ≤ room L V := by
  unfold room
  induction (L.map (·.name)) with
  | nil => simp
  | cons a l ih =>
    by_cases h' : a ∈ V'
    · by_cases h1 : a ∈ V <;> simp [h', h1] <;> omega
    · have h1 : a ∉ V := fun h1 => h' (h h1)
      simp [h', h1]
      exact ih

theorem room_lt {V : List Name} {c : Name} (hc : L.node c ≠ none) (hv : c ∉ V) : room L (V ++ [c]) < room L V := by
  unfold room
  obtain ⟨d, hd⟩ := Option.ne_none_iff_exists'.mp hc
  have hm := declared_mem (node_iff.mp hd)
  exact filter_length_lt (a := c) (by intro a _; simp +contextual) hm (by simp) (by simpa using hv)

theorem room_le (V : List Name) : room L V ≤ L.length := by
  unfold room
  calc _ ≤ (L.map (·.name)).length := List.length_filter_le _ _
    _ = _ := by simp

/-- What was visited is declared, was not visited before, and with it all that it inherits from. -/
theorem order_closed : ∀ (n : Nat) (V : List Name) (c : Name), room L V ≤ n →
    (L.node c ≠ none → c ∈ V ++ order L n V c) ∧ (order L n V c).Nodup ∧
    ∀ d ∈ order L n V c, L.node d ≠ none ∧ d ∉ V ∧ Reach L c d ∧ ∀ e ∈ nextNames L d, L.node e ≠ none → e ∈ V ++ order L n V c
  | 0, V, c, hr => by
    refine ⟨fun hc => ?_, by simp [order], by simp [order]⟩
    by_contra hv
    have := room_lt hc (V := V) (by simpa [order] using hv)
    omega
  | n + 1, V, c, hr => by
    unfold order
    split
    · rename_i h
      refine ⟨fun hc => ?_, by simp, by simp⟩
      simpa [hc] using h
    · rename_i h
      simp only [not_or] at h
      have all : ∀ (ds V' : List Name), V ++ [c] ⊆ V' → (∀ d ∈ ds, Reach L c d) →
          (∀ d ∈ ds, L.node d ≠ none → d ∈ V' ++ orderAll (order L n) V' ds) ∧ (orderAll (order L n) V' ds).Nodup ∧
          ∀ d ∈ orderAll (order L n) V' ds, L.node d ≠ none ∧ d ∉ V' ∧ Reach L c d ∧ ∀ e ∈ nextNames L d, L.node e ≠ none →
            e ∈ V' ++ orderAll (order L n) V' ds := by
        intro ds
        induction ds with
        | nil => intro V' _ _; simp [orderAll]
        | cons d ds ih =>
          intro V' hV hds
          have hr' : room L V' ≤ n := by
            have := room_lt h.2 h.1
            have := room_mono (L := L) hV
            omega
          obtain ⟨a1, a2, a3⟩ := order_closed n V' d hr'
          obtain ⟨b1, b2, b3⟩ := ih (V' ++ order L n V' d) (fun x hx => List.mem_append_left _ (hV hx)) fun e he => hds e (List.mem_cons_of_mem _ he)
          simp only [orderAll]
          refine ⟨fun e he hn => ?_, ?_, fun e he => ?_⟩
          · rcases List.mem_cons.mp he with rfl | he
            · have := a1 hn
              simp only [List.mem_append] at this ⊢
              tauto
            · have := b1 e he hn
              simp only [List.mem_append] at this ⊢
              tauto
          · rw [List.nodup_append]
            refine ⟨a2, b2, fun x hx y hy e => ?_⟩
            subst e
            have := (b3 x hy).2.1
            simp only [List.mem_append] at this
            tauto
          · rcases List.mem_append.mp he with he | he
            · obtain ⟨h1, h2, h3, h4⟩ := a3 e he
              refine ⟨h1, h2, (hds d List.mem_cons_self).trans h3, fun x hx hn => ?_⟩
              have := h4 x hx hn
              simp only [List.mem_append] at this ⊢
              tauto
            · obtain ⟨h1, h2, h3, h4⟩ := b3 e he
              simp only [List.mem_append, not_or] at h2
              refine ⟨h1, h2.1, h3, fun x hx hn => ?_⟩
              have := h4 x hx hn
              simp only [List.mem_append] at this ⊢
              tauto
      obtain ⟨a1, a2, a3⟩ := all (nextNames L c) (V ++ [c]) (List.Subset.refl _) fun d hd => .single (inherits_iff.mpr hd)
      refine ⟨fun _ => by simp, ?_, fun d hd => ?_⟩
      · rw [List.nodup_cons]
        refine ⟨fun hc => ?_, a2⟩
        have := (a3 c hc).2.1
        simp at this
      · rcases List.mem_cons.mp hd with rfl | hd
        · refine ⟨h.2, h.1, .refl, fun e he hn => ?_⟩
          have := a1 e he hn
          simp only [List.mem_append, List.mem_cons, List.not_mem_nil, or_false] at this ⊢
          tauto
        · obtain ⟨h1, h2, h3, h4⟩ := a3 d hd
          simp only [List.mem_append, not_or] at h2
          refine ⟨h1, h2.1, h3, fun e he hn => ?_⟩
          have := h4 e he hn
          simp only [List.mem_append, List.mem_cons, List.not_mem_nil, or_false] at this ⊢
          tauto

/-- All that a declaration inherits from is visited. -/
theorem mem_order {n : Nat} (hn : L.length ≤ n) {c d : Name} : d ∈ order L n [] c ↔ L.node d ≠ none ∧ Reach L c d := by
  obtain ⟨h1, -, h3⟩ := order_closed (L := L) n [] c (Nat.le_trans (room_le _) hn)
  constructor
  · exact fun hd => ⟨(h3 d hd).1, (h3 d hd).2.2.1⟩
  · rintro ⟨hd, hr⟩
    induction hr with
    | refl => simpa using h1 hd
    | @tail b e hb he ih =>
      have hbn : L.node b ≠ none := by
        intro hb'
        rw [inherits_iff, nextNames_none hb'] at he
        cases he
      simpa using (h3 b (ih hbn)).2.2.2 e (inherits_iff.mp he) hd

/-! ### The order of the ancestors -/

/-- The list without what was seen before. -/
def fresh : List Name → List Name → List Name
  | _, [] => []
  | V, x :: l => if x ∈ V then fresh V l else x :: fresh (V ++ [x]) l

theorem fresh_append (V l l' : List Name) : fresh V (l ++ l') = fresh V l ++ fresh (V ++ fresh V l) l' := by
  induction l generalizing V with
  | nil => simp [fresh]
  | cons x l ih =>
    simp only [List.cons_append, fresh]
    split
    · exact ih V
    · rw [ih]; simp

theorem fresh_seen {V l : List Name} (h : l ⊆ V) : fresh V l = [] := by
  induction l with
  | nil => rfl
  | cons x l ih =>
    simp only [fresh]
    rw [if_pos (h List.mem_cons_self)]
    exact ih fun y hy => h (List.mem_cons_of_mem _ hy)

theorem fresh_mem {V l : List Name} {x : Name} : x ∈ fresh V l ↔ x ∈ l ∧ x ∉ V := by
  induction l generalizing V with
  | nil => simp [fresh]
  | cons y l ih =>
    simp only [fresh]
    split
    · rw [ih]
      constructor
      · rintro ⟨h1, h2⟩; exact ⟨List.mem_cons_of_mem _ h1, h2⟩
      · rintro ⟨h1, h2⟩
        rcases List.mem_cons.mp h1 with rfl | h1
        · contradiction
        · exact ⟨h1, h2⟩
    · rename_i hy
      rw [List.mem_cons, ih]
      constructor
      · rintro (rfl | ⟨h1, h2⟩)
        · exact ⟨List.mem_cons_self, hy⟩
        · exact ⟨List.mem_cons_of_mem _ h1, fun h => h2 (List.mem_append_left _ h)⟩
      · rintro ⟨h1, h2⟩
        by_cases e : x = y
        · exact .inl e
        · rcases List.mem_cons.mp h1 with h1 | h1
          · exact absurd h1 e
          · exact .inr ⟨h1, by simp [h2, e]⟩

/-- What is found first in the list is found first in the list without repetitions. -/
theorem fresh_first {P : Name → Prop} {V l : List Name} {a : Name} (hV : ∀ x ∈ V, ¬ P x) : First P (fresh V l) a → First P l a := by
  induction l generalizing V with
  | nil => rintro ⟨l1, l2, e, -⟩; simp [fresh] at e
  | cons x l ih =>
    simp only [fresh]
    split
    · rename_i hx
      intro h
      obtain ⟨l1, l2, rfl, h2, h3⟩ := ih hV h
      refine ⟨x :: l1, l2, rfl, h2, fun b hb => ?_⟩
      rcases List.mem_cons.mp hb with rfl | hb
      · exact hV b hx
      · exact h3 b hb
    · rename_i hx
      rintro ⟨l1, l2, e, h2, h3⟩
      cases l1 with
      | nil =>
        simp only [List.nil_append, List.cons.injEq] at e
        obtain ⟨rfl, -⟩ := e
        exact ⟨[], l, rfl, h2, by simp⟩
      | cons y l1 =>
        simp only [List.cons_append, List.cons.injEq] at e
        obtain ⟨rfl, e⟩ := e
        have hx' := h3 x List.mem_cons_self
        obtain ⟨m1, m2, rfl, -, h5⟩ := ih (V := V ++ [x]) (by
            intro z hz
            rcases List.mem_append.mp hz with hz | hz
            · exact hV z hz
            · rw [List.mem_singleton.mp hz]; exact hx')
          ⟨l1, l2, e, h2, fun b hb => h3 b (List.mem_cons_of_mem _ hb)⟩
        refine ⟨x :: m1, m2, rfl, h2, fun b hb => ?_⟩
        rcases List.mem_cons.mp hb with rfl | hb
        · exact hx'
        · exact h5 b hb

theorem names_unique {t : Rbs} {c c' : Name} (h : Names t c) (h' : Names t c') : c = c' := by
  rw [← target_iff] at h h'
  exact Option.some.inj (h.symm.trans h')

/-- The names that have an order of ancestors inherit in no circle, and the order has all they inherit from. -/
theorem lin_spec {rev : Bool} {c : Name} {l : List Name} (h : Lin L rev c l) :
    Acc (fun x y => Inherits L y x) c ∧ ∀ x, x ∈ l ↔ L.node x ≠ none ∧ Reach L c x := by
  refine Lin.rec (L := L) (rev := rev) (motive_1 := fun c l _ => Acc (fun x y => Inherits L y x) c ∧ ∀ x, x ∈ l ↔ L.node x ≠ none ∧ Reach L c x)
    (motive_2 := fun ts l _ => ∀ x, (x ∈ l ↔ L.node x ≠ none ∧ ∃ t ∈ ts, ∃ c, Names t c ∧ Reach L c x) ∧
      ∀ t ∈ ts, ∀ c, Names t c → Acc (fun x y => Inherits L y x) c) ?_ ?_ ?_ ?_ ?_ h
  · intro c hc
    have hn := node_none.mpr hc
    refine ⟨⟨_, fun y hy => ?_⟩, fun x => ?_⟩
    · rw [inherits_iff, nextNames_none hn] at hy
      cases hy
    · simp only [List.not_mem_nil, false_iff, not_and]
      intro hx hr
      rcases Relation.ReflTransGen.cases_head hr with rfl | ⟨y, hy, -⟩
      · exact hx hn
      · rw [inherits_iff, nextNames_none hn] at hy
        cases hy
  · intro c d ts us l hd hi hs _ ih
    have key : ∀ y, Inherits L c y ↔ ∃ t ∈ (if rev then ts.reverse else ts) ++ us, Names t y := by
      intro y
      constructor
      · rintro ⟨d', ts', us', t, hd', hi', hs', ht, hn⟩
        obtain rfl := declared_unique hd hd'
        rw [includes_iff] at hi hi'
        rw [super_iff hd.1] at hs hs'
        subst hi hs hi' hs'
        refine ⟨t, ?_, hn⟩
        cases rev <;> simpa using ht
      · rintro ⟨t, ht, hn⟩
        refine ⟨d, ts, us, t, hd, hi, hs, ?_, hn⟩
        cases rev <;> simpa using ht
    refine ⟨⟨_, fun y hy => ?_⟩, fun x => ?_⟩
    · obtain ⟨t, ht, hn⟩ := (key y).mp hy
      exact (ih y).2 t ht y hn
    · rw [List.mem_cons, (ih x).1]
      constructor
      · rintro (rfl | ⟨hx, t, ht, y, hn, hr⟩)
        · exact ⟨by rw [node_iff.mpr hd]; simp, .refl⟩
        · exact ⟨hx, .head ((key y).mpr ⟨t, ht, hn⟩) hr⟩
      · rintro ⟨hx, hr⟩
        rcases Relation.ReflTransGen.cases_head hr with rfl | ⟨y, hy, hr⟩
        · exact .inl rfl
        · obtain ⟨t, ht, hn⟩ := (key y).mp hy
          exact .inr ⟨hx, t, ht, y, hn, hr⟩
  · intro x
    simp
  · intro t c l ts ls hn _ _ ih ihs x
    refine ⟨?_, fun t' ht c' hn' => ?_⟩
    · rw [List.mem_append, ih.2, (ihs x).1]
      constructor
      · rintro (⟨hx, hr⟩ | ⟨hx, t', ht, c', hn', hr⟩)
        · exact ⟨hx, t, List.mem_cons_self, c, hn, hr⟩
        · exact ⟨hx, t', List.mem_cons_of_mem _ ht, c', hn', hr⟩
      · rintro ⟨hx, t', ht, c', hn', hr⟩
        rcases List.mem_cons.mp ht with rfl | ht
        · obtain rfl := names_unique hn hn'
          exact .inl ⟨hx, hr⟩
        · exact .inr ⟨hx, t', ht, c', hn', hr⟩
    · rcases List.mem_cons.mp ht with rfl | ht
      · obtain rfl := names_unique hn hn'
        exact ih.1
      · exact (ihs x).2 t' ht c' hn'
  · intro t ts ls hn _ ih x
    refine ⟨?_, fun t' ht c' hn' => ?_⟩
    · rw [(ih x).1]
      constructor
      · rintro ⟨hx, t', ht, c', hn', hr⟩
        exact ⟨hx, t', List.mem_cons_of_mem _ ht, c', hn', hr⟩
      · rintro ⟨hx, t', ht, c', hn', hr⟩
        rcases List.mem_cons.mp ht with rfl | ht
        · exact absurd hn' (hn c')
        · exact ⟨hx, t', ht, c', hn', hr⟩
    · rcases List.mem_cons.mp ht with rfl | ht
      · exact absurd hn' (hn c')
      · exact (ih x).2 t' ht c' hn'

theorem no_circle {c : Name} (h : Acc (fun x y => Inherits L y x) c) : ¬ Relation.TransGen (Inherits L) c c := by
  intro hc
  have : ∀ x, Acc (fun x y => Inherits L y x) x → ∀ y, Relation.TransGen (Inherits L) x y → x ≠ y := by
    intro x hx
    induction hx with
    | intro x _ ih =>
      rintro y hy rfl
      obtain ⟨z, hz, hr⟩ := Relation.TransGen.head'_iff.mp hy
      exact ih z hz z (Relation.TransGen.tail' hr hz) rfl
  exact this c h c hc rfl

/-- What was visited of the things below a name was visited with all below it. -/
def Whole (L : Loader) (V : List Name) (c : Name) : Prop :=
  ∀ y, Reach L c y → y ∈ V → ∀ z, Reach L y z → L.node z ≠ none → z ∈ V

theorem order_fresh : ∀ (n : Nat) (V : List Name) (c : Name) (l : List Name), room L V ≤ n → Lin L false c l → Whole L V c →
    order L n V c = fresh V l
  | n, V, c, l, hr, hl, hw => by
    obtain ⟨hacc, hmem⟩ := lin_spec hl
    by_cases hc : c ∈ V ∨ L.node c = none
    · have h1 : order L n V c = [] := by
        cases n with
        | zero => rfl
        | succ n => unfold order; rw [if_pos hc]
      rw [h1, fresh_seen]
      intro x hx
      rw [hmem] at hx
      rcases hc with hc | hc
      · exact hw c .refl hc x hx.2 hx.1
      · exfalso
        rcases Relation.ReflTransGen.cases_head hx.2 with rfl | ⟨y, hy, -⟩
        · exact hx.1 hc
        · rw [inherits_iff, nextNames_none hc] at hy
          cases hy
    · simp only [not_or] at hc
      cases n with
      | zero =>
        have := room_lt hc.2 hc.1
        omega
      | succ n =>
        unfold order
        rw [if_neg (by tauto)]
        cases hl with
        | missing h => exact absurd (node_none.mpr h) hc.2
        | @node _ d ts us l hd hi hs hall =>
          rw [includes_iff] at hi
          rw [super_iff hd.1] at hs
          subst hi hs
          simp only [fresh, if_neg hc.1, if_false, Bool.false_eq_true] at hall ⊢
          congr 1
          rw [nextNames_node hd]
          have below : ∀ t ∈ parents d, ∀ y, Names t y → Inherits L c y := by
            intro t ht y hn
            rw [inherits_iff, nextNames_node hd, List.mem_filterMap]
            exact ⟨t, ht, target_iff.mpr hn⟩
          change LinAll L false (parents d) l at hall
          have main : ∀ (ts : List Rbs) (l V' : List Name), LinAll L false ts l → (∀ t ∈ ts, ∀ y, Names t y → Inherits L c y) → V ++ [c] ⊆ V' →
              (∀ y, Relation.TransGen (Inherits L) c y → y ∈ V' → ∀ z, Reach L y z → L.node z ≠ none → z ∈ V') →
              orderAll (order L n) V' (ts.filterMap target) = fresh V' l := by
            intro ts
            induction ts with
            | nil => intro l V' h _ _ _; cases h; rfl
            | cons t ts ih =>
              intro l V' h hb hV hw'
              cases h with
              | @cons _ e l1 _ ls hn h1 h2 =>
                have he := hb t List.mem_cons_self e hn
                rw [List.filterMap_cons, target_iff.mpr hn]
                have hr' : room L V' ≤ n := by
                  have := room_lt hc.2 hc.1
                  have := room_mono (L := L) hV
                  omega
                have e1 := order_fresh n V' e l1 hr' h1 (fun y hy => hw' y (.head' he hy))
                obtain ⟨-, -, hcl⟩ := order_closed (L := L) n V' e hr'
                simp only [orderAll, e1]
                rw [fresh_append]
                congr 1
                refine ih ls _ h2 (fun t ht => hb t (List.mem_cons_of_mem _ ht)) (fun x hx => List.mem_append_left _ (hV hx)) ?_
                intro y hy hyV z hyz hz
                rcases List.mem_append.mp hyV with hyV | hyV
                · exact List.mem_append_left _ (hw' y hy hyV z hyz hz)
                · rw [← e1] at hyV ⊢
                  induction hyz using Relation.ReflTransGen.head_induction_on with
                  | refl => exact List.mem_append_right _ hyV
                  | @head a b hab hbz ihz =>
                    by_cases hbn : L.node b = none
                    · rcases Relation.ReflTransGen.cases_head hbz with rfl | ⟨q, hq, -⟩
                      · exact absurd hbn hz
                      · rw [inherits_iff, nextNames_none hbn] at hq
                        cases hq
                    · have hb' := (hcl a hyV).2.2.2 b (inherits_iff.mp hab) hbn
                      have hcb : Relation.TransGen (Inherits L) c b := hy.tail hab
                      rcases List.mem_append.mp hb' with hb' | hb'
                      · exact List.mem_append_left _ (hw' b hcb hb' z hbz hz)
                      · exact ihz hcb (by rw [← e1]; exact List.mem_append_right _ hb') hb'
              | skip hn h2 =>
                have : target t = none := by
                  rw [Option.eq_none_iff_forall_ne_some]
                  exact fun e he => hn e (target_iff.mp he)
                rw [List.filterMap_cons, this]
                exact ih l V' h2 (fun t ht => hb t (List.mem_cons_of_mem _ ht)) hV hw'
          refine main (parents d) l (V ++ [c]) hall below (List.Subset.refl _) ?_
          intro y hy hyV z hyz hz
          rcases List.mem_append.mp hyV with hyV | hyV
          · exact List.mem_append_left _ (hw y hy.to_reflTransGen hyV z hyz hz)
          · rw [List.mem_singleton.mp hyV] at hy
            exact absurd hy (no_circle hacc)

theorem order_lin {n : Nat} (hn : L.length ≤ n) {c : Name} {l : List Name} (hl : Lin L false c l) : order L n [] c = fresh [] l :=
  order_fresh n [] c l (Nat.le_trans (room_le _) hn) hl (by intro y _ hy; cases hy)

/-! ### The search is in this order -/

/-- The same declarations are in both lists. -/
def Agree (L : Loader) (V V' : List Name) : Prop := ∀ x, L.node x ≠ none → (x ∈ V ↔ x ∈ V')

theorem Agree.refl (V : List Name) : Agree L V V := fun _ _ => Iff.rfl

theorem Agree.add {V V' : List Name} (h : Agree L V V') (c : Name) : Agree L (c :: V) (V' ++ [c]) := by
  intro x hx
  have := h x hx
  simp only [List.mem_cons, List.mem_append, List.not_mem_nil, or_false]
  tauto

theorem own_iff {c m : Name} {ps : List Text} {x : Method} : ownMethod L c m = some (ps, x) ↔ Defines L c m ps x := by
  unfold ownMethod Defines
  rw [Option.bind_eq_some_iff]
  constructor
  · rintro ⟨d, hd, h⟩
    rw [Option.map_eq_some_iff] at h
    obtain ⟨y, hy, e⟩ := h
    simp only [Prod.mk.injEq] at e
    obtain ⟨rfl, rfl⟩ := e
    rw [List.find?_eq_some_iff_append] at hy
    obtain ⟨h1, pre, post, e, h2⟩ := hy
    simp only [decide_eq_true_eq] at h1
    refine ⟨d, node_iff.mp hd, rfl, pre, post, e, h1.1, h1.2, fun z hz hh => ?_⟩
    have := h2 z hz
    simp [hh] at this
  · rintro ⟨d, hd, rfl, pre, post, e, h1, h2, h3⟩
    refine ⟨d, node_iff.mpr hd, ?_⟩
    rw [Option.map_eq_some_iff]
    refine ⟨x, ?_, rfl⟩
    rw [List.find?_eq_some_iff_append]
    exact ⟨by simp [h1, h2], pre, post, e, fun z hz => by
      have := h3 z hz
      simp only [Bool.not_eq_true', decide_eq_false_iff_not]
      exact this⟩

theorem own_none {c m : Name} : ownMethod L c m = none ↔ ∀ ps x, ¬ Defines L c m ps x := by
  rw [Option.eq_none_iff_forall_ne_some]
  constructor
  · exact fun h ps x hd => h (ps, x) (own_iff.mpr hd)
  · exact fun h p e => h p.1 p.2 (own_iff.mp e)

/-- What is searched after a declaration are the things it inherits from. -/
inductive Along (U : Unicode) (L : Loader) (b : Bindings) : List (Out (Name × Bindings)) → List Rbs → Prop
  | nil : Along U L b [] []
  | edge {t es ts} : Along U L b es ts → Along U L b (edge U L b t :: es) (t :: ts)
  | drop {t es ts} : (∀ c, target t = some c → L.node c = none) → Along U L b es ts → Along U L b es (t :: ts)

theorem params_eq (c : Name) : L.params c = (L.node c).map (·.params) := by
  unfold Loader.params Loader.node
  cases L.getClass c <;> simp

theorem along_map (b : Bindings) (ts : List Rbs) {es : List (Out (Name × Bindings))} {us : List Rbs} (h : Along U L b es us) :
    Along U L b (ts.map (edge U L b) ++ es) (ts ++ us) := by
  induction ts with
  | nil => exact h
  | cons t ts ih => exact .edge ih

theorem along_edges {c : Name} {d : Decl} (h : Declared L c d) (b : Bindings) : Along U L b (edges U L c b) (parents d) := by
  have hn := node_iff.mpr h
  have hname := declared_name h
  unfold Loader.node at hn
  unfold edges parents supers
  cases hc : L.getClass c with
  | some e =>
    rw [hc] at hn
    obtain rfl : e = d := Option.some.inj hn
    have hk : e.kind = .cls := by
      unfold Loader.getClass at hc
      simpa using (Option.filter_eq_some_iff.mp hc).2
    refine along_map b _ ?_
    unfold superEdge
    rw [if_pos hk, hname]
    cases hs : e.superclass with
    | some t => exact .edge .nil
    | none =>
      by_cases hb : c = basicName
      · simp only [if_pos hb]; exact .nil
      · simp only [if_neg hb]
        cases hp : L.params objectName with
        | none =>
          refine .drop (fun c' hc' => ?_) .nil
          obtain rfl : objectName = c' := by
            have : target (.cls "Object".toList) = some objectName := rfl
            rw [this] at hc'
            exact Option.some.inj hc'
          rw [params_eq] at hp
          simpa using hp
        | some ps =>
          have : edge U L b (.cls "Object".toList) = (bindings ps []).bind fun b' => .ok (objectName, b') := by
            have e1 : code (strip "Object".toList) = objectName := rfl
            simp only [edge, e1, hp]
          simp only
          rw [← this]
          exact .edge .nil
  | none =>
    rw [hc] at hn
    simp only at hn
    have hk : d.kind = .mod := by
      unfold Loader.getModule at hn
      simpa using (Option.filter_eq_some_iff.mp hn).2
    rw [hn]
    simp only [hk]
    rw [if_neg (by decide), List.append_nil]
    have := along_map (U := U) (L := L) b (includes d.members) .nil
    simpa using this

theorem bind_ok {α β : Type} {o : Out α} {f : α → Out β} {b : β} : o.bind f = .ok b ↔ ∃ a, o = .ok a ∧ f a = .ok b := by
  cases o <;> simp [HigherOrder.Out.bind]

theorem edge_ok {b b' : Bindings} {t : Rbs} {c : Name} (h : edge U L b t = .ok (c, b')) : target t = some c ∧ L.node c ≠ none := by
  have key : ∀ (n : Text) (ts : List Ty), (match L.params (code (strip n)) with
      | none => Out.err .unsupported
      | some ps => (bindings ps ts).bind fun b' => .ok (code (strip n), b')) = .ok (c, b') → code (strip n) = c ∧ L.node c ≠ none := by
    intro n ts h
    cases hp : L.params (code (strip n)) with
    | none => rw [hp] at h; cases h
    | some ps =>
      rw [hp] at h
      simp only at h
      obtain ⟨b1, -, e⟩ := bind_ok.mp h
      simp only [Out.ok.injEq, Prod.mk.injEq] at e
      obtain ⟨rfl, -⟩ := e
      refine ⟨rfl, fun hn => ?_⟩
      rw [params_eq, hn] at hp
      cases hp
  cases t with
  | cls n =>
    simp only [edge] at h
    obtain ⟨h1, h2⟩ := key n [] h
    exact ⟨by simp [target, h1], h2⟩
  | app n args =>
    simp only [edge] at h
    obtain ⟨ts, -, h⟩ := bind_ok.mp h
    obtain ⟨h1, h2⟩ := key n ts h
    exact ⟨by simp [target, h1], h2⟩
  | _ => simp [edge] at h

theorem order_undeclared {n : Nat} {V : List Name} {c : Name} (h : L.node c = none) : order L n V c = [] := by
  cases n with
  | zero => rfl
  | succ n => unfold order; rw [if_pos (.inr h)]

theorem search_order {m : Name} : ∀ (n : Nat) (c : Name) (b : Bindings) (V Vo : List Name), Agree L V Vo → room L Vo ≤ n → L.node c ≠ none →
    (∀ V', search U L m n (c, b) V = (.ok none, V') → Agree L V' (Vo ++ order L n Vo c) ∧ ∀ y ∈ order L n Vo c, ownMethod L y m = none) ∧
    (∀ o V', search U L m n (c, b) V = (.ok (some o), V') →
      First (fun y => ownMethod L y m ≠ none) (order L n Vo c) o.decl ∧ ownMethod L o.decl m = some (o.params, o.method))
  | 0, c, b, V, Vo, ha, hr, hc => by
    by_cases hv : c ∈ Vo
    · refine ⟨fun V' h => ?_, fun o V' h => ?_⟩
      · simp only [search, Prod.mk.injEq] at h
        obtain ⟨-, rfl⟩ := h
        simpa [order] using ha
      · simp [search] at h
    · have := room_lt hc hv
      omega
  | n + 1, c, b, V, Vo, ha, hr, hc => by
    unfold search order
    by_cases hv : c ∈ Vo
    · rw [if_pos ((ha c hc).mpr hv), if_pos (.inl hv)]
      refine ⟨fun V' h => ?_, fun o V' h => ?_⟩
      · simp only [Prod.mk.injEq] at h
        obtain ⟨-, rfl⟩ := h
        simpa using ha
      · simp at h
    · rw [if_neg (fun h => hv ((ha c hc).mp h)), if_neg (by tauto)]
      cases hm : ownMethod L c m with
      | some p =>
        simp only
        refine ⟨fun V' h => by simp at h, fun o V' h => ?_⟩
        simp only [Prod.mk.injEq, Out.ok.injEq, Option.some.injEq] at h
        obtain ⟨rfl, -⟩ := h
        exact ⟨⟨[], _, rfl, by simp [hm], by simp⟩, hm⟩
      | none =>
        simp only
        obtain ⟨d, hd⟩ := Option.ne_none_iff_exists'.mp hc
        rw [node_iff] at hd
        rw [nextNames_node hd]
        have main : ∀ (ts : List Rbs) (es : List (Out (Name × Bindings))) (V Vo' : List Name), Along U L b es ts → Agree L V Vo' → Vo ++ [c] ⊆ Vo' →
            (∀ V', searchAll (search U L m n) es V = (.ok none, V') →
              Agree L V' (Vo' ++ orderAll (order L n) Vo' (ts.filterMap target)) ∧
              ∀ y ∈ orderAll (order L n) Vo' (ts.filterMap target), ownMethod L y m = none) ∧
            (∀ o V', searchAll (search U L m n) es V = (.ok (some o), V') →
              First (fun y => ownMethod L y m ≠ none) (orderAll (order L n) Vo' (ts.filterMap target)) o.decl ∧
              ownMethod L o.decl m = some (o.params, o.method)) := by
          intro ts
          induction ts with
          | nil =>
            intro es V Vo' hal ha' _
            cases hal
            refine ⟨fun V' h => ?_, fun o V' h => by simp [searchAll] at h⟩
            simp only [searchAll, Prod.mk.injEq] at h
            obtain ⟨-, rfl⟩ := h
            simpa [orderAll] using ha'
          | cons t ts ih =>
            intro es V Vo' hal ha' hV
            have hr' : room L Vo' ≤ n := by
              have := room_lt hc hv
              have := room_mono (L := L) hV
              omega
            cases hal with
            | @edge _ es _ hal =>
              cases he : edge U L b t with
              | err r =>
                refine ⟨fun V' h => ?_, fun o V' h => ?_⟩ <;> simp [searchAll] at h
              | receiver =>
                refine ⟨fun V' h => ?_, fun o V' h => ?_⟩ <;> simp [searchAll] at h
              | panic =>
                refine ⟨fun V' h => ?_, fun o V' h => ?_⟩ <;> simp [searchAll] at h
              | ok p =>
                obtain ⟨c', b'⟩ := p
                obtain ⟨ht, hc'⟩ := edge_ok he
                rw [List.filterMap_cons, ht]
                simp only [orderAll]
                obtain ⟨i1, i2⟩ := search_order n c' b' V Vo' ha' hr' hc'
                simp only [searchAll]
                rcases hs : search U L m n (c', b') V with ⟨r, V1⟩
                cases r with
                | ok o =>
                  cases o with
                  | none =>
                    simp only
                    obtain ⟨j1, j2⟩ := i1 V1 hs
                    obtain ⟨k1, k2⟩ := ih es V1 (Vo' ++ order L n Vo' c') hal j1 fun x hx => List.mem_append_left _ (hV hx)
                    refine ⟨fun V' h => ?_, fun o V' h => ?_⟩
                    · obtain ⟨l1, l2⟩ := k1 V' h
                      refine ⟨by rw [← List.append_assoc]; exact l1, fun y hy => ?_⟩
                      rcases List.mem_append.mp hy with hy | hy
                      · exact j2 y hy
                      · exact l2 y hy
                    · obtain ⟨⟨l1, l2, e, h1, h2⟩, h3⟩ := k2 o V' h
                      refine ⟨⟨order L n Vo' c' ++ l1, l2, by rw [e]; simp, h1, fun y hy => ?_⟩, h3⟩
                      rcases List.mem_append.mp hy with hy | hy
                      · exact fun hne => hne (j2 y hy)
                      · exact h2 y hy
                  | some o =>
                    simp only
                    refine ⟨fun V' h => by simp at h, fun o' V' h => ?_⟩
                    simp only [Prod.mk.injEq, Out.ok.injEq, Option.some.injEq] at h
                    obtain ⟨rfl, rfl⟩ := h
                    obtain ⟨⟨l1, l2, e, h1, h2⟩, h3⟩ := i2 o V1 hs
                    exact ⟨⟨l1, l2 ++ orderAll (order L n) (Vo' ++ order L n Vo' c') (ts.filterMap target), by rw [e]; simp, h1, h2⟩, h3⟩
                | err r => refine ⟨fun V' h => ?_, fun o V' h => ?_⟩ <;> simp at h
                | receiver => refine ⟨fun V' h => ?_, fun o V' h => ?_⟩ <;> simp at h
                | panic => refine ⟨fun V' h => ?_, fun o V' h => ?_⟩ <;> simp at h
            | drop hno hal =>
              cases ht : target t with
              | none =>
                rw [List.filterMap_cons, ht]
                exact ih es V Vo' hal ha' hV
              | some c' =>
                rw [List.filterMap_cons, ht]
                simp only [orderAll, order_undeclared (hno c' ht), List.append_nil, List.nil_append]
                exact ih es V Vo' hal ha' hV
        obtain ⟨a1, a2⟩ := main (parents d) (edges U L c b) (c :: V) (Vo ++ [c]) (along_edges hd b) (ha.add c) (List.Subset.refl _)
        refine ⟨fun V' h => ?_, fun o V' h => ?_⟩
        · obtain ⟨b1, b2⟩ := a1 V' h
          refine ⟨?_, fun y hy => ?_⟩
          · have : Vo ++ c :: orderAll (order L n) (Vo ++ [c]) ((parents d).filterMap target) =
                Vo ++ [c] ++ orderAll (order L n) (Vo ++ [c]) ((parents d).filterMap target) := by simp
            rw [this]; exact b1
          · rcases List.mem_cons.mp hy with rfl | hy
            · exact hm
            · exact b2 y hy
        · obtain ⟨⟨l1, l2, e, h1, h2⟩, h3⟩ := a2 o V' h
          refine ⟨⟨c :: l1, l2, by rw [e]; rfl, h1, fun y hy => ?_⟩, h3⟩
          rcases List.mem_cons.mp hy with rfl | hy
          · exact fun hne => hne hm
          · exact h2 y hy

/-- What holds for the class and is handed on to what it inherits from holds for what is found. -/
theorem search_inv {m : Name} {Q : Name → Bindings → Prop}
    (hstep : ∀ c b d t c' b', Q c b → Declared L c d → t ∈ parents d → edge U L b t = .ok (c', b') → Q c' b') :
    ∀ (n : Nat) (c : Name) (b : Bindings) (V V' : List Name) (o : Owner), Q c b → search U L m n (c, b) V = (.ok (some o), V') → Q o.decl o.binds
  | 0, c, b, V, V', o, _, h => by simp [search] at h
  | n + 1, c, b, V, V', o, hq, h => by
    unfold search at h
    split at h
    · simp at h
    · split at h
      · rename_i ps x hm
        simp only [Prod.mk.injEq, Out.ok.injEq, Option.some.injEq] at h
        obtain ⟨rfl, -⟩ := h
        exact hq
      · rename_i hm
        cases hd : L.node c with
        | none =>
          have : edges U L c b = [] := by
            unfold Loader.node at hd
            unfold edges
            cases hc : L.getClass c with
            | some d => rw [hc] at hd; cases hd
            | none => rw [hc] at hd; simp only at hd; rw [hd]
          rw [this] at h
          simp [searchAll] at h
        | some d =>
          rw [node_iff] at hd
          have main : ∀ (ts : List Rbs) (es : List (Out (Name × Bindings))) (V V' : List Name), Along U L b es ts → (∀ t ∈ ts, t ∈ parents d) →
              searchAll (search U L m n) es V = (.ok (some o), V') → Q o.decl o.binds := by
            intro ts
            induction ts with
            | nil => intro es V V' hal _ h; cases hal; simp [searchAll] at h
            | cons t ts ih =>
              intro es V V' hal hts h
              cases hal with
              | @edge _ es _ hal =>
                cases he : edge U L b t with
                | ok p =>
                  obtain ⟨c', b'⟩ := p
                  rw [he] at h
                  simp only [searchAll] at h
                  rcases hs : search U L m n (c', b') V with ⟨r, V1⟩
                  rw [hs] at h
                  cases r with
                  | ok o' =>
                    cases o' with
                    | none => exact ih es V1 V' hal (fun t ht => hts t (List.mem_cons_of_mem _ ht)) h
                    | some o' =>
                      simp only [Prod.mk.injEq, Out.ok.injEq, Option.some.injEq] at h
                      obtain ⟨rfl, rfl⟩ := h
                      exact search_inv hstep n c' b' V V1 o' (hstep c b d t c' b' hq hd (hts t List.mem_cons_self) he) hs
                  | _ => simp at h
                | _ => rw [he] at h; simp [searchAll] at h
              | drop _ hal => exact ih es V V' hal (fun t ht => hts t (List.mem_cons_of_mem _ ht)) h
          exact main (parents d) _ _ _ (along_edges hd b) (fun t ht => ht) h

/-- Without an edge that fails the search does not fail. -/
theorem search_total {m : Name} {Q : Name → Bindings → Prop}
    (hstep : ∀ c b, Q c b → ∀ e ∈ edges U L c b, ∃ c' b', e = .ok (c', b') ∧ Q c' b') :
    ∀ (n : Nat) (c : Name) (b : Bindings) (V : List Name), Q c b → ∃ o V', search U L m n (c, b) V = (.ok o, V')
  | 0, c, b, V, _ => ⟨none, V, rfl⟩
  | n + 1, c, b, V, hq => by
    unfold search
    split
    · exact ⟨none, V, rfl⟩
    · split
      · exact ⟨_, _, rfl⟩
      · have main : ∀ (es : List (Out (Name × Bindings))) (V : List Name), (∀ e ∈ es, ∃ c' b', e = .ok (c', b') ∧ Q c' b') →
            ∃ o V', searchAll (search U L m n) es V = (.ok o, V') := by
          intro es
          induction es with
          | nil => exact fun V _ => ⟨none, V, rfl⟩
          | cons e es ih =>
            intro V h
            obtain ⟨c', b', rfl, hq'⟩ := h e List.mem_cons_self
            obtain ⟨o, V1, hs⟩ := search_total hstep n c' b' V hq'
            simp only [searchAll]
            rw [hs]
            cases o with
            | none => exact ih V1 fun e he => h e (List.mem_cons_of_mem _ he)
            | some o => exact ⟨_, _, rfl⟩
        exact main _ _ (hstep c b hq)

/-! ### All methods -/

/-- The walk, for any state. -/
def gwalk {σ : Type} (L : Loader) (own : Name → σ → σ) : Nat → Name → σ × List Name → σ × List Name
  | 0, _, s => s
  | n + 1, c, (s, V) => if c ∈ V then (s, V) else walkAll (gwalk L own n) (nextNames L c) (own c s, c :: V)

theorem gwalk_order {σ : Type} {own : Name → σ → σ} (hown : ∀ c s, L.node c = none → own c s = s) : ∀ (n : Nat) (c : Name) (s : σ) (V Vo : List Name),
    Agree L V Vo → room L Vo ≤ n → (gwalk L own n c (s, V)).1 = (order L n Vo c).foldl (fun s c => own c s) s ∧
      Agree L (gwalk L own n c (s, V)).2 (Vo ++ order L n Vo c)
  | 0, c, s, V, Vo, ha, hr => by
    simp only [gwalk, order, List.foldl_nil, List.append_nil]
    exact ⟨trivial, ha⟩
  | n + 1, c, s, V, Vo, ha, hr => by
    unfold gwalk order
    by_cases hc : L.node c = none
    · have e : (if c ∈ Vo ∨ L.node c = none then [] else c :: orderAll (order L n) (Vo ++ [c]) (nextNames L c)) = [] := if_pos (.inr hc)
      rw [e]
      simp only [nextNames_none hc, walkAll, hown c s hc, List.foldl_nil, List.append_nil]
      split
      · exact ⟨rfl, ha⟩
      · refine ⟨rfl, fun x hx => ?_⟩
        rw [List.mem_cons, ha x hx]
        constructor
        · rintro (rfl | h)
          · exact absurd hc hx
          · exact h
        · exact .inr
    · by_cases hv : c ∈ Vo
      · rw [if_pos ((ha c hc).mpr hv), if_pos (.inl hv)]
        simpa using ha
      · rw [if_neg (fun h => hv ((ha c hc).mp h)), if_neg (by tauto)]
        have main : ∀ (ds : List Name) (s : σ) (V Vo' : List Name), Agree L V Vo' → Vo ++ [c] ⊆ Vo' →
            (walkAll (gwalk L own n) ds (s, V)).1 = (orderAll (order L n) Vo' ds).foldl (fun s c => own c s) s ∧
            Agree L (walkAll (gwalk L own n) ds (s, V)).2 (Vo' ++ orderAll (order L n) Vo' ds) := by
          intro ds
          induction ds with
          | nil => intro s V Vo' ha' _; simpa [walkAll, orderAll] using ha'
          | cons d ds ih =>
            intro s V Vo' ha' hV
            have hr' : room L Vo' ≤ n := by
              have := room_lt hc hv
              have := room_mono (L := L) hV
              omega
            obtain ⟨i1, i2⟩ := gwalk_order hown n d s V Vo' ha' hr'
            simp only [walkAll, orderAll]
            rcases hg : gwalk L own n d (s, V) with ⟨s1, V1⟩
            rw [hg] at i1 i2
            obtain ⟨j1, j2⟩ := ih s1 V1 (Vo' ++ order L n Vo' d) i2 fun x hx => List.mem_append_left _ (hV hx)
            rw [j1, List.foldl_append]
            simp only at i1
            rw [← i1]
            refine ⟨rfl, ?_⟩
            rw [← List.append_assoc]
            exact j2
        obtain ⟨a1, a2⟩ := main (nextNames L c) (own c s) (c :: V) (Vo ++ [c]) (ha.add c) (List.Subset.refl _)
        refine ⟨by rw [a1, List.foldl_cons], ?_⟩
        have : Vo ++ c :: orderAll (order L n) (Vo ++ [c]) (nextNames L c) = Vo ++ [c] ++ orderAll (order L n) (Vo ++ [c]) (nextNames L c) := by simp
        rw [this]
        exact a2

theorem walkAll_congr {σ : Type} {f g : Name → σ × List Name → σ × List Name} (h : ∀ c s, f c s = g c s) (ds : List Name) (s : σ × List Name) :
    walkAll f ds s = walkAll g ds s := by
  induction ds generalizing s with
  | nil => rfl
  | cons d ds ih => simp only [walkAll, h, ih]

theorem walk_eq {incl : Bool} (n : Nat) : ∀ (c : Name) (s : List Info × List Name),
    walk U L incl n c s = gwalk L (fun c is => ownInfos U incl (L.node c) is) n c s := by
  induction n with
  | zero => intro c s; rfl
  | succ n ih =>
    rintro c ⟨is, V⟩
    simp only [walk, gwalk]
    split
    · rfl
    · exact walkAll_congr ih _ _

theorem walkNames_eq {incl : Bool} (n : Nat) : ∀ (c : Name) (s : List Name × List Name),
    walkNames L incl n c s = gwalk L (fun c ns => ns ++ ((L.node c).map (declNames incl)).getD []) n c s := by
  induction n with
  | zero => intro c s; rfl
  | succ n ih =>
    rintro c ⟨is, V⟩
    simp only [walkNames, gwalk]
    split
    · rfl
    · exact walkAll_congr ih _ _

theorem classMethods_eq {incl : Bool} (c : Name) :
    classMethods U L c incl = (order L (L.length + 1) [] c).foldl (fun is c => ownInfos U incl (L.node c) is) [] := by
  unfold classMethods
  rw [walk_eq]
  exact (gwalk_order (by intro c s h; simp [ownInfos, h]) _ _ _ _ _ (Agree.refl _) (Nat.le_trans (room_le _) (Nat.le_succ _))).1

theorem foldl_names {f : Name → List Name} (l : List Name) (s : List Name) {m : Name} :
    m ∈ l.foldl (fun s c => s ++ f c) s ↔ m ∈ s ∨ ∃ c ∈ l, m ∈ f c := by
  induction l generalizing s with
  | nil => simp
  | cons c l ih => simp [ih, or_assoc]

theorem walkNames_mem {incl : Bool} {c m : Name} : m ∈ (walkNames L incl (L.length + 1) c ([], [])).1 ↔
    ∃ y ∈ order L (L.length + 1) [] c, m ∈ ((L.node y).map (declNames incl)).getD [] := by
  rw [walkNames_eq, (gwalk_order (by intro c s h; simp [h]) _ _ _ _ _ (Agree.refl _) (Nat.le_trans (room_le _) (Nat.le_succ _))).1]
  rw [foldl_names]
  simp

/-- A list that is continued with entries of new names. -/
def Adds (S : Info → Prop) (is is' : List Info) : Prop :=
  (is.map (·.name)).Nodup → (is'.map (·.name)).Nodup ∧ ∀ i, i ∈ is' ↔ i ∈ is ∨ (i.name ∉ is.map (·.name) ∧ S i)

theorem retOf_info {x : Method} {m : Name} {s : Bool} : (⟨m, retOf U x, s, paramsOf x⟩ : Info) = infoOf U m s (some x) := by
  unfold infoOf retOf paramsOf
  cases h : x.overloads.head? <;> simp [h]

theorem nodup_snoc {is : List Info} {i : Info} (h : (is.map (·.name)).Nodup) (hi : i.name ∉ is.map (·.name)) :
    ((is ++ [i]).map (·.name)).Nodup := by
  rw [List.map_append, List.nodup_append]
  refine ⟨h, by simp, fun a ha b hb e => ?_⟩
  simp only [List.map_cons, List.map_nil, List.mem_cons, List.not_mem_nil, or_false] at hb
  subst e hb
  exact hi ha

theorem collectMethods_spec {incl : Bool} (ms : List Method) : ∀ is, Adds (fun i => ∃ pre x post, ms = pre ++ x :: post ∧ x.name = i.name ∧
    (x.singleton = true → incl = true) ∧ (∀ y ∈ pre, y.name = i.name → y.singleton = true ∧ incl = false) ∧ i = infoOf U i.name x.singleton (some x))
    is (collectMethods U incl ms is) := by
  induction ms with
  | nil =>
    intro is hn
    refine ⟨hn, fun i => ?_⟩
    simp [collectMethods]
  | cons x ms ih =>
    intro is hn
    unfold collectMethods
    split
    · rename_i h
      simp only [Bool.or_eq_true, Bool.and_eq_true, Bool.not_eq_true', decide_eq_true_eq] at h
      obtain ⟨h1, h2⟩ := ih is hn
      refine ⟨h1, fun i => ?_⟩
      rw [h2]
      refine or_congr_right (and_congr_right fun hi => ?_)
      constructor
      · rintro ⟨pre, y, post, e, a1, a2, a3, a4⟩
        refine ⟨x :: pre, y, post, by rw [e]; rfl, a1, a2, fun z hz hzn => ?_, a4⟩
        rcases List.mem_cons.mp hz with rfl | hz
        · rcases h with h | h
          · exact h
          · rw [hzn] at h; exact absurd h hi
        · exact a3 z hz hzn
      · rintro ⟨pre, y, post, e, a1, a2, a3, a4⟩
        cases pre with
        | nil =>
          simp only [List.nil_append, List.cons.injEq] at e
          obtain ⟨rfl, rfl⟩ := e
          exfalso
          rcases h with h | h
          · rw [a2 h.1] at h; simp at h
          · rw [a1] at h; exact hi h
        | cons z pre =>
          simp only [List.cons_append, List.cons.injEq] at e
          obtain ⟨rfl, rfl⟩ := e
          exact ⟨pre, y, post, rfl, a1, a2, fun z hz => a3 z (List.mem_cons_of_mem _ hz), a4⟩
    · rename_i h
      simp only [Bool.or_eq_true, Bool.and_eq_true, Bool.not_eq_true', decide_eq_true_eq, not_or, not_and] at h
      obtain ⟨hs, hx⟩ := h
      have hs' : x.singleton = true → incl = true := by simpa using hs
      rw [retOf_info]
      have hname : (infoOf U x.name x.singleton (some x)).name = x.name := by unfold infoOf; split <;> rfl
      obtain ⟨h1, h2⟩ := ih (is ++ [infoOf U x.name x.singleton (some x)]) (nodup_snoc hn (by rw [hname]; exact hx))
      refine ⟨h1, fun i => ?_⟩
      rw [h2, List.mem_append, List.mem_singleton, or_assoc]
      refine or_congr_right ?_
      simp only [List.map_append, List.map_cons, List.map_nil, List.mem_append, List.mem_cons, List.not_mem_nil, or_false, not_or, hname]
      constructor
      · rintro (rfl | ⟨⟨hi, hne⟩, pre, y, post, e, a1, a2, a3, a4⟩)
        · rw [hname]
          exact ⟨hx, [], x, ms, rfl, rfl, hs', by simp, rfl⟩
        · refine ⟨hi, x :: pre, y, post, by rw [e]; rfl, a1, a2, fun z hz hzn => ?_, a4⟩
          rcases List.mem_cons.mp hz with rfl | hz
          · exact absurd hzn.symm hne
          · exact a3 z hz hzn
      · rintro ⟨hi, pre, y, post, e, a1, a2, a3, a4⟩
        cases pre with
        | nil =>
          simp only [List.nil_append, List.cons.injEq] at e
          obtain ⟨rfl, rfl⟩ := e
          rw [← a1] at a4
          exact .inl a4
        | cons z pre =>
          simp only [List.cons_append, List.cons.injEq] at e
          obtain ⟨rfl, rfl⟩ := e
          refine .inr ⟨⟨hi, fun hne => ?_⟩, pre, y, post, rfl, a1, a2, fun z hz => a3 z (List.mem_cons_of_mem _ hz), a4⟩
          have h8 := a3 x List.mem_cons_self hne.symm
          have h9 := hs' h8.1
          rw [h8.2] at h9
          cases h9

theorem first_find {ms : List Method} {old : Name} {y : Method} : ms.find? (fun x => decide (x.name = old)) = some y ↔
    First (fun z : Method => z.name = old) ms y := by
  rw [List.find?_eq_some_iff_append]
  constructor
  · rintro ⟨h, l1, l2, e, h2⟩
    exact ⟨l1, l2, e, of_decide_eq_true h, fun b hb => by simpa using h2 b hb⟩
  · rintro ⟨l1, l2, e, h, h2⟩
    exact ⟨decide_eq_true h, l1, l2, e, fun b hb => by simpa using h2 b hb⟩

theorem collectAliases_spec {incl : Bool} (ms : List Method) (as : List Member) : ∀ is, Adds (fun i => ∃ pre old s post x, as = pre ++ .alias i.name old s :: post ∧
    (s = true → incl = true) ∧ (∀ o s', .alias i.name o s' ∈ pre → s' = true ∧ incl = false) ∧
    (∀ y, x = some y ↔ First (fun z : Method => z.name = old) ms y) ∧ i = infoOf U i.name s x) is (collectAliases U incl ms as is) := by
  induction as with
  | nil =>
    intro is hn
    refine ⟨hn, fun i => ?_⟩
    simp [collectAliases]
  | cons a as ih =>
    intro is hn
    have skip : (∀ i : Info, i.name ∉ is.map (·.name) → ∀ o s', a = .alias i.name o s' → s' = true ∧ incl = false) →
        Adds (fun i => ∃ pre old s post x, a :: as = pre ++ .alias i.name old s :: post ∧ (s = true → incl = true) ∧
          (∀ o s', .alias i.name o s' ∈ pre → s' = true ∧ incl = false) ∧ (∀ y, x = some y ↔ First (fun z : Method => z.name = old) ms y) ∧
          i = infoOf U i.name s x) is (collectAliases U incl ms as is) := by
      intro ha hn
      obtain ⟨h1, h2⟩ := ih is hn
      refine ⟨h1, fun i => ?_⟩
      rw [h2]
      refine or_congr_right (and_congr_right fun hi => ?_)
      constructor
      · rintro ⟨pre, old, s, post, x, e, a2, a3, a4⟩
        refine ⟨a :: pre, old, s, post, x, by rw [e]; rfl, a2, fun o s' ho => ?_, a4⟩
        rcases List.mem_cons.mp ho with ho | ho
        · exact ha i hi o s' ho.symm
        · exact a3 o s' ho
      · rintro ⟨pre, old, s, post, x, e, a2, a3, a4⟩
        cases pre with
        | nil =>
          simp only [List.nil_append, List.cons.injEq] at e
          obtain ⟨rfl, rfl⟩ := e
          have h8 := ha i hi old s rfl
          have h9 := a2 h8.1
          rw [h8.2] at h9
          cases h9
        | cons z pre =>
          simp only [List.cons_append, List.cons.injEq] at e
          obtain ⟨rfl, rfl⟩ := e
          exact ⟨pre, old, s, post, x, rfl, a2, fun o s' ho => a3 o s' (List.mem_cons_of_mem _ ho), a4⟩
    cases a with
    | «alias» new old s =>
      unfold collectAliases
      split
      · rename_i h
        simp only [Bool.or_eq_true, Bool.and_eq_true, Bool.not_eq_true', decide_eq_true_eq] at h
        refine skip ?_ hn
        intro i hi o s' e
        simp only [Member.alias.injEq] at e
        obtain ⟨rfl, rfl, rfl⟩ := e
        rcases h with h | h
        · exact h
        · exact absurd h hi
      · rename_i h
        simp only [Bool.or_eq_true, Bool.and_eq_true, Bool.not_eq_true', decide_eq_true_eq, not_or, not_and] at h
        obtain ⟨hs, hx⟩ := h
        have hs' : s = true → incl = true := by simpa using hs
        have hf : ∀ y, ms.find? (fun x => decide (x.name = old)) = some y ↔ First (fun z : Method => z.name = old) ms y := fun y => first_find
        generalize ms.find? (fun x => decide (x.name = old)) = X at hf ⊢
        suffices H : Adds (fun i => ∃ pre old_1 s_1 post x, Member.alias new old s :: as = pre ++ .alias i.name old_1 s_1 :: post ∧
            (s_1 = true → incl = true) ∧ (∀ o s', .alias i.name o s' ∈ pre → s' = true ∧ incl = false) ∧
            (∀ y, x = some y ↔ First (fun z : Method => z.name = old_1) ms y) ∧ i = infoOf U i.name s_1 x) is
            (collectAliases U incl ms as (is ++ [infoOf U new s X])) by
          cases X with
          | none => exact H hn
          | some x => rw [← retOf_info] at H; exact H hn
        intro _
        have hname : (infoOf U new s X).name = new := by unfold infoOf; split <;> rfl
        obtain ⟨h1, h2⟩ := ih (is ++ [infoOf U new s X]) (nodup_snoc hn (by rw [hname]; exact hx))
        refine ⟨h1, fun i => ?_⟩
        rw [h2, List.mem_append, List.mem_singleton, or_assoc]
        refine or_congr_right ?_
        simp only [List.map_append, List.map_cons, List.map_nil, List.mem_append, List.mem_cons, List.not_mem_nil, or_false, not_or, hname]
        constructor
        · rintro (rfl | ⟨⟨hi, hne⟩, pre, old', s', post, x, e, a2, a3, a4⟩)
          · rw [hname]
            exact ⟨hx, [], old, s, as, X, rfl, hs', by simp, hf, rfl⟩
          · refine ⟨hi, .alias new old s :: pre, old', s', post, x, by rw [e]; rfl, a2, fun o s'' ho => ?_, a4⟩
            rcases List.mem_cons.mp ho with ho | ho
            · simp only [Member.alias.injEq] at ho
              exact absurd ho.1 hne
            · exact a3 o s'' ho
        · rintro ⟨hi, pre, old', s', post, x, e, a2, a3, a4, a5⟩
          cases pre with
          | nil =>
            simp only [List.nil_append, List.cons.injEq, Member.alias.injEq] at e
            obtain ⟨⟨e1, rfl, rfl⟩, rfl⟩ := e
            have : x = X := by
              cases x with
              | none =>
                cases X with
                | none => rfl
                | some y => exact absurd ((a4 y).mpr ((hf y).mp rfl)) (by simp)
              | some y => exact ((hf y).mpr ((a4 y).mp rfl)).symm
            subst this
            rw [e1]
            exact .inl a5
          | cons z pre =>
            simp only [List.cons_append, List.cons.injEq] at e
            obtain ⟨rfl, rfl⟩ := e
            refine .inr ⟨⟨hi, fun hne => ?_⟩, pre, old', s', post, x, rfl, a2, fun o s' ho => a3 o s' (List.mem_cons_of_mem _ ho), a4, a5⟩
            have h8 := a3 old s (by rw [hne]; exact List.mem_cons_self)
            have h9 := hs' h8.1
            rw [h8.2] at h9
            cases h9
    | incl t => unfold collectAliases; exact skip (by intro i _ o s' e; cases e) hn
    | ext t => unfold collectAliases; exact skip (by intro i _ o s' e; cases e) hn
    | prep t => unfold collectAliases; exact skip (by intro i _ o s' e; cases e) hn
    | other => unfold collectAliases; exact skip (by intro i _ o s' e; cases e) hn

theorem infoOf_name (m : Name) (s : Bool) (x : Option Method) : (infoOf U m s x).name = m := by unfold infoOf; split <;> rfl

theorem says_name {incl : Bool} {d : Decl} {m : Name} {i : Info} (h : Says U incl d m i) : i.name = m := by
  cases h <;> exact infoOf_name _ _ _

theorem ownInfos_spec {incl : Bool} (d : Decl) (is : List Info) : Adds (fun i => Says U incl d i.name i) is (ownInfos U incl (some d) is) := by
  intro hn
  simp only [ownInfos]
  obtain ⟨h1, h2⟩ := collectMethods_spec (U := U) (incl := incl) d.methods is hn
  obtain ⟨h3, h4⟩ := collectAliases_spec (U := U) (incl := incl) d.methods d.members _ h1
  have hnames : ∀ m, m ∉ is.map (·.name) → (m ∉ (collectMethods U incl d.methods is).map (·.name) ↔
      ∀ y ∈ d.methods, y.name = m → y.singleton = true ∧ incl = false) := by
    intro m hm
    constructor
    · intro hno
      by_contra hc
      have : ∃ y ∈ d.methods, y.name = m ∧ (y.singleton = true → incl = true) := by
        by_contra hc'
        apply hc
        intro y hy e
        by_contra hne
        exact hc' ⟨y, hy, e, by cases y.singleton <;> cases incl <;> simp_all⟩
      obtain ⟨y, hy, e, ha⟩ := this
      have : ∃ pre x post, d.methods = pre ++ x :: post ∧ (x.name = m ∧ (x.singleton = true → incl = true)) ∧
          ∀ z ∈ pre, ¬ (z.name = m ∧ (z.singleton = true → incl = true)) := by
        clear hc
        generalize d.methods = l at hy
        induction l with
        | nil => cases hy
        | cons z l ih =>
          by_cases hz : z.name = m ∧ (z.singleton = true → incl = true)
          · exact ⟨[], z, l, rfl, hz, by simp⟩
          · rcases List.mem_cons.mp hy with rfl | hy
            · exact absurd ⟨e, ha⟩ hz
            · obtain ⟨pre, x, post, e2, b1, b2⟩ := ih hy
              refine ⟨z :: pre, x, post, by rw [e2]; rfl, b1, fun w hw => ?_⟩
              rcases List.mem_cons.mp hw with rfl | hw
              · exact hz
              · exact b2 w hw
      obtain ⟨pre, x, post, e2, ⟨b1, b2⟩, b3⟩ := this
      apply hno
      have hi : infoOf U m x.singleton (some x) ∈ collectMethods U incl d.methods is := by
        rw [h2]
        refine .inr ⟨by rw [infoOf_name]; exact hm, pre, x, post, e2, by rw [infoOf_name]; exact b1, b2, ?_, by rw [infoOf_name]⟩
        rw [infoOf_name]
        intro z hz hzn
        have := b3 z hz
        simp only [hzn, true_and] at this
        cases hzs : z.singleton <;> cases incl <;> simp_all
      exact List.mem_map.mpr ⟨_, hi, infoOf_name _ _ _⟩
    · intro hall hmem
      obtain ⟨i, hi, e⟩ := List.mem_map.mp hmem
      subst e
      rcases (h2 i).mp hi with hi | ⟨-, pre, x, post, e, b1, b2, -⟩
      · exact hm (List.mem_map.mpr ⟨i, hi, rfl⟩)
      · have h8 := hall x (by rw [e]; simp) b1
        have h9 := b2 h8.1
        rw [h8.2] at h9
        cases h9
  refine ⟨h3, fun i => ?_⟩
  rw [h4, h2, or_assoc]
  refine or_congr_right ?_
  constructor
  · rintro (⟨hi, pre, x, post, e, b1, b2, b3, b4⟩ | ⟨hi, pre, old, s, post, x, e, b1, b2, b3, b4⟩)
    · refine ⟨hi, ?_⟩
      rw [b4, infoOf_name]
      exact .method e b1 b2 b3
    · have hi' : i.name ∉ is.map (·.name) := by
        intro hc
        obtain ⟨j, hj, e⟩ := List.mem_map.mp hc
        exact hi (List.mem_map.mpr ⟨j, (h2 j).mpr (.inl hj), e⟩)
      refine ⟨hi', ?_⟩
      rw [b4, infoOf_name]
      exact .other ((hnames _ hi').mp hi) e b1 b2 b3
  · rintro ⟨hi, hs⟩
    generalize hm : i.name = m at hs
    cases hs with
    | @method pre x post e b1 b2 b3 =>
      rw [infoOf_name] at hi
      beta_reduce
      simp only [infoOf_name]
      exact .inl ⟨hi, pre, x, post, e, b1, b2, b3, rfl⟩
    | @other pre old s post x b0 e b1 b2 b3 =>
      rw [infoOf_name] at hi
      beta_reduce
      simp only [infoOf_name]
      exact .inr ⟨(hnames _ hi).mpr b0, pre, old, s, post, x, e, b1, b2, b3, rfl⟩

/-- A declaration that offers a name says something about it. -/
theorem offers_says {incl : Bool} {c m : Name} : Offers L incl c m ↔ ∃ d i, Declared L c d ∧ Says U incl d m i := by
  constructor
  · rintro ⟨d, hd, h⟩
    obtain ⟨-, h2⟩ := ownInfos_spec (U := U) (incl := incl) d [] (by simp)
    by_contra hc
    have hno : ∀ i, ¬ Says U incl d m i := fun i hi => hc ⟨d, i, hd, hi⟩
    have all : ∀ y ∈ d.methods, y.name = m → y.singleton = true ∧ incl = false := by
      have hm := collectMethods_spec (U := U) (incl := incl) d.methods [] (by simp)
      by_contra hcc
      have : ∃ y ∈ d.methods, y.name = m ∧ (y.singleton = true → incl = true) := by
        by_contra hc'
        apply hcc
        intro y hy e
        by_contra hne
        exact hc' ⟨y, hy, e, by cases y.singleton <;> cases incl <;> simp_all⟩
      obtain ⟨y, hy, e, ha⟩ := this
      have : ∃ pre x post, d.methods = pre ++ x :: post ∧ (x.name = m ∧ (x.singleton = true → incl = true)) ∧
          ∀ z ∈ pre, ¬ (z.name = m ∧ (z.singleton = true → incl = true)) := by
        clear hc hcc hm h2 h hno
        generalize d.methods = l at hy
        induction l with
        | nil => cases hy
        | cons z l ih =>
          by_cases hz : z.name = m ∧ (z.singleton = true → incl = true)
          · exact ⟨[], z, l, rfl, hz, by simp⟩
          · rcases List.mem_cons.mp hy with rfl | hy
            · exact absurd ⟨e, ha⟩ hz
            · obtain ⟨pre, x, post, e2, b1, b2⟩ := ih hy
              refine ⟨z :: pre, x, post, by rw [e2]; rfl, b1, fun w hw => ?_⟩
              rcases List.mem_cons.mp hw with rfl | hw
              · exact hz
              · exact b2 w hw
      obtain ⟨pre, x, post, e2, ⟨b1, b2⟩, b3⟩ := this
      refine hno _ (.method e2 b1 b2 fun z hz hzn => ?_)
      have := b3 z hz
      simp only [hzn, true_and] at this
      cases hzs : z.singleton <;> cases incl <;> simp_all
    rcases h with ⟨x, hx, e, ha⟩ | ⟨old, s, hmem, ha⟩
    · have h8 := all x hx e
      have h9 := ha h8.1
      rw [h8.2] at h9
      cases h9
    · have : ∃ pre old s post, d.members = pre ++ .alias m old s :: post ∧ (s = true → incl = true) ∧
          ∀ o s', .alias m o s' ∈ pre → s' = true ∧ incl = false := by
        clear hc h2 hno all
        generalize d.members = l at hmem
        induction l with
        | nil => cases hmem
        | cons z l ih =>
          by_cases hz : ∃ o s, z = .alias m o s ∧ (s = true → incl = true)
          · obtain ⟨o, s, rfl, hs⟩ := hz
            exact ⟨[], o, s, l, rfl, hs, by simp⟩
          · rcases List.mem_cons.mp hmem with rfl | hy
            · exact absurd ⟨old, s, rfl, ha⟩ hz
            · obtain ⟨pre, o, s, post, e2, b1, b2⟩ := ih hy
              refine ⟨z :: pre, o, s, post, by rw [e2]; rfl, b1, fun o' s' hw => ?_⟩
              rcases List.mem_cons.mp hw with hw | hw
              · have : ¬ (s' = true → incl = true) := fun h => hz ⟨o', s', hw.symm, h⟩
                cases s' <;> cases incl <;> simp_all
              · exact b2 o' s' hw
      obtain ⟨pre, o, s, post, e, b1, b2⟩ := this
      exact hno _ (.other (x := d.methods.find? (fun x => decide (x.name = o))) all e b1 b2 fun y => first_find)
  · rintro ⟨d, i, hd, h⟩
    refine ⟨d, hd, ?_⟩
    cases h with
    | @method pre x post e b1 b2 b3 => exact .inl ⟨x, by rw [e]; simp, b1, b2⟩
    | @other pre old s post x b0 e b1 b2 b3 => exact .inr ⟨old, s, by rw [e]; simp, b1⟩

/-- The list of all methods: each name is there once, with what the first declaration that offers it says. -/
theorem infos_spec {incl : Bool} (ys : List Name) (hy : ∀ y ∈ ys, L.node y ≠ none) : ∀ is, Adds (fun i => ∃ y d,
    First (fun y => Offers L incl y i.name) ys y ∧ Declared L y d ∧ Says U incl d i.name i) is (ys.foldl (fun is c => ownInfos U incl (L.node c) is) is) := by
  induction ys with
  | nil =>
    intro is hn
    refine ⟨hn, fun i => ?_⟩
    simp [First]
  | cons y ys ih =>
    intro is hn
    obtain ⟨d, hd⟩ := Option.ne_none_iff_exists'.mp (hy y List.mem_cons_self)
    have hd' := node_iff.mp hd
    obtain ⟨h1, h2⟩ := ownInfos_spec (U := U) (incl := incl) d is hn
    rw [List.foldl_cons, hd]
    obtain ⟨h3, h4⟩ := ih (fun y hy' => hy y (List.mem_cons_of_mem _ hy')) _ h1
    refine ⟨h3, fun i => ?_⟩
    rw [h4, h2, or_assoc]
    refine or_congr_right ?_
    have hnames : i.name ∉ is.map (·.name) → (i.name ∉ (ownInfos U incl (some d) is).map (·.name) ↔ ¬ Offers L incl y i.name) := by
      intro hi
      refine not_congr ?_
      rw [offers_says (U := U)]
      constructor
      · intro hmem
        obtain ⟨j, hj, e⟩ := List.mem_map.mp hmem
        rcases (h2 j).mp hj with hj | ⟨-, hj⟩
        · exact absurd (List.mem_map.mpr ⟨j, hj, e⟩) hi
        · rw [e] at hj; exact ⟨d, j, hd', hj⟩
      · rintro ⟨d', j, hd'', hj⟩
        obtain rfl := declared_unique hd' hd''
        have e := says_name hj
        refine List.mem_map.mpr ⟨j, (h2 j).mpr (.inr ⟨by rw [e]; exact hi, by beta_reduce; rw [e]; exact hj⟩), e⟩
    constructor
    · rintro (⟨hi, hs⟩ | ⟨hi, z, e, ⟨l1, l2, rfl, b1, b2⟩, b3, b4⟩)
      · exact ⟨hi, y, d, ⟨[], ys, rfl, (offers_says (U := U)).mpr ⟨d, i, hd', hs⟩, by simp⟩, hd', hs⟩
      · have hi' : i.name ∉ is.map (·.name) := by
          intro hc
          obtain ⟨j, hj, e⟩ := List.mem_map.mp hc
          exact hi (List.mem_map.mpr ⟨j, (h2 j).mpr (.inl hj), e⟩)
        refine ⟨hi', z, e, ⟨y :: l1, l2, rfl, b1, fun b hb => ?_⟩, b3, b4⟩
        rcases List.mem_cons.mp hb with rfl | hb
        · exact (hnames hi').mp hi
        · exact b2 b hb
    · rintro ⟨hi, z, e, ⟨l1, l2, el, b1, b2⟩, b3, b4⟩
      cases l1 with
      | nil =>
        simp only [List.nil_append, List.cons.injEq] at el
        obtain ⟨rfl, rfl⟩ := el
        obtain rfl := declared_unique hd' b3
        exact .inl ⟨hi, b4⟩
      | cons w l1 =>
        simp only [List.cons_append, List.cons.injEq] at el
        obtain ⟨rfl, rfl⟩ := el
        exact .inr ⟨(hnames hi).mpr (b2 y List.mem_cons_self), z, e, ⟨l1, l2, rfl, b1, fun b hb => b2 b (List.mem_cons_of_mem _ hb)⟩, b3, b4⟩

/-! ### Type parameters and their bindings -/

theorem lastWord_iff {s n : Text} : RbsTemplates.lastWord s = some n ↔ ParamName s n := by
  unfold RbsTemplates.lastWord
  simp only
  constructor
  · intro h
    have h1 := List.takeWhile_append_dropWhile (p := Verif.Yard.ws) (l := s.reverse)
    have h2 := List.takeWhile_append_dropWhile (p := fun c => !Verif.Yard.ws c) (l := s.reverse.dropWhile Verif.Yard.ws)
    split at h
    · cases h
    · rename_i hr
      simp only [Option.some.injEq] at h
      subst h
      refine ⟨((s.reverse.dropWhile Verif.Yard.ws).dropWhile fun c => !Verif.Yard.ws c).reverse, (s.reverse.takeWhile Verif.Yard.ws).reverse, ?_, ?_, ?_, ?_, ?_⟩
      · rw [← List.reverse_append, ← List.reverse_append, h2, h1, List.reverse_reverse]
      · simpa using hr
      · intro c hc
        have := List.all_eq_true.mp List.all_takeWhile c (List.mem_reverse.mp hc)
        simpa using this
      · intro c hc
        exact List.all_eq_true.mp List.all_takeWhile c (List.mem_reverse.mp hc)
      · intro c hc
        rw [List.getLast?_reverse] at hc
        generalize s.reverse.dropWhile Verif.Yard.ws = l at hc
        have := List.head?_dropWhile_not (fun c => !Verif.Yard.ws c) l
        rw [Option.mem_def] at hc
        rw [hc] at this
        simpa using this
  · rintro ⟨pre, post, rfl, hn, h1, h2, h3⟩
    have e : ((pre ++ n ++ post).reverse.dropWhile Verif.Yard.ws).takeWhile (fun c => !Verif.Yard.ws c) = n.reverse := by
      rw [List.reverse_append, List.reverse_append, List.dropWhile_append_of_pos (fun c hc => h2 c (List.mem_reverse.mp hc))]
      have hh : (n.reverse ++ pre.reverse).dropWhile Verif.Yard.ws = n.reverse ++ pre.reverse := by
        cases hr : n.reverse with
        | nil => exact absurd (List.reverse_eq_nil_iff.mp hr) hn
        | cons a l =>
          rw [List.cons_append, List.dropWhile_cons_of_neg]
          have : a ∈ n := List.mem_reverse.mp (by rw [hr]; exact List.mem_cons_self)
          simp [h1 a this]
      rw [hh, List.takeWhile_append_of_pos (fun c hc => by simp [h1 c (List.mem_reverse.mp hc)])]
      have : pre.reverse.takeWhile (fun c => !Verif.Yard.ws c) = [] := by
        cases hp : pre.reverse with
        | nil => rfl
        | cons a l =>
          rw [List.takeWhile_cons_of_neg]
          have : pre.getLast? = some a := by rw [← List.head?_reverse, hp]; rfl
          simp [h3 a this]
      rw [this, List.append_nil]
    rw [e]
    simp [hn]

theorem lastWord_none {s : Text} : RbsTemplates.lastWord s = none ↔ ∀ n, ¬ ParamName s n := by
  rw [Option.eq_none_iff_forall_ne_some]
  exact forall_congr' fun n => not_congr lastWord_iff

theorem paramName_unique {s n n' : Text} (h : ParamName s n) (h' : ParamName s n') : n = n' :=
  Option.some.inj ((lastWord_iff.mpr h).symm.trans (lastWord_iff.mpr h'))

theorem bindAll_ok (l : List (Text × Ty)) : ∀ b0 b, (b0.map Prod.fst).Nodup → (bindAll l b0 = .ok b ↔ (∀ p ∈ l, hasUnknown p.2 = false) ∧
    ∃ ns, List.Forall₂ ParamName (l.map Prod.fst) ns ∧ (b0.map Prod.fst ++ ns).Nodup ∧ b = b0 ++ ns.zip (l.map Prod.snd)) := by
  induction l with
  | nil =>
    intro b0 b hn
    simp only [bindAll, Out.ok.injEq, List.map_nil, List.forall₂_nil_left_iff]
    constructor
    · rintro rfl; exact ⟨by simp, [], rfl, by simpa using hn, by simp⟩
    · rintro ⟨-, ns, rfl, -, rfl⟩; simp
  | cons p l ih =>
    intro b0 b hn
    obtain ⟨p, a⟩ := p
    simp only [bindAll]
    by_cases hu : hasUnknown a = true
    · rw [if_pos hu]
      constructor
      · intro h; cases h
      · rintro ⟨h, -⟩; have := h (p, a) List.mem_cons_self; simp [hu] at this
    · rw [if_neg hu]
      rw [Bool.not_eq_true] at hu
      cases hw : RbsTemplates.lastWord p with
      | none =>
        constructor
        · intro h; cases h
        · rintro ⟨-, ns, h, -⟩
          cases h with
          | cons h1 h2 => exact absurd h1 (lastWord_none.mp hw _)
      | some n =>
        have hw' := lastWord_iff.mp hw
        simp only
        by_cases hm : n ∈ b0.map Prod.fst
        · rw [if_pos hm]
          constructor
          · intro h; cases h
          · rintro ⟨-, ns, h, hd, -⟩
            cases h with
            | cons h1 h2 =>
              obtain rfl := paramName_unique hw' h1
              rw [List.nodup_append] at hd
              exact absurd rfl (hd.2.2 n hm n List.mem_cons_self)
        · rw [if_neg hm, ih (b0 ++ [(n, a)]) b (by
            rw [List.map_append, List.nodup_append]
            refine ⟨hn, by simp, fun x hx y hy => ?_⟩
            simp only [List.map_cons, List.map_nil, List.mem_singleton] at hy
            rintro rfl
            exact hm (hy ▸ hx))]
          constructor
          · rintro ⟨h1, ns, h2, h3, rfl⟩
            refine ⟨fun q hq => ?_, n :: ns, .cons hw' h2, by simpa using h3, by simp⟩
            rcases List.mem_cons.mp hq with rfl | hq
            · exact hu
            · exact h1 q hq
          · rintro ⟨h1, ns, h2, h3, rfl⟩
            cases h2 with
            | cons h4 h5 =>
              rename_i n' ns
              obtain rfl := paramName_unique hw' h4
              exact ⟨fun q hq => h1 q (List.mem_cons_of_mem _ hq), ns, h5, by simpa using h3, by simp⟩

theorem bindings_ok {ps : List Text} {args : List Ty} {b : Bindings} : bindings ps args = .ok b ↔ ps.length = args.length ∧
    (∀ a ∈ args, hasUnknown a = false) ∧ ∃ ns, List.Forall₂ ParamName ps ns ∧ ns.Nodup ∧ b = ns.zip args := by
  unfold bindings
  split
  · rename_i h
    constructor
    · intro h; cases h
    · exact fun h' => absurd h'.1 h
  · rename_i h
    simp only [ne_eq, Decidable.not_not] at h
    rw [bindAll_ok _ _ _ (by simp)]
    have e1 : (ps.zip args).map Prod.fst = ps := List.map_fst_zip (Nat.le_of_eq h)
    have e2 : (ps.zip args).map Prod.snd = args := List.map_snd_zip (Nat.le_of_eq h.symm)
    rw [e1, e2]
    simp only [h, true_and, List.map_nil, List.nil_append]
    refine and_congr_left fun _ => ⟨fun hk a ha => ?_, fun hk p hp => hk _ (by rw [← e2]; exact List.mem_map.mpr ⟨p, hp, rfl⟩)⟩
    rw [← e2] at ha
    obtain ⟨p, hp, rfl⟩ := List.mem_map.mp ha
    exact hk p hp

/-- The binding of a name. -/
theorem get_zip {ns : List Text} {args : List Ty} (hn : ns.Nodup) {n : Text} {t : Ty} :
    Bindings.get (ns.zip args) n = some t ↔ ∃ i : Nat, ns[i]? = some n ∧ args[i]? = some t := by
  induction ns generalizing args with
  | nil => simp [Bindings.get]
  | cons a ns ih =>
    cases args with
    | nil => simp [Bindings.get]
    | cons x args =>
      rw [List.nodup_cons] at hn
      have hih := ih (args := args) hn.2
      unfold Bindings.get at hih ⊢
      simp only [List.zip_cons_cons, List.find?_cons]
      by_cases e : a = n
      · subst e
        simp only [decide_true, Option.map_some, Option.some.injEq]
        constructor
        · rintro rfl; exact ⟨0, rfl, rfl⟩
        · rintro ⟨i, h1, h2⟩
          cases i with
          | zero => simpa using h2
          | succ i => exact absurd (List.mem_of_getElem? (by simpa using h1)) hn.1
      · simp only [e, decide_false]
        rw [hih]
        constructor
        · rintro ⟨i, h1, h2⟩; exact ⟨i + 1, h1, h2⟩
        · rintro ⟨i, h1, h2⟩
          cases i with
          | zero => exact absurd (by simpa using h1) e
          | succ i => exact ⟨i, h1, h2⟩

theorem edgeArg_eq (b : Bindings) (t : Rbs) : edgeArg U b t = RbsTypes.convWith U b.get t := by
  unfold edgeArg
  split
  · rename_i n
    rw [RbsTypes.convWith]
    cases b.get n <;> rfl
  · rename_i n
    rw [RbsTypes.convWith]
    cases b.get n <;> rfl
  · rename_i n
    cases h : b.get (strip n) with
    | some t => exact (RbsTypes.convWith.eq_5 U b.get n t h).symm
    | none => rfl
  · rfl

theorem edgeArgs_ok {b : Bindings} {args : List Rbs} {ts : List Ty} : edgeArgs U b args = .ok ts ↔
    ts = args.map (RbsTypes.convWith U b.get) ∧ ∀ t ∈ ts, hasUnknown t = false := by
  induction args generalizing ts with
  | nil =>
    simp only [edgeArgs, Out.ok.injEq, List.map_nil]
    constructor
    · rintro rfl; simp
    · rintro ⟨rfl, -⟩; rfl
  | cons a args ih =>
    simp only [edgeArgs, edgeArg_eq]
    split
    · rename_i h
      constructor
      · intro h; cases h
      · rintro ⟨rfl, h'⟩
        have := h' _ List.mem_cons_self
        rw [h] at this; cases this
    · rename_i h
      rw [Bool.not_eq_true] at h
      rw [bind_ok]
      constructor
      · rintro ⟨us, h1, h2⟩
        obtain ⟨rfl, h3⟩ := ih.mp h1
        simp only [Out.ok.injEq] at h2
        subst h2
        refine ⟨rfl, fun t ht => ?_⟩
        rcases List.mem_cons.mp ht with rfl | ht
        · exact h
        · exact h3 t ht
      · rintro ⟨rfl, h1⟩
        exact ⟨_, ih.mpr ⟨rfl, fun t ht => h1 t (List.mem_cons_of_mem _ ht)⟩, rfl⟩

/-- What a step to an included module or to the superclass does. -/
theorem edge_iff {b b' : Bindings} {t : Rbs} {c' : Name} : edge U L b t = .ok (c', b') ↔ target t = some c' ∧ ∃ d' args,
    Declared L c' d' ∧ ((∃ n, t = .cls n) ∧ args = [] ∨ ∃ n, t = .app n args) ∧
    bindings d'.params (args.map (RbsTypes.convWith U b.get)) = .ok b' := by
  have key : ∀ (n : Text) (ts : List Ty), (match L.params (code (strip n)) with
      | none => Out.err .unsupported
      | some ps => (bindings ps ts).bind fun b' => .ok (code (strip n), b')) = .ok (c', b') ↔
        code (strip n) = c' ∧ ∃ d', Declared L c' d' ∧ bindings d'.params ts = .ok b' := by
    intro n ts
    cases hp : L.params (code (strip n)) with
    | none =>
      constructor
      · intro h; cases h
      · rintro ⟨rfl, d', hd, -⟩
        rw [params_eq, node_iff.mpr hd] at hp
        cases hp
    | some ps =>
      simp only [bind_ok, Out.ok.injEq, Prod.mk.injEq]
      rw [params_eq, Option.map_eq_some_iff] at hp
      obtain ⟨d, hd, rfl⟩ := hp
      constructor
      · rintro ⟨b1, h1, rfl, rfl⟩
        exact ⟨rfl, d, node_iff.mp hd, h1⟩
      · rintro ⟨rfl, d', hd', h1⟩
        obtain rfl := declared_unique (node_iff.mp hd) hd'
        exact ⟨b', h1, rfl, rfl⟩
  unfold edge
  split
  · rename_i n
    refine Iff.trans (iff_of_eq (congrArg (· = Out.ok (c', b')) ?_)) ((key n []).trans ?_)
    · cases L.params (code (strip n)) <;> rfl
    simp only [target, Option.some.injEq]
    refine and_congr_right fun _ => ⟨fun ⟨d', h1, h2⟩ => ⟨d', [], h1, .inl ⟨⟨n, rfl⟩, rfl⟩, h2⟩, ?_⟩
    rintro ⟨d', args, h1, (⟨-, rfl⟩ | ⟨n, h⟩), h3⟩
    · exact ⟨d', h1, h3⟩
    · cases h
  · rename_i n args
    rw [bind_ok]
    refine Iff.trans (exists_congr fun ts => and_congr_right fun _ => Iff.trans (iff_of_eq (congrArg (· = Out.ok (c', b')) ?_)) (key n ts)) ?_
    · cases L.params (code (strip n)) <;> rfl
    simp only [target, Option.some.injEq]
    constructor
    · rintro ⟨ts, h1, h2, d', h3, h4⟩
      obtain ⟨rfl, -⟩ := edgeArgs_ok.mp h1
      exact ⟨h2, d', args, h3, .inr ⟨n, rfl⟩, h4⟩
    · rintro ⟨h2, d', args', h3, (⟨⟨n, h⟩, -⟩ | ⟨n', h⟩), h4⟩
      · cases h
      · simp only [Rbs.app.injEq] at h
        obtain ⟨rfl, rfl⟩ := h
        exact ⟨_, edgeArgs_ok.mpr ⟨rfl, (bindings_ok.mp h4).2.1⟩, h2, d', h3, h4⟩
  · rename_i h1 h2
    constructor
    · intro h; cases h
    · rintro ⟨-, d', args, -, (⟨⟨n, h⟩, -⟩ | ⟨n, h⟩), -⟩
      · exact absurd h (h1 n)
      · exact absurd h (h2 n args)

end Verif.RbsAncestors
