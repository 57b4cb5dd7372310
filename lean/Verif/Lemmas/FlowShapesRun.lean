import Verif.Lemmas.FlowShapes
import Verif.Spec.FlowShapes
/-!
Code keeps the environment consistent.
-/
namespace Verif.FlowShapes
open Verif.Types

variable {n : Nat}

/-! ### keyed reads -/

theorem stateField_shapeOnly {s : Option State} {k : Lit} {t : Ty} (h : stateField s k = some t) : isShapeOnly t = true := by
  unfold stateField at h
  split at h
  case h_2 => cases h
  case h_1 u =>
    unfold preciseField at h
    split at h
    case h_2 => cases h
    case h_1 fs r o z d =>
      obtain ⟨f, _, h2⟩ := Option.bind_eq_some_iff.mp h
      split at h2
      case isFalse => cases h2
      case isTrue h3 =>
        cases h2
        simp only [Bool.and_eq_true] at h3
        exact h3.2

theorem childrenOf_ok {E : Env n} (hp : Pre E) (k : Lit) {l : List Id} (hl : ∀ i ∈ l, Live E i) :
    ∃ r, childrenOf E k l = some r ∧ ∀ q, r = some q → (∀ i ∈ q.1, Live E i) ∧
      (∀ x ∈ q.2, x.1 ∈ l ∧ NoChild E x.1 k ∧ isShapeOnly x.2 = true) ∧ (l.Nodup → (q.2.map Prod.fst).Nodup) := by
  induction l with
  | nil => exact ⟨_, rfl, by rintro _ ⟨⟩; simp⟩
  | cons p l ih =>
    obtain ⟨r, h1, h2⟩ := ih fun i hi => hl i (List.mem_cons_of_mem _ hi)
    have hlp := hl p List.mem_cons_self
    unfold childrenOf
    rcases containedChild_ok hp p k with ⟨h3, h4⟩ | ⟨c, h3, h4⟩
    · rw [h3]
      simp only [Option.bind_some]
      have : (E.states p).isNone = false := by
        unfold Live at hlp
        cases hs : E.states p <;> simp_all
      rw [this]
      simp only [Bool.false_eq_true, if_false]
      cases hf : stateField (E.states p) k with
      | none => exact ⟨none, rfl, by rintro _ ⟨⟩⟩
      | some t =>
        simp only [h1, Option.map_some]
        cases r with
        | none => exact ⟨none, rfl, by rintro _ ⟨⟩⟩
        | some q =>
          refine ⟨_, rfl, ?_⟩
          rintro _ ⟨⟩
          obtain ⟨a1, a2, a3⟩ := h2 q rfl
          refine ⟨a1, ?_, ?_⟩
          · intro x hx
            rcases List.mem_cons.mp hx with rfl | hx
            · exact ⟨List.mem_cons_self, h4, stateField_shapeOnly hf⟩
            · exact ⟨List.mem_cons_of_mem _ (a2 x hx).1, (a2 x hx).2⟩
          · intro hn
            rw [List.map_cons, List.nodup_cons]
            refine ⟨fun hm => ?_, a3 (List.nodup_cons.mp hn).2⟩
            obtain ⟨x, hx, hx'⟩ := List.mem_map.mp hm
            exact (List.nodup_cons.mp hn).1 (by simp only at hx'; rw [← hx']; exact (a2 x hx).1)
    · rw [h3]
      simp only [Option.bind_some, h1, Option.map_some]
      cases r with
      | none => exact ⟨none, rfl, by rintro _ ⟨⟩⟩
      | some q =>
        refine ⟨_, rfl, ?_⟩
        rintro _ ⟨⟩
        obtain ⟨a1, a2, a3⟩ := h2 q rfl
        refine ⟨?_, fun x hx => ⟨List.mem_cons_of_mem _ (a2 x hx).1, (a2 x hx).2⟩, fun hn => a3 (List.nodup_cons.mp hn).2⟩
        intro i hi
        rcases Finset.mem_insert.mp hi with rfl | hi
        · exact (hp.links _ h4).2.1
        · exact a1 i hi

theorem allocateChildren_ok (k : Lit) {l : List (Id × Ty)} (hn : (l.map Prod.fst).Nodup) : ∀ {cs : Finset Id} {S : Tracker n}, Good S →
    (∀ i ∈ cs, Live S.env i) → (∀ x ∈ l, Live S.env x.1 ∧ NoChild S.env x.1 k ∧ isShapeOnly x.2 = true) →
    ∃ ds S', allocateChildren k l cs S = some (ds, S') ∧ Good S' ∧ Ext S S' ∧ ∀ i ∈ ds, Live S'.env i := by
  induction l with
  | nil => intro cs S h hc _; exact ⟨cs, S, rfl, h, Ext.refl S, hc⟩
  | cons x l ih =>
    intro cs S h hc hx
    obtain ⟨p, t⟩ := x
    obtain ⟨h1, h2, h3⟩ := hx (p, t) List.mem_cons_self
    obtain ⟨S1, h4, E, h5, h6, h7, h8, h9⟩ := h.child h3 h1 h2
    obtain ⟨ds, S2, h10, h11, h12, h13⟩ := ih (List.nodup_cons.mp hn).2 (cs := Insert.insert S.next cs) h6 (by
        intro i hi
        rcases Finset.mem_insert.mp hi with rfl | hi
        · exact h9
        · exact h7.live i (hc i hi)) (by
        intro y hy
        obtain ⟨a1, a2, a3⟩ := hx y (List.mem_cons_of_mem _ hy)
        refine ⟨h7.live _ a1, ?_, a3⟩
        intro m hm b1 b2
        rw [h8] at hm
        rcases List.mem_cons.mp hm with rfl | hm
        · simp only at b1
          exact (List.nodup_cons.mp hn).1 (by simp only; rw [b1]; exact List.mem_map_of_mem hy)
        · exact a2 m hm b1 b2)
    exact ⟨ds, S2, by unfold allocateChildren; rw [h4]; simp only [Option.bind_some]; rw [h5]; exact h10, h11, h7.trans h12, h13⟩

theorem binds_live {E : Env n} (hp : Pre E) (y : Fin n) : ∀ i ∈ (E.binds y).getD ∅, Live E i := by
  intro i hi
  cases hb : E.binds y with
  | none => simp [hb] at hi
  | some s => exact (hp.bound y s hb).2 i (by simpa [hb] using hi)

theorem keyedIds_ok {S : Tracker n} (h : Good S) (y : Fin n) (k : Lit) (t : Ty) :
    ∃ ids S', keyedIds S y k t = some (ids, S') ∧ Good S' ∧ Ext S S' ∧ ∀ i ∈ ids, Live S'.env i := by
  have hlive := binds_live h.inv.toPre y
  have hgive : ∀ S', Good S' → Ext S S' → ∃ ids S'', ((invalidate S'.env ((S.env.binds y).getD ∅) .invalidated).map fun E => ((∅ : Finset Id), (⟨E, S'.next⟩ : Tracker n))) =
      some (ids, S'') ∧ Good S'' ∧ Ext S S'' ∧ ∀ i ∈ ids, Live S''.env i := by
    intro S' h' he
    obtain ⟨E, h1, h2, h3⟩ := h'.invalidate (fun i hi => he.live i (hlive i hi)) .invalidated
    exact ⟨∅, _, by rw [h1]; rfl, h2, he.trans h3, by simp⟩
  unfold keyedIds
  simp only
  split
  · exact ⟨∅, S, rfl, h, Ext.refl S, by simp⟩
  · obtain ⟨r, h1, h2⟩ := childrenOf_ok h.inv.toPre k (l := asc ((S.env.binds y).getD ∅)) (fun i hi => hlive i (mem_asc.mp hi))
    rw [h1]
    simp only [Option.bind_some]
    cases r with
    | none => exact hgive S h (Ext.refl S)
    | some q =>
      obtain ⟨a1, a2, a3⟩ := h2 q rfl
      obtain ⟨ds, S', b1, b2, b3, b4⟩ := allocateChildren_ok k (a3 (asc_nodup _)) h a1 (fun x hx => ⟨hlive _ (mem_asc.mp (a2 x hx).1), (a2 x hx).2⟩)
      simp only [b1, Option.bind_some]
      split
      · exact ⟨ds, S', rfl, b2, b3, b4⟩
      · obtain ⟨u, hu⟩ := identityType_ok (states := S'.env.states) (ids := ds) b4 b2.inv.shapes
        simp only [hu, Option.bind_some]
        cases u with
        | ok u =>
          simp only
          split
          · exact ⟨ds, S', rfl, b2, b3, b4⟩
          · exact hgive S' b2 b3
        | error e =>
          simp only
          split
          · exact ⟨ds, S', rfl, b2, b3, b4⟩
          · exact hgive S' b2 b3

/-! ### binding -/

theorem insert_inv {E : Env n} (h : Inv E) (x : Fin n) (t : Ty) : Inv (insert E x t) where
  bound := by
    intro y ids hb
    dsimp only [insert, put] at hb ⊢
    split at hb
    · cases hb
    · rename_i e; rw [if_neg e]; exact h.bound y ids hb
  shapes := h.shapes
  links := h.links
  functional := h.functional
  arrays := by
    intro y a ha
    dsimp only [insert, put] at ha ⊢
    split at ha
    · cases ha
    · rename_i e; simp only [if_neg e]; exact h.arrays y a ha
  typed := by
    intro y a ha
    dsimp only [insert, put] at ha ⊢
    split at ha
    · cases ha
    · rename_i e; simp only [if_neg e]; exact h.typed y a ha

theorem insertUnknown_inv {E : Env n} (h : Inv E) (x : Fin n) (r : Reason) : Inv (insertUnknown E x r) := by
  have := insert_inv h x .unknown
  exact ⟨⟨this.bound, this.shapes, this.links, this.functional, this.arrays⟩, this.typed⟩

/-- The variable is bound to identities that exist. -/
theorem bindIds_ok {S : Tracker n} (h : Good S) (x : Fin n) (t : Ty) {ids : Finset Id} (hne : ids ≠ ∅) (hl : ∀ i ∈ ids, Live S.env i) :
    ∃ E, ((bindIds S.env x t ids).bind fun E => sync E) = some E ∧ Good ⟨E, S.next⟩ := by
  unfold bindIds
  rw [if_neg hne]
  have hi : Good (⟨{ S.env with reasons := put S.env.reasons x none, arrays := put S.env.arrays x none, types := put S.env.types x (some t), binds := put S.env.binds x (some ids) }, S.next⟩ : Tracker n) := by
    refine ⟨⟨⟨?_, h.inv.shapes, h.inv.links, h.inv.functional, ?_⟩, ?_⟩, h.below⟩
    · intro y s hb
      dsimp only [put] at hb ⊢
      split at hb
      · cases hb
        rename_i e
        rw [if_pos e]
        exact ⟨rfl, hl⟩
      · rename_i e
        rw [if_neg e]
        exact h.inv.bound y s hb
    · intro y a ha
      dsimp only [put] at ha ⊢
      split at ha
      · cases ha
      · rename_i e
        simp only [if_neg e]
        exact h.inv.arrays y a ha
    · intro y a ha
      dsimp only [put] at ha ⊢
      split at ha
      · cases ha
      · rename_i e
        simp only [if_neg e]
        exact h.inv.typed y a ha
  obtain ⟨E, h1, h2, _⟩ := hi.enforce
  obtain ⟨E', h3, h4, _⟩ := h2.sync
  exact ⟨E', by rw [h1]; exact h3, h4⟩

theorem freshIds_ok {S : Tracker n} (h : Good S) (v : Value n) {t : Ty} (ht : isShapeOnly t = true) :
    ∃ ids S', freshIds S v t = some (ids, S') ∧ Good S' ∧ Ext S S' ∧ ids ≠ ∅ ∧ ∀ i ∈ ids, Live S'.env i := by
  obtain ⟨S1, h1, h2, h3, h4, h5⟩ := h.allocate ht
  have hl1 : Live S1.env S.next := by simp [Live, h4, put]
  obtain ⟨E, h6, h7, h8⟩ : ∃ E, linkFresh S1.env S.next v = some E ∧ Good ⟨E, S1.next⟩ ∧ Ext S1 ⟨E, S1.next⟩ := by
    cases v with
    | hash fs => exact linkLiteral_ok h h2 h3 hl1 h5 fs
    | _ => exact ⟨S1.env, rfl, h2, Ext.refl S1⟩
  have hl2 := h8.live _ hl1
  have hs : ∀ {S' : Tracker n}, Live S'.env S.next → ∀ i ∈ ({S.next} : Finset Id), Live S'.env i := fun hl i hi => by
    rw [Finset.mem_singleton.mp hi]; exact hl
  unfold freshIds
  rw [h1]
  simp only [Option.bind_some]
  rw [h6]
  simp only [Option.bind_some]
  split
  · obtain ⟨r, S3, h9, h10, h11⟩ := materialize_ok h7 hl2
    have hl3 := h11.live _ hl2
    rw [h9]
    simp only [Option.bind_some]
    cases r with
    | ok u => exact ⟨_, _, rfl, h10, (h3.trans h8).trans h11, by simp, hs hl3⟩
    | error r =>
      obtain ⟨E', h12, h13, h14⟩ := h10.invalidate (hs hl3) .invalidated
      exact ⟨_, _, by simp only; rw [h12]; rfl, h13, ((h3.trans h8).trans h11).trans h14, by simp, hs (h14.live _ hl3)⟩
  · exact ⟨_, _, rfl, h7, h3.trans h8, by simp, hs hl2⟩

theorem bindValue_ok {S : Tracker n} (h : Good S) (x : Fin n) (v : Value n) (t : Ty) (r : Option Reason) {ids : Finset Id}
    (hl : ∀ i ∈ ids, Live S.env i) : ∃ S', bindValue S x v t r ids = some S' ∧ Good S' ∧ S.next ≤ S'.next ∧
      (ids = ∅ → isShapeOnly t = false → S'.env.binds x = none ∧ (r = none → S'.env.types x = some t) ∧ ∀ i, Live S.env i → Live S'.env i) := by
  unfold bindValue
  split
  case isTrue hne =>
    obtain ⟨E, h1, h2⟩ := bindIds_ok h x t hne hl
    refine ⟨⟨E, S.next⟩, ?_, h2, Nat.le_refl _, fun e => absurd e hne⟩
    obtain ⟨F, h3, h4⟩ := Option.bind_eq_some_iff.mp h1
    rw [h3]; simp [h4]
  case isFalse hne =>
    split
    case isTrue ht =>
      obtain ⟨ids1, S1, h1, h2, h3, h4⟩ : ∃ ids S', keyedOrNone S t v = some (ids, S') ∧ Good S' ∧ Ext S S' ∧
          ∀ i ∈ ids, Live S'.env i := by
        cases v with
        | keyed y k u => exact keyedIds_ok h y k t
        | _ => exact ⟨∅, S, rfl, h, Ext.refl S, by simp⟩
      obtain ⟨ids2, S2, h5, h6, h7, h8, h9⟩ : ∃ ids S', (if ids1 = ∅ then freshIds S1 v t else some (ids1, S1)) = some (ids, S') ∧ Good S' ∧ Ext S S' ∧ ids ≠ ∅ ∧
          ∀ i ∈ ids, Live S'.env i := by
        split
        · obtain ⟨ids, S', a1, a2, a3, a4, a5⟩ := freshIds_ok h2 v ht
          exact ⟨ids, S', a1, a2, h3.trans a3, a4, a5⟩
        · rename_i hne'
          exact ⟨ids1, S1, rfl, h2, h3, hne', h4⟩
      obtain ⟨E, h10, h11⟩ := bindIds_ok h6 x t h8 h9
      obtain ⟨F, h12, h13⟩ := Option.bind_eq_some_iff.mp h10
      refine ⟨⟨E, S2.next⟩, ?_, h11, h7.next, fun _ e => absurd ht (by simp [e])⟩
      rw [h1]; simp only [Option.bind_some]
      rw [h5]; simp only [Option.bind_some]
      rw [h12]; simp [h13]
    case isFalse ht =>
      cases r with
      | some r => exact ⟨_, rfl, ⟨insertUnknown_inv h.inv x r, h.below⟩, Nat.le_refl _, fun _ _ => ⟨by simp [insertUnknown, put], by simp, fun _ h => h⟩⟩
      | none => exact ⟨_, rfl, ⟨insert_inv h.inv x t, h.below⟩, Nat.le_refl _, fun _ _ => ⟨by simp [insert, put], by simp [insert, put], fun _ h => h⟩⟩

theorem bindArrays_ok {S : Tracker n} (h : Good S) {x : Fin n} {a : Arrays} (ha : a.Ok S.env) {ts : List Ty} (ht : S.env.types x = some (.array ts))
    (hb : S.env.binds x = none) : ∃ E, bindArrays S.env x a = some E ∧ Good ⟨E, S.next⟩ := by
  unfold bindArrays
  split
  · refine (Good.sync (S := ⟨{ S.env with arrays := put S.env.arrays x none }, S.next⟩) ?_).imp fun _ h => ⟨h.1, h.2.1⟩
    refine ⟨⟨⟨h.inv.bound, h.inv.shapes, h.inv.links, h.inv.functional, ?_⟩, ?_⟩, h.below⟩
    · intro y b hy
      dsimp only [put] at hy
      split at hy
      · cases hy
      · exact h.inv.arrays y b hy
    · intro y b hy
      dsimp only [put] at hy
      split at hy
      · cases hy
      · exact h.inv.typed y b hy
  · rename_i hne
    refine (Good.sync (S := ⟨{ S.env with arrays := put S.env.arrays x (some a) }, S.next⟩) ?_).imp fun _ h => ⟨h.1, h.2.1⟩
    refine ⟨⟨⟨h.inv.bound, h.inv.shapes, h.inv.links, h.inv.functional, ?_⟩, ?_⟩, h.below⟩
    · intro y b hy
      dsimp only [put] at hy
      split at hy
      · rename_i e
        cases hy; subst e
        refine ⟨⟨_, ht, by simp [arrayElems]⟩, hb, ha.1, ?_, ha.2⟩
        by_cases hc : a.contained = ∅
        · exact .inr fun hr => hne ⟨hc, hr⟩
        · exact .inl hc
      · exact h.inv.arrays y b hy
    · intro y b hy
      dsimp only [put] at hy
      split at hy
      · rename_i e
        subst e; exact ⟨ts, ht⟩
      · exact h.inv.typed y b hy

theorem idsAt_sub {a : Arrays} (h : ∀ p ∈ a.positions, p.2 ⊆ a.contained) (i : Int) : idsAt a i ⊆ a.contained := by
  intro j hj
  unfold idsAt at hj
  simp only at hj
  generalize (if 0 ≤ i then i else (a.length : Int) + i) = q at hj
  split at hj
  · simp at hj
  · cases hf : a.positions.find? (fun x => (x.1 : Int) = q) with
    | none => simp [hf] at hj
    | some p => exact h p (List.mem_of_find?_eq_some hf) (by simpa [hf] using hj)

theorem valueIds_live {E : Env n} (hp : Pre E) (v : Value n) : ∀ i ∈ v.ids E, Live E i := by
  intro i hi
  cases v with
  | read y => exact binds_live hp y i hi
  | index y j t =>
    simp only [Value.ids] at hi
    cases ha : E.arrays y with
    | none => simp [ha] at hi
    | some a =>
      obtain ⟨_, _, h1, _, h2⟩ := hp.arrays y a ha
      exact h1 i (idsAt_sub h2 j (by simpa [ha] using hi))
  | _ => simp [Value.ids] at hi

/-- An assignment panics exactly if an element of an array literal is a hash that is too large. -/
theorem assign_ok {S : Tracker n} (h : Good S) (x : Fin n) (v : Value n) (hv : ∀ es, v = .array es → ∃ ts, elemTypes S.env es = .ok ts) :
    ∃ S', assign S x v = some S' ∧ Good S' ∧ S.next ≤ S'.next := by
  have hids := valueIds_live h.inv.toPre v
  obtain ⟨a, S1, h1, h2, h3, h4⟩ : ∃ a S1, v.arrays S = some (a, S1) ∧ Good S1 ∧ Ext S S1 ∧ ∀ b, a = some b →
      b.Ok S1.env ∧ v.ids S.env = ∅ ∧ ∃ ts, v.type S.env = .ok (.array ts) := by
    cases v with
    | read y =>
      refine ⟨_, S, rfl, h, Ext.refl S, ?_⟩
      intro b hb
      obtain ⟨_, b2, b3, _, b5⟩ := h.inv.arrays y b hb
      obtain ⟨ts, ht⟩ := h.inv.typed y b hb
      exact ⟨⟨b3, b5⟩, by simp [Value.ids, b2], ts, by simp [Value.type, ht]⟩
    | array es =>
      obtain ⟨b, S1, h1, h2, h3, h4⟩ := arrayAliases_ok (es := es) (i := 0) (a := ⟨es.length, [], ∅, none⟩) h (by simp [Arrays.Ok])
      refine ⟨some b, S1, by simp [Value.arrays, h1], h2, h3, ?_⟩
      rintro _ ⟨⟩
      obtain ⟨ts, ht⟩ := hv es rfl
      refine ⟨h4, rfl, ?_⟩
      simp only [Value.type, arrayLiteral, ht]
      split <;> exact ⟨_, rfl⟩
    | _ => exact ⟨none, S, rfl, h, Ext.refl S, by rintro _ ⟨⟩⟩
  obtain ⟨S2, h5, h6, h7, h8⟩ := bindValue_ok h2 x v (typeOr (v.type S.env)) (reasonOf (v.type S.env)) (fun i hi => h3.live i (hids i hi))
  unfold assign
  simp only
  rw [h1]
  simp only [Option.bind_some]
  rw [h5]
  simp only [Option.bind_some]
  cases a with
  | none => exact ⟨S2, rfl, h6, Nat.le_trans h3.next h7⟩
  | some b =>
    obtain ⟨c1, c2, ts, c3⟩ := h4 b rfl
    simp only [c3, typeOr, reasonOf] at h8 ⊢
    obtain ⟨d1, d2, d3⟩ := h8 c2 not_shapeOnly_array
    obtain ⟨E, e1, e2⟩ := bindArrays_ok h6 (x := x) (a := b) ⟨fun i hi => d3 i (c1.1 i hi), c1.2⟩ (d2 trivial) d1
    exact ⟨⟨E, S2.next⟩, by simp [Ty.isArray, e1], e2, Nat.le_trans h3.next h7⟩

/-! ### mutation -/

/-- The function makes shapes of shapes. -/
def MapsShapes (f : Ty → Except Reason Ty) : Prop := ∀ t u, t.isShape = true → f t = .ok u → isShapeOnly u = true

theorem withField_maps (k : Lit) (v : Ty) : MapsShapes (withField k v) := by
  intro t u ht h
  unfold withField at h
  split at h
  case h_2 => cases h
  case h_1 =>
    split at h
    · cases h; simp [isShapeOnly]
    · split at h
      · cases h; rename_i h; exact shapeOnly_shape (tryNew_shape h)
      · cases h

theorem mutation_maps (m : Mutation) : MapsShapes m.apply := by
  intro t u ht h
  unfold Mutation.apply at h
  split at h
  case h_2 => cases h
  case h_1 =>
    cases m with
    | freeze =>
      simp only at h
      split at h
      · cases h; rename_i h; exact shapeOnly_shape (tryNew_shape h)
      · cases h
    | _ =>
      simp only at h
      split at h
      · cases h; simp [isShapeOnly]
      · split at h
        · cases h; rename_i h; exact shapeOnly_shape (tryNew_shape h)
        · cases h

theorem transitionsOf_ok {f : Ty → Except Reason Ty} (hf : MapsShapes f) {l : List Ty} (hl : ∀ t ∈ l, t.isShape = true) :
    ∀ {ts}, transitionsOf f l = .ok ts → ∀ x ∈ ts, isShapeOnly x.2 = true := by
  induction l with
  | nil => rintro ts ⟨⟩; simp
  | cons b l ih =>
    intro ts h
    unfold transitionsOf at h
    cases hb : f b with
    | error r => simp [hb] at h
    | ok a =>
      simp only [hb] at h
      split at h
      · cases h
      · cases hr : transitionsOf f l with
        | error r => simp [hr] at h
        | ok rs =>
          simp only [hr, Except.ok.injEq] at h
          subst h
          intro x hx
          rcases List.mem_cons.mp hx with rfl | hx
          · exact hf b a (hl b List.mem_cons_self) hb
          · exact ih (fun t ht => hl t (List.mem_cons_of_mem _ ht)) hr x hx

/-- The state of an identity is replaced. -/
theorem putState_ok {E : Env n} (h : Inv E) {i : Id} (hl : Live E i) {t : Ty} (ht : isShapeOnly t = true) :
    Inv { E with states := put E.states i (some (.proven t)) } ∧ Frame E { E with states := put E.states i (some (.proven t)) } := by
  have hf : Frame E { E with states := put E.states i (some (.proven t)) } := by
    refine ⟨rfl, rfl, rfl, fun j => ?_⟩
    unfold Live put
    dsimp only
    split
    · rename_i e; subst e; exact ⟨fun _ => hl, fun _ => rfl⟩
    · exact .rfl
  refine ⟨⟨pre_types h.toPre hf ?_ (fun _ h => h) (fun x a ha => (h.arrays x a ha).1), h.typed⟩, hf⟩
  intro j u hj
  dsimp only [put] at hj
  split at hj
  · cases hj; exact ht
  · exact h.shapes j u hj

theorem transformAll_ok {ids : Finset Id} {f : Ty → Except Reason Ty} (hf : MapsShapes f) {l : List Id} (hsub : ∀ i ∈ l, i ∈ ids) :
    ∀ {acc : List (Id × Transitions)} {E : Env n}, Inv E → (∀ i ∈ ids, Live E i) → (∀ c ∈ acc, c.1 ∈ ids) →
      ∃ r E', transformAll ids f l acc E = some (r, E') ∧ Inv E' ∧ Frame E E' ∧ ∀ out, r = .ok out → ∀ c ∈ out, c.1 ∈ ids := by
  induction l with
  | nil => intro acc E h _ ha; exact ⟨_, E, rfl, h, Frame.refl E, by rintro _ ⟨⟩; exact ha⟩
  | cons i l ih =>
    intro acc E h hl ha
    unfold transformAll
    obtain ⟨st, hst⟩ := Option.isSome_iff_exists.mp (hl i (hsub i List.mem_cons_self))
    rw [hst]
    cases st with
    | invalid r => exact ⟨_, E, rfl, h, Frame.refl E, by rintro _ ⟨⟩⟩
    | proven t =>
      obtain ⟨alts, h1, _, h2⟩ := shapeAlts_ok t (h.shapes i t hst)
      simp only [h1]
      cases hts : transitionsOf f alts with
      | error r =>
        obtain ⟨E', h3, h4, h5, _⟩ := invalidate_ok h.toPre hl r
        exact ⟨_, E', by simp only; rw [h3]; rfl, h4, h5, by rintro _ ⟨⟩⟩
      | ok ts =>
        simp only
        split
        · obtain ⟨E', h3, h4, h5, _⟩ := invalidate_ok h.toPre hl .boundExceeded
          exact ⟨_, E', by rw [h3]; rfl, h4, h5, by rintro _ ⟨⟩⟩
        · rename_i hne
          have hso := mkUnion_shapeOnly (ts := ts.map Prod.snd) (fun u hu => by
            obtain ⟨x, hx, rfl⟩ := List.mem_map.mp hu
            exact transitionsOf_ok hf h2 hts x hx) hne
          obtain ⟨h3, h4⟩ := putState_ok h (hl i (hsub i List.mem_cons_self)) hso
          obtain ⟨r, E', h5, h6, h7, h8⟩ := ih (fun j hj => hsub j (List.mem_cons_of_mem _ hj)) (acc := (i, ts) :: acc) h3
            (fun j hj => (h4.live j).mpr (hl j hj)) (by
              intro c hc
              rcases List.mem_cons.mp hc with rfl | hc
              · exact hsub i List.mem_cons_self
              · exact ha c hc)
          exact ⟨r, E', h5, h6, h4.trans h7, h8⟩

theorem withTransitions_shape {t : Ty} {k : Lit} {ts : Transitions} {u : Ty} (h : withTransitions t k ts = .ok u) : u.isShape = true := by
  unfold withTransitions at h
  split at h
  case h_2 => cases h
  case h_1 =>
    repeat' split at h
    all_goals first | cases h | skip
    rename_i h; exact tryNew_shape h

theorem throughLinks_ok {changed : List (Id × Transitions)} {ls : List Link} (hc : ∀ l ∈ ls, l.child ∈ changed.map Prod.fst) :
    ∀ {t : Ty}, t.isShape = true → ∃ r, throughLinks changed ls t = some r ∧ ∀ u, r = .ok u → u.isShape = true := by
  induction ls with
  | nil => intro t ht; exact ⟨_, rfl, by rintro _ ⟨⟩; exact ht⟩
  | cons l ls ih =>
    intro t ht
    unfold throughLinks
    cases hf : changed.find? (fun c => c.1 = l.child) with
    | none =>
      exfalso
      obtain ⟨c, hcm, hce⟩ := List.mem_map.mp (hc l List.mem_cons_self)
      have := List.find?_eq_none.mp hf c hcm
      simp [hce] at this
    | some c =>
      simp only
      cases hw : withTransitions t l.key c.2 with
      | error e => exact ⟨_, rfl, by rintro _ ⟨⟩⟩
      | ok u => exact ih (fun m hm => hc m (List.mem_cons_of_mem _ hm)) (withTransitions_shape hw)

theorem parentTransitions_ok {changed : List (Id × Transitions)} {ls : List Link} (hc : ∀ l ∈ ls, l.child ∈ changed.map Prod.fst)
    {alts : List Ty} (ha : ∀ t ∈ alts, t.isShape = true) :
    ∃ r, parentTransitions changed ls alts = some r ∧ ∀ ts, r = .ok ts → ∀ x ∈ ts, isShapeOnly x.2 = true := by
  induction alts with
  | nil => exact ⟨_, rfl, by rintro _ ⟨⟩; simp⟩
  | cons b l ih =>
    obtain ⟨r, h1, h2⟩ := ih fun t ht => ha t (List.mem_cons_of_mem _ ht)
    obtain ⟨q, h3, h4⟩ := throughLinks_ok hc (ha b List.mem_cons_self)
    unfold parentTransitions
    rw [h3]
    simp only [Option.bind_some]
    cases q with
    | error e => exact ⟨_, rfl, by rintro _ ⟨⟩⟩
    | ok a =>
      simp only [h1, Option.map_some]
      cases r with
      | error e => exact ⟨_, rfl, by rintro _ ⟨⟩⟩
      | ok ts =>
        refine ⟨_, rfl, ?_⟩
        rintro _ ⟨⟩ x hx
        rcases List.mem_cons.mp hx with rfl | hx
        · exact shapeOnly_shape (h4 a rfl)
        · exact h2 ts rfl x hx

theorem propagateParents_ok {changed : List (Id × Transitions)} {links : List Link} (hc : ∀ l ∈ links, l.child ∈ changed.map Prod.fst) {l : List Id} :
    ∀ {acc : List (Id × Transitions)} {E : Env n}, Inv E → (∀ i ∈ l, Live E i) → (∀ c ∈ acc, Live E c.1) →
      ∃ r E', propagateParents changed links l acc E = some (r, E') ∧ Inv E' ∧ Frame E E' ∧ ∀ out, r = .ok out → ∀ c ∈ out, Live E' c.1 := by
  induction l with
  | nil => intro acc E h _ ha; exact ⟨_, E, rfl, h, Frame.refl E, by rintro _ ⟨⟩; exact ha⟩
  | cons p l ih =>
    intro acc E h hl ha
    unfold propagateParents
    have hlp := hl p List.mem_cons_self
    obtain ⟨st, hst⟩ := Option.isSome_iff_exists.mp hlp
    rw [hst]
    cases st with
    | invalid r => exact ⟨_, E, rfl, h, Frame.refl E, by rintro _ ⟨⟩⟩
    | proven t =>
      obtain ⟨alts, h1, _, h2⟩ := shapeAlts_ok t (h.shapes p t hst)
      simp only [h1]
      obtain ⟨r, h3, h4⟩ := parentTransitions_ok (changed := changed) (ls := links.filter fun x => x.parent = p)
        (fun m hm => hc m (List.mem_filter.mp hm).1) h2
      rw [h3]
      cases r with
      | error e => exact ⟨_, E, rfl, h, Frame.refl E, by rintro _ ⟨⟩⟩
      | ok ts =>
        simp only
        split
        · obtain ⟨E', h5, h6, h7, _⟩ := invalidate_ok h.toPre (ids := {p}) (fun i hi => by rw [Finset.mem_singleton.mp hi]; exact hlp) .boundExceeded
          exact ⟨_, E', by rw [h5]; rfl, h6, h7, by rintro _ ⟨⟩⟩
        · rename_i hne
          have hso := mkUnion_shapeOnly (ts := ts.map Prod.snd) (fun u hu => by
            obtain ⟨x, hx, rfl⟩ := List.mem_map.mp hu
            exact h4 ts rfl x hx) hne
          obtain ⟨h5, h6⟩ := putState_ok h hlp hso
          obtain ⟨r, E', h7, h8, h9, h10⟩ := ih (acc := (p, ts) :: acc) h5
            (fun j hj => (h6.live j).mpr (hl j (List.mem_cons_of_mem _ hj))) (by
              intro c hcm
              rcases List.mem_cons.mp hcm with rfl | hcm
              · exact (h6.live _).mpr hlp
              · exact (h6.live _).mpr (ha c hcm))
          exact ⟨r, E', h7, h8, h6.trans h9, h10⟩

theorem propagate_ok {k : Nat} : ∀ {changed : List (Id × Transitions)} {E : Env n}, Inv E → (∀ c ∈ changed, Live E c.1) →
    ∃ r E', propagate k changed E = some (r, E') ∧ Inv E' ∧ Frame E E' := by
  induction k with
  | zero =>
    intro changed E h hl
    obtain ⟨E', h1, h2, h3, _⟩ := invalidate_ok h.toPre (ids := (changed.map Prod.fst).toFinset) (by
      intro i hi
      obtain ⟨c, hc, rfl⟩ := List.mem_map.mp (List.mem_toFinset.mp hi)
      exact hl c hc) .boundExceeded
    exact ⟨_, E', by unfold propagate; rw [h1]; rfl, h2, h3⟩
  | succ k ih =>
    intro changed E h hl
    unfold propagate
    simp only
    split
    · exact ⟨_, E, rfl, h, Frame.refl E⟩
    · obtain ⟨r, E', h1, h2, h3, h4⟩ := propagateParents_ok (changed := changed) (links := E.links.filter fun l => l.child ∈ changed.map Prod.fst)
        (fun l hl => by simpa using (List.mem_filter.mp hl).2)
        (l := asc ((E.links.filter fun l => l.child ∈ changed.map Prod.fst).map Link.parent).toFinset) (acc := []) h (by
          intro i hi
          obtain ⟨m, hm, rfl⟩ := List.mem_map.mp (List.mem_toFinset.mp (mem_asc.mp hi))
          exact (h.links m (List.mem_filter.mp hm).1).1) (by simp)
      rw [h1]
      simp only [Option.bind_some]
      cases r with
      | error e => exact ⟨_, E', rfl, h2, h3⟩
      | ok next =>
        obtain ⟨r, E'', h5, h6, h7⟩ := ih h2 (h4 next rfl)
        exact ⟨r, E'', h5, h6, h3.trans h7⟩

theorem transform_ok {E : Env n} (h : Inv E) {ids : Finset Id} (hl : ∀ i ∈ ids, Live E i) {f : Ty → Except Reason Ty} (hf : MapsShapes f) :
    ∃ r E', transform E ids f = some (r, E') ∧ Inv E' ∧ Frame E E' := by
  obtain ⟨r, E1, h1, h2, h3, h4⟩ := transformAll_ok hf (ids := ids) (l := asc ids) (fun i hi => mem_asc.mp hi) (acc := []) h hl (by simp)
  unfold transform
  rw [h1]
  simp only [Option.bind_some]
  cases r with
  | error e => exact ⟨_, E1, rfl, h2, h3⟩
  | ok changed =>
    obtain ⟨q, E2, h5, h6, h7⟩ := propagate_ok (k := maxRounds) (changed := changed) h2 (fun c hc => (h3.live _).mpr (hl _ (h4 changed rfl c hc)))
    simp only
    rw [h5]
    simp only [Option.bind_some]
    cases q with
    | error e => exact ⟨_, E2, rfl, h6, h3.trans h7⟩
    | ok u =>
      obtain ⟨E3, h8, h9, h10, h11⟩ := sync_ok h6.toPre
      obtain ⟨t, ht⟩ := identityType_ok (states := E3.states) (ids := ids) (fun i hi => by
        exact (h10.live i).mpr ((h7.live i).mpr ((h3.live i).mpr (hl i hi)))) h9.shapes
      simp only
      rw [h8]
      simp only [Option.bind_some, ht, Option.map_some]
      cases t with
      | ok t => exact ⟨_, E3, rfl, h9, (h3.trans h7).trans h10⟩
      | error e => exact ⟨_, E3, rfl, h9, (h3.trans h7).trans h10⟩

theorem detach_inv {E : Env n} (h : Inv E) (ids : Finset Id) (k : Option Lit) : Inv (detach E ids k) where
  bound := h.bound
  shapes := h.shapes
  links := fun l hl => h.links l (List.mem_filter.mp hl).1
  functional := fun l hl m hm => h.functional l (List.mem_filter.mp hl).1 m (List.mem_filter.mp hm).1
  arrays := h.arrays
  typed := h.typed

theorem detach_noChild {E : Env n} {ids : Finset Id} {k : Lit} {p : Id} (hp : p ∈ ids) : NoChild (detach E ids (some k)) p k := by
  intro l hl h1 h2
  have := (List.mem_filter.mp hl).2
  simp only [decide_eq_true_eq] at this
  rcases this with h | ⟨k', h3, h4⟩
  · exact h (h1 ▸ hp)
  · cases h3; exact h4 h2.symm

theorem linkParents_ok {k : Lit} {c : Id} {l : List Id} (hn : l.Nodup) : ∀ {S : Tracker n}, Good S → Live S.env c →
    (∀ p ∈ l, Live S.env p ∧ p ≠ c ∧ NoChild S.env p k) → ∃ E, linkParents k c l S.env = some E ∧ Good ⟨E, S.next⟩ := by
  induction l with
  | nil => intro S h _ _; exact ⟨S.env, rfl, h⟩
  | cons p l ih =>
    intro S h hc hl
    obtain ⟨h1, h2, h3⟩ := hl p List.mem_cons_self
    obtain ⟨E, h4, h5, h6, _, h8⟩ := h.link (k := k) h1 hc h2 h3
    obtain ⟨E', h9, h10⟩ := ih (List.nodup_cons.mp hn).2 h5 (h6.live _ hc) (by
      intro q hq
      obtain ⟨a1, a2, a3⟩ := hl q (List.mem_cons_of_mem _ hq)
      refine ⟨h6.live _ a1, a2, ?_⟩
      intro m hm b1 b2
      rw [h8] at hm
      rcases List.mem_cons.mp hm with rfl | hm
      · simp only at b1
        exact (List.nodup_cons.mp hn).1 (b1 ▸ hq)
      · exact a3 m hm b1 b2)
    exact ⟨E', by unfold linkParents; rw [h4]; exact h9, h10⟩

theorem linkAssigned_ok {S : Tracker n} (h : Good S) {parents children : Finset Id} {k : Lit} {t : Ty} (hp : ∀ i ∈ parents, Live S.env i)
    (hc : ∀ i ∈ children, Live S.env i) (hno : ∀ p ∈ parents, NoChild S.env p k) :
    ∃ b E, linkAssigned S.env parents k children t = some (b, E) ∧ Good ⟨E, S.next⟩ ∧ (b = false → E = S.env) := by
  unfold linkAssigned
  split
  case h_2 => exact ⟨_, _, rfl, h, fun _ => rfl⟩
  case h_1 c hcs =>
    have hcm : c ∈ children := mem_asc.mp (by rw [hcs]; exact List.mem_cons_self)
    split
    · exact ⟨_, _, rfl, h, fun _ => rfl⟩
    · rename_i hcp
      obtain ⟨u, hu⟩ := identityType_ok (states := S.env.states) (ids := children) hc h.inv.shapes
      rw [hu]
      simp only [Option.bind_some]
      cases u with
      | error e => exact ⟨_, _, rfl, h, fun _ => rfl⟩
      | ok u =>
        simp only
        split
        · exact ⟨_, _, rfl, h, fun _ => rfl⟩
        · split
          · rename_i hany
            exfalso
            obtain ⟨p, hpm, hpn⟩ := List.any_eq_true.mp hany
            have := hp p (mem_asc.mp hpm)
            unfold Live at this
            cases hs : S.env.states p <;> simp_all
          · split
            · exact ⟨_, _, rfl, h, fun _ => rfl⟩
            · obtain ⟨E1, h1, h2⟩ := linkParents_ok (k := k) (c := c) (asc_nodup parents) h (hc c hcm) (fun p hpm =>
                ⟨hp p (mem_asc.mp hpm), fun e => hcp (.inl (e ▸ mem_asc.mp hpm)), hno p (mem_asc.mp hpm)⟩)
              obtain ⟨E2, h3, h4, _⟩ := h2.enforce
              obtain ⟨E3, h5, h6, _⟩ := h4.sync
              simp only at h3 h5
              exact ⟨true, E3, by rw [h1]; simp only [Option.bind_some]; rw [h3]; simp only [Option.bind_some]; rw [h5]; rfl, h6, by simp⟩


theorem setField_ok {S : Tracker n} (h : Good S) (y : Fin n) (k : Lit) (v : Part n) :
    ∃ E, setField S.env y k v = some E ∧ Good ⟨E, S.next⟩ := by
  have h1 := binds_live h.inv.toPre y
  have h2 := escaped_live h.inv.toPre v
  have h3 : ∀ i ∈ (S.env.binds y).getD ∅ ∪ v.escaped S.env, Live S.env i := by
    intro i hi
    rcases Finset.mem_union.mp hi with hi | hi
    · exact h1 i hi
    · exact h2 i hi
  unfold setField
  simp only
  split
  · split
    · exact ⟨_, rfl, h⟩
    · exact (h.invalidate h2 .invalidated).imp fun _ h => ⟨h.1, h.2.1⟩
  · split
    · exact (h.invalidate h3 .invalidated).imp fun _ h => ⟨h.1, h.2.1⟩
    · obtain ⟨r, E1, a1, a2, a3⟩ := transform_ok (detach_inv h.inv ((S.env.binds y).getD ∅) (some k)) (ids := (S.env.binds y).getD ∅) h1
        (withField_maps k (v.type S.env))
      have hg : Good ⟨E1, S.next⟩ := ⟨a2, fun i hi => h.below i ((a3.live i).mp hi)⟩
      rw [a1]
      simp only [Option.bind_some]
      cases r with
      | error e => exact ⟨_, rfl, hg⟩
      | ok u =>
        simp only
        split
        · exact ⟨_, rfl, hg⟩
        · obtain ⟨b, E2, b1, b2, b3⟩ := linkAssigned_ok hg (parents := (S.env.binds y).getD ∅) (children := v.escaped S.env) (k := k) (t := v.type S.env)
            (fun i hi => (a3.live i).mpr (h1 i hi)) (fun i hi => (a3.live i).mpr (h2 i hi)) (by
              intro p hp
              unfold NoChild
              simp only
              rw [a3.links]
              exact detach_noChild hp)
          simp only at b1
          rw [b1]
          simp only [Option.bind_some]
          cases b with
          | true => exact ⟨_, rfl, b2⟩
          | false =>
            have := b3 rfl
            simp only at this
            subst this
            exact (hg.invalidate (fun i hi => (a3.live i).mpr (h3 i hi)) .invalidated).imp fun _ h => ⟨h.1, h.2.1⟩

theorem change_ok {S : Tracker n} (h : Good S) (y : Fin n) (m : Mutation) : ∃ E, change S.env y m = some E ∧ Good ⟨E, S.next⟩ := by
  have h1 := binds_live h.inv.toPre y
  unfold change
  simp only
  split
  · exact ⟨_, rfl, h⟩
  · obtain ⟨hi, hst⟩ : Inv (m.detached S.env ((S.env.binds y).getD ∅)) ∧ (m.detached S.env ((S.env.binds y).getD ∅)).states = S.env.states := by
      cases m with
      | delete k => exact ⟨detach_inv h.inv _ _, rfl⟩
      | clear => exact ⟨detach_inv h.inv _ _, rfl⟩
      | freeze => exact ⟨h.inv, rfl⟩
    have hlive : ∀ i, Live (m.detached S.env ((S.env.binds y).getD ∅)) i ↔ Live S.env i := fun i => by unfold Live; rw [hst]
    obtain ⟨r, E1, a1, a2, a3⟩ := transform_ok hi (ids := (S.env.binds y).getD ∅) (fun i hi => (hlive i).mpr (h1 i hi)) (mutation_maps m)
    exact ⟨E1, by rw [a1]; rfl, ⟨a2, fun i hi => h.below i ((hlive i).mp ((a3.live i).mp hi))⟩⟩

/-! ### conditions -/

theorem guardAll_ok {f : Ty → Except Reason (Option Ty)} (hf : Keeps f) {states : Id → Option State}
    (hs : ∀ i t, states i = some (.proven t) → isShapeOnly t = true) {l : List Id} (hl : ∀ i ∈ l, (states i).isSome = true) :
    ∃ r, guardAll f states l = some r ∧ ∀ q, r = .ok q → (∀ i ∈ q.1, i ∈ l) ∧ ∀ u ∈ q.2, u.1 ∈ l ∧ isShapeOnly u.2 = true := by
  induction l with
  | nil => exact ⟨_, rfl, by rintro _ ⟨⟩; simp⟩
  | cons i l ih =>
    obtain ⟨r, h1, h2⟩ := ih fun j hj => hl j (List.mem_cons_of_mem _ hj)
    obtain ⟨st, hst⟩ := Option.isSome_iff_exists.mp (hl i List.mem_cons_self)
    unfold guardAll
    rw [hst, h1]
    cases st with
    | invalid e =>
      simp only [Option.map_some]
      refine ⟨_, rfl, ?_⟩
      intro q hq
      cases r with
      | error e => cases hq
      | ok r =>
        cases hq
        obtain ⟨a1, a2⟩ := h2 r rfl
        refine ⟨fun j hj => ?_, fun u hu => ⟨List.mem_cons_of_mem _ (a2 u hu).1, (a2 u hu).2⟩⟩
        rcases Finset.mem_insert.mp hj with rfl | hj
        · exact List.mem_cons_self
        · exact List.mem_cons_of_mem _ (a1 j hj)
    | proven t =>
      simp only
      cases hft : f t with
      | error e => exact ⟨_, rfl, by rintro _ ⟨⟩⟩
      | ok o =>
        cases o with
        | none =>
          refine ⟨r, rfl, fun q hq => ?_⟩
          obtain ⟨a1, a2⟩ := h2 q hq
          exact ⟨fun j hj => List.mem_cons_of_mem _ (a1 j hj), fun u hu => ⟨List.mem_cons_of_mem _ (a2 u hu).1, (a2 u hu).2⟩⟩
        | some u =>
          simp only [Option.map_some]
          refine ⟨_, rfl, ?_⟩
          intro q hq
          cases r with
          | error e => cases hq
          | ok r =>
            cases hq
            obtain ⟨a1, a2⟩ := h2 r rfl
            refine ⟨fun j hj => ?_, fun w hw => ?_⟩
            · rcases Finset.mem_insert.mp hj with rfl | hj
              · exact List.mem_cons_self
              · exact List.mem_cons_of_mem _ (a1 j hj)
            · rcases List.mem_cons.mp hw with rfl | hw
              · exact ⟨List.mem_cons_self, hf t _ (hs i t hst) hft⟩
              · exact ⟨List.mem_cons_of_mem _ (a2 w hw).1, (a2 w hw).2⟩

theorem guardVar_ok {S : Tracker n} (h : Good S) (y : Fin n) {f : Ty → Except Reason (Option Ty)} (hf : Keeps f) :
    ∃ E, guardVar S.env y f = some E ∧ Good ⟨E, S.next⟩ := by
  have h1 := binds_live h.inv.toPre y
  unfold guardVar
  simp only
  split
  · exact ⟨_, rfl, h⟩
  · obtain ⟨r, h2, h3⟩ := guardAll_ok hf h.inv.shapes (l := asc ((S.env.binds y).getD ∅)) (fun i hi => h1 i (mem_asc.mp hi))
    rw [h2]
    simp only [Option.bind_some]
    cases r with
    | error e => exact (h.invalidate h1 e).imp fun _ h => ⟨h.1, h.2.1⟩
    | ok q =>
      obtain ⟨a1, a2⟩ := h3 q rfl
      simp only
      split
      · exact ⟨_, rfl, h⟩
      · refine (Good.sync (S := ⟨{ S.env with
            states := fun i => match q.2.find? (fun u : Id × Ty => u.1 = i) with
              | some u => some (.proven u.2)
              | none => S.env.states i
            binds := fun x => (S.env.binds x).map fun s => s.filter fun i => i ∉ (S.env.binds y).getD ∅ ∨ i ∈ q.1 }, S.next⟩) ?_).imp fun _ h => ⟨h.1, h.2.1⟩
        have hlive : ∀ i, (match q.2.find? (fun u : Id × Ty => u.1 = i) with | some u => some (State.proven u.2) | none => S.env.states i).isSome = true ↔ Live S.env i := by
          intro i
          cases hfi : q.2.find? (fun u : Id × Ty => u.1 = i) with
          | none => exact .rfl
          | some u =>
            simp only [Option.isSome_some, true_iff]
            have e : u.1 = i := by simpa using List.find?_some hfi
            exact e ▸ h1 u.1 (mem_asc.mp (a2 u (List.mem_of_find?_eq_some hfi)).1)
        refine ⟨⟨⟨?_, ?_, ?_, h.inv.functional, ?_⟩, h.inv.typed⟩, fun i hi => h.below i ((hlive i).mp hi)⟩
        · intro x ids hb
          obtain ⟨s, hs, rfl⟩ := Option.map_eq_some_iff.mp hb
          exact ⟨(h.inv.bound x s hs).1, fun i hi => (hlive i).mpr ((h.inv.bound x s hs).2 i (Finset.mem_filter.mp hi).1)⟩
        · intro i t hi
          dsimp only at hi
          split at hi
          · cases hi
            rename_i u hfi
            exact (a2 u (List.mem_of_find?_eq_some hfi)).2
          · exact h.inv.shapes i t hi
        · intro l hl
          obtain ⟨b1, b2, b3⟩ := h.inv.links l hl
          exact ⟨(hlive _).mpr b1, (hlive _).mpr b2, b3⟩
        · intro x a ha
          obtain ⟨b1, b2, b3, b4⟩ := h.inv.arrays x a ha
          exact ⟨b1, by simp [b2], fun i hi => (hlive i).mpr (b3 i hi), b4⟩

/-! ### joins -/

theorem mergeStates_isSome (a b : Option State) : (mergeStates a b).isSome = true ↔ a.isSome = true ∨ b.isSome = true := by
  cases a with
  | none => cases b <;> simp [mergeStates]
  | some s =>
    cases b with
    | none => cases s <;> simp [mergeStates]
    | some t =>
      cases s <;> cases t <;> simp [mergeStates]
      split <;> simp

theorem mergeStates_shapes {a b : Option State} {t : Ty} (ha : ∀ t, a = some (.proven t) → isShapeOnly t = true)
    (hb : ∀ t, b = some (.proven t) → isShapeOnly t = true) (h : mergeStates a b = some (.proven t)) : isShapeOnly t = true := by
  unfold mergeStates at h
  split at h
  · cases h
  · cases h
  · cases h
  · split at h
    · cases h
    · rename_i u v hne
      cases h
      refine mkUnion_shapeOnly ?_ hne
      intro w hw
      simp only [List.mem_cons, List.not_mem_nil, or_false] at hw
      rcases hw with rfl | rfl
      · exact ha _ rfl
      · exact hb _ rfl
  · cases h; exact ha _ rfl
  · exact hb _ h

theorem mergeTypes_isSome {a b : Option Ty} (h : a.isSome = true ∨ b.isSome = true) : (mergeTypes a b).isSome = true := by
  unfold mergeTypes
  cases a <;> cases b <;> simp at h ⊢
  split <;> rfl

theorem merge_ok {A B : Tracker n} (hA : Good A) (hB : Good B) (hn : A.next ≤ B.next) :
    ∃ E, merge A.env B.env = some E ∧ Good ⟨E, B.next⟩ := by
  unfold merge
  simp only
  generalize hE : (⟨_, _, _, _, _, _⟩ : Env n) = E0
  have hlive : ∀ i, Live E0 i ↔ Live A.env i ∨ Live B.env i := by
    intro i
    subst hE
    unfold Live
    dsimp only
    rw [← mergeStates_isSome]
    split
    · rename_i h; simp [h.2]
    · rfl
  have hp : Pre E0 := by
    refine ⟨?_, ?_, ?_, ?_, ?_⟩
    · intro x ids hb
      have hb' : mergeBinds (A.env.binds x) (B.env.binds x) = some ids := by subst hE; exact hb
      unfold mergeBinds at hb'
      simp only at hb'
      split at hb'
      · cases hb'
      · rename_i hne
        cases hb'
        refine ⟨?_, ?_⟩
        · have : (A.env.types x).isSome = true ∨ (B.env.types x).isSome = true := by
            cases ha : A.env.binds x with
            | some s => exact .inl (hA.inv.bound x s ha).1
            | none =>
              cases hb2 : B.env.binds x with
              | some s => exact .inr (hB.inv.bound x s hb2).1
              | none => simp [ha, hb2] at hne
          subst hE
          exact mergeTypes_isSome this
        · intro i hi
          rw [hlive]
          exact (Finset.mem_union.mp hi).imp (binds_live hA.inv.toPre x i) (binds_live hB.inv.toPre x i)
    · intro i t hi
      subst hE
      dsimp only at hi
      split at hi
      · cases hi
      · exact mergeStates_shapes (fun t h => hA.inv.shapes i t h) (fun t h => hB.inv.shapes i t h) hi
    · intro l hl
      have hl' : l ∈ A.env.links := by subst hE; exact (List.mem_filter.mp hl).1
      obtain ⟨h1, h2, h3⟩ := hA.inv.links l hl'
      exact ⟨(hlive _).mpr (.inl h1), (hlive _).mpr (.inl h2), h3⟩
    · subst hE
      exact fun l hl m hm => hA.inv.functional l (List.mem_filter.mp hl).1 m (List.mem_filter.mp hm).1
    · intro x a ha
      have ha' : mergeArrays (A.env.arrays x) (B.env.arrays x) = some a := by subst hE; exact ha
      unfold mergeArrays at ha'
      split at ha'
      case isFalse => cases ha'
      case isTrue heq =>
        obtain ⟨_, b2, b3, b4⟩ := hA.inv.arrays x a ha'
        obtain ⟨_, c2, _⟩ := hB.inv.arrays x a (heq ▸ ha')
        obtain ⟨ts, ht⟩ := hA.inv.typed x a ha'
        obtain ⟨us, hu⟩ := hB.inv.typed x a (heq ▸ ha')
        refine ⟨?_, ?_, fun i hi => (hlive i).mpr (.inl (b3 i hi)), b4⟩
        · subst hE
          dsimp only
          rw [ht, hu]
          unfold mergeTypes
          simp only
          split
          · exact ⟨_, rfl, by simp [arrayElems]⟩
          · exact ⟨_, rfl, mkUnion_arrays⟩
        · subst hE
          dsimp only
          rw [b2, c2]; rfl
  have hbelow : ∀ i, Live E0 i → i < B.next := fun i hi => by
    rcases (hlive i).mp hi with h | h
    · exact Nat.lt_of_lt_of_le (hA.below i h) hn
    · exact hB.below i h
  obtain ⟨E1, h1, h2, h3⟩ : ∃ E1, (if (Finset.univ.biUnion fun x => inconsistent (A.env.arrays x) (B.env.arrays x)) = ∅ then some E0 else
      invalidate E0 (Finset.univ.biUnion fun x => inconsistent (A.env.arrays x) (B.env.arrays x)) .invalidated) = some E1 ∧ Pre E1 ∧ Frame E0 E1 := by
    split
    · exact ⟨E0, rfl, hp, Frame.refl _⟩
    · obtain ⟨E1, h1, h2, h3, _⟩ := invalidate_ok hp (ids := Finset.univ.biUnion fun x => inconsistent (A.env.arrays x) (B.env.arrays x)) (by
        intro i hi
        obtain ⟨x, _, hx⟩ := Finset.mem_biUnion.mp hi
        unfold inconsistent at hx
        rw [hlive]
        split at hx
        · simp at hx
        · refine (Finset.mem_union.mp hx).imp (fun hm => ?_) (fun hm => ?_)
          · cases ha : A.env.arrays x with
            | none => simp [ha] at hm
            | some a => exact (hA.inv.arrays x a ha).2.2.1 i (by simpa [ha] using hm)
          · cases ha : B.env.arrays x with
            | none => simp [ha] at hm
            | some a => exact (hB.inv.arrays x a ha).2.2.1 i (by simpa [ha] using hm)) .invalidated
      exact ⟨E1, h1, h2.toPre, h3⟩
  obtain ⟨E2, h4, h5, _, h6⟩ := enforce_ok h2
  obtain ⟨E3, h7, h8, h9, _⟩ := sync_ok h5
  refine ⟨E3, ?_, h8, fun i hi => hbelow i ((h3.live i).mp ((h6.live i).mp ((h9.live i).mp hi)))⟩
  rw [h1]; simp only [Option.bind_some]; rw [h4]; exact h7

/-! ### code -/

theorem run_ok (c : Code n) : ∀ {S : Tracker n}, Good S → Safe c S → ∃ S', run c S = some S' ∧ Good S' ∧ S.next ≤ S'.next := by
  induction c with
  | skip => intro S h _; exact ⟨S, rfl, h, Nat.le_refl _⟩
  | assign x v => intro S h hs; exact assign_ok h x v hs
  | insert x t => intro S h _; exact ⟨_, rfl, ⟨insert_inv h.inv x t, h.below⟩, Nat.le_refl _⟩
  | setField y k v =>
    intro S h _
    obtain ⟨E, h1, h2⟩ := setField_ok h y k v
    exact ⟨_, by unfold run; rw [h1]; rfl, h2, Nat.le_refl _⟩
  | change y m =>
    intro S h _
    obtain ⟨E, h1, h2⟩ := change_ok h y m
    exact ⟨_, by unfold run; rw [h1]; rfl, h2, Nat.le_refl _⟩
  | escape p =>
    intro S h _
    unfold run
    split
    · exact ⟨_, rfl, h, Nat.le_refl _⟩
    · obtain ⟨E, h1, h2, _⟩ := h.invalidate (escaped_live h.inv.toPre p) .invalidated
      exact ⟨_, by rw [h1]; rfl, h2, Nat.le_refl _⟩
  | guard y f =>
    intro S h hs
    obtain ⟨E, h1, h2⟩ := guardVar_ok h y hs
    exact ⟨_, by unfold run; rw [h1]; rfl, h2, Nat.le_refl _⟩
  | narrow x t =>
    intro S h hs
    refine ⟨_, rfl, ⟨⟨⟨?_, h.inv.shapes, h.inv.links, h.inv.functional, ?_⟩, ?_⟩, h.below⟩, Nat.le_refl _⟩
    · intro y ids hb
      refine ⟨?_, (h.inv.bound y ids hb).2⟩
      dsimp only [put]
      split
      · rfl
      · exact (h.inv.bound y ids hb).1
    · intro y a ha
      obtain ⟨b1, b2⟩ := h.inv.arrays y a ha
      refine ⟨?_, b2⟩
      dsimp only [put]
      split
      · rename_i e
        subst e
        rcases hs with hs | ⟨ts, rfl⟩
        · simp only at ha; simp [hs] at ha
        · exact ⟨_, rfl, by simp [arrayElems]⟩
      · exact b1
    · intro y a ha
      dsimp only [put]
      split
      · rename_i e
        subst e
        rcases hs with hs | ⟨ts, rfl⟩
        · simp only at ha; simp [hs] at ha
        · exact ⟨ts, rfl⟩
      · exact h.inv.typed y a ha
  | seq a b iha ihb =>
    intro S h hs
    obtain ⟨S1, h1, h2, h3⟩ := iha h hs.1
    obtain ⟨S2, h4, h5, h6⟩ := ihb h2 (hs.2 S1 h1)
    exact ⟨S2, by unfold run; rw [h1]; exact h4, h5, Nat.le_trans h3 h6⟩
  | branch a b iha ihb =>
    intro S h hs
    obtain ⟨A, h1, h2, h3⟩ := iha h hs.1
    obtain ⟨B, h4, h5, h6⟩ := ihb (S := ⟨S.env, A.next⟩) ⟨h.inv, fun i hi => Nat.lt_of_lt_of_le (h.below i hi) h3⟩ (hs.2 A h1)
    obtain ⟨E, h7, h8⟩ := merge_ok h2 h5 h6
    exact ⟨⟨E, B.next⟩, by unfold run; rw [h1]; simp only [Option.bind_some]; rw [h4]; simp only [Option.bind_some]; rw [h7]; rfl, h8, Nat.le_trans h3 h6⟩
  | scratch a iha =>
    intro S h hs
    obtain ⟨A, h1, _, h3⟩ := iha h hs
    exact ⟨⟨S.env, A.next⟩, by unfold run; rw [h1]; rfl, ⟨h.inv, fun i hi => Nat.lt_of_lt_of_le (h.below i hi) h3⟩, h3⟩

theorem good_empty : Good (⟨.empty, 0⟩ : Tracker n) := by
  refine ⟨⟨⟨?_, ?_, ?_, ?_, ?_⟩, ?_⟩, ?_⟩
  all_goals simp [Env.empty, Live, ArrayTyped]

end Verif.FlowShapes
