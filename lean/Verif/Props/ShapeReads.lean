import Verif.Model.ShapeReads
import Verif.Spec.ShapeReads
import Verif.Props.Subtype
/-!
C65: reading from hashes with known keys gives the type of what is read.
-/
namespace Verif.ShapeReads
open Verif.Types

variable {W : World}

/-! ### outcomes -/

theorem bind_ok {α β : Type} {o : Out α} {f : α → Out β} {b : β} : o.bind f = .ok b ↔ ∃ a, o = .ok a ∧ f a = .ok b := by
  cases o <;> simp [Out.bind]

theorem bind_panic {α β : Type} {o : Out α} {f : α → Out β} : o.bind f = .panic ↔ o = .panic ∨ ∃ a, o = .ok a ∧ f a = .panic := by
  cases o <;> simp [Out.bind]

theorem collect_ok {α β : Type} {f : α → Out β} {l : List α} {bs : List β} (h : collect f l = .ok bs) :
    List.Forall₂ (fun a b => f a = .ok b) l bs := by
  induction l generalizing bs with
  | nil => cases h; exact .nil
  | cons a l ih =>
    simp only [collect, bind_ok] at h
    obtain ⟨b, hb, bs', hbs, h⟩ := h
    cases h
    exact .cons hb (ih hbs)

theorem collect_panic {α β : Type} {f : α → Out β} {l : List α} (h : collect f l = .panic) : ∃ a ∈ l, f a = .panic := by
  induction l with
  | nil => cases h
  | cons a l ih =>
    simp only [collect, bind_panic] at h
    rcases h with h | ⟨b, -, h | ⟨bs, -, h⟩⟩
    · exact ⟨a, by simp, h⟩
    · obtain ⟨c, hc, h⟩ := ih h
      exact ⟨c, by simp [hc], h⟩
    · cases h

/-! ### tidy types -/

theorem tidy_alt {t x : Ty} (h : Tidy W t) (hx : AltOf t x) : Tidy W x := by
  cases hx with
  | self _ => exact h
  | member hm => cases h with | union h _ => exact h _ hm

theorem tidy_alt_simple {t x : Ty} (h : Tidy W t) (hx : AltOf t x) : Simple x := by
  cases hx with
  | self hs => exact hs
  | member hm => cases h with | union _ h => exact h _ hm

theorem tidy_flat {l : List Ty} (h : ∀ t ∈ l, Tidy W t) : ∀ x, Alts l x → Simple x := by
  rintro x ⟨t, ht, hx⟩
  exact tidy_alt_simple (h t ht) hx

theorem tidy_of_alts {t : Ty} (h : ∀ x, AltOf t x → Tidy W x ∧ Simple x) : Tidy W t := by
  rcases simple_or_union t with hs | ⟨us, rfl⟩
  · exact (h t (.self hs)).1
  · exact .union (fun u hu => (h u (.member hu)).1) (fun u hu => (h u (.member hu)).2)

theorem tidy_members {l : List Ty} (hf : ∀ x, Alts l x → Simple x) (h : ∀ t ∈ l, Tidy W t) : ∀ x ∈ members l, Tidy W x := by
  intro x hx
  rcases mem_members hf hx with rfl | ⟨t, ht, ha⟩
  · exact .unknown
  · exact tidy_alt (h t ht) ha

theorem tidy_mkUnion {l : List Ty} (h : ∀ t ∈ l, Tidy W t) : Tidy W (mkUnion l) := by
  by_cases hu : mkUnion l = .unknown
  · rw [hu]; exact .unknown
  · refine tidy_of_alts (fun x hx => ?_)
    obtain ⟨t, ht, ha⟩ := ((c21_alternatives (tidy_flat h)).2 hu x).mp hx
    exact ⟨tidy_alt (h t ht) ha, tidy_alt_simple (h t ht) ha⟩

theorem tidy_generic (l : Lit) : Tidy W l.generic := by
  unfold Lit.generic
  split <;> exact .cls _

theorem tidy_nil : Tidy W nilTy := .cls _

theorem tidy_widen : ∀ t t', widen t = some t' → Tidy W t → Tidy W t' := by
  have listP : ∀ {ts l : List Ty}, (∀ t ∈ ts, ∀ t', widen t = some t' → Tidy W t → Tidy W t') → widenList ts = some l →
      (∀ t ∈ ts, Tidy W t) → ∀ t ∈ l, Tidy W t := by
    intro ts l ih h hp t ht
    obtain ⟨a, ha, hw⟩ := forall₂_right (widenList_iff.mp h) ht
    exact ih a ha t hw (hp a ha)
  refine Ty.ind ?_ ?_ ?_ ?_ ?_ ?_ ?_ ?_ ?_ ?_
  iterate 4 intro n t' h hp; cases h; exact hp
  · intro l t' h _
    cases h
    exact tidy_generic l
  · intro ts ih t' h hp
    simp only [widen, Option.map_eq_some_iff] at h
    obtain ⟨l, hl, rfl⟩ := h
    cases hp with
    | array hp => exact .array (tidy_members (flat_of_fixed (flat_of_widenList hl)) (listP ih hl hp))
  · intro ks vs ih1 ih2 t' h hp
    simp only [widen, Option.bind_eq_some_iff, Option.map_eq_some_iff] at h
    obtain ⟨k, hk, w, hv, rfl⟩ := h
    cases hp with
    | hash h1 h2 =>
      exact .hash (tidy_members (flat_of_fixed (flat_of_widenList hk)) (listP ih1 hk h1))
        (tidy_members (flat_of_fixed (flat_of_widenList hv)) (listP ih2 hv h2))
  · intro fs r o z d ih1 ih2 t' h hp
    obtain ⟨fs', r', gs, d', hf, hr, -, rfl, hw, hperm⟩ := widen_shape h
    cases hp with
    | shape p1 p2 p3 p4 p6 =>
      refine .shape ?_ ?_ ?_ ?_ hw
      · intro g hg
        obtain ⟨f, hfm, -, -, hwd⟩ := forall₂_right hf (hperm.mem_iff.mp hg)
        exact ih1 f hfm _ hwd (p1 f hfm)
      · intro k v e
        rcases widenRest_cases hr with ⟨-, rfl⟩ | ⟨k0, v0, k1, v1, rfl, rfl, hk, hv⟩
        · cases e
        · cases e; exact (ih2 k0 v0 rfl).1 _ hk (p2 k0 v0 rfl)
      · intro k v e
        rcases widenRest_cases hr with ⟨-, rfl⟩ | ⟨k0, v0, k1, v1, rfl, rfl, hk, hv⟩
        · cases e
        · cases e; exact (ih2 k0 v0 rfl).2 _ hv (p3 k0 v0 rfl)
      · intro k v e
        rcases widenRest_cases hr with ⟨-, rfl⟩ | ⟨k0, v0, k1, v1, rfl, rfl, hk, hv⟩
        · cases e
        · cases e
          rcases plainKey_widen k0 k hk (p4 k0 v0 rfl) with rfl | hpk
          · exact absurd .here (hw.rest _ _ rfl).1
          · exact hpk
  · intro ts ih t' h hp
    simp only [widen, Option.map_eq_some_iff] at h
    obtain ⟨l, hl, rfl⟩ := h
    cases hp with
    | union hp _ => exact tidy_mkUnion (listP ih hl hp)
  · intro t' h hp; cases h; exact hp

/-! ### parts -/

theorem mem_unionMembers {a y : Ty} : y ∈ unionMembers a ↔ AltOf a y := by
  rcases simple_or_union a with hs | ⟨us, rfl⟩
  · have : unionMembers a = [a] := by
      cases a <;> first | rfl | exact absurd rfl (hs _)
    rw [this, altOf_simple hs, List.mem_singleton]
  · simp [unionMembers, altOf_union]

/-- `proven_union` gives a type that has exactly the alternatives given. -/
theorem provenUnion_ok {ts : List Ty} {u : Ty} (h : provenUnion ts = .ok u) : u = mkUnion ts ∧ u ≠ .unknown ∧ ts ≠ [] := by
  unfold provenUnion at h
  split at h
  · cases h
  · split at h
    · cases h
    · rename_i h1 h2
      cases h
      exact ⟨rfl, h2, by rintro rfl; simp at h1⟩

theorem provenUnion_tidy {ts : List Ty} {u : Ty} (h : provenUnion ts = .ok u) (ht : ∀ t ∈ ts, Tidy W t) : Tidy W u := by
  rw [(provenUnion_ok h).1]; exact tidy_mkUnion ht

theorem provenUnion_desc {ts : List Ty} {u : Ty} (h : provenUnion ts = .ok u) (ht : ∀ t ∈ ts, Tidy W t) {v : W.V} {t : Ty} (hm : t ∈ ts)
    (hd : Desc W t v) : Desc W u v := by
  rw [(provenUnion_ok h).1]; exact desc_mkUnion (tidy_flat ht) (descAny_iff.mpr ⟨t, hm, hd⟩)

theorem provenUnion_alts {ts : List Ty} {u : Ty} (h : provenUnion ts = .ok u) (ht : ∀ t ∈ ts, Tidy W t) (x : Ty) : AltOf u x ↔ Alts ts x := by
  obtain ⟨e, hu, -⟩ := provenUnion_ok h
  subst e
  exact (c21_alternatives (tidy_flat ht)).2 hu x

theorem provenUnion_panic {ts : List Ty} : provenUnion ts ≠ .panic := by
  unfold provenUnion
  split
  · simp
  · split <;> simp

theorem asShape_ok {t : Ty} {s : Shape} (h : asShape t = .ok s) : ∃ z d, t = .shape s.fields s.rest s.isOpen z d := by
  cases t <;> cases h
  exact ⟨_, _, rfl⟩

/-- The subtype test of a class with anything needs no widening. -/
theorem sub_cls (n : Nat) (c : Name) : ∀ t, hgt t + 1 ≤ n → ∃ b, sub n (.cls c) t = .ok b := by
  induction n with
  | zero => intro t h; omega
  | succ n ih =>
    intro t h
    unfold sub
    split
    · exact ⟨_, rfl⟩
    · split
      · exact ⟨_, rfl⟩
      · have any : ∀ ts : List Ty, (∀ t ∈ ts, hgt t + 1 ≤ n) → ∃ b, anyR (fun t => sub n (.cls c) t) ts = .ok b := by
          intro ts
          induction ts with
          | nil => intro _; exact ⟨false, rfl⟩
          | cons a l ih2 =>
            intro hl
            obtain ⟨b, hb⟩ := ih a (hl a (by simp))
            obtain ⟨b', hb'⟩ := ih2 (fun t ht => hl t (by simp [ht]))
            simp only [anyR, hb]
            cases b
            · exact ⟨b', by simpa [Res.or] using hb'⟩
            · exact ⟨true, rfl⟩
        cases t with
        | union ts =>
          refine any ts (fun t ht => ?_)
          have := hgt_mem ht
          simp only [hgt] at h
          omega
        | _ => exact ⟨_, rfl⟩

theorem subtype_generic (l : Lit) (t : Ty) : ∃ b, subtype l.generic t = .ok b ∧ sub (hgt l.generic + hgt t) l.generic t = .ok b := by
  have : ∃ c, l.generic = .cls c := by
    unfold Lit.generic
    split <;> exact ⟨_, rfl⟩
  obtain ⟨c, hc⟩ := this
  obtain ⟨b, hb⟩ := sub_cls (hgt l.generic + hgt t) c t (by rw [hc]; simp only [hgt]; omega)
  rw [← hc] at hb
  exact ⟨b, by unfold subtype; rw [hb], hb⟩

/-- A shape, as a hypothesis. -/
structure TidyShape (W : World) (s : Shape) : Prop where
  fields : ∀ f ∈ s.fields, Tidy W f.2.2
  restKey : ∀ k v, s.rest = some (k, v) → Tidy W k
  restVal : ∀ k v, s.rest = some (k, v) → Tidy W v
  plain : ∀ k v, s.rest = some (k, v) → PlainKey W k
  wf : WellFormed s.fields s.rest s.isOpen

/-- A hash of the shape. -/
structure Of (W : World) (s : Shape) (v : W.V) : Prop where
  hash : W.isHash v
  has : ∀ f ∈ s.fields, f.2.1 = false → ∃ x, W.entry v (W.lit f.1) x
  val : ∀ f ∈ s.fields, ∀ x, W.entry v (W.lit f.1) x → Desc W f.2.2 x
  more : ∀ k x, W.entry v k x → (∀ f ∈ s.fields, k ≠ W.lit f.1) → DescRest W s.rest s.isOpen k x

theorem tidyShape {s : Shape} {z : Bool} {d : Nat} (h : Tidy W (.shape s.fields s.rest s.isOpen z d)) : TidyShape W s := by
  generalize ht : Ty.shape s.fields s.rest s.isOpen z d = t at h
  cases h <;> cases ht
  exact ⟨by assumption, by assumption, by assumption, by assumption, by assumption⟩

theorem of_desc {s : Shape} {z : Bool} {d : Nat} {v : W.V} (h : Desc W (.shape s.fields s.rest s.isOpen z d) v) : Of W s v := by
  simp only [Desc, descFields_iff] at h
  exact ⟨h.1, fun f hf => (h.2.1 f hf).1, fun f hf => (h.2.1 f hf).2, h.2.2⟩

/-- Going through the alternatives of a type: what holds of every shape holds of the type. -/
theorem resolve_sound {t u : Ty} {f : Shape → Out Ty} (h : resolveVariants t f = .ok u) (ht : Tidy W t)
    (hf : ∀ s r, TidyShape W s → f s = .ok r → Tidy W r) :
    Tidy W u ∧ ∀ (v x : W.V), Desc W t v → (∀ s r, TidyShape W s → f s = .ok r → Of W s v → Desc W r x) → Desc W u x := by
  unfold resolveVariants at h
  obtain ⟨ts, hc, h⟩ := bind_ok.mp h
  have hall := collect_ok hc
  have hts : ∀ r ∈ ts, Tidy W r := by
    intro r hr
    obtain ⟨a, ha, he⟩ := forall₂_right hall hr
    obtain ⟨s, hs, he⟩ := bind_ok.mp he
    obtain ⟨z, d, rfl⟩ := asShape_ok hs
    exact hf s r (tidyShape (tidy_alt ht (mem_unionMembers.mp ha))) he
  refine ⟨provenUnion_tidy h hts, fun v x hd hx => ?_⟩
  obtain ⟨a, ha, hd⟩ := desc_alt.mp hd
  obtain ⟨r, hr, he⟩ := forall₂_left hall (mem_unionMembers.mpr ha)
  obtain ⟨s, hs, he⟩ := bind_ok.mp he
  obtain ⟨z, d, rfl⟩ := asShape_ok hs
  exact provenUnion_desc h hts hr (hx s r (tidyShape (tidy_alt ht ha)) he (of_desc hd))

/-! ### reading one key -/

theorem mem_pair {α : Type} {a b c : α} : c ∈ [a, b] ↔ c = a ∨ c = b := by simp

theorem readLiteral_tidy {k : Lit} {s : Shape} {r : Ty} (hs : TidyShape W s) (h : readLiteral k s = .ok r) : Tidy W r := by
  have one : ∀ {t}, Tidy W t → ∀ x ∈ [t], Tidy W x := by intro t ht x hx; rw [List.mem_singleton.mp hx]; exact ht
  have two : ∀ {t}, Tidy W t → ∀ x ∈ [t, nilTy], Tidy W x := by
    intro t ht x hx
    rcases mem_pair.mp hx with rfl | rfl
    · exact ht
    · exact tidy_nil
  unfold readLiteral at h
  split at h
  · rename_i f hf
    have := hs.fields f ((field_some hs.wf k f).mp hf).1
    split at h
    · exact provenUnion_tidy h (one this)
    · exact provenUnion_tidy h (two this)
  · split at h
    · exact provenUnion_tidy h (one tidy_nil)
    · split at h
      · rename_i kt vt hr
        obtain ⟨b, -, h⟩ := bind_ok.mp h
        refine provenUnion_tidy h ?_
        split
        · exact two (hs.restVal _ _ hr)
        · exact one tidy_nil
      · cases h

/-- Whether an entry under a key that is not listed is excluded. -/
theorem rest_entry {s : Shape} {k : Lit} {v x : W.V} (hs : TidyShape W s) (hv : Of W s v) (hn : field s.fields k = none)
    (he : W.entry v (W.lit k) x) : s.isOpen = true ∧ ∀ kt vt, s.rest = some (kt, vt) → subtype k.generic kt = .ok true ∧ Desc W vt x := by
  have hrest := hv.more _ x he (fun f hf e => field_none hs.wf hn f hf (W.lit_inj _ _ e).symm)
  refine ⟨?_, fun kt vt hr => ?_⟩
  · by_contra ho
    have ho : s.isOpen = false := by cases h : s.isOpen <;> simp_all
    rw [hs.wf.exact ho] at hrest
    simp only [DescRest] at hrest
    rw [ho] at hrest; cases hrest
  · rw [hr] at hrest
    simp only [DescRest] at hrest
    obtain ⟨b, hb, hsub⟩ := subtype_generic k kt
    cases b with
    | true => exact ⟨hb, hrest.2⟩
    | false => exact absurd hrest.1 (plainKey_disjoint k kt (hs.plain _ _ hr) _ hsub)

theorem readLiteral_desc {k : Lit} {s : Shape} {r : Ty} (hs : TidyShape W s) (h : readLiteral k s = .ok r) {v x : W.V} (hv : Of W s v)
    (hg : Got W v (W.lit k) x) : Desc W r x := by
  have one : ∀ {t}, Tidy W t → ∀ x ∈ [t], Tidy W x := by intro t ht x hx; rw [List.mem_singleton.mp hx]; exact ht
  have two : ∀ {t}, Tidy W t → ∀ x ∈ [t, nilTy], Tidy W x := by
    intro t ht x hx
    rcases mem_pair.mp hx with rfl | rfl
    · exact ht
    · exact tidy_nil
  unfold readLiteral at h
  split at h
  · rename_i f hf
    obtain ⟨hm, rfl⟩ := (field_some hs.wf k f).mp hf
    have ht := hs.fields f hm
    split at h
    · rename_i hp
      rcases hg with he | ⟨-, hno⟩
      · exact provenUnion_desc h (one ht) (by simp) (hv.val f hm x he)
      · obtain ⟨y, hy⟩ := hv.has f hm hp
        exact absurd hy (hno y)
    · rcases hg with he | ⟨hnil, -⟩
      · exact provenUnion_desc h (two ht) (by simp) (hv.val f hm x he)
      · exact provenUnion_desc h (two ht) (t := nilTy) (by simp) hnil
  · rename_i hn
    split at h
    · rename_i ho
      rcases hg with he | ⟨hnil, -⟩
      · rw [(rest_entry hs hv hn he).1] at ho; cases ho
      · exact provenUnion_desc h (one tidy_nil) (t := nilTy) (by simp) hnil
    · split at h
      · rename_i kt vt hr
        obtain ⟨b, hb, h⟩ := bind_ok.mp h
        have htv := hs.restVal _ _ hr
        rcases hg with he | ⟨hnil, -⟩
        · obtain ⟨hsub, hd⟩ := (rest_entry hs hv hn he).2 kt vt hr
          rw [hsub] at hb; cases hb
          exact provenUnion_desc h (two htv) (by simp) hd
        · cases b with
          | true => exact provenUnion_desc h (two htv) (t := nilTy) (by simp) hnil
          | false => exact provenUnion_desc h (one tidy_nil) (t := nilTy) (by simp) hnil
      · cases h

theorem valueTypes_tidy {s : Shape} {ts : List Ty} (hs : TidyShape W s) (h : valueTypes s = .ok ts) : ∀ t ∈ ts, Tidy W t := by
  intro t ht
  unfold valueTypes at h
  split at h
  · rename_i hr
    cases h
    rcases List.mem_append.mp ht with ht | ht
    · obtain ⟨f, hf, rfl⟩ := List.mem_map.mp ht
      exact hs.fields f hf
    · rw [List.mem_singleton.mp ht]; exact hs.restVal _ _ hr
  · split at h
    · cases h
    · cases h
      obtain ⟨f, hf, rfl⟩ := List.mem_map.mp ht
      exact hs.fields f hf

theorem entry_listed {s : Shape} {v k x : W.V} (hv : Of W s v) (he : W.entry v k x) :
    (∃ f ∈ s.fields, k = W.lit f.1 ∧ Desc W f.2.2 x) ∨ DescRest W s.rest s.isOpen k x := by
  by_cases h : ∃ f ∈ s.fields, k = W.lit f.1
  · obtain ⟨f, hf, rfl⟩ := h
    exact .inl ⟨f, hf, rfl, hv.val f hf x he⟩
  · exact .inr (hv.more k x he (fun f hf e => h ⟨f, hf, e⟩))

theorem valueTypes_desc {s : Shape} {ts : List Ty} (h : valueTypes s = .ok ts) {v k x : W.V} (hv : Of W s v) (he : W.entry v k x) :
    ∃ t ∈ ts, Desc W t x := by
  unfold valueTypes at h
  split at h
  · rename_i kt vt hr
    cases h
    rcases entry_listed hv he with ⟨f, hf, -, hd⟩ | hd
    · exact ⟨f.2.2, List.mem_append_left _ (List.mem_map.mpr ⟨f, hf, rfl⟩), hd⟩
    · rw [hr] at hd
      exact ⟨_, by simp, hd.2⟩
  · rename_i hr
    split at h
    · cases h
    · rename_i ho
      cases h
      rcases entry_listed hv he with ⟨f, hf, -, hd⟩ | hd
      · exact ⟨f.2.2, List.mem_map.mpr ⟨f, hf, rfl⟩, hd⟩
      · rw [hr] at hd
        exact absurd hd ho

theorem append_nil_tidy {ts : List Ty} {d : Ty} (h : ∀ t ∈ ts, Tidy W t) (hd : Tidy W d) : ∀ t ∈ ts ++ [d], Tidy W t := by
  intro t ht
  rcases List.mem_append.mp ht with ht | ht
  · exact h t ht
  · rw [List.mem_singleton.mp ht]; exact hd

theorem readDynamic_tidy {s : Shape} {r : Ty} (hs : TidyShape W s) (h : readDynamic s = .ok r) : Tidy W r := by
  obtain ⟨ts, hv, h⟩ := bind_ok.mp h
  exact provenUnion_tidy h (append_nil_tidy (valueTypes_tidy hs hv) tidy_nil)

theorem readDynamic_desc {s : Shape} {r : Ty} (hs : TidyShape W s) (h : readDynamic s = .ok r) {v k x : W.V} (hv : Of W s v)
    (hg : Got W v k x) : Desc W r x := by
  obtain ⟨ts, hvt, h⟩ := bind_ok.mp h
  have ht := append_nil_tidy (valueTypes_tidy hs hvt) tidy_nil
  rcases hg with he | ⟨hnil, -⟩
  · obtain ⟨t, htm, hd⟩ := valueTypes_desc hvt hv he
    exact provenUnion_desc h ht (List.mem_append_left _ htm) hd
  · exact provenUnion_desc h ht (t := nilTy) (by simp) hnil

/-! ### `[]` -/

/-- `h[k]`: the type found describes what is read, when the argument is the given string or symbol, or anything at all. -/
theorem indexedRead_sound {t u : Ty} {key : Option Lit} (h : indexedRead t key = .ok u) (ht : Tidy W t) :
    Tidy W u ∧ ∀ v k x : W.V, Desc W t v → KeyIs W key k → Got W v k x → Desc W u x := by
  cases key with
  | some k =>
    obtain ⟨h1, h2⟩ := resolve_sound h ht (fun s r hs hr => readLiteral_tidy hs hr)
    refine ⟨h1, fun v kv x hd hk hg => h2 v x hd (fun s r hs hr hv => ?_)⟩
    rw [hk k rfl] at hg
    exact readLiteral_desc hs hr hv hg
  | none =>
    obtain ⟨h1, h2⟩ := resolve_sound h ht (fun s r hs hr => readDynamic_tidy hs hr)
    exact ⟨h1, fun v kv x hd _ hg => h2 v x hd (fun s r hs hr hv => readDynamic_desc hs hr hv hg)⟩

theorem c65_index {t u : Ty} {key : Option Lit} (h : indexedRead t key = .ok u) (ht : Tidy W t) {v k x : W.V} (hd : Desc W t v)
    (hk : KeyIs W key k) (hg : Got W v k x) : Desc W u x ∧ Tidy W u :=
  ⟨(indexedRead_sound h ht).2 v k x hd hk hg, (indexedRead_sound h ht).1⟩

/-! ### `fetch` -/

theorem fetchParts_tidy {key : Option Lit} {s : Shape} {p : List Ty × Bool} (hs : TidyShape W s) (h : fetchParts key s = .ok p) :
    ∀ t ∈ p.1, Tidy W t := by
  intro t ht
  cases key with
  | none =>
    obtain ⟨ts, hv, h⟩ := bind_ok.mp h
    cases h
    exact valueTypes_tidy hs hv t ht
  | some k =>
    simp only [fetchParts] at h
    unfold fetchLiteral at h
    split at h
    · rename_i f hf
      cases h
      rw [List.mem_singleton.mp ht]
      exact hs.fields f ((field_some hs.wf k f).mp hf).1
    · split at h
      · cases h; cases ht
      · split at h
        · rename_i kt vt hr
          obtain ⟨b, -, h⟩ := bind_ok.mp h
          cases h
          cases b
          · cases ht
          · rw [List.mem_singleton.mp ht]; exact hs.restVal _ _ hr
        · cases h

/-- The parts of `fetch`: an entry is described by one of the types, and when the default is not used the entry is there. -/
theorem fetchParts_desc {key : Option Lit} {s : Shape} {p : List Ty × Bool} (hs : TidyShape W s) (h : fetchParts key s = .ok p) {v k : W.V}
    (hv : Of W s v) (hk : KeyIs W key k) :
    (∀ x, W.entry v k x → ∃ t ∈ p.1, Desc W t x) ∧ (p.2 = false → ∃ x, W.entry v k x) := by
  cases key with
  | none =>
    obtain ⟨ts, hvt, h⟩ := bind_ok.mp h
    cases h
    exact ⟨fun x he => valueTypes_desc hvt hv he, fun h => by cases h⟩
  | some l =>
    rw [hk l rfl]
    simp only [fetchParts] at h
    unfold fetchLiteral at h
    split at h
    · rename_i f hf
      obtain ⟨hm, rfl⟩ := (field_some hs.wf l f).mp hf
      cases h
      exact ⟨fun x he => ⟨f.2.2, by simp, hv.val f hm x he⟩, fun hp => hv.has f hm hp⟩
    · rename_i hn
      split at h
      · rename_i ho
        cases h
        refine ⟨fun x he => ?_, fun h => by cases h⟩
        rw [(rest_entry hs hv hn he).1] at ho; cases ho
      · split at h
        · rename_i kt vt hr
          obtain ⟨b, hb, h⟩ := bind_ok.mp h
          cases h
          refine ⟨fun x he => ?_, fun h => by cases h⟩
          obtain ⟨hsub, hd⟩ := (rest_entry hs hv hn he).2 kt vt hr
          rw [hsub] at hb; cases hb
          exact ⟨vt, by simp, hd⟩
        · cases h

theorem fetchDone_ok {dflt : Option Ty} {p : List Ty × Bool} {r : Ty} (h : fetchDone dflt p = .ok r) :
    provenUnion p.1 = .ok r ∧ (p.2 = false ∨ dflt = none) ∨ ∃ d, dflt = some d ∧ p.2 = true ∧ provenUnion (p.1 ++ [d]) = .ok r := by
  unfold fetchDone at h
  split at h
  · split at h
    · rename_i hp
      split at h
      · cases h
      · exact .inr ⟨_, rfl, hp, h⟩
    · rename_i hp
      exact .inl ⟨h, .inl (by simpa using hp)⟩
  · exact .inl ⟨h, .inr rfl⟩

theorem fetch_sound {t u : Ty} {key : Option Lit} {dflt : Option Ty} (h : fetch t key dflt = .ok u) (ht : Tidy W t)
    (hd : ∀ d, dflt = some d → Tidy W d) :
    Tidy W u ∧ ∀ v k x : W.V, Desc W t v → KeyIs W key k →
      (Fetched W v k x ∨ ∃ d y, dflt = some d ∧ Desc W d y ∧ FetchedOr W v k y x) → Desc W u x := by
  have tidy : ∀ s r, TidyShape W s → (fetchParts key s).bind (fetchDone dflt) = .ok r → Tidy W r := by
    intro s r hs hr
    obtain ⟨p, hp, hr⟩ := bind_ok.mp hr
    have := fetchParts_tidy hs hp
    rcases fetchDone_ok hr with ⟨hr, -⟩ | ⟨d, e, -, hr⟩
    · exact provenUnion_tidy hr this
    · exact provenUnion_tidy hr (append_nil_tidy this (hd d e))
  obtain ⟨h1, h2⟩ := resolve_sound h ht tidy
  refine ⟨h1, fun v k x hdv hk hx => h2 v x hdv (fun s r hs hr hv => ?_)⟩
  obtain ⟨p, hp, hr⟩ := bind_ok.mp hr
  have htp := fetchParts_tidy hs hp
  obtain ⟨d1, d2⟩ := fetchParts_desc hs hp hv hk
  have entry : W.entry v k x → Desc W r x := by
    intro he
    obtain ⟨t', ht', hd'⟩ := d1 x he
    rcases fetchDone_ok hr with ⟨hr, -⟩ | ⟨d, e, -, hr⟩
    · exact provenUnion_desc hr htp ht' hd'
    · exact provenUnion_desc hr (append_nil_tidy htp (hd d e)) (List.mem_append_left _ ht') hd'
  rcases hx with he | ⟨d, y, e, hdy, he | ⟨rfl, hno⟩⟩
  · exact entry he
  · exact entry he
  · rcases fetchDone_ok hr with ⟨-, hf | hn⟩ | ⟨d', e', -, hr⟩
    · obtain ⟨z, hz⟩ := d2 hf
      exact absurd hz (hno z)
    · rw [hn] at e; cases e
    · rw [e] at e'; cases e'
      exact provenUnion_desc hr (append_nil_tidy htp (hd d e)) (by simp) hdy

/-- `h.fetch(k)` and `h.fetch(k, d)`. -/
theorem c65_fetch {t u : Ty} {key : Option Lit} (h : fetch t key none = .ok u) (ht : Tidy W t) {v k x : W.V} (hd : Desc W t v)
    (hk : KeyIs W key k) (hg : Fetched W v k x) : Desc W u x ∧ Tidy W u := by
  obtain ⟨h1, h2⟩ := fetch_sound (W := W) h ht (fun _ e => by cases e)
  exact ⟨h2 v k x hd hk (.inl hg), h1⟩

theorem c65_fetch_default {t u d : Ty} {key : Option Lit} (h : fetch t key (some d) = .ok u) (ht : Tidy W t) (htd : Tidy W d) {v k y x : W.V}
    (hd : Desc W t v) (hk : KeyIs W key k) (hy : Desc W d y) (hg : FetchedOr W v k y x) : Desc W u x ∧ Tidy W u := by
  obtain ⟨h1, h2⟩ := fetch_sound (W := W) h ht (fun _ e => by cases e; exact htd)
  exact ⟨h2 v k x hd hk (.inr ⟨d, y, rfl, hy, hg⟩), h1⟩

/-! ### `dig` -/

theorem shapeOnly_hash : ∀ t, shapeOnly t = true → ∀ v : W.V, Desc W t v → W.isHash v := by
  refine Ty.ind ?_ ?_ ?_ ?_ ?_ ?_ ?_ ?_ ?_ ?_
  iterate 7 (intros; simp_all [shapeOnly])
  · intro fs r o z d _ _ _ v hd
    simp only [Desc] at hd
    exact hd.1
  · intro ts ih hs v hd
    simp only [Desc, descAny_iff] at hd
    obtain ⟨t, ht, hd⟩ := hd
    have all : ∀ l : List Ty, allShapeOnly l = true → ∀ t ∈ l, shapeOnly t = true := by
      intro l
      induction l with
      | nil => intro _ t ht; cases ht
      | cons a l ih2 =>
        intro h t ht
        simp only [allShapeOnly, Bool.and_eq_true] at h
        rcases List.mem_cons.mp ht with rfl | ht
        · exact h.1
        · exact ih2 h.2 t ht
    exact ih t ht (all ts hs t ht) v hd
  · intro h; cases h

theorem digAt_sound (hw : NilApart W) (ks : List (Option Lit)) : ∀ (t u : Ty), digAt ks t = .ok u → Tidy W t →
    Tidy W u ∧ ∀ (v x : W.V) (kvs : List W.V), Desc W t v → List.Forall₂ (KeyIs W) ks kvs → Dug W v kvs x → Desc W u x := by
  induction ks with
  | nil => intro t u h; simp [digAt] at h
  | cons k ks ih =>
    intro t u h ht
    cases ks with
    | nil =>
      simp only [digAt] at h
      obtain ⟨w, h, e⟩ := bind_ok.mp h
      cases e
      obtain ⟨h1, h2⟩ := indexedRead_sound h ht
      refine ⟨h1, fun v x kvs hd hk hx => ?_⟩
      cases hk with
      | cons hk hnil =>
        cases hnil
        cases hx with
        | last hg => exact h2 v _ x hd hk hg
    | cons k' ks =>
      rw [digAt] at h
      obtain ⟨w, hw1, h⟩ := bind_ok.mp h
      rw [if_neg (by simp)] at h
      obtain ⟨rs, hrs, h⟩ := bind_ok.mp h
      obtain ⟨h1, h2⟩ := indexedRead_sound hw1 ht
      have hall := collect_ok hrs
      have trs : ∀ r ∈ rs, Tidy W r := by
        intro r hr
        obtain ⟨a, ha, he⟩ := forall₂_right hall hr
        try simp only at he
        split at he
        · cases he; exact tidy_nil
        · split at he
          · exact (ih a r he (tidy_alt h1 (mem_unionMembers.mp ha))).1
          · cases he
      refine ⟨provenUnion_tidy h trs, fun v x kvs hd hk hx => ?_⟩
      cases hk with
      | @cons _ kv _ kvs' hk hks =>
        have step : ∀ y, Got W v kv y → ∃ a r, AltOf w a ∧ Desc W a y ∧ r ∈ rs ∧
            (a = nilTy ∧ r = nilTy ∨ shapeOnly a = true ∧ digAt (k' :: ks) a = .ok r) := by
          intro y hg
          obtain ⟨a, ha, hda⟩ := desc_alt.mp (h2 v _ y hd hk hg)
          obtain ⟨r, hr, he⟩ := forall₂_left hall (mem_unionMembers.mpr ha)
          try simp only at he
          split at he
          · rename_i e; cases he; exact ⟨a, _, ha, hda, hr, .inl ⟨e, rfl⟩⟩
          · split at he
            · rename_i e; exact ⟨a, r, ha, hda, hr, .inr ⟨e, he⟩⟩
            · cases he
        cases hks with
        | cons hk' hks' =>
        cases hx with
        | nil hg hn hnx =>
          obtain ⟨a, r, ha, hda, hr, ⟨-, rfl⟩ | ⟨hso, -⟩⟩ := step _ hg
          · exact provenUnion_desc h trs hr hnx
          · exact absurd (shapeOnly_hash a hso _ hda) (hw _ hn)
        | hash hg hh hrec =>
          obtain ⟨a, r, ha, hda, hr, ⟨rfl, -⟩ | ⟨-, hdig⟩⟩ := step _ hg
          · exact absurd hh (hw _ hda)
          · exact provenUnion_desc h trs hr ((ih a r hdig (tidy_alt h1 ha)).2 _ x _ hda (.cons hk' hks') hrec)
        | other hg hnh hnn =>
          obtain ⟨a, r, ha, hda, hr, ⟨rfl, -⟩ | ⟨hso, -⟩⟩ := step _ hg
          · exact absurd hda hnn
          · exact absurd (shapeOnly_hash a hso _ hda) hnh

/-- `h.dig(k1, k2, …)`. -/
theorem c65_dig (hw : NilApart W) {t u : Ty} {ks : List (Option Lit)} (h : dig t ks = .ok u) (ht : Tidy W t) {v x : W.V} {kvs : List W.V}
    (hd : Desc W t v) (hk : List.Forall₂ (KeyIs W) ks kvs) (hx : Dug W v kvs x) : Desc W u x ∧ Tidy W u := by
  unfold dig at h
  split at h
  · cases h
  · exact ⟨(digAt_sound hw ks t u h ht).2 v x kvs hd hk hx, (digAt_sound hw ks t u h ht).1⟩

/-! ### `keys` and `values` -/

theorem project_sound {t u : Ty} {f : Shape → Out (List Ty)} (h : project t f = .ok u) (ht : Tidy W t)
    (hf : ∀ s r, TidyShape W s → f s = .ok r → ∀ t ∈ r, Tidy W t) :
    Tidy W u ∧ ∀ (v a : W.V), Desc W t v → W.isArr a →
      (∀ s r, TidyShape W s → (s.isOpen = true → s.rest ≠ none) → f s = .ok r → Of W s v → ∀ x, W.elem a x → ∃ t ∈ r, Desc W t x) → Desc W u a := by
  unfold project at h
  obtain ⟨ts, hc, h⟩ := bind_ok.mp h
  split at h
  · cases h
  · cases h
    have hall := collect_ok hc
    have shape : ∀ {a r}, ((asShape a).bind fun s => if s.isOpen && s.rest.isNone then .err .methodReturn else f s) = .ok r → AltOf t a →
        ∃ s z d, a = .shape s.fields s.rest s.isOpen z d ∧ TidyShape W s ∧ (s.isOpen = true → s.rest ≠ none) ∧ f s = .ok r := by
      intro a r he ha
      obtain ⟨s, hs, he'⟩ := bind_ok.mp he
      obtain ⟨z, d, rfl⟩ := asShape_ok hs
      split at he'
      · cases he'
      · rename_i hno
        exact ⟨s, z, d, rfl, tidyShape (tidy_alt ht ha), fun h1 h2 => hno (by simp [h1, h2]), he'⟩
    have hts : ∀ x ∈ ts.flatten, Tidy W x := by
      intro x hx
      obtain ⟨r, hr, hx⟩ := List.mem_flatten.mp hx
      obtain ⟨a, ha, he⟩ := forall₂_right hall hr
      obtain ⟨s, z, d, rfl, hs, -, hfs⟩ := shape he (mem_unionMembers.mp ha)
      exact hf s r hs hfs x hx
    refine ⟨.array (tidy_members (tidy_flat hts) hts), fun v arr hd harr hx => ?_⟩
    obtain ⟨a, ha, hd⟩ := desc_alt.mp hd
    obtain ⟨r, hr, he⟩ := forall₂_left hall (mem_unionMembers.mpr ha)
    obtain ⟨s, z, d, rfl, hs, ho, hfs⟩ := shape he ha
    simp only [Desc]
    refine ⟨harr, fun x hxe => ?_⟩
    obtain ⟨t', ht', hd'⟩ := hx s r hs ho hfs (of_desc hd) x hxe
    exact desc_members (tidy_flat hts) (descAny_iff.mpr ⟨t', List.mem_flatten.mpr ⟨r, hr, ht'⟩, hd'⟩)

theorem keys_sound {t u : Ty} (h : keys t = .ok u) (ht : Tidy W t) : Tidy W u ∧ ∀ v a : W.V, Desc W t v → KeysOf W v a → Desc W u a := by
  have tidy : ∀ s r, TidyShape W s →
      Out.ok (s.fields.map (fun f => f.1.generic) ++ (match s.rest with | some (kt, _) => [kt] | none => [])) = .ok r → ∀ t ∈ r, Tidy W t := by
    intro s r hs h t ht
    cases h
    rcases List.mem_append.mp ht with ht | ht
    · obtain ⟨f, -, rfl⟩ := List.mem_map.mp ht
      exact tidy_generic _
    · cases e : s.rest with
      | none => rw [e] at ht; cases ht
      | some p => rw [e] at ht; rw [List.mem_singleton.mp ht]; exact hs.restKey p.1 p.2 e
  obtain ⟨h1, h2⟩ := project_sound h ht tidy
  refine ⟨h1, fun v a hd ha => h2 v a hd ha.1 (fun s r hs ho hr hv x hx => ?_)⟩
  cases hr
  obtain ⟨y, hy⟩ := (ha.2 x).mp hx
  rcases entry_listed hv hy with ⟨f, hf, rfl, -⟩ | hrest
  · exact ⟨f.1.generic, List.mem_append_left _ (List.mem_map.mpr ⟨f, hf, rfl⟩), desc_generic _⟩
  · cases e : s.rest with
    | none => rw [e] at hrest; exact absurd e (ho hrest)
    | some p => rw [e] at hrest; exact ⟨p.1, by simp, hrest.1⟩

/-- `h.keys`. -/
theorem c65_keys {t u : Ty} (h : keys t = .ok u) (ht : Tidy W t) {v a : W.V} (hd : Desc W t v) (ha : KeysOf W v a) : Desc W u a ∧ Tidy W u :=
  ⟨(keys_sound h ht).2 v a hd ha, (keys_sound (W := W) h ht).1⟩

theorem mem_widenList {ts l : List Ty} (h : widenList ts = some l) {t : Ty} (ht : t ∈ ts) : ∃ t' ∈ l, widen t = some t' :=
  forall₂_left (widenList_iff.mp h) ht

theorem values_sound {t u : Ty} (h : values t = .ok u) (ht : Tidy W t) : Tidy W u ∧ ∀ v a : W.V, Desc W t v → ValuesOf W v a → Desc W u a := by
  have tidy : ∀ s r, TidyShape W s →
      widenAll (s.fields.map (fun f => f.2.2) ++ (match s.rest with | some (_, vt) => [vt] | none => [])) = .ok r → ∀ t ∈ r, Tidy W t := by
    intro s r hs h t ht
    unfold widenAll at h
    split at h
    · rename_i l hl
      cases h
      obtain ⟨b, hb, hw⟩ := forall₂_right (widenList_iff.mp hl) ht
      refine tidy_widen b t hw ?_
      rcases List.mem_append.mp hb with hb | hb
      · obtain ⟨f, hf, rfl⟩ := List.mem_map.mp hb
        exact hs.fields f hf
      · cases e : s.rest with
        | none => rw [e] at hb; cases hb
        | some p => rw [e] at hb; rw [List.mem_singleton.mp hb]; exact hs.restVal p.1 p.2 e
    · cases h
  obtain ⟨h1, h2⟩ := project_sound h ht tidy
  refine ⟨h1, fun v a hd ha => h2 v a hd ha.1 (fun s r hs ho hr hv x hx => ?_)⟩
  unfold widenAll at hr
  split at hr
  · rename_i l hl
    cases hr
    obtain ⟨y, hy⟩ := (ha.2 x).mp hx
    have : ∃ b ∈ s.fields.map (fun f => f.2.2) ++ (match s.rest with | some (_, vt) => [vt] | none => []), Desc W b x := by
      rcases entry_listed hv hy with ⟨f, hf, rfl, hd⟩ | hrest
      · exact ⟨f.2.2, List.mem_append_left _ (List.mem_map.mpr ⟨f, hf, rfl⟩), hd⟩
      · cases e : s.rest with
        | none => rw [e] at hrest; exact absurd e (ho hrest)
        | some p => rw [e] at hrest; exact ⟨p.2, by simp, hrest.2⟩
    obtain ⟨b, hb, hd⟩ := this
    obtain ⟨b', hb', hw⟩ := mem_widenList hl hb
    exact ⟨b', hb', c43_widening_sound b b' hw x hd⟩
  · cases hr

/-- `h.values`. -/
theorem c65_values {t u : Ty} (h : values t = .ok u) (ht : Tidy W t) {v a : W.V} (hd : Desc W t v) (ha : ValuesOf W v a) :
    Desc W u a ∧ Tidy W u :=
  ⟨(values_sound h ht).2 v a hd ha, (values_sound (W := W) h ht).1⟩

/-! ### `key?` -/

theorem presence_ok {s : Shape} {k : Lit} {p : Bool × Bool} (hs : TidyShape W s) (h : presence k s = .ok p) {v : W.V} (hv : Of W s v) :
    (p.1 = false → ∀ x, ¬ W.entry v (W.lit k) x) ∧ (p.2 = false → ∃ x, W.entry v (W.lit k) x) := by
  unfold presence at h
  split at h
  · rename_i f hf
    obtain ⟨hm, rfl⟩ := (field_some hs.wf k f).mp hf
    split at h <;> cases h
    · rename_i hp
      exact ⟨fun h => (by cases h), fun _ => hv.has f hm hp⟩
    · exact ⟨fun h => (by cases h), fun h => by cases h⟩
  · rename_i hn
    split at h
    · rename_i ho
      cases h
      refine ⟨fun _ x he => ?_, fun h => by cases h⟩
      rw [(rest_entry hs hv hn he).1] at ho; cases ho
    · split at h
      · rename_i kt vt hr
        obtain ⟨b, hb, h⟩ := bind_ok.mp h
        cases b <;> cases h
        · refine ⟨fun _ x he => ?_, fun h => by cases h⟩
          rw [((rest_entry hs hv hn he).2 kt vt hr).1] at hb; cases hb
        · exact ⟨fun h => (by cases h), fun h => by cases h⟩
      · cases h
        exact ⟨fun h => (by cases h), fun h => by cases h⟩

theorem tidy_boolean : Tidy W booleanTy := by
  refine .union (fun t ht => ?_) (fun t ht => ?_)
  · rcases mem_pair.mp ht with rfl | rfl <;> exact .cls _
  · rcases mem_pair.mp ht with rfl | rfl <;> exact fun _ h => by cases h

theorem keyPresence_tidy {t u : Ty} {key : Option Lit} (h : keyPresence t key = .ok u) : Tidy W u := by
  cases key with
  | none => simp only [keyPresence] at h; cases h; exact tidy_boolean
  | some l =>
    simp only [keyPresence] at h
    obtain ⟨ps, -, h⟩ := bind_ok.mp h
    split at h <;> cases h
    · exact .cls _
    · exact .cls _
    · exact tidy_boolean

/-- `h.key?(k)`. -/
theorem c65_key {t u : Ty} {key : Option Lit} (h : keyPresence t key = .ok u) (ht : Tidy W t) {v k x : W.V} (hd : Desc W t v)
    (hk : KeyIs W key k) (hx : HasKey W v k x) : Desc W u x ∧ Tidy W u := by
  have bool : Desc W booleanTy x := by
    show DescAny W _ x
    rcases hx with ⟨h, -⟩ | ⟨h, -⟩
    · exact descAny_iff.mpr ⟨trueTy, by simp, h⟩
    · exact descAny_iff.mpr ⟨falseTy, by simp, h⟩
  cases key with
  | none => simp only [keyPresence] at h; cases h; exact ⟨bool, tidy_boolean⟩
  | some l =>
    rw [hk l rfl] at hx
    simp only [keyPresence] at h
    obtain ⟨ps, hps, h⟩ := bind_ok.mp h
    obtain ⟨a, ha, hd⟩ := desc_alt.mp hd
    obtain ⟨p, hp, he⟩ := forall₂_left (collect_ok hps) (mem_unionMembers.mpr ha)
    obtain ⟨s, hs, he⟩ := bind_ok.mp he
    obtain ⟨z, d, rfl⟩ := asShape_ok hs
    obtain ⟨d1, d2⟩ := presence_ok (tidyShape (tidy_alt ht ha)) he (of_desc hd)
    split at h
    · rename_i e1 e2
      cases h
      have := d2 (by simpa using List.all_eq_true.mp e1 p hp)
      rcases hx with ⟨h, -⟩ | ⟨-, hno⟩
      · exact ⟨h, .cls _⟩
      · obtain ⟨y, hy⟩ := this
        exact absurd hy (hno y)
    · rename_i e1 e2
      cases h
      have := d1 (by simpa using List.all_eq_true.mp e2 p hp)
      rcases hx with ⟨-, y, hy⟩ | ⟨h, -⟩
      · exact absurd hy (this y)
      · exact ⟨h, .cls _⟩
    · cases h; exact ⟨bool, tidy_boolean⟩
    · cases h

/-! ### what is refused, and how precise the answers are -/

theorem subtype_not_panic {k : Lit} {t : Ty} : subtype k.generic t ≠ .panic := by
  obtain ⟨b, hb, -⟩ := subtype_generic k t
  rw [hb]; simp

theorem asShape_panic {t : Ty} : asShape t ≠ .panic := by cases t <;> simp [asShape]

theorem resolve_panic {t : Ty} {f : Shape → Out Ty} (hf : ∀ s, f s ≠ .panic) : resolveVariants t f ≠ .panic := by
  intro h
  rcases bind_panic.mp h with h | ⟨ts, -, h⟩
  · obtain ⟨a, -, h⟩ := collect_panic h
    rcases bind_panic.mp h with h | ⟨s, -, h⟩
    · exact asShape_panic h
    · exact hf s h
  · exact provenUnion_panic h

theorem valueTypes_panic {s : Shape} : valueTypes s ≠ .panic := by
  unfold valueTypes
  split
  · simp
  · split <;> simp

theorem indexedRead_panic (t : Ty) (key : Option Lit) : indexedRead t key ≠ .panic := by
  refine resolve_panic (fun s h => ?_)
  cases key with
  | none =>
    rcases bind_panic.mp h with h | ⟨ts, -, h⟩
    · exact valueTypes_panic h
    · exact provenUnion_panic h
  | some k =>
    simp only [readLiteral] at h
    split at h
    · split at h <;> exact provenUnion_panic h
    · split at h
      · exact provenUnion_panic h
      · split at h
        · rcases bind_panic.mp h with h | ⟨b, -, h⟩
          · exact subtype_not_panic h
          · exact provenUnion_panic h
        · cases h

theorem digAt_panic (ks : List (Option Lit)) : ks ≠ [] → ∀ t, digAt ks t ≠ .panic := by
  induction ks with
  | nil => intro h; exact absurd rfl h
  | cons k ks ih =>
    intro _ t h
    cases ks with
    | nil =>
      simp only [digAt] at h
      rcases bind_panic.mp h with h | ⟨w, -, h⟩
      · exact indexedRead_panic t k h
      · cases h
    | cons k' ks =>
      rw [digAt] at h
      rcases bind_panic.mp h with h | ⟨w, -, h⟩
      · exact indexedRead_panic t k h
      · rw [if_neg (by simp)] at h
        rcases bind_panic.mp h with h | ⟨rs, -, h⟩
        · obtain ⟨a, -, h⟩ := collect_panic h
          split at h
          · cases h
          · split at h
            · exact ih (by simp) a h
            · cases h
        · exact provenUnion_panic h

/-- No reading operation panics, except that `values` widens literals (whose `expect` C22 is about). -/
theorem c65_no_panic (t : Ty) (key : Option Lit) (dflt : Option Ty) (ks : List (Option Lit)) :
    indexedRead t key ≠ .panic ∧ fetch t key dflt ≠ .panic ∧ dig t ks ≠ .panic ∧ keys t ≠ .panic ∧ keyPresence t key ≠ .panic := by
  refine ⟨indexedRead_panic t key, ?_, ?_, ?_, ?_⟩
  · refine resolve_panic (fun s h => ?_)
    rcases bind_panic.mp h with h | ⟨p, -, h⟩
    · cases key with
      | none =>
        rcases bind_panic.mp h with h | ⟨ts, -, h⟩
        · exact valueTypes_panic h
        · cases h
      | some k =>
        simp only [fetchParts, fetchLiteral] at h
        split at h
        · cases h
        · split at h
          · cases h
          · split at h
            · rcases bind_panic.mp h with h | ⟨b, -, h⟩
              · exact subtype_not_panic h
              · cases h
            · cases h
    · unfold fetchDone at h
      split at h
      · split at h
        · split at h
          · cases h
          · exact provenUnion_panic h
        · exact provenUnion_panic h
      · exact provenUnion_panic h
  · unfold dig
    split
    · simp
    · rename_i hn
      exact digAt_panic ks (by rintro rfl; simp at hn) t
  · intro h
    rcases bind_panic.mp h with h | ⟨ts, -, h⟩
    · obtain ⟨a, -, h⟩ := collect_panic h
      rcases bind_panic.mp h with h | ⟨s, -, h⟩
      · exact asShape_panic h
      · split at h <;> cases h
    · split at h <;> cases h
  · intro h
    cases key with
    | none => simp [keyPresence] at h
    | some k =>
      simp only [keyPresence] at h
      rcases bind_panic.mp h with h | ⟨ps, -, h⟩
      · obtain ⟨a, -, h⟩ := collect_panic h
        rcases bind_panic.mp h with h | ⟨s, -, h⟩
        · exact asShape_panic h
        · unfold presence at h
          split at h
          · split at h <;> cases h
          · split at h
            · cases h
            · split at h
              · rcases bind_panic.mp h with h | ⟨b, -, h⟩
                · exact subtype_not_panic h
                · split at h <;> cases h
              · cases h
      · split at h <;> cases h

theorem collect_of_forall₂ {α β : Type} {f : α → Out β} {l : List α} (g : α → β) (h : ∀ a ∈ l, f a = .ok (g a)) :
    collect f l = .ok (l.map g) := by
  induction l with
  | nil => rfl
  | cons a l ih =>
    simp only [collect, h a (by simp), ih (fun b hb => h b (by simp [hb])), Out.bind, List.map_cons]

theorem unionMembers_ne {t : Ty} (h : t ≠ .union []) : unionMembers t ≠ [] := by
  cases t <;> simp_all [unionMembers]

/-- `key?` is answered with `true` exactly when every alternative requires the key; and with `false` when the key is excluded. -/
theorem c65_key_exact {t : Ty} (ht : Tidy W t) (hne : t ≠ .union []) (k : Lit) :
    (keyPresence t (some k) = .ok trueTy ↔ AlwaysHas t k) ∧ (NeverHas t k → keyPresence t (some k) = .ok falseTy) := by
  have hm := unionMembers_ne hne
  refine ⟨⟨fun h => ?_, fun h => ?_⟩, fun h => ?_⟩
  · intro x hx
    simp only [keyPresence] at h
    obtain ⟨ps, hps, h⟩ := bind_ok.mp h
    obtain ⟨p, hp, he⟩ := forall₂_left (collect_ok hps) (mem_unionMembers.mpr hx)
    obtain ⟨s, hs, he'⟩ := bind_ok.mp he
    obtain ⟨z, d, rfl⟩ := asShape_ok hs
    clear he
    rename' he' => he
    refine ⟨_, _, _, _, _, rfl, ?_⟩
    have hs := tidyShape (tidy_alt ht hx)
    have hp2 : p.2 = false := by
      split at h
      · rename_i e1 e2
        simpa using List.all_eq_true.mp e1 p hp
      · exact absurd h (by decide)
      · exact absurd h (by decide)
      · cases h
    unfold presence at he
    split at he
    · rename_i f hf
      obtain ⟨hfm, hk⟩ := (field_some hs.wf k f).mp hf
      split at he
      · rename_i hr; exact ⟨f, hfm, hk, hr⟩
      · cases he; cases hp2
    · split at he
      · cases he; cases hp2
      · split at he
        · obtain ⟨b, -, he⟩ := bind_ok.mp he
          cases b <;> cases he <;> cases hp2
        · cases he; cases hp2
  · have : collect (fun a => (asShape a).bind (presence k)) (unionMembers t) = .ok ((unionMembers t).map fun _ => (true, false)) := by
      refine collect_of_forall₂ _ (fun a ha => ?_)
      have ha := mem_unionMembers.mp ha
      obtain ⟨fs, r, o, z, d, rfl, f, hf, hk, hp⟩ := h a ha
      have hs : TidyShape W ⟨fs, r, o⟩ := tidyShape (s := ⟨fs, r, o⟩) (tidy_alt ht ha)
      have hfk := (field_some hs.wf k f).mpr ⟨hf, hk⟩
      simp [asShape, Out.bind, presence, hfk, hp]
    show (collect _ _).bind _ = _
    rw [this]
    simp only [Out.bind]
    cases e : unionMembers t with
    | nil => exact absurd e hm
    | cons a l => simp
  · have : collect (fun a => (asShape a).bind (presence k)) (unionMembers t) = .ok ((unionMembers t).map fun _ => (false, true)) := by
      refine collect_of_forall₂ _ (fun a ha => ?_)
      have ha := mem_unionMembers.mp ha
      obtain ⟨fs, r, z, d, rfl, hno⟩ := h a ha
      have hs : TidyShape W ⟨fs, r, false⟩ := tidyShape (s := ⟨fs, r, false⟩) (tidy_alt ht ha)
      have hfk : field fs k = none := by
        cases e : field fs k with
        | none => rfl
        | some f =>
          obtain ⟨h1, h2⟩ := (field_some hs.wf k f).mp e
          exact absurd h2 (hno f h1)
      simp [asShape, Out.bind, presence, hfk]
    show (collect _ _).bind _ = _
    rw [this]
    simp only [Out.bind]
    cases e : unionMembers t with
    | nil => exact absurd e hm
    | cons a l => simp

/-- Nothing is invented: each alternative of the type of `h[k]` is one of the field under this key, of the rest values when the key is
not listed, or nil when some alternative of the hash does not require the key. -/
theorem c65_index_precise {t u : Ty} {k : Lit} (h : indexedRead t (some k) = .ok u) (ht : Tidy W t) {y : Ty} (hy : AltOf u y) :
    ∃ fs r o z d, AltOf t (.shape fs r o z d) ∧ ((∃ f ∈ fs, f.1 = k ∧ AltOf f.2.2 y) ∨
      ((∀ f ∈ fs, f.1 ≠ k) ∧ o = true ∧ ∃ kt vt, r = some (kt, vt) ∧ AltOf vt y) ∨ (y = nilTy ∧ ∀ f ∈ fs, f.1 = k → f.2.1 = true)) := by
  simp only [indexedRead, resolveVariants] at h
  obtain ⟨ts, hc, h⟩ := bind_ok.mp h
  have hall := collect_ok hc
  have shape : ∀ {a r}, (asShape a).bind (readLiteral k) = .ok r → AltOf t a →
      ∃ s z d, a = .shape s.fields s.rest s.isOpen z d ∧ TidyShape W s ∧ readLiteral k s = .ok r := by
    intro a r he ha
    obtain ⟨s, hs, he'⟩ := bind_ok.mp he
    obtain ⟨z, d, rfl⟩ := asShape_ok hs
    exact ⟨s, z, d, rfl, tidyShape (tidy_alt ht ha), he'⟩
  have hts : ∀ r ∈ ts, Tidy W r := by
    intro r hr
    obtain ⟨a, ha, he⟩ := forall₂_right hall hr
    obtain ⟨s, z, d, -, hs, he⟩ := shape he (mem_unionMembers.mp ha)
    exact readLiteral_tidy hs he
  obtain ⟨r, hr, hyr⟩ := (provenUnion_alts h hts y).mp hy
  obtain ⟨a, ha, he⟩ := forall₂_right hall hr
  obtain ⟨s, z, d, rfl, hs, he⟩ := shape he (mem_unionMembers.mp ha)
  refine ⟨_, _, _, _, _, mem_unionMembers.mp ha, ?_⟩
  have nil : ∀ {x}, AltOf nilTy x → x = nilTy := fun h => (altOf_simple (fun _ h => by cases h)).mp h
  have one : ∀ {t}, Tidy W t → ∀ x ∈ [t], Tidy W x := by intro t ht x hx; rw [List.mem_singleton.mp hx]; exact ht
  have two : ∀ {t}, Tidy W t → ∀ x ∈ [t, nilTy], Tidy W x := by
    intro t ht x hx
    rcases mem_pair.mp hx with rfl | rfl
    · exact ht
    · exact tidy_nil
  unfold readLiteral at he
  split at he
  · rename_i f hf
    obtain ⟨hfm, hk⟩ := (field_some hs.wf k f).mp hf
    have htf := hs.fields f hfm
    split at he
    · obtain ⟨b, hb, hyb⟩ := (provenUnion_alts he (one htf) y).mp hyr
      rw [List.mem_singleton.mp hb] at hyb
      exact .inl ⟨f, hfm, hk, hyb⟩
    · rename_i hp
      obtain ⟨b, hb, hyb⟩ := (provenUnion_alts he (two htf) y).mp hyr
      rcases mem_pair.mp hb with rfl | rfl
      · exact .inl ⟨f, hfm, hk, hyb⟩
      · refine .inr (.inr ⟨nil hyb, fun g hg hgk => ?_⟩)
        have e := (field_some hs.wf k g).mpr ⟨hg, hgk⟩
        rw [hf] at e; cases e
        simpa using hp
  · rename_i hn
    have hno := field_none hs.wf hn
    split at he
    · obtain ⟨b, hb, hyb⟩ := (provenUnion_alts he (one tidy_nil) y).mp hyr
      rw [List.mem_singleton.mp hb] at hyb
      exact .inr (.inr ⟨nil hyb, fun g hg hgk => absurd hgk (hno g hg)⟩)
    · rename_i ho
      split at he
      · rename_i kt vt hr
        obtain ⟨b, -, he⟩ := bind_ok.mp he
        have htv := hs.restVal _ _ hr
        cases b with
        | true =>
          obtain ⟨c, hc, hyb⟩ := (provenUnion_alts he (two htv) y).mp hyr
          rcases mem_pair.mp hc with rfl | rfl
          · exact .inr (.inl ⟨hno, by simpa using ho, kt, c, hr, hyb⟩)
          · exact .inr (.inr ⟨nil hyb, fun g hg hgk => absurd hgk (hno g hg)⟩)
        | false =>
          obtain ⟨c, hc, hyb⟩ := (provenUnion_alts he (one tidy_nil) y).mp hyr
          rw [List.mem_singleton.mp hc] at hyb
          exact .inr (.inr ⟨nil hyb, fun g hg hgk => absurd hgk (hno g hg)⟩)
      · cases he

/-- The same for `h.fetch(k)` and `h.fetch(k, d)`: the default only counts when some alternative of the hash does not require the key. -/
theorem c65_fetch_precise {t u : Ty} {k : Lit} {dflt : Option Ty} (h : fetch t (some k) dflt = .ok u) (ht : Tidy W t)
    (hd : ∀ d, dflt = some d → Tidy W d) {y : Ty} (hy : AltOf u y) :
    ∃ fs r o z d, AltOf t (.shape fs r o z d) ∧ ((∃ f ∈ fs, f.1 = k ∧ AltOf f.2.2 y) ∨
      ((∀ f ∈ fs, f.1 ≠ k) ∧ o = true ∧ ∃ kt vt, r = some (kt, vt) ∧ AltOf vt y) ∨
      ((∃ d, dflt = some d ∧ AltOf d y) ∧ ∀ f ∈ fs, f.1 = k → f.2.1 = true)) := by
  simp only [fetch, resolveVariants] at h
  obtain ⟨ts, hc, h⟩ := bind_ok.mp h
  have hall := collect_ok hc
  have shape : ∀ {a r}, (asShape a).bind (fun s => (fetchParts (some k) s).bind (fetchDone dflt)) = .ok r → AltOf t a →
      ∃ s z d p, a = .shape s.fields s.rest s.isOpen z d ∧ TidyShape W s ∧ fetchLiteral k s = .ok p ∧ fetchDone dflt p = .ok r := by
    intro a r he ha
    obtain ⟨s, hs, he'⟩ := bind_ok.mp he
    obtain ⟨z, d, rfl⟩ := asShape_ok hs
    obtain ⟨p, hp, he'⟩ := bind_ok.mp he'
    exact ⟨s, z, d, p, rfl, tidyShape (tidy_alt ht ha), hp, he'⟩
  have done : ∀ {s p r}, TidyShape W s → fetchLiteral k s = .ok p → fetchDone dflt p = .ok r →
      Tidy W r ∧ ∀ x, AltOf r x → Alts p.1 x ∨ ∃ d, dflt = some d ∧ p.2 = true ∧ AltOf d x := by
    intro s p r hs hp hr
    have htp := fetchParts_tidy (key := some k) hs hp
    rcases fetchDone_ok hr with ⟨hr, -⟩ | ⟨d, e, hp2, hr⟩
    · exact ⟨provenUnion_tidy hr htp, fun x hx => .inl ((provenUnion_alts hr htp x).mp hx)⟩
    · have ht2 := append_nil_tidy htp (hd d e)
      refine ⟨provenUnion_tidy hr ht2, fun x hx => ?_⟩
      obtain ⟨b, hb, hxb⟩ := (provenUnion_alts hr ht2 x).mp hx
      rcases List.mem_append.mp hb with hb | hb
      · exact .inl ⟨b, hb, hxb⟩
      · rw [List.mem_singleton.mp hb] at hxb
        exact .inr ⟨d, e, hp2, hxb⟩
  have hts : ∀ r ∈ ts, Tidy W r := by
    intro r hr
    obtain ⟨a, ha, he⟩ := forall₂_right hall hr
    obtain ⟨s, z, d, p, -, hs, hp, he⟩ := shape he (mem_unionMembers.mp ha)
    exact (done hs hp he).1
  obtain ⟨r, hr, hyr⟩ := (provenUnion_alts h hts y).mp hy
  obtain ⟨a, ha, he⟩ := forall₂_right hall hr
  obtain ⟨s, z, d, p, rfl, hs, hp, he⟩ := shape he (mem_unionMembers.mp ha)
  refine ⟨_, _, _, _, _, mem_unionMembers.mp ha, ?_⟩
  have hcases := (done hs hp he).2 y hyr
  unfold fetchLiteral at hp
  split at hp
  · rename_i f hf
    obtain ⟨hfm, hk⟩ := (field_some hs.wf k f).mp hf
    cases hp
    rcases hcases with ⟨b, hb, hyb⟩ | ⟨d, e, hp2, hyd⟩
    · rw [List.mem_singleton.mp hb] at hyb
      exact .inl ⟨f, hfm, hk, hyb⟩
    · refine .inr (.inr ⟨⟨d, e, hyd⟩, fun g hg hgk => ?_⟩)
      have e' := (field_some hs.wf k g).mpr ⟨hg, hgk⟩
      rw [hf] at e'; cases e'
      exact hp2
  · rename_i hn
    have hno := field_none hs.wf hn
    split at hp
    · cases hp
      rcases hcases with ⟨b, hb, -⟩ | ⟨d, e, -, hyd⟩
      · cases hb
      · exact .inr (.inr ⟨⟨d, e, hyd⟩, fun g hg hgk => absurd hgk (hno g hg)⟩)
    · rename_i ho
      split at hp
      · rename_i kt vt hr
        obtain ⟨b, -, hp⟩ := bind_ok.mp hp
        cases hp
        rcases hcases with ⟨c, hc, hyc⟩ | ⟨d, e, -, hyd⟩
        · cases b
          · cases hc
          · rw [List.mem_singleton.mp hc] at hyc
            exact .inr (.inl ⟨hno, by simpa using ho, kt, vt, hr, hyc⟩)
        · exact .inr (.inr ⟨⟨d, e, hyd⟩, fun g hg hgk => absurd hgk (hno g hg)⟩)
      · cases hp

/-! ### a world, an example and a counterexample -/

/-- Values: strings and symbols, an integer, nil, true, false, hashes and arrays. -/
inductive V1 where
  | lit (l : Lit)
  | int
  | nil
  | tt
  | ff
  | hash (l : List (V1 × V1))
  | arr (l : List V1)

def className : V1 → Name
  | .lit l => if l.isString then nameOf "String" else nameOf "Symbol"
  | .int => nameOf "Integer"
  | .nil => nameOf "NilClass"
  | .tt => nameOf "TrueClass"
  | .ff => nameOf "FalseClass"
  | .hash _ => nameOf "Hash"
  | .arr _ => nameOf "Array"

def world1 : World where
  V := V1
  inst n v := n = className v ∨ n = nameOf "Object"
  modInst _ _ := False
  clsRef _ _ := False
  modRef _ _ := False
  lit := .lit
  isArr v := ∃ l, v = .arr l
  elem v x := ∃ l, v = .arr l ∧ x ∈ l
  isHash v := ∃ l, v = .hash l
  entry v k x := ∃ l, v = .hash l ∧ (k, x) ∈ l
  lit_inj := fun a b h => by cases h; rfl
  string := fun l => by
    cases h : l.isString
    · simp [className, h]; decide
    · simp [className, h]
  symbol := fun l => by
    cases h : l.isString
    · simp [className, h]
    · simp [className, h]; decide
  lit_arr := fun l h => by obtain ⟨_, h⟩ := h; cases h
  lit_hash := fun l h => by obtain ⟨_, h⟩ := h; cases h

theorem world1_nil : NilApart world1 := by
  rintro v hn ⟨l, rfl⟩
  exact absurd (show nameOf "NilClass" = className (.hash l) ∨ nameOf "NilClass" = nameOf "Object" from hn) (by simp only [className]; decide)

/-- `{ a: Integer, b?: { a: Integer } }`: reads of `:a`, of `:b`, of an unknown key, two levels deep, and of an unlisted key. -/
theorem c65_example :
    let inner : Ty := .shape [(symA, false, intTy)] none false false 1
    let t : Ty := .shape [(symA, false, intTy), (symB, true, inner)] none true false 2
    let c : Ty := .shape [(symA, false, intTy), (symB, true, inner)] none false false 2
    indexedRead t (some symA) = .ok intTy ∧ indexedRead t (some symB) = .ok (.union [nilTy, inner]) ∧
    indexedRead t (some ⟨true, [97]⟩) = .err .methodReturn ∧ indexedRead c (some ⟨true, [97]⟩) = .ok nilTy ∧
    indexedRead t none = .err .methodReturn ∧ dig t [some symB, some symA] = .ok (.union [intTy, nilTy]) ∧
    dig t [some symA, some symA] = .err .unionMember ∧
    fetch c (some symB) (some stringTy) = .ok (.union [stringTy, inner]) ∧ fetch c (some symA) (some stringTy) = .ok intTy ∧
    keys c = .ok (.array [symbolTy]) ∧ values c = .ok (.array [intTy, inner]) ∧ keys t = .err .methodReturn ∧
    keyPresence t (some symA) = .ok trueTy ∧ keyPresence t (some symB) = .ok booleanTy ∧
    keyPresence c (some ⟨true, [97]⟩) = .ok falseTy ∧ keyPresence (.union [c, inner]) (some symB) = .ok booleanTy ∧
    keyPresence (.union [c, intTy]) (some symB) = .err .unionMember := by
  refine ⟨?_, ?_, ?_, ?_, ?_, ?_, ?_, ?_, ?_, ?_, ?_, ?_, ?_, ?_, ?_, ?_, ?_⟩ <;> decide +kernel

/-- A value that the theorems speak of. -/
theorem c65_example_value : Desc world1 (.shape [(symA, false, intTy)] none false false 1) (V1.hash [(.lit symA, .int)]) ∧
    Got world1 (V1.hash [(.lit symA, .int)]) (V1.lit symA) V1.int ∧ Got world1 (V1.hash [(.lit symA, .int)]) (V1.lit symB) V1.nil := by
  have only : ∀ k x : V1, world1.entry (V1.hash [(.lit symA, .int)]) k x → k = .lit symA ∧ x = .int := by
    rintro k x ⟨l, h, hm⟩
    cases h
    exact Prod.mk.inj (List.mem_singleton.mp hm)
  refine ⟨?_, .inl ⟨_, rfl, by simp⟩, .inr ⟨.inl rfl, ?_⟩⟩
  · simp only [Desc]
    refine ⟨⟨_, rfl⟩, descFields_iff.mpr ?_, ?_⟩
    · intro f hf
      rw [List.mem_singleton.mp hf]
      refine ⟨fun _ => ⟨V1.int, _, rfl, by simp [world1]⟩, fun x hx => ?_⟩
      rw [(only _ x hx).2]
      exact .inl rfl
    · intro k x hx hno
      exact absurd (only k x hx).1 (hno _ (List.mem_singleton.mpr rfl))
  · intro y hy
    have := (only _ y hy).1
    exact absurd (V1.lit.inj this) (by decide)

/-- Without plain rest keys the reads are wrong: a hash of type `{ **Object => Integer }` may contain `:a`, but `h[:a]` is said to be
nil and `h.key?(:a)` false (shape.rs L97-113, L256-262: the key's class must be below the rest key's type, and `Object` is not
known to be above `Symbol`). -/
theorem c65_rest_key_fails :
    let t : Ty := .shape [] (some (objTy, intTy)) true false 1
    Built t ∧ indexedRead t (some symA) = .ok nilTy ∧ keyPresence t (some symA) = .ok falseTy ∧
    ∃ v : world1.V, Desc world1 t v ∧ Got world1 v (V1.lit symA) V1.int ∧ ¬ Desc world1 nilTy V1.int ∧
      HasKey world1 v (V1.lit symA) V1.tt ∧ ¬ Desc world1 falseTy V1.tt := by
  refine ⟨built_rest (.cls _) (.cls _) rfl rfl rfl rfl, by decide +kernel, by decide +kernel, V1.hash [(.lit symA, .int)], ?_,
    .inl ⟨_, rfl, by simp⟩, ?_, .inl ⟨.inl rfl, V1.int, _, rfl, by simp⟩, ?_⟩
  · simp only [Desc, DescFields]
    refine ⟨⟨_, rfl⟩, trivial, ?_⟩
    rintro k x ⟨l, h, hm⟩ -
    cases h
    obtain ⟨rfl, rfl⟩ := Prod.mk.inj (List.mem_singleton.mp hm)
    exact ⟨.inr rfl, .inl rfl⟩
  · intro h
    exact absurd (show nameOf "NilClass" = nameOf "Integer" ∨ nameOf "NilClass" = nameOf "Object" from h) (by decide)
  · intro h
    exact absurd (show nameOf "FalseClass" = nameOf "TrueClass" ∨ nameOf "FalseClass" = nameOf "Object" from h) (by decide)

end Verif.ShapeReads
