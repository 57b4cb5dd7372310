import Verif.Spec.Types
import Verif.Lemmas.Sort
import Verif.Lemmas.Arena
import Mathlib.Data.List.Perm.Basic
import Mathlib.Data.List.Nodup
import Mathlib.Data.List.Perm.Lattice
namespace Verif.Types
open Verif.Store

/-- Induction on types. -/
theorem Ty.ind {P : Ty → Prop} (cls : ∀ n, P (.cls n)) (mod : ∀ n, P (.mod n)) (clsRef : ∀ n, P (.clsRef n))
    (modRef : ∀ n, P (.modRef n)) (lit : ∀ v, P (.lit v)) (array : ∀ ts, (∀ t ∈ ts, P t) → P (.array ts))
    (hash : ∀ ks vs, (∀ t ∈ ks, P t) → (∀ t ∈ vs, P t) → P (.hash ks vs))
    (shape : ∀ fs r o z d, (∀ f ∈ fs, P f.2.2) → (∀ k v, r = some (k, v) → P k ∧ P v) → P (.shape fs r o z d))
    (union : ∀ ts, (∀ t ∈ ts, P t) → P (.union ts)) (unknown : P .unknown) : ∀ t, P t := by
  intro t
  refine Ty.rec (motive_1 := P) (motive_2 := fun l => ∀ t ∈ l, P t) (motive_3 := fun l => ∀ f ∈ l, P f.2.2)
    (motive_4 := fun r => ∀ k v, r = some (k, v) → P k ∧ P v) (motive_5 := fun f => P f.2.2) (motive_6 := fun p => P p.1 ∧ P p.2)
    (motive_7 := fun p => P p.2)
    cls mod clsRef modRef lit array (fun ks vs => hash ks vs) (fun fs r o z d => shape fs r o z d) union unknown
    ?_ ?_ ?_ ?_ ?_ ?_ ?_ ?_ ?_ t
  · intro t h; simp at h
  · intro a l ha hl t ht
    rcases List.mem_cons.mp ht with rfl | ht
    · exact ha
    · exact hl t ht
  · intro t h; simp at h
  · intro a l ha hl t ht
    rcases List.mem_cons.mp ht with rfl | ht
    · exact ha
    · exact hl t ht
  · intro k v h; simp at h
  · rintro ⟨a, b⟩ h k v hkv
    cases hkv; exact h
  · intro a b h; exact h
  · intro a b ha hb; exact ⟨ha, hb⟩
  · intro a b h; exact h

theorem lexLe_antisymm : ∀ {l m : List Nat}, lexLe l m = true → lexLe m l = true → l = m := by
  intro l
  induction l with
  | nil => intro m h h'; cases m with
    | nil => rfl
    | cons b m => simp [lexLe] at h'
  | cons a l ih =>
    intro m h h'
    cases m with
    | nil => simp [lexLe] at h
    | cons b m =>
      simp only [lexLe] at h h'
      split at h
      · rename_i hab
        rw [if_neg (by omega), if_neg (by omega)] at h'
        cases h'
      · split at h
        · rename_i hab
          subst hab
          simp at h'
          rw [ih h h']
        · cases h

theorem tyLe_order : IsOrder tyLe := ⟨fun _ _ => lexLe_total _ _, fun _ _ _ => lexLe_trans _ _ _⟩
theorem tyLe_antisymm (a b : Ty) (h : tyLe a b = true) (h' : tyLe b a = true) : a = b :=
  enc_injective (lexLe_antisymm h h')

theorem Lit.enc_injective {a b : Lit} (h : a.enc = b.enc) : a = b :=
  (Lit.enc_inj (r := []) (s := []) (by simpa using h)).1
theorem litLe_order : IsOrder litLe := ⟨fun _ _ => lexLe_total _ _, fun _ _ _ => lexLe_trans _ _ _⟩
theorem litLe_antisymm (a b : Lit) (h : litLe a b = true) (h' : litLe b a = true) : a = b :=
  Lit.enc_injective (lexLe_antisymm h h')

/-! ### sorted sets -/

def canon (l : List Ty) : List Ty := dedupAdj (stableSort tyLe l)

theorem mem_canon {x : Ty} {l : List Ty} : x ∈ canon l ↔ x ∈ l := by rw [canon, mem_dedupAdj, mem_stableSort]

theorem canon_sorted (l : List Ty) : Sorted tyLe (canon l) :=
  (stableSort_sorted tyLe_order l).sublist (dedupAdj_sublist _)

theorem canon_nodup (l : List Ty) : (canon l).Nodup :=
  dedupAdj_nodup tyLe_antisymm (stableSort_sorted tyLe_order l)

theorem sorted_ext {l m : List Ty} (hl : Sorted tyLe l) (hm : Sorted tyLe m) (nl : l.Nodup) (nm : m.Nodup)
    (h : ∀ x, x ∈ l ↔ x ∈ m) : l = m :=
  ((List.perm_ext_iff_of_nodup nl nm).mpr h).eq_of_pairwise (fun a b _ _ h h' => tyLe_antisymm a b h h') hl hm

theorem canon_ext {l m : List Ty} (h : ∀ x, x ∈ l ↔ x ∈ m) : canon l = canon m :=
  sorted_ext (canon_sorted l) (canon_sorted m) (canon_nodup l) (canon_nodup m) (fun x => by simp [mem_canon, h x])

theorem canon_of_strict {l : List Ty} (hs : Sorted tyLe l) (hn : l.Nodup) : canon l = l :=
  sorted_ext (canon_sorted l) hs (canon_nodup l) hn (fun _ => mem_canon)

/-! ### alternatives -/

theorem altOf_simple {t x : Ty} (h : Simple t) : AltOf t x ↔ x = t := by
  constructor
  · intro a
    cases a with
    | member _ => exact absurd rfl (h _)
    | self _ => rfl
  · rintro rfl; exact .self h

theorem altOf_union {us : List Ty} {x : Ty} : AltOf (.union us) x ↔ x ∈ us := by
  constructor
  · intro a
    cases a with
    | member h => exact h
    | self h => exact absurd rfl (h _)
  · exact .member

theorem simple_or_union (t : Ty) : Simple t ∨ ∃ us, t = .union us := by
  cases t <;> first | exact .inr ⟨_, rfl⟩ | exact .inl (fun _ h => by cases h)

theorem mem_flatten {ts : List Ty} {x : Ty} : x ∈ flatten ts ↔ Alts ts x := by
  simp only [flatten, List.mem_flatMap, Alts]
  constructor
  · rintro ⟨t, ht, hx⟩
    refine ⟨t, ht, ?_⟩
    rcases simple_or_union t with h | ⟨us, rfl⟩
    · rw [altOf_simple h]
      cases t <;> first | exact absurd rfl (h _) | simpa using hx
    · exact .member hx
  · rintro ⟨t, ht, hx⟩
    refine ⟨t, ht, ?_⟩
    rcases simple_or_union t with h | ⟨us, rfl⟩
    · rw [altOf_simple h] at hx
      subst hx
      cases x <;> first | exact absurd rfl (h _) | simp
    · exact altOf_union.mp hx

theorem isUnknown_iff {t : Ty} : t.isUnknown = true ↔ t = .unknown := by cases t <;> simp [Ty.isUnknown]
theorem isShape_iff {t : Ty} : t.isShape = true ↔ ∃ fs r o z d, t = .shape fs r o z d := by cases t <;> simp [Ty.isShape]

/-- The part of `union` after flattening. -/
def finish (v : List Ty) : Ty :=
  if v.any Ty.isUnknown then .unknown
  else if ((canon v).filter Ty.isShape).length > maxVariants then .unknown
  else match canon v with
    | [] => .unknown
    | [t] => t
    | v => .union v

theorem mkUnion_eq (ts : List Ty) : mkUnion ts = finish (flatten ts) := rfl

theorem any_unknown {v : List Ty} : v.any Ty.isUnknown = true ↔ .unknown ∈ v := by
  simp [List.any_eq_true, isUnknown_iff]

theorem finish_ext {v w : List Ty} (h : ∀ x, x ∈ v ↔ x ∈ w) : finish v = finish w := by
  have h1 : v.any Ty.isUnknown = w.any Ty.isUnknown := by
    rw [Bool.eq_iff_iff, any_unknown, any_unknown, h]
  rw [finish, finish, h1, canon_ext h]

theorem nodup_length_le {l m : List Ty} (h : l.Nodup) (hs : ∀ x ∈ l, x ∈ m) : l.length ≤ m.length :=
  (List.subperm_of_subset h hs).length_le

/-- More than eight shapes in the list. -/
theorem many_iff {v : List Ty} : ((canon v).filter Ty.isShape).length > maxVariants ↔ ManyShapes (· ∈ v) := by
  constructor
  · intro h
    refine ⟨((canon v).filter Ty.isShape).take 9, ?_, ?_, ?_⟩
    · exact ((canon_nodup v).sublist List.filter_sublist).sublist (List.take_sublist _ _)
    · rw [List.length_take]; unfold maxVariants at h; omega
    · intro x hx
      have := List.mem_filter.mp (List.mem_of_mem_take hx)
      exact ⟨mem_canon.mp this.1, isShape_iff.mp this.2⟩
  · rintro ⟨l, hn, hl, hm⟩
    have := nodup_length_le hn (m := (canon v).filter Ty.isShape) (fun x hx =>
      List.mem_filter.mpr ⟨mem_canon.mpr (hm x hx).1, isShape_iff.mpr (hm x hx).2⟩)
    unfold maxVariants; omega

theorem manyShapes_congr {P Q : Ty → Prop} (h : ∀ x, P x ↔ Q x) : ManyShapes P ↔ ManyShapes Q := by
  simp only [ManyShapes, h]

/-- The three ways `finish` ends. -/
theorem finish_cases (v : List Ty) :
    (finish v = .unknown ∧ (.unknown ∈ v ∨ v = [] ∨ ManyShapes (· ∈ v))) ∨
    (.unknown ∉ v ∧ ¬ ManyShapes (· ∈ v) ∧ ∃ t, finish v = t ∧ ∀ x, x ∈ v ↔ x = t) ∨
    (.unknown ∉ v ∧ ¬ ManyShapes (· ∈ v) ∧ 2 ≤ (canon v).length ∧ finish v = .union (canon v)) := by
  by_cases h1 : .unknown ∈ v
  · refine .inl ⟨?_, .inl h1⟩
    rw [finish, if_pos (any_unknown.mpr h1)]
  by_cases h2 : ManyShapes (· ∈ v)
  · refine .inl ⟨?_, .inr (.inr h2)⟩
    rw [finish, if_pos (many_iff.mpr h2)]
    split <;> rfl
  have hf : finish v = match canon v with | [] => .unknown | [t] => t | v => .union v := by
    rw [finish, if_neg (fun h => h1 (any_unknown.mp h)), if_neg (fun h => h2 (many_iff.mp h))]
  cases hc : canon v with
  | nil =>
    refine .inl ⟨by rw [hf, hc], .inr (.inl ?_)⟩
    cases v with
    | nil => rfl
    | cons a v => exact absurd (mem_canon (l := a :: v).mpr List.mem_cons_self) (by rw [hc]; simp)
  | cons a l =>
    cases l with
    | nil =>
      refine .inr (.inl ⟨h1, h2, a, by rw [hf, hc], fun x => ?_⟩)
      rw [← mem_canon, hc]; simp
    | cons b l => exact .inr (.inr ⟨h1, h2, by simp, by rw [hf, hc]⟩)

end Verif.Types
