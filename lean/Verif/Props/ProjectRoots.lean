import Verif.Spec.ProjectRoots
import Verif.Props.RuntimeConfig
/-!
C91: which directories of a workspace are projects.
-/
namespace Verif.ProjectRoots
open Verif.JavaSource (Text joinWith)
open Verif.Runtimes (split txt)
open Verif.RuntimeConfig (components walk)

/-! ### Order -/

structure Strict {α : Type} (lt : α → α → Bool) : Prop where
  irrefl : ∀ a, lt a a = false
  trans : ∀ a b c, lt a b = true → lt b c = true → lt a c = true
  tri : ∀ a b, lt a b = false → lt b a = false → a = b

theorem Strict.asymm {α : Type} {lt : α → α → Bool} (h : Strict lt) (a b : α) (hab : lt a b = true) : lt b a = false := by
  cases e : lt b a with
  | false => rfl
  | true =>
    have := h.trans a b a hab e
    rw [h.irrefl] at this
    cases this

theorem lex_cons {α : Type} {lt : α → α → Bool} (h : Strict lt) (a b : α) (l m : List α) :
    lexLt lt (a :: l) (b :: m) = true ↔ lt a b = true ∨ (a = b ∧ lexLt lt l m = true) := by
  simp only [lexLt]
  by_cases h1 : lt a b = true
  · rw [if_pos h1]; simp [h1]
  · rw [if_neg h1]
    by_cases h2 : lt b a = true
    · rw [if_pos h2]
      simp only [Bool.false_eq_true, false_iff]
      rintro (h3 | ⟨rfl, _⟩)
      · exact h1 h3
      · rw [h.irrefl] at h2; cases h2
    · rw [if_neg h2]
      have := h.tri a b (by simpa using h1) (by simpa using h2)
      subst this
      simp [h1]

theorem lex_strict {α : Type} {lt : α → α → Bool} (h : Strict lt) : Strict (lexLt lt) := by
  constructor
  · intro a
    induction a with
    | nil => rfl
    | cons x a ih =>
      rw [← Bool.not_eq_true, lex_cons h]
      simp [h.irrefl, ih]
  · intro a
    induction a with
    | nil =>
      intro b c h1 h2
      cases b with
      | nil => cases h1
      | cons y b =>
        cases c with
        | nil => cases h2
        | cons z c => rfl
    | cons x a ih =>
      intro b c h1 h2
      cases b with
      | nil => cases h1
      | cons y b =>
        cases c with
        | nil => cases h2
        | cons z c =>
          rw [lex_cons h] at h1 h2 ⊢
          rcases h1 with h1 | ⟨rfl, h1⟩
          · rcases h2 with h2 | ⟨rfl, h2⟩
            · exact Or.inl (h.trans _ _ _ h1 h2)
            · exact Or.inl h1
          · rcases h2 with h2 | ⟨rfl, h2⟩
            · exact Or.inl h2
            · exact Or.inr ⟨rfl, ih _ _ h1 h2⟩
  · intro a
    induction a with
    | nil =>
      intro b h1 h2
      cases b with
      | nil => rfl
      | cons y b => cases h1
    | cons x a ih =>
      intro b h1 h2
      cases b with
      | nil => cases h2
      | cons y b =>
        rw [← Bool.not_eq_true, lex_cons h] at h1 h2
        simp only [not_or, not_and, Bool.not_eq_true] at h1 h2
        have e := h.tri x y h1.1 h2.1
        subst e
        rw [ih b (h1.2 rfl) (h2.2 rfl)]

theorem char_strict : Strict charLt := by
  constructor
  · intro a; simp [charLt]
  · intro a b c h1 h2
    simp only [charLt, decide_eq_true_eq] at *
    omega
  · intro a b h1 h2
    simp only [charLt, decide_eq_false_iff_not] at h1 h2
    exact Char.toNat_inj.1 (by omega)

theorem path_strict : Strict pathLt := lex_strict (lex_strict char_strict)

theorem lex_prefix {α : Type} {lt : α → α → Bool} (h : Strict lt) : ∀ a x : List α, lexLt lt (a ++ x) a = false
  | [], [] => rfl
  | [], _ :: _ => rfl
  | c :: a, x => by
    rw [← Bool.not_eq_true, List.cons_append, lex_cons h]
    simp [h.irrefl, lex_prefix h a x]

/-- Between a list and one it begins there are only lists that it begins. -/
theorem lex_between {α : Type} {lt : α → α → Bool} (h : Strict lt) : ∀ a b x : List α, lexLt lt b a = false → lexLt lt (a ++ x) b = false → a <+: b
  | [], b, _, _, _ => List.nil_prefix
  | c :: a, b, x, h1, h2 => by
    cases b with
    | nil => cases h1
    | cons d b =>
      rw [List.cons_append, ← Bool.not_eq_true, lex_cons h] at h2
      rw [← Bool.not_eq_true, lex_cons h] at h1
      simp only [not_or, not_and, Bool.not_eq_true] at h1 h2
      have e := h.tri c d h2.1 h1.1
      subst e
      rw [List.cons_prefix_cons]
      exact ⟨rfl, lex_between h a b x (h1.2 rfl) (h2.2 rfl)⟩

/-! ### Sorting -/

theorem insert_mem (a : Path) : ∀ (l : List Path) (p : Path), p ∈ insert a l ↔ p = a ∨ p ∈ l
  | [], p => by simp [insert]
  | b :: l, p => by
    have ih := insert_mem a l p
    simp only [insert]
    split
    · rw [List.mem_cons, ih, List.mem_cons]
      exact ⟨fun h => by rcases h with h | h | h <;> simp [h], fun h => by rcases h with h | h | h <;> simp [h]⟩
    · simp

theorem sort_mem : ∀ (l : List Path) (p : Path), p ∈ sort l ↔ p ∈ l
  | [], p => by simp [sort]
  | a :: l, p => by
    simp only [sort]
    rw [insert_mem, sort_mem l p, List.mem_cons]

theorem path_le_trans {a b c : Path} (h1 : pathLt b a = false) (h2 : pathLt c b = false) : pathLt c a = false := by
  cases e : pathLt c a with
  | false => rfl
  | true =>
    by_cases e2 : pathLt a b = true
    · rw [path_strict.trans _ _ _ e e2] at h2; cases h2
    · have := path_strict.tri a b (by simpa using e2) h1
      subst this
      rw [e] at h2; cases h2

theorem insert_sorted (a : Path) : ∀ l : List Path, l.Pairwise (fun a b => pathLt b a = false) → (insert a l).Pairwise (fun a b => pathLt b a = false)
  | [], _ => by simp [insert]
  | b :: l, h => by
    obtain ⟨h1, h2⟩ := List.pairwise_cons.1 h
    simp only [insert]
    by_cases hb : pathLt b a = true
    · rw [if_pos hb, List.pairwise_cons]
      refine ⟨?_, insert_sorted a l h2⟩
      intro x hx
      rcases (insert_mem a l x).1 hx with rfl | hx
      · exact path_strict.asymm _ _ hb
      · exact h1 x hx
    · rw [if_neg hb, List.pairwise_cons]
      refine ⟨?_, h⟩
      intro x hx
      have hb' : pathLt b a = false := by simpa using hb
      rcases List.mem_cons.1 hx with rfl | hx
      · exact hb'
      · exact path_le_trans hb' (h1 x hx)

theorem sort_sorted : ∀ l : List Path, (sort l).Pairwise (fun a b => pathLt b a = false)
  | [] => by simp [sort]
  | a :: l => insert_sorted a _ (sort_sorted l)

theorem dedup_mem : ∀ (l : List Path) (p : Path), p ∈ dedup l ↔ p ∈ l
  | [], p => by simp [dedup]
  | a :: l, p => by
    have ih := dedup_mem l p
    have hd : p ∈ dedup (a :: l) ↔ p = a ∨ p ∈ dedup l := by
      simp only [dedup]
      cases e : dedup l with
      | nil => simp
      | cons b m =>
        simp only
        by_cases h : a = b
        · rw [if_pos h]; subst h; simp
        · rw [if_neg h]; simp
    rw [hd, ih, List.mem_cons]

theorem dedup_sorted : ∀ l : List Path, l.Pairwise (fun a b => pathLt b a = false) → (dedup l).Pairwise (fun a b => pathLt a b = true)
  | [], _ => by simp [dedup]
  | a :: l, h => by
    obtain ⟨h1, h2⟩ := List.pairwise_cons.1 h
    have ih := dedup_sorted l h2
    simp only [dedup]
    cases e : dedup l with
    | nil => simp
    | cons b m =>
      rw [e] at ih
      simp only
      by_cases hab : a = b
      · rw [if_pos hab]; exact ih
      · rw [if_neg hab, List.pairwise_cons]
        refine ⟨?_, ih⟩
        have hb : pathLt a b = true := by
          have hm : b ∈ l := (dedup_mem l b).1 (by rw [e]; exact List.mem_cons_self)
          by_cases hx : pathLt a b = true
          · exact hx
          · exact absurd (path_strict.tri _ _ (by simpa using hx) (h1 b hm)) hab
        intro x hx
        rcases List.mem_cons.1 hx with rfl | hx
        · exact hb
        · exact path_strict.trans _ _ _ hb ((List.pairwise_cons.1 ih).1 x hx)

theorem result_mem (l : List Path) (p : Path) : p ∈ dedup (sort l) ↔ p ∈ l := by rw [dedup_mem, sort_mem]

theorem result_sorted (l : List Path) : (dedup (sort l)).Pairwise (fun a b => pathLt a b = true) := dedup_sorted _ (sort_sorted l)

/-- Looking at neighbours is enough. -/
theorem overlapping_iff : ∀ l : List Path, l.Pairwise (fun a b => pathLt a b = true) →
    (overlapping l = false ↔ ∀ a ∈ l, ∀ b ∈ l, a <+: b → a = b)
  | [], _ => by simp [overlapping]
  | [a], _ => by simp [overlapping]
  | a :: b :: l, h => by
    obtain ⟨h1, h2⟩ := List.pairwise_cons.1 h
    have ih := overlapping_iff (b :: l) h2
    have e : overlapping (a :: b :: l) = (a.isPrefixOf b || overlapping (b :: l)) := rfl
    rw [e, Bool.or_eq_false_iff, ih]
    have hp : a.isPrefixOf b = false ↔ ¬ a <+: b := by rw [← Bool.not_eq_true, List.isPrefixOf_iff_prefix]
    rw [hp]
    constructor
    · rintro ⟨g1, g2⟩ x hx y hy hxy
      rcases List.mem_cons.1 hx with ex | hx'
      · rcases List.mem_cons.1 hy with ey | hy'
        · rw [ex, ey]
        · exfalso
          subst ex
          apply g1
          obtain ⟨z, rfl⟩ := hxy
          refine lex_between (lex_strict char_strict) x b z (path_strict.asymm _ _ (h1 b List.mem_cons_self)) ?_
          rcases List.mem_cons.1 hy' with ey | hy'
          · rw [ey]; exact path_strict.irrefl b
          · exact path_strict.asymm _ _ ((List.pairwise_cons.1 h2).1 _ hy')
      · rcases List.mem_cons.1 hy with ey | hy'
        · exfalso
          subst ey
          have h3 := h1 x hx'
          obtain ⟨z, rfl⟩ := hxy
          have h4 : pathLt (x ++ z) x = false := lex_prefix (lex_strict char_strict) x z
          rw [h4] at h3; cases h3
        · exact g2 x hx' y hy' hxy
    · intro g
      refine ⟨fun hab => ?_, fun x hx y hy => g x (List.mem_cons_of_mem _ hx) y (List.mem_cons_of_mem _ hy)⟩
      have := g a List.mem_cons_self b (by simp) hab
      subst this
      have := h1 a List.mem_cons_self
      rw [path_strict.irrefl] at this
      cases this

/-! ### Projects -/

theorem nearest_cons (n : Text) (g : Bool) (t : List (Text × Bool)) (ht : t ≠ []) : Nearest ((n, g) :: t) ↔ g = false ∧ n ∉ pruned ∧ Nearest t := by
  constructor
  · rintro ⟨up, m, h, h1, h2⟩
    cases up with
    | nil => injection h with _ h; exact absurd h ht
    | cons x up =>
      injection h with h0 h
      subst h0
      exact ⟨h1 _ List.mem_cons_self, h2 _ List.mem_cons_self, up, m, h, fun y hy => h1 y (List.mem_cons_of_mem _ hy),
        fun y hy => h2 y (List.mem_cons_of_mem _ hy)⟩
  · rintro ⟨rfl, hn, up, m, rfl, h1, h2⟩
    refine ⟨(n, false) :: up, m, rfl, ?_, ?_⟩
    · intro y hy
      rcases List.mem_cons.1 hy with rfl | hy
      · rfl
      · exact h1 y hy
    · intro y hy
      rcases List.mem_cons.1 hy with rfl | hy
      · exact hn
      · exact h2 y hy

theorem nearest_one (n : Text) (g : Bool) : Nearest [(n, g)] ↔ g = true ∧ n ∉ pruned := by
  constructor
  · rintro ⟨up, m, h, _, h2⟩
    cases up with
    | nil =>
      injection h with h _
      injection h with _ h
      exact ⟨h, h2 _ List.mem_cons_self⟩
    | cons x up =>
      injection h with _ h
      exact absurd h (by simp)
  · rintro ⟨rfl, hn⟩
    refine ⟨[], n, rfl, by simp, ?_⟩
    intro x hx
    rw [List.mem_singleton] at hx
    subst hx; exact hn

theorem trail_ne {k : Entries} {t : List (Text × Bool)} (h : Trail k t) : t ≠ [] := by
  induction h with
  | one => simp
  | down => simp
  | next _ _ _ _ _ ih => exact ih

theorem nested_iff : ∀ (es : Entries) (top p : Path), p ∈ nested top es ↔ ∃ t, Trail es t ∧ Nearest t ∧ p = top ++ t.map Prod.fst
  | .nil, top, p => by
    simp only [nested, List.not_mem_nil, false_iff]
    rintro ⟨t, h, _⟩
    cases h
  | .cons n d g k r, top, p => by
    simp only [nested, List.mem_append]
    rw [nested_iff r top p]
    have hk := nested_iff k (top ++ [n]) p
    constructor
    · rintro (h | ⟨t, h1, h2⟩)
      · by_cases h1 : d = false ∨ n ∈ pruned
        · rw [if_pos h1] at h; cases h
        · rw [if_neg h1] at h
          simp only [not_or, Bool.not_eq_false] at h1
          obtain ⟨rfl, hn⟩ := h1
          by_cases hg : g = true
          · rw [if_pos hg, List.mem_singleton] at h
            exact ⟨[(n, g)], .one n g k r, (nearest_one n g).2 ⟨hg, hn⟩, by rw [h]; rfl⟩
          · rw [if_neg hg, hk] at h
            obtain ⟨t, ht, h2, rfl⟩ := h
            exact ⟨(n, g) :: t, .down n g r ht, (nearest_cons n g t (trail_ne ht)).2 ⟨by simpa using hg, hn, h2⟩, by simp⟩
      · exact ⟨t, .next n d g k h1, h2⟩
    · rintro ⟨t, h1, h2, h3⟩
      cases h1 with
      | one =>
        left
        obtain ⟨hg, hn⟩ := (nearest_one n g).1 h2
        rw [if_neg (by simp [hn]), if_pos hg, h3]
        simp
      | @down _ t' _ _ _ ht =>
        left
        obtain ⟨hg, hn, h2⟩ := (nearest_cons n g t' (trail_ne ht)).1 h2
        rw [if_neg (by simp [hn]), if_neg (by simp [hg]), hk]
        exact ⟨t', ht, h2, by rw [h3]; simp⟩
      | next _ _ _ _ ht => exact Or.inr ⟨t, ht, h2, h3⟩

/-- **C91 (projects).** A Gemfile at the top makes the workspace one project. Otherwise the projects are the nearest directories with a Gemfile on
the ways down that avoid links and the directories that are left out; without any the workspace is one project. -/
theorem c91_projects (top : Path) (gemfile : Bool) (es : Entries) (p : Path) : p ∈ discover top gemfile es ↔
    ((gemfile = true ∨ ∀ t, Trail es t → ¬ Nearest t) ∧ p = top) ∨
      (gemfile = false ∧ ∃ t, Trail es t ∧ Nearest t ∧ p = top ++ t.map Prod.fst) := by
  unfold discover
  by_cases hg : gemfile = true
  · rw [if_pos hg, List.mem_singleton]
    simp [hg]
  · rw [if_neg hg]
    have hm := fun q => (result_mem (nested top es) q).trans (nested_iff es top q)
    cases e : dedup (sort (nested top es)) with
    | nil =>
      have : ∀ t, Trail es t → ¬ Nearest t := by
        intro t h1 h2
        have := (hm (top ++ t.map Prod.fst)).2 ⟨t, h1, h2, rfl⟩
        rw [e] at this; cases this
      rw [List.mem_singleton]
      constructor
      · intro h; exact Or.inl ⟨Or.inr this, h⟩
      · rintro (⟨_, h⟩ | ⟨_, t, h1, h2, _⟩)
        · exact h
        · exact absurd h2 (this t h1)
    | cons r rs =>
      have : ¬ (gemfile = true ∨ ∀ t, Trail es t → ¬ Nearest t) := by
        rintro (h | h)
        · exact hg h
        · obtain ⟨t, h1, h2, _⟩ := (hm r).1 (by rw [e]; exact List.mem_cons_self)
          exact h t h1 h2
      have hp := hm p
      rw [e] at hp
      rw [hp]
      constructor
      · intro h; exact Or.inr ⟨by simpa using hg, h⟩
      · rintro (⟨h, _⟩ | ⟨_, h⟩)
        · exact absurd h this
        · exact h

/-- **C91 (order).** The projects are in order, each once, and there is at least one. -/
theorem c91_order (top : Path) (gemfile : Bool) (es : Entries) :
    (discover top gemfile es).Pairwise (fun a b => pathLt a b = true) ∧ discover top gemfile es ≠ [] := by
  unfold discover
  by_cases hg : gemfile = true
  · rw [if_pos hg]; simp
  · rw [if_neg hg]
    have := result_sorted (nested top es)
    cases e : dedup (sort (nested top es)) with
    | nil => simp
    | cons r rs => rw [e] at this; exact ⟨this, by simp⟩

theorem trail_name {k : Entries} {t : List (Text × Bool)} (h : Trail k t) : ∃ x l, t = x :: l ∧ x.1 ∈ names k := by
  induction h with
  | one n g k r => exact ⟨_, _, rfl, by simp [names]⟩
  | down n g r _ _ => exact ⟨_, _, rfl, by simp [names]⟩
  | next n d g k _ ih =>
    obtain ⟨x, l, e, h⟩ := ih
    exact ⟨x, l, e, by simp [names, h]⟩

theorem trail_prefix : ∀ (es : Entries), Distinct es → ∀ s t, Trail es s → Trail es t → s.map Prod.fst <+: t.map Prod.fst → s <+: t
  | .nil, _, _, _, h, _, _ => by cases h
  | .cons n d g k r, hd, s, t, hs, ht, hp => by
    obtain ⟨hn, hk, hr⟩ := hd
    cases hs with
    | one =>
      cases ht with
      | one => exact List.prefix_rfl
      | down _ _ _ _ => exact ⟨_, rfl⟩
      | next _ _ _ _ ht =>
        exfalso
        obtain ⟨x, l, rfl, hx⟩ := trail_name ht
        simp only [List.map_cons, List.cons_prefix_cons] at hp
        exact hn (hp.1 ▸ hx)
    | @down _ s' _ _ _ hs' =>
      cases ht with
      | one =>
        exfalso
        simp only [List.map_cons, List.map_nil, List.cons_prefix_cons, List.prefix_nil, List.map_eq_nil_iff, true_and] at hp
        exact trail_ne hs' hp
      | @down _ t' _ _ _ ht' =>
        simp only [List.map_cons, List.cons_prefix_cons, true_and] at hp
        rw [List.cons_prefix_cons]
        exact ⟨rfl, trail_prefix k hk s' t' hs' ht' hp⟩
      | next _ _ _ _ ht =>
        exfalso
        obtain ⟨x, l, rfl, hx⟩ := trail_name ht
        simp only [List.map_cons, List.cons_prefix_cons] at hp
        exact hn (hp.1 ▸ hx)
    | next _ _ _ _ hs =>
      obtain ⟨x, l, rfl, hx⟩ := trail_name hs
      cases ht with
      | one =>
        exfalso
        simp only [List.map_cons, List.cons_prefix_cons] at hp
        exact hn (hp.1 ▸ hx)
      | down _ _ _ _ =>
        exfalso
        simp only [List.map_cons, List.cons_prefix_cons] at hp
        exact hn (hp.1 ▸ hx)
      | next _ _ _ _ ht => exact trail_prefix r hr _ _ hs ht hp

theorem nearest_prefix {s t : List (Text × Bool)} (hs : Nearest s) (ht : Nearest t) (h : s <+: t) : s = t := by
  obtain ⟨z, rfl⟩ := h
  obtain ⟨up, n, rfl, _, _⟩ := hs
  obtain ⟨up', m, h, h1, _⟩ := ht
  cases List.eq_nil_or_concat z with
  | inl h => rw [h, List.append_nil]
  | inr h' =>
    obtain ⟨y, x, rfl⟩ := h'
    exfalso
    have h2 : (up ++ (n, true) :: y) ++ [x] = up' ++ [(m, true)] := by
      rw [← h]; simp
    have h3 := (List.append_inj' h2 rfl).1
    have := h1 (n, true) (by rw [← h3]; simp)
    cases this

/-- **C91 (apart).** No project is inside another one. -/
theorem c91_apart (top : Path) (gemfile : Bool) (es : Entries) (hd : Distinct es) (p q : Path) (hp : p ∈ discover top gemfile es)
    (hq : q ∈ discover top gemfile es) (hne : p ≠ q) : Apart p q := by
  have key : ∀ p q, p ∈ discover top gemfile es → q ∈ discover top gemfile es → p ≠ q → ¬ p <+: q := by
    intro p q hp hq hne hpre
    rw [c91_projects] at hp hq
    rcases hp with ⟨h, hp⟩ | ⟨hg, s, hs, ns, rfl⟩
    · rcases hq with ⟨_, hq⟩ | ⟨hg, t, ht, nt, rfl⟩
      · exact hne (hp.trans hq.symm)
      · rcases h with h | h
        · rw [hg] at h; cases h
        · exact h t ht nt
    · rcases hq with ⟨h, _⟩ | ⟨_, t, ht, nt, rfl⟩
      · rcases h with h | h
        · rw [hg] at h; cases h
        · exact h s hs ns
      · rw [List.prefix_append_right_inj] at hpre
        exact hne (by rw [nearest_prefix ns nt (trail_prefix es hd s t hs ht hpre)])
  exact ⟨key p q hp hq hne, key q p hq hp (fun e => hne e.symm)⟩

/-! ### Configured roots -/

/-- **C91 (entries).** A path of names is an entry exactly when no name is `..`; one that begins with a slash or with `./` is not, nor is the empty text. -/
theorem c91_entry (ns : List Text) (h : ns ≠ []) (hn : ∀ n ∈ ns, n ≠ [] ∧ n ≠ ['.'] ∧ '/' ∉ n) :
    (plain (joinWith '/' ns) = some ns ↔ ['.', '.'] ∉ ns) ∧ plain ('/' :: joinWith '/' ns) = none ∧ plain ('.' :: '/' :: joinWith '/' ns) = none ∧
    plain [] = none := by
  obtain ⟨h1, h2, h3⟩ := RuntimeConfig.c90_names ns h hn
  unfold plain
  rw [h1, h2, h3]
  refine ⟨?_, rfl, rfl, rfl⟩
  have hne : joinWith '/' ns ≠ [] := by
    cases ns with
    | nil => exact absurd rfl h
    | cons n ns =>
      have := (hn n List.mem_cons_self).1
      cases n with
      | nil => exact absurd rfl this
      | cons c cs => cases ns <;> simp [joinWith]
  by_cases hdd : ['.', '.'] ∈ ns
  · simp [hdd]
  · simp [hdd, hne]

theorem places_iff (canon : Path → Option Path) (isDir : Path → Bool) (top : Path) : ∀ (es : List Text) (cs : List Path),
    places canon isDir top es = some cs ↔ es.map (place canon isDir top) = cs.map some
  | [], cs => by
    simp only [places, List.map_nil]
    cases cs <;> simp
  | e :: es, cs => by
    have ih := places_iff canon isDir top es
    simp only [places, List.map_cons]
    cases e1 : place canon isDir top e with
    | none => cases cs <;> simp
    | some c =>
      cases e2 : places canon isDir top es with
      | none =>
        simp only [reduceCtorEq, false_iff]
        intro h
        cases cs with
        | nil => simp at h
        | cons d cs =>
          simp only [List.map_cons, List.cons.injEq] at h
          rw [(ih cs).2 h.2] at e2; cases e2
      | some cs' =>
        have := (ih cs').1 e2
        simp only [this]
        cases cs with
        | nil => simp
        | cons d cs =>
          simp only [Option.some.injEq, List.cons.injEq, List.map_cons]
          refine and_congr_right fun _ => ⟨fun h => by rw [h], fun h => ?_⟩
          have := (ih cs).2 (this.trans h)
          rw [e2] at this
          injection this

theorem place_iff (canon : Path → Option Path) (isDir : Path → Bool) (top : Path) (e : Text) (c : Path) :
    place canon isDir top e = some c ↔ ∃ ns, plain e = some ns ∧ canon (top ++ ns) = some c ∧ isDir c = true ∧ top <+: c := by
  unfold place
  cases e1 : plain e with
  | none => simp
  | some ns =>
    simp only [Option.some.injEq]
    cases e2 : canon (top ++ ns) with
    | none => simp [e2]
    | some d =>
      simp only [List.isPrefixOf_iff_prefix]
      by_cases h : isDir d = true ∧ top <+: d
      · rw [if_pos h]
        constructor
        · intro hc; injection hc with hc; subst hc; exact ⟨ns, rfl, e2, h⟩
        · rintro ⟨_, rfl, h2, _⟩; rw [e2] at h2; exact h2
      · rw [if_neg h]
        simp only [reduceCtorEq, false_iff]
        rintro ⟨_, rfl, h2, h3⟩
        rw [e2] at h2; injection h2 with h2; subst h2
        exact h h3

/-- **C91 (configured roots).** Configured roots are used exactly when each is a directory inside the workspace and no two different ones are inside one
another; the result has each of them once, in order. Without configured roots the projects are discovered. -/
theorem c91_explicit (canon : Path → Option Path) (isDir : Path → Bool) (workspace : Path) (gemfile : Bool) (es : Entries) (roots : List Text)
    (h : roots ≠ []) (rs : List Path) : explicit canon isDir workspace gemfile es roots = some rs ↔
    ∃ top, canon workspace = some top ∧
      (∀ e ∈ roots, ∃ ns c, plain e = some ns ∧ canon (top ++ ns) = some c ∧ isDir c = true ∧ top <+: c ∧ c ∈ rs) ∧
      (∀ c ∈ rs, ∃ e ∈ roots, ∃ ns, plain e = some ns ∧ canon (top ++ ns) = some c) ∧
      rs.Pairwise (fun a b => pathLt a b = true) ∧ ∀ a ∈ rs, ∀ b ∈ rs, a ≠ b → Apart a b := by
  have hap : ∀ l : List Path, (∀ a ∈ l, ∀ b ∈ l, a <+: b → a = b) ↔ ∀ a ∈ l, ∀ b ∈ l, a ≠ b → Apart a b := by
    intro l
    constructor
    · intro g a ha b hb hne
      exact ⟨fun hp => hne (g a ha b hb hp), fun hp => hne (g b hb a ha hp).symm⟩
    · intro g a ha b hb hp
      by_cases hne : a = b
      · exact hne
      · exact absurd hp (g a ha b hb hne).1
  unfold explicit
  rw [if_neg h]
  cases e1 : canon workspace with
  | none => simp
  | some top =>
    simp only [Option.some.injEq, exists_eq_left']
    constructor
    · intro hx
      cases e2 : places canon isDir top roots with
      | none => rw [e2] at hx; cases hx
      | some cs =>
        rw [e2] at hx
        simp only at hx
        by_cases ho : overlapping (dedup (sort cs)) = true
        · rw [if_pos ho] at hx; cases hx
        · rw [if_neg ho] at hx
          injection hx with hx
          subst hx
          have hpl := (places_iff canon isDir top roots cs).1 e2
          have hs := result_sorted cs
          refine ⟨?_, ?_, hs, (hap _).1 ((overlapping_iff _ hs).1 (by simpa using ho))⟩
          · intro e he
            have : place canon isDir top e ∈ cs.map some := by rw [← hpl]; exact List.mem_map_of_mem he
            obtain ⟨c, hc, he'⟩ := List.mem_map.1 this
            obtain ⟨ns, g1, g2, g3, g4⟩ := (place_iff canon isDir top e c).1 he'.symm
            exact ⟨ns, c, g1, g2, g3, g4, (result_mem cs c).2 hc⟩
          · intro c hc
            have : some c ∈ roots.map (place canon isDir top) := by rw [hpl]; exact List.mem_map_of_mem ((result_mem cs c).1 hc)
            obtain ⟨e, he, he'⟩ := List.mem_map.1 this
            obtain ⟨ns, g1, g2, _⟩ := (place_iff canon isDir top e c).1 he'
            exact ⟨e, he, ns, g1, g2⟩
    · rintro ⟨h1, h2, h3, h4⟩
      have hex : ∃ cs, places canon isDir top roots = some cs := by
        clear h h2
        induction roots with
        | nil => exact ⟨[], rfl⟩
        | cons e es ih =>
          obtain ⟨cs, hcs⟩ := ih (fun e' he' => h1 e' (List.mem_cons_of_mem _ he'))
          obtain ⟨ns, c, g1, g2, g3, g4, _⟩ := h1 e List.mem_cons_self
          have := (place_iff canon isDir top e c).2 ⟨ns, g1, g2, g3, g4⟩
          exact ⟨c :: cs, by simp only [places, this, hcs]⟩
      obtain ⟨cs, e2⟩ := hex
      have hpl := (places_iff canon isDir top roots cs).1 e2
      have hmem : ∀ c, c ∈ dedup (sort cs) ↔ c ∈ rs := by
        intro c
        rw [result_mem]
        constructor
        · intro hc
          have : some c ∈ roots.map (place canon isDir top) := by rw [hpl]; exact List.mem_map_of_mem hc
          obtain ⟨e, he, he'⟩ := List.mem_map.1 this
          obtain ⟨ns, g1, g2, _⟩ := (place_iff canon isDir top e c).1 he'
          obtain ⟨ns', c', g1', g2', _, _, hc'⟩ := h1 e he
          rw [g1] at g1'; injection g1' with g1'; subst g1'
          rw [g2] at g2'; injection g2' with g2'; subst g2'
          exact hc'
        · intro hc
          obtain ⟨e, he, ns, g1, g2⟩ := h2 c hc
          obtain ⟨ns', c', g1', g2', g3, g4, _⟩ := h1 e he
          rw [g1] at g1'; injection g1' with g1'; subst g1'
          rw [g2] at g2'; injection g2' with g2'; subst g2'
          have hp := (place_iff canon isDir top e c).2 ⟨ns, g1, g2, g3, g4⟩
          have : some c ∈ cs.map some := by rw [← hpl, ← hp]; exact List.mem_map_of_mem he
          obtain ⟨d, hd, hd'⟩ := List.mem_map.1 this
          injection hd' with hd'
          exact hd' ▸ hd
      have hs := result_sorted cs
      have heq : dedup (sort cs) = rs := by
        have hnd : ∀ l : List Path, l.Pairwise (fun a b => pathLt a b = true) → l.Nodup := by
          intro l hl
          exact hl.imp (fun {a b} hab e => by subst e; rw [path_strict.irrefl] at hab; cases hab)
        have hperm : (dedup (sort cs)).Perm rs := (List.perm_ext_iff_of_nodup (hnd _ hs) (hnd _ h3)).2 hmem
        exact List.Perm.eq_of_pairwise (fun a b _ _ hab hba => by
          rw [path_strict.asymm _ _ hab] at hba; cases hba) hs h3 hperm
      rw [e2]
      simp only
      rw [heq]
      have : overlapping rs = false := (overlapping_iff rs h3).2 ((hap rs).2 h4)
      rw [this]
      rfl

/-- Without configured roots the projects are discovered. -/
theorem c91_default (canon : Path → Option Path) (isDir : Path → Bool) (workspace : Path) (gemfile : Bool) (es : Entries) :
    explicit canon isDir workspace gemfile es [] = some (discover workspace gemfile es) := rfl

def sample : Entries :=
  .cons (txt "server") true true (.cons (txt "demo") true true .nil .nil)
    (.cons (txt "vendor") true false (.cons (txt "x") true true .nil .nil)
      (.cons (txt "apps") true false (.cons (txt "admin") true true .nil .nil) (.cons (txt "link") false true .nil .nil)))

/-- A workspace with two projects, and configured roots that are inside one another with a third one between them by name. -/
theorem c91_example : discover [txt "w"] false sample = [[txt "w", txt "apps", txt "admin"], [txt "w", txt "server"]] ∧
    discover [txt "w"] true sample = [[txt "w"]] ∧
    explicit some (fun _ => true) [txt "w"] true sample [txt "b", txt "a"] = some [[txt "w", txt "a"], [txt "w", txt "b"]] ∧
    explicit some (fun _ => true) [txt "w"] true sample [txt "a/c", txt "a.b", txt "a"] = none ∧
    explicit some (fun _ => true) [txt "w"] true sample [txt "../a"] = none := by
  refine ⟨?_, ?_, ?_, ?_, ?_⟩ <;> decide +kernel

end Verif.ProjectRoots
