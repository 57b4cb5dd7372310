import Verif.Spec.Runtimes
import Verif.Lemmas.Sort
/-!
C85: which runtimes are recognised and which one a project selects.
-/
namespace Verif.Runtimes
open Verif.JavaSource (Text joinWith)

/-! ### Splitting -/

theorem split_ne (sep : Char) (t : Text) : split sep t ≠ [] := by
  cases t with
  | nil => simp [split]
  | cons c cs =>
    simp only [split]
    split
    · simp
    · split <;> simp

theorem split_join (sep : Char) : ∀ t : Text, joinWith sep (split sep t) = t
  | [] => rfl
  | c :: cs => by
    have ih := split_join sep cs
    simp only [split]
    split
    · rename_i h
      cases e : split sep cs with
      | nil => exact absurd e (split_ne sep cs)
      | cons s ss => rw [e] at ih; simp only [joinWith, ih, h, List.nil_append]
    · cases e : split sep cs with
      | nil => exact absurd e (split_ne sep cs)
      | cons s ss =>
        rw [e] at ih
        cases ss with
        | nil => simp only [joinWith] at ih ⊢; rw [ih]
        | cons u us => simp only [joinWith, List.cons_append] at ih ⊢; rw [ih]

theorem split_parts (sep : Char) : ∀ (t : Text), ∀ p ∈ split sep t, sep ∉ p ∧ ∀ c ∈ p, c ∈ t
  | [], p, h => by
    simp only [split, List.mem_singleton] at h
    subst h
    simp
  | c :: cs, p, h => by
    have ih := split_parts sep cs
    simp only [split] at h
    split at h
    · rcases List.mem_cons.1 h with rfl | h
      · simp
      · exact ⟨(ih p h).1, fun x hx => List.mem_cons_of_mem _ ((ih p h).2 x hx)⟩
    · rename_i hc
      cases e : split sep cs with
      | nil => exact absurd e (split_ne sep cs)
      | cons s ss =>
        rw [e] at h ih
        rcases List.mem_cons.1 h with rfl | h
        · have := ih s List.mem_cons_self
          refine ⟨?_, fun x hx => ?_⟩
          · intro hm
            rcases List.mem_cons.1 hm with hm | hm
            · exact hc hm.symm
            · exact this.1 hm
          · rcases List.mem_cons.1 hx with rfl | hx
            · exact List.mem_cons_self
            · exact List.mem_cons_of_mem _ (this.2 x hx)
        · have := ih p (List.mem_cons_of_mem _ h)
          exact ⟨this.1, fun x hx => List.mem_cons_of_mem _ (this.2 x hx)⟩

theorem split_plain (sep : Char) : ∀ t : Text, sep ∉ t → split sep t = [t]
  | [], _ => rfl
  | c :: cs, h => by
    have hc : c ≠ sep := fun e => h (by rw [e]; exact List.mem_cons_self)
    simp only [split, if_neg hc, split_plain sep cs (fun e => h (List.mem_cons_of_mem _ e))]

theorem split_cons (sep : Char) : ∀ (t u : Text), sep ∉ t → split sep (t ++ sep :: u) = t :: split sep u
  | [], u, _ => by simp only [List.nil_append, split, if_true]
  | c :: cs, u, h => by
    have hc : c ≠ sep := fun e => h (by rw [e]; exact List.mem_cons_self)
    have ih := split_cons sep cs u (fun e => h (List.mem_cons_of_mem _ e))
    simp only [List.cons_append, split, if_neg hc, ih]

theorem split_of_join (sep : Char) : ∀ cs : List Text, cs ≠ [] → (∀ p ∈ cs, sep ∉ p) → split sep (joinWith sep cs) = cs
  | [], h, _ => absurd rfl h
  | [t], _, h => split_plain sep t (h t List.mem_cons_self)
  | t :: u :: ts, _, h => by
    simp only [joinWith]
    rw [split_cons sep _ _ (h t List.mem_cons_self),
      split_of_join sep (u :: ts) (by simp) (fun p hp => h p (List.mem_cons_of_mem _ hp))]

theorem strip_iff : ∀ (p t r : Text), strip p t = some r ↔ t = p ++ r
  | [], t, r => by simp [strip]
  | a :: p, [], r => by simp [strip]
  | a :: p, c :: t, r => by
    simp only [strip]
    by_cases h : a = c
    · rw [if_pos h, strip_iff p t r, h]; simp
    · rw [if_neg h]
      simp only [List.cons_append, List.cons.injEq, reduceCtorEq, false_iff, not_and]
      exact fun e => absurd e.symm h

theorem strip_none (p t : Text) : strip p t = none ↔ ∀ r, t ≠ p ++ r := by
  constructor
  · intro h r e
    rw [(strip_iff p t r).2 e] at h
    cases h
  · intro h
    cases e : strip p t with
    | none => rfl
    | some r => exact absurd ((strip_iff p t r).1 e) (h r)

/-! ### Numbers -/

theorem number_iff (t : Text) (n : Nat) : number t = some n ↔ Num t ∧ n = value t := by
  unfold number Num value
  split
  · rename_i h
    simp only [reduceCtorEq, false_iff, not_and]
    rintro ⟨h1, h2, h3⟩
    rcases h with h | h | h
    · exact absurd h h1
    · have : t.all Char.isDigit = true := List.all_eq_true.2 h2
      rw [this] at h; cases h
    · omega
  · rename_i h
    simp only [not_or] at h
    have h2 : t.all Char.isDigit = true := by
      cases e : t.all Char.isDigit with
      | true => rfl
      | false => exact absurd e h.2.1
    constructor
    · intro e
      injection e with e
      exact ⟨⟨h.1, List.all_eq_true.1 h2, by omega⟩, e.symm⟩
    · rintro ⟨_, e⟩; rw [e]

theorem numbers_iff : ∀ (ts : List Text) (ns : List Nat), numbers ts = some ns ↔ (∀ t ∈ ts, Num t) ∧ ns = ts.map value
  | [], ns => by simp [numbers, eq_comm]
  | t :: ts, ns => by
    have ih := numbers_iff ts
    simp only [numbers]
    cases e1 : number t with
    | none =>
      simp only [reduceCtorEq, List.mem_cons, forall_eq_or_imp, false_iff, not_and]
      intro h
      rw [(number_iff t (value t)).2 ⟨h.1, rfl⟩] at e1
      cases e1
    | some n =>
      obtain ⟨h1, h2⟩ := (number_iff t n).1 e1
      cases e2 : numbers ts with
      | none =>
        simp only [reduceCtorEq, List.mem_cons, forall_eq_or_imp, false_iff, not_and]
        intro h
        rw [(ih (ts.map value)).2 ⟨h.2, rfl⟩] at e2
        cases e2
      | some ms =>
        obtain ⟨h3, h4⟩ := (ih ms).1 e2
        simp only [Option.some.injEq, List.mem_cons, forall_eq_or_imp, List.map_cons, h2, h4]
        exact ⟨fun e => ⟨⟨h1, h3⟩, e.symm⟩, fun e => e.2.symm⟩

theorem num_nodot {t : Text} (h : Num t) : '.' ∉ t := by
  intro hm
  have := h.2.1 _ hm
  revert this; decide

theorem num_digits (n : Nat) (h : n < 65536) : Num (Nat.toDigits 10 n) ∧ value (Nat.toDigits 10 n) = n := by
  have hv : value (Nat.toDigits 10 n) = n := Nat.ofDigitChars_ten_toDigits
  refine ⟨⟨?_, fun c hc => Nat.isDigit_of_mem_toDigits (by omega) (by omega) hc, by rw [hv]; exact h⟩, hv⟩
  exact Nat.toDigits_ne_nil

theorem dotted_split {k : Nat} (hk : 1 ≤ k) (v : Text) : Dotted k v ↔ k ≤ (split '.' v).length ∧ ∀ c ∈ split '.' v, Num c := by
  constructor
  · rintro ⟨cs, h1, h2, rfl⟩
    rw [split_of_join '.' cs (by rintro rfl; simp at h1; omega) (fun p hp => num_nodot (h2 p hp))]
    exact ⟨h1, h2⟩
  · rintro ⟨h1, h2⟩
    exact ⟨split '.' v, h1, h2, (split_join '.' v).symm⟩

theorem dotted_head {k : Nat} (hk : 1 ≤ k) {v : Text} (h : Dotted k v) : ∃ c r, v = c :: r ∧ c.isDigit = true := by
  obtain ⟨cs, h1, h2, rfl⟩ := h
  cases cs with
  | nil => simp at h1; omega
  | cons t ts =>
    obtain ⟨h3, h4, _⟩ := h2 t List.mem_cons_self
    cases t with
    | nil => exact absurd rfl h3
    | cons c t =>
      cases ts with
      | nil => exact ⟨c, t, rfl, h4 c List.mem_cons_self⟩
      | cons u us => exact ⟨c, t ++ '.' :: joinWith '.' (u :: us), rfl, h4 c List.mem_cons_self⟩

theorem dotted_chars {k : Nat} {v : Text} (h : Dotted k v) : ∀ c ∈ v, c.isDigit = true ∨ c = '.' := by
  obtain ⟨cs, hk, h2, rfl⟩ := h
  clear hk
  induction cs with
  | nil => intro c hc; cases hc
  | cons t ts ih =>
    have ih := ih (fun c hc => h2 c (List.mem_cons_of_mem _ hc))
    have ht := (h2 t List.mem_cons_self).2.1
    intro c hc
    cases ts with
    | nil => exact .inl (ht c hc)
    | cons u us =>
      simp only [joinWith, List.mem_append, List.mem_cons] at hc
      rcases hc with hc | hc | hc
      · exact .inl (ht c hc)
      · exact .inr hc
      · exact ih c hc

/-- **C85 (versions of JRuby).** A version is read exactly when it is made of at least two numbers below 65536 with dots between them, with or
without `jruby-` before them. -/
theorem c85_version (s : Text) (v : List Nat) : parseVersion s = some v ↔
    ∃ cs : List Text, 2 ≤ cs.length ∧ (∀ c ∈ cs, Num c) ∧ v = cs.map value ∧ (s = joinWith '.' cs ∨ s = tJrubyDash ++ joinWith '.' cs) := by
  have key : ∀ t : Text, (∃ ns, numbers (split '.' t) = some ns ∧ 2 ≤ ns.length ∧ ns = v) ↔
      ∃ cs : List Text, 2 ≤ cs.length ∧ (∀ c ∈ cs, Num c) ∧ v = cs.map value ∧ t = joinWith '.' cs := by
    intro t
    constructor
    · rintro ⟨ns, h1, h2, rfl⟩
      obtain ⟨h3, h4⟩ := (numbers_iff _ _).1 h1
      refine ⟨split '.' t, ?_, h3, h4, (split_join '.' t).symm⟩
      rw [h4, List.length_map] at h2
      exact h2
    · rintro ⟨cs, h1, h2, h3, rfl⟩
      rw [split_of_join '.' cs (by rintro rfl; simp at h1) (fun p hp => num_nodot (h2 p hp))]
      exact ⟨_, (numbers_iff _ _).2 ⟨h2, rfl⟩, by rw [List.length_map]; exact h1, h3.symm⟩
  have hp : ∀ t : Text, (match numbers (split '.' t) with
      | some ns => if ns.length < 2 then none else some ns
      | none => none) = some v ↔ ∃ ns, numbers (split '.' t) = some ns ∧ 2 ≤ ns.length ∧ ns = v := by
    intro t
    cases numbers (split '.' t) with
    | none => simp
    | some ns =>
      simp only [Option.some.injEq, exists_eq_left']
      by_cases h : ns.length < 2
      · rw [if_pos h]; simp; omega
      · rw [if_neg h]; simp; omega
  refine Iff.trans (hp ((strip tJrubyDash s).getD s)) ?_
  rw [key]
  constructor
  · rintro ⟨cs, h1, h2, h3, h4⟩
    refine ⟨cs, h1, h2, h3, ?_⟩
    cases e : strip tJrubyDash s with
    | none => rw [e] at h4; exact .inl h4
    | some r =>
      rw [e] at h4
      have := (strip_iff _ _ _).1 e
      exact .inr (by rw [this, show r = joinWith '.' cs from h4])
  · rintro ⟨cs, h1, h2, h3, h4⟩
    refine ⟨cs, h1, h2, h3, ?_⟩
    rcases h4 with rfl | rfl
    · have : strip tJrubyDash (joinWith '.' cs) = none := by
        rw [strip_none]
        intro r e
        obtain ⟨c, r', hc, hd⟩ := dotted_head (k := 2) (by omega) ⟨cs, h1, h2, rfl⟩
        rw [hc] at e
        injection e with e _
        rw [e] at hd
        revert hd; decide
      rw [this]; rfl
    · rw [(strip_iff _ _ _).2 rfl]; rfl

/-- **C85 (versions as texts).** A version that is shown is read back. -/
theorem c85_display (v : List Nat) (h2 : 2 ≤ v.length) (h : ∀ n ∈ v, n < 65536) : Dotted 2 (display v) ∧ parseVersion (display v) = some v := by
  have hn : ∀ c ∈ v.map (Nat.toDigits 10), Num c := by
    intro c hc
    obtain ⟨n, hn, rfl⟩ := List.mem_map.1 hc
    exact (num_digits n (h n hn)).1
  refine ⟨⟨_, by rw [List.length_map]; exact h2, hn, rfl⟩, (c85_version _ _).2 ⟨_, by rw [List.length_map]; exact h2, hn, ?_, .inl rfl⟩⟩
  rw [List.map_map]
  symm
  calc v.map (value ∘ Nat.toDigits 10) = v.map id := List.map_congr_left (fun n hn => (num_digits n (h n hn)).2)
    _ = v := List.map_id v

/-- **C85 (series).** A series is found exactly for its family, different series are compatible with different Rubies, and a later series with
a later Ruby. -/
theorem c85_series : (∀ p s, forFamily p = some s ↔ s.family = p) ∧ (∀ s t : Series, s.compat = t.compat → s = t) ∧
    ∀ s t : Series, pairLt s.family t.family ↔ pairLt s.compat t.compat := by
  refine ⟨fun p s => ⟨fun h => ?_, fun h => ?_⟩, fun s t h => ?_, fun s t => ?_⟩
  · unfold forFamily at h
    split at h <;> first | (injection h with h; subst h; rfl) | cases h
  · subst h; cases s <;> rfl
  · cases s <;> cases t <;> first | rfl | (exact absurd h (by decide))
  · unfold pairLt; cases s <;> cases t <;> decide

/-! ### Cleaning -/

theorem takeWhile_cut {p : Char → Bool} : ∀ (x y : Text), (∀ c ∈ y, p c = false) → (x ++ y).takeWhile p = x.takeWhile p
  | [], [], _ => rfl
  | [], c :: y, h => by rw [List.nil_append, List.takeWhile_cons_of_neg (by rw [h c List.mem_cons_self]; decide)]; rfl
  | c :: x, y, h => by
    rw [List.cons_append]
    by_cases hc : p c = true
    · rw [List.takeWhile_cons_of_pos hc, List.takeWhile_cons_of_pos hc, takeWhile_cut x y h]
    · rw [List.takeWhile_cons_of_neg hc, List.takeWhile_cons_of_neg hc]

theorem mem_takeWhile {p : Char → Bool} : ∀ (l : Text), ∀ c ∈ l.takeWhile p, p c = true
  | [], c, h => by cases h
  | d :: l, c, h => by
    by_cases hd : p d = true
    · rw [List.takeWhile_cons_of_pos hd] at h
      rcases List.mem_cons.1 h with rfl | h
      · exact hd
      · exact mem_takeWhile l c h
    · rw [List.takeWhile_cons_of_neg hd] at h; cases h

theorem takeWhile_end {p q : Char → Bool} (hpq : ∀ c, q c = true → p c = false) (w : Text) :
    ((w.reverse.dropWhile q).reverse).takeWhile p = w.takeWhile p := by
  have e : w = (w.reverse.dropWhile q).reverse ++ (w.reverse.takeWhile q).reverse := by
    rw [← List.reverse_append, List.takeWhile_append_dropWhile, List.reverse_reverse]
  conv => rhs; rw [e]
  rw [takeWhile_cut]
  intro c hc
  exact hpq c (mem_takeWhile _ c (List.mem_reverse.1 hc))

theorem clean_iff (s v : Text) : cleanVersion s = some v ↔
    v = (s.dropWhile (fun c => !versionChar c)).takeWhile versionChar ∧ Dotted 1 v := by
  unfold cleanVersion
  rw [takeWhile_end (fun c hc => by simpa using hc)]
  generalize (s.dropWhile (fun c => !versionChar c)).takeWhile versionChar = w
  have hne : ∀ w : Text, (w = [] ∨ (split '.' w).any (fun c => (number c).isNone) = true) ↔ ¬ Dotted 1 w := by
    intro w
    rw [dotted_split (by omega)]
    constructor
    · rintro (rfl | h) ⟨_, h2⟩
      · exact (h2 [] (by simp [split])).1 rfl
      · obtain ⟨c, hc, hn⟩ := List.any_eq_true.1 h
        rw [(number_iff c (value c)).2 ⟨h2 c hc, rfl⟩] at hn
        cases hn
    · intro h
      right
      rw [List.any_eq_true]
      apply Classical.byContradiction
      intro hall
      apply h
      refine ⟨?_, fun c hc => ?_⟩
      · cases e : split '.' w with
        | nil => exact absurd e (split_ne '.' w)
        | cons => simp
      · cases e : number c with
        | none => exact absurd ⟨c, hc, by rw [e]; rfl⟩ hall
        | some n => exact ((number_iff c n).1 e).1
  by_cases h : Dotted 1 w
  · rw [if_neg (fun e => (hne w).1 e h)]
    simp only [Option.some.injEq]
    exact ⟨fun e => ⟨e.symm, e ▸ h⟩, fun e => e.1.symm⟩
  · rw [if_pos ((hne w).2 h)]
    simp only [reduceCtorEq, false_iff, not_and]
    rintro rfl
    exact h

theorem dropWhile_skip {p : Char → Bool} : ∀ (a b : Text), (∀ c ∈ a, p c = true) → (a ++ b).dropWhile p = b.dropWhile p
  | [], b, _ => rfl
  | c :: a, b, h => by
    rw [List.cons_append, List.dropWhile_cons_of_pos (h c List.mem_cons_self), dropWhile_skip a b (fun d hd => h d (List.mem_cons_of_mem _ hd))]

theorem takeWhile_take {p : Char → Bool} : ∀ (a b : Text), (∀ c ∈ a, p c = true) → (a ++ b).takeWhile p = a ++ b.takeWhile p
  | [], b, _ => rfl
  | c :: a, b, h => by
    rw [List.cons_append, List.takeWhile_cons_of_pos (h c List.mem_cons_self), takeWhile_take a b (fun d hd => h d (List.mem_cons_of_mem _ hd))]
    rfl

/-- **C85 (cleaning).** The version in a text is its first run of digits and dots, when that is made of numbers with dots between them. -/
theorem c85_clean (s v : Text) : cleanVersion s = some v ↔
    Dotted 1 v ∧ ∃ a b, s = a ++ v ++ b ∧ (∀ c ∈ a, c.isDigit = false ∧ c ≠ '.') ∧ ∀ c r, b = c :: r → c.isDigit = false ∧ c ≠ '.' := by
  rw [clean_iff]
  have hV : ∀ c, versionChar c = false ↔ c.isDigit = false ∧ c ≠ '.' := by
    intro c; unfold versionChar; simp
  constructor
  · rintro ⟨rfl, hd⟩
    refine ⟨hd, s.takeWhile (fun c => !versionChar c), (s.dropWhile (fun c => !versionChar c)).dropWhile versionChar, ?_, ?_, ?_⟩
    · rw [List.append_assoc, List.takeWhile_append_dropWhile, List.takeWhile_append_dropWhile]
    · intro c hc
      have := mem_takeWhile _ c hc
      exact (hV c).1 (by simpa using this)
    · intro c r e
      have := List.head?_dropWhile_not (p := versionChar) (s.dropWhile (fun c => !versionChar c))
      rw [e] at this
      simp only [List.head?_cons, Option.all_some] at this
      exact (hV c).1 (by simpa using this)
  · rintro ⟨hd, a, b, rfl, ha, hb⟩
    refine ⟨?_, hd⟩
    obtain ⟨c, r, hv, hc⟩ := dotted_head (by omega) hd
    have hall : ∀ c ∈ v, versionChar c = true := by
      intro c hc
      unfold versionChar
      rcases dotted_chars hd c hc with h | h <;> simp [h]
    rw [List.append_assoc, dropWhile_skip a (v ++ b) (fun c hc => by rw [(hV c).2 (ha c hc)]; rfl)]
    have : (v ++ b).dropWhile (fun c => !versionChar c) = v ++ b := by
      rw [hv, List.cons_append, List.dropWhile_cons_of_neg]
      rw [hall c (by rw [hv]; exact List.mem_cons_self)]; decide
    rw [this, takeWhile_take v b hall]
    cases b with
    | nil => simp
    | cons x y => rw [List.takeWhile_cons_of_neg (by rw [(hV x).2 (hb x y rfl)]; decide)]; simp

theorem clean_self (v : Text) : cleanVersion v = some v ↔ Dotted 1 v := by
  rw [c85_clean]
  constructor
  · exact fun h => h.1
  · intro h
    exact ⟨h, [], [], by simp, (fun c hc => by cases hc), (fun c r e => by cases e)⟩

theorem family_iff (v : Text) (h : Dotted 1 v) : versionFamily v ≠ none ↔ Dotted 2 v := by
  obtain ⟨_, h2⟩ := (dotted_split (by omega) v).1 h
  rw [dotted_split (by omega)]
  unfold versionFamily
  cases e : split '.' v with
  | nil => exact absurd e (split_ne '.' v)
  | cons a as =>
    cases as with
    | nil => simp
    | cons b bs =>
      rw [e] at h2
      simp only [ne_eq, reduceCtorEq, not_false_eq_true, true_iff]
      exact ⟨by simp, h2⟩

/-- **C85 (markers).** A marker is read exactly when, trimmed, it is at least two numbers with dots between them after `jruby-`, `truffleruby-`,
`ruby-` or nothing. -/
theorem c85_marker (S : Space) (m : Text) (i : Impl) (v : Text) : parseMarker S m = some (i, v) ↔
    Dotted 2 v ∧ (trim S m = i.dash ++ v ∨ (i = .mri ∧ trim S m = v)) := by
  have hstep : ∀ j w, (if cleanVersion w ≠ some w ∨ versionFamily w = none then none else some (j, w)) = some (i, v) ↔
      Dotted 2 v ∧ j = i ∧ w = v := by
    intro j w
    by_cases hd : Dotted 2 w
    · have h1 : Dotted 1 w := by obtain ⟨cs, h, h'⟩ := hd; exact ⟨cs, by omega, h'⟩
      rw [if_neg]
      · simp only [Option.some.injEq, Prod.mk.injEq]
        exact ⟨fun e => ⟨e.2 ▸ hd, e⟩, fun e => e.2⟩
      · rintro (h | h)
        · exact h ((clean_self w).2 h1)
        · exact (family_iff w h1).2 hd h
    · rw [if_pos]
      · simp only [reduceCtorEq, false_iff, not_and]
        rintro h _ rfl
        exact hd h
      · by_cases h1 : cleanVersion w = some w
        · right
          apply Classical.byContradiction
          intro hn
          exact hd ((family_iff w ((clean_self w).1 h1)).1 hn)
        · exact .inl h1
  have hhead : ∀ p ∈ [tJrubyDash, tTruffleDash, tRubyDash], Dotted 2 v → ∀ r, v ≠ p ++ r := by
    intro p hp hd r e
    obtain ⟨c, r', hc, hdig⟩ := dotted_head (by omega) hd
    rw [hc] at e
    simp only [List.mem_cons, List.not_mem_nil, or_false] at hp
    rcases hp with rfl | rfl | rfl <;> (injection e with e _; rw [e] at hdig; revert hdig; decide)
  have hcross : ∀ a b : Text, (a.head? ≠ b.head?) → a ≠ [] → b ≠ [] → ∀ x y, a ++ x ≠ b ++ y := by
    intro a b h ha hb x y e
    cases a with
    | nil => exact ha rfl
    | cons c a =>
      cases b with
      | nil => exact hb rfl
      | cons d b => injection e with e _; rw [e] at h; exact h rfl
  unfold parseMarker
  generalize trim S m = t
  unfold markerParts
  cases e1 : strip tJrubyDash t with
  | some w =>
    have ht := (strip_iff _ _ _).1 e1
    simp only
    rw [hstep, ht]
    constructor
    · rintro ⟨h, rfl, rfl⟩; exact ⟨h, .inl rfl⟩
    · rintro ⟨h, h2⟩
      refine ⟨h, ?_⟩
      rcases h2 with h2 | ⟨_, h2⟩
      · cases i with
        | jruby => exact ⟨rfl, List.append_cancel_left h2⟩
        | mri => exact absurd h2 (hcross _ _ (by decide) (by decide) (by decide) _ _)
        | truffleruby => exact absurd h2 (hcross _ _ (by decide) (by decide) (by decide) _ _)
      · exact absurd h2.symm (hhead _ (by simp) h _)
  | none =>
    have n1 := (strip_none _ _).1 e1
    cases e2 : strip tTruffleDash t with
    | some w =>
      have ht := (strip_iff _ _ _).1 e2
      simp only
      rw [hstep, ht]
      constructor
      · rintro ⟨h, rfl, rfl⟩; exact ⟨h, .inl rfl⟩
      · rintro ⟨h, h2⟩
        refine ⟨h, ?_⟩
        rcases h2 with h2 | ⟨_, h2⟩
        · cases i with
          | truffleruby => exact ⟨rfl, List.append_cancel_left h2⟩
          | mri => exact absurd h2 (hcross _ _ (by decide) (by decide) (by decide) _ _)
          | jruby => exact absurd h2 (hcross _ _ (by decide) (by decide) (by decide) _ _)
        · exact absurd h2.symm (hhead _ (by simp) h _)
    | none =>
      have n2 := (strip_none _ _).1 e2
      cases e3 : strip tRubyDash t with
      | some w =>
        have ht := (strip_iff _ _ _).1 e3
        simp only
        rw [hstep, ht]
        constructor
        · rintro ⟨h, rfl, rfl⟩; exact ⟨h, .inl rfl⟩
        · rintro ⟨h, h2⟩
          refine ⟨h, ?_⟩
          rcases h2 with h2 | ⟨_, h2⟩
          · cases i with
            | mri => exact ⟨rfl, List.append_cancel_left h2⟩
            | truffleruby => exact absurd h2 (hcross _ _ (by decide) (by decide) (by decide) _ _)
            | jruby => exact absurd h2 (hcross _ _ (by decide) (by decide) (by decide) _ _)
          · exact absurd h2.symm (hhead _ (by simp) h _)
      | none =>
        have n3 := (strip_none _ _).1 e3
        have hno : ∀ i : Impl, t ≠ i.dash ++ v := by
          intro i; cases i
          · exact n3 v
          · exact n1 v
          · exact n2 v
        simp only
        cases t with
        | nil =>
          simp only [reduceCtorEq, false_iff, not_and]
          rintro h (h2 | ⟨_, h2⟩)
          · exact hno i h2
          · obtain ⟨c, r, hc, _⟩ := dotted_head (by omega) h
            rw [hc] at h2; cases h2
        | cons c cs =>
          simp only
          by_cases hc : c.isDigit = true
          · rw [if_pos hc]
            simp only
            rw [hstep]
            constructor
            · rintro ⟨h, rfl, h2⟩; exact ⟨h, .inr ⟨rfl, h2⟩⟩
            · rintro ⟨h, h2 | ⟨h2, h3⟩⟩
              · exact absurd h2 (hno i)
              · exact ⟨h, h2.symm, h3⟩
          · rw [if_neg hc]
            simp only [reduceCtorEq, false_iff, not_and]
            rintro h (h2 | ⟨_, h2⟩)
            · exact hno i h2
            · obtain ⟨d, r, hd, hdig⟩ := dotted_head (by omega) h
              rw [hd] at h2
              injection h2 with h2 _
              rw [h2] at hc
              exact hc hdig

theorem sorted_strict (l : List Runtime) (h : (l.map Runtime.exe).Nodup) :
    (stableSort (fun a b : Runtime => decide (a.exe ≤ b.exe)) l).Pairwise (fun a b => a.exe < b.exe) := by
  have h1 := stableSort_sorted (le := fun a b : Runtime => decide (a.exe ≤ b.exe)) ⟨fun a b => by simp only [decide_eq_true_eq]; omega,
    fun a b c => by simp only [decide_eq_true_eq]; omega⟩ l
  have h2 : ((stableSort (fun a b : Runtime => decide (a.exe ≤ b.exe)) l).map Runtime.exe).Nodup :=
    ((stableSort_perm l).map Runtime.exe).nodup_iff.2 h
  have h3 := List.pairwise_map.1 h2
  exact List.Pairwise.imp (fun {a b} hab => by
    have h4 := hab.1
    have h5 := hab.2
    simp only [decide_eq_true_eq] at h4
    omega) (List.Pairwise.and h1 h3)

/-! ### Selection -/

theorem filter_path (i : Impl) (v : Text) (rs : List Runtime) : (rs.filter (fits i v)).filter onPath =
    rs.filter (fun r => decide (r.impl = i ∧ r.engine = v ∧ r.source = .path)) := by
  rw [List.filter_filter]
  apply List.filter_congr
  intro r _
  unfold onPath fits
  rw [Bool.eq_iff_iff]
  simp only [Bool.and_eq_true, decide_eq_true_eq]
  exact ⟨fun h => ⟨h.2.1, h.2.2, h.1⟩, fun h => ⟨h.2.2, h.1, h.2.1⟩⟩

theorem filter_fits (i : Impl) (v : Text) (rs : List Runtime) : rs.filter (fits i v) = rs.filter (fun r => decide (r.impl = i ∧ r.engine = v)) := by
  apply List.filter_congr
  intro r _
  unfold fits
  rw [Bool.eq_iff_iff]
  simp only [Bool.and_eq_true, decide_eq_true_eq]

/-- The choice for a list of candidates. -/
theorem choose_cases (hits : List Runtime) : choose hits =
    match (if hits.filter onPath = [] then hits else hits.filter onPath) with
    | [] => .nothing
    | [r] => .one r
    | hs => .ambiguous (hs.map Runtime.exe) := by
  unfold choose
  cases e : hits.filter onPath with
  | nil =>
    rw [if_pos rfl]
    match hits with
    | [] => rfl
    | [r] => rfl
    | a :: b :: l => rfl
  | cons a l =>
    rw [if_neg (by simp)]
    match l with
    | [] => rfl
    | b :: l => rfl

theorem perm_candidates (i : Impl) (v : Text) (rs : List Runtime) (le : Runtime → Runtime → Bool) :
    (if (stableSort le (rs.filter (fits i v))).filter onPath = [] then stableSort le (rs.filter (fits i v))
      else (stableSort le (rs.filter (fits i v))).filter onPath).Perm (candidates i v rs) := by
  have hp : (stableSort le (rs.filter (fits i v))).Perm (rs.filter (fits i v)) := stableSort_perm _
  have hf := hp.filter onPath
  unfold candidates
  rw [← filter_path, ← filter_fits]
  by_cases h : (rs.filter (fits i v)).filter onPath = []
  · rw [if_pos h, if_pos (by rw [h] at hf; exact hf.eq_nil)]
    exact hp
  · rw [if_neg h, if_neg (by intro e; rw [e] at hf; exact h hf.symm.eq_nil)]
    exact hf

theorem system_none (S : Space) (m : Text) (h : trim S m = tSystem) : parseMarker S m = none := by
  cases e : parseMarker S m with
  | none => rfl
  | some p =>
    obtain ⟨i, v⟩ := p
    obtain ⟨hd, h2⟩ := (c85_marker S m i v).1 e
    rw [h] at h2
    rcases h2 with h2 | ⟨_, h2⟩
    · exfalso
      cases i <;> (injection h2 with h2 _; revert h2; decide)
    · obtain ⟨c, r, hc, hdig⟩ := dotted_head (by omega) hd
      rw [hc] at h2
      injection h2 with h2 _
      rw [← h2] at hdig
      exact absurd hdig (by decide)

/-- **C85 (selection).** A marker selects a runtime exactly when that runtime is the only candidate, it selects nothing exactly when it says
`system` or there is no candidate, and it is ambiguous exactly when there are several, which are named in the order of their paths. -/
theorem c85_select (S : Space) (m : Text) (rs : List Runtime) :
    (∀ r, select S m rs = .one r ↔ ∃ i v, parseMarker S m = some (i, v) ∧ candidates i v rs = [r]) ∧
    (select S m rs = .nothing ↔ trim S m = tSystem ∨ ∃ i v, parseMarker S m = some (i, v) ∧ candidates i v rs = []) ∧
    (select S m rs = .invalid ↔ trim S m ≠ tSystem ∧ parseMarker S m = none) ∧
    (∀ es, select S m rs = .ambiguous es → ∃ i v, parseMarker S m = some (i, v) ∧ 2 ≤ (candidates i v rs).length ∧
      es.Perm ((candidates i v rs).map Runtime.exe) ∧ es.Pairwise (· ≤ ·)) := by
  by_cases hs : trim S m = tSystem
  · have hn := system_none S m hs
    have : select S m rs = .nothing := by unfold select; rw [if_pos hs]
    rw [this, hn]
    simp [hs]
  · cases hm : parseMarker S m with
    | none =>
      have : select S m rs = .invalid := by unfold select; rw [if_neg hs, hm]
      rw [this]
      simp [hs]
    | some p =>
      obtain ⟨i, v⟩ := p
      have hsel : select S m rs = choose (stableSort (fun a b => decide (a.exe ≤ b.exe)) (rs.filter (fits i v))) := by
        unfold select; rw [if_neg hs, hm]
      have hp := perm_candidates i v rs (fun a b => decide (a.exe ≤ b.exe))
      have hsorted : (stableSort (fun a b : Runtime => decide (a.exe ≤ b.exe)) (rs.filter (fits i v))).Pairwise (fun a b => a.exe ≤ b.exe) := by
        have := stableSort_sorted (le := fun a b : Runtime => decide (a.exe ≤ b.exe)) ⟨fun a b => by simp only [decide_eq_true_eq]; omega,
          fun a b c => by simp only [decide_eq_true_eq]; omega⟩ (rs.filter (fits i v))
        exact List.Pairwise.imp (fun {a b} h => by simpa using h) this
      rw [hsel, choose_cases]
      have hsorted2 : (if (stableSort (fun a b : Runtime => decide (a.exe ≤ b.exe)) (rs.filter (fits i v))).filter onPath = [] then
          stableSort (fun a b => decide (a.exe ≤ b.exe)) (rs.filter (fits i v))
          else (stableSort (fun a b => decide (a.exe ≤ b.exe)) (rs.filter (fits i v))).filter onPath).Pairwise (fun a b => a.exe ≤ b.exe) := by
        split
        · exact hsorted
        · exact hsorted.filter _
      revert hp hsorted2
      generalize (if (stableSort (fun a b : Runtime => decide (a.exe ≤ b.exe)) (rs.filter (fits i v))).filter onPath = [] then
          stableSort (fun a b => decide (a.exe ≤ b.exe)) (rs.filter (fits i v))
          else (stableSort (fun a b => decide (a.exe ≤ b.exe)) (rs.filter (fits i v))).filter onPath) = hits
      intro hp hso
      match hits, hp, hso with
      | [], hp, _ =>
        have := hp.symm.eq_nil
        simp [hs, this]
      | [r], hp, _ =>
        have := hp.symm.eq_singleton
        simp [hs, this]
      | a :: b :: l, hp, hso =>
        have hl : 2 ≤ (candidates i v rs).length := by rw [← hp.length_eq]; simp
        refine ⟨fun r => ⟨(fun e => by cases e), ?_⟩, ⟨(fun e => by cases e), ?_⟩, ⟨(fun e => by cases e), ?_⟩, ?_⟩
        · rintro ⟨i', v', e, e2⟩
          simp only [Option.some.injEq, Prod.mk.injEq] at e
          obtain ⟨rfl, rfl⟩ := e
          rw [e2] at hl; simp at hl
        · rintro (h | ⟨i', v', e, e2⟩)
          · exact absurd h hs
          · simp only [Option.some.injEq, Prod.mk.injEq] at e
            obtain ⟨rfl, rfl⟩ := e
            rw [e2] at hl; simp at hl
        · rintro ⟨_, e⟩; cases e
        · intro es e
          injection e with e
          refine ⟨i, v, rfl, hl, ?_, ?_⟩
          · rw [← e]; exact hp.map _
          · rw [← e]; exact List.pairwise_map.2 hso

/-- **C85 (order of discovery).** The selection does not depend on the order in which the runtimes were discovered, when their executables
differ. -/
theorem c85_order (S : Space) (m : Text) (rs rs' : List Runtime) (h : rs.Perm rs') (hd : (rs.map Runtime.exe).Nodup) : select S m rs = select S m rs' := by
  unfold select
  split
  · rfl
  · cases parseMarker S m with
    | none => rfl
    | some p =>
      obtain ⟨i, v⟩ := p
      simp only
      congr 1
      have hp := h.filter (fits i v)
      have hn : ((rs.filter (fits i v)).map Runtime.exe).Nodup := hd.sublist (List.filter_sublist.map _)
      have s1 : (stableSort (fun a b : Runtime => decide (a.exe ≤ b.exe)) (rs.filter (fits i v))).Pairwise (fun a b => a.exe < b.exe) :=
        sorted_strict _ hn
      have s2 : (stableSort (fun a b : Runtime => decide (a.exe ≤ b.exe)) (rs'.filter (fits i v))).Pairwise (fun a b => a.exe < b.exe) :=
        sorted_strict _ ((hp.map _).nodup_iff.1 hn)
      refine List.Perm.eq_of_pairwise (le := fun a b => a.exe < b.exe) (fun a b _ _ h1 h2 => by omega) s1 s2 ?_
      exact (stableSort_perm _).trans (hp.trans (stableSort_perm _).symm)

/-! ### Recognised runtimes -/

theorem digit_visible (S : Space) (c : Char) (h : c.isDigit = true ∨ c = '.') : S.ws c = false := by
  rcases h with h | rfl
  · have := Char.isDigit_iff_toNat.1 h
    have h0 : '0'.toNat = 48 := rfl
    have h9 : '9'.toNat = 57 := rfl
    exact S.visible c (by omega) (by omega)
  · exact S.visible '.' (by decide) (by decide)

theorem dropWhile_none {p : Char → Bool} : ∀ (l : Text), (∀ c ∈ l, p c = false) → l.dropWhile p = l
  | [], _ => rfl
  | c :: l, h => List.dropWhile_cons_of_neg (by rw [h c List.mem_cons_self]; decide)

theorem trim_visible (S : Space) (t : Text) (h : ∀ c ∈ t, S.ws c = false) : trim S t = t := by
  unfold trim
  rw [dropWhile_none t h, dropWhile_none t.reverse (fun c hc => h c (List.mem_reverse.1 hc)), List.reverse_reverse]

theorem dash_visible (S : Space) (i : Impl) (v : Text) (h : Dotted 2 v) : trim S (i.dash ++ v) = i.dash ++ v := by
  apply trim_visible
  intro c hc
  rcases List.mem_append.1 hc with hc | hc
  · have : ∀ d ∈ i.dash, d.toNat < 128 ∧ 32 < d.toNat := by cases i <;> decide
    exact S.visible c (this c hc).1 (this c hc).2
  · exact digit_visible S c (dotted_chars h c hc)

theorem clean_family {s v f : Text} (h1 : cleanVersion s = some v) (h2 : versionFamily v = some f) : Dotted 2 v :=
  (family_iff v ((c85_clean s v).1 h1).1).1 (by rw [h2]; simp)

/-- The family of a version: its first two numbers. -/
theorem family_exact (v f : Text) : versionFamily v = some f ↔ ∃ a b cs, v = joinWith '.' (a :: b :: cs) ∧ '.' ∉ a ∧ '.' ∉ b ∧ (∀ c ∈ cs, '.' ∉ c) ∧
    f = a ++ '.' :: b := by
  unfold versionFamily
  constructor
  · intro h
    cases e : split '.' v with
    | nil => exact absurd e (split_ne '.' v)
    | cons a as =>
      cases as with
      | nil => rw [e] at h; cases h
      | cons b bs =>
        rw [e] at h
        injection h with h
        have hj := split_join '.' v
        have hpl := split_parts '.' v
        rw [e] at hj hpl
        exact ⟨a, b, bs, hj.symm, (hpl a (by simp)).1, (hpl b (by simp)).1, fun c hc => (hpl c (by simp [hc])).1, h.symm⟩
  · rintro ⟨a, b, cs, rfl, ha, hb, hcs, rfl⟩
    rw [split_of_join '.' (a :: b :: cs) (by simp) (by
      intro p hp
      rcases List.mem_cons.1 hp with rfl | hp
      · exact ha
      · rcases List.mem_cons.1 hp with rfl | hp
        · exact hb
        · exact hcs p hp)]

/-- **C85 (JRuby).** JRuby is recognised exactly when the second word of its output is a version and the output reports the Ruby it is
compatible with, which for a known series must be that of the series; it is supported exactly when its series is known. -/
theorem c85_jruby (S : Space) (out : Text) (e : Nat) (src : Source) (r : Runtime) : parseJruby S out e src = some r ↔
    ∃ w a b rest c, secondWord S out = some w ∧ parseVersion w = some (a :: b :: rest) ∧ reported out = some c ∧
      (∀ s : Series, s.family = (a, b) → s.compat = c) ∧
      r.impl = .jruby ∧ r.family = showPair (a, b) ∧ r.compat = showPair c ∧ r.engine = display (a :: b :: rest) ∧ r.exe = e ∧ r.source = src ∧
      (r.supported = true ↔ ∃ s : Series, s.family = (a, b)) := by
  have hser := c85_series.1
  unfold parseJruby
  constructor
  · intro h
    cases e1 : secondWord S out with
    | none => rw [e1] at h; cases h
    | some w =>
      rw [e1] at h
      simp only [Option.bind_some] at h
      cases e2 : parseVersion w with
      | none => rw [e2] at h; cases h
      | some v =>
        obtain ⟨cs, hl, _, hv, _⟩ := (c85_version w v).1 e2
        match v, hv with
        | [], hv => rw [← List.length_map (f := value), ← hv] at hl; simp at hl
        | [_], hv => rw [← List.length_map (f := value), ← hv] at hl; simp at hl
        | a :: b :: rest, _ =>
          rw [e2] at h
          cases e3 : reported out with
          | none => rw [e3] at h; cases h
          | some c =>
            rw [e3] at h
            simp only at h
            refine ⟨w, a, b, rest, c, rfl, e2, rfl, ?_⟩
            cases e4 : forFamily (a, b) with
            | none =>
              rw [e4] at h
              injection h with h
              subst h
              have hno : ∀ s : Series, s.family ≠ (a, b) := by
                intro s hs
                rw [(hser _ s).2 hs] at e4; cases e4
              refine ⟨fun s hs => absurd hs (hno s), rfl, rfl, rfl, rfl, rfl, rfl, ?_⟩
              simp only [Bool.false_eq_true, false_iff, not_exists]
              exact hno
            | some s =>
              rw [e4] at h
              simp only at h
              have hs := (hser _ s).1 e4
              by_cases hc : c ≠ s.compat
              · rw [if_pos hc] at h; cases h
              · rw [if_neg hc] at h
                injection h with h
                subst h
                have hc : c = s.compat := Classical.not_not.1 hc
                refine ⟨?_, rfl, by rw [hs], by rw [hc], rfl, rfl, rfl, ?_⟩
                · intro s' hs'
                  have := (hser _ s').2 hs'
                  rw [e4] at this
                  injection this with this
                  rw [hc, this]
                · exact ⟨fun _ => ⟨s, hs⟩, fun _ => rfl⟩
  · rintro ⟨w, a, b, rest, c, h1, h2, h3, h4, r1, r2, r3, r4, r5, r6, r7⟩
    obtain ⟨i, f, k, en, ex, so, su⟩ := r
    dsimp only at r1 r2 r3 r4 r5 r6 r7
    subst r1 r2 r3 r4 r5 r6
    rw [h1]
    simp only [Option.bind_some, h2, h3]
    cases e4 : forFamily (a, b) with
    | none =>
      have : su = false := by
        cases su with
        | false => rfl
        | true =>
          obtain ⟨s, hs⟩ := r7.1 rfl
          rw [(hser _ s).2 hs] at e4; cases e4
      rw [this]
    | some s =>
      have hs := (hser _ s).1 e4
      have hc := h4 s hs
      have : su = true := r7.2 ⟨s, hs⟩
      simp only
      rw [if_neg (by rw [hc]; simp), hs, hc, this]

/-- **C85 (MRI).** MRI is recognised exactly when the second word of its output contains a version of at least two numbers. -/
theorem c85_mri (S : Space) (out : Text) (e : Nat) (src : Source) (r : Runtime) : parseMri S out e src = some r ↔
    ∃ w v f, secondWord S out = some w ∧ cleanVersion w = some v ∧ versionFamily v = some f ∧ r = ⟨.mri, f, f, v, e, src, true⟩ := by
  unfold parseMri
  cases e1 : secondWord S out with
  | none => simp
  | some w =>
    cases e2 : cleanVersion w with
    | none => simp [e2]
    | some v =>
      cases e3 : versionFamily v with
      | none => simp [e2, e3]
      | some f => simp [e2, e3, eq_comm]

/-- **C85 (kinds).** What is recognised is decided by the first word of the output and the blank behind it. -/
theorem c85_kind (S : Space) (out : Text) (e : Nat) (src : Source) (r : Runtime) (h : parseOutput S out e src = some r) :
    ∃ rest, trim S out = (match r.impl with
      | .jruby => tJrubyBlank
      | .truffleruby => tTruffleBlank
      | .mri => tRubyBlank) ++ rest ∧ r.exe = e ∧ r.source = src ∧ (r.supported = false → r.impl = .jruby) := by
  unfold parseOutput at h
  simp only at h
  by_cases h1 : (strip tJrubyBlank (trim S out)).isSome = true
  · rw [if_pos h1] at h
    obtain ⟨rest, hr⟩ := Option.isSome_iff_exists.1 h1
    obtain ⟨_, _, _, _, _, _, _, _, _, hi, _, _, _, he, hs, _⟩ := (c85_jruby S _ e src r).1 h
    rw [hi]
    exact ⟨rest, (strip_iff _ _ _).1 hr, he, hs, fun _ => rfl⟩
  · rw [if_neg h1] at h
    by_cases h2 : (strip tTruffleBlank (trim S out)).isSome = true
    · rw [if_pos h2] at h
      obtain ⟨rest, hr⟩ := Option.isSome_iff_exists.1 h2
      unfold parseTruffle at h
      split at h
      · cases h
      · split at h
        · injection h with h
          subst h
          exact ⟨rest, (strip_iff _ _ _).1 hr, rfl, rfl, (fun e => by cases e)⟩
        · cases h
    · rw [if_neg h2] at h
      by_cases h3 : (strip tRubyBlank (trim S out)).isSome = true
      · rw [if_pos h3] at h
        obtain ⟨rest, hr⟩ := Option.isSome_iff_exists.1 h3
        obtain ⟨_, _, _, _, _, _, rfl⟩ := (c85_mri S _ e src r).1 h
        exact ⟨rest, (strip_iff _ _ _).1 hr, rfl, rfl, (fun e => by cases e)⟩
      · rw [if_neg h3] at h; cases h

/-- **C85 (a marker for every runtime).** Every recognised runtime can be named by a marker, which is read as that implementation and that version,
and when it is the only one, the marker selects it. -/
theorem c85_found (S : Space) (out : Text) (e : Nat) (src : Source) (r : Runtime) (h : parseOutput S out e src = some r) :
    Dotted 2 r.engine ∧ parseMarker S (r.impl.dash ++ r.engine) = some (r.impl, r.engine) ∧ select S (r.impl.dash ++ r.engine) [r] = .one r := by
  have hd : Dotted 2 r.engine := by
    unfold parseOutput at h
    simp only at h
    split at h
    · obtain ⟨w, a, b, rest, c, _, hp, _, _, _, _, _, he, _⟩ := (c85_jruby S _ e src r).1 h
      obtain ⟨cs, _, hn, hv, _⟩ := (c85_version _ _).1 hp
      rw [he]
      refine (c85_display _ (by simp) ?_).1
      intro n hn'
      rw [hv] at hn'
      obtain ⟨c, hc, rfl⟩ := List.mem_map.1 hn'
      exact (hn c hc).2.2
    · split at h
      · unfold parseTruffle at h
        split at h
        · cases h
        · rename_i v hv
          split at h
          · rename_i f c hf _
            injection h with h
            subst h
            cases e1 : (secondWord S (trim S out)).map trimCommas with
            | none => rw [e1] at hv; cases hv
            | some w => rw [e1] at hv; exact clean_family hv hf
          · cases h
      · split at h
        · obtain ⟨w, v, f, _, h2, h3, rfl⟩ := (c85_mri S _ e src r).1 h
          exact clean_family h2 h3
        · cases h
  have hm : parseMarker S (r.impl.dash ++ r.engine) = some (r.impl, r.engine) :=
    (c85_marker S _ _ _).2 ⟨hd, .inl (dash_visible S _ _ hd)⟩
  refine ⟨hd, hm, ((c85_select S _ [r]).1 r).2 ⟨_, _, hm, ?_⟩⟩
  unfold candidates
  simp only [List.filter_cons, List.filter_nil]
  by_cases hp : r.source = .path <;> simp [hp]

/-- **C85 (TruffleRuby).** TruffleRuby is recognised exactly when the second word of its output contains a version of at least two numbers and
the output names the Ruby it is like, or reports one in parentheses. -/
theorem c85_truffle (S : Space) (out : Text) (e : Nat) (src : Source) (r : Runtime) : parseTruffle S out e src = some r ↔
    ∃ w v f c, secondWord S out = some w ∧ cleanVersion (trimCommas w) = some v ∧ versionFamily v = some f ∧ truffleCompat S out = some c ∧
      r = ⟨.truffleruby, f, c, v, e, src, true⟩ := by
  unfold parseTruffle
  cases e1 : secondWord S out with
  | none => simp
  | some w =>
    cases e2 : cleanVersion (trimCommas w) with
    | none => simp [e2]
    | some v =>
      cases e3 : versionFamily v with
      | none => simp [e2, e3]
      | some f =>
        cases e4 : truffleCompat S out with
        | none => simp [e2, e3]
        | some c => simp [e2, e3, eq_comm]

/-- **C85 (`.tool-versions`).** The marker is the second word of the first line whose first word is `ruby`. -/
theorem c85_tool (S : Space) (ls : List Text) (m : Marker) : toolMarker S ls = m ↔
    ((∀ l ∈ ls, firstWord S l ≠ some tRuby) ∧ m = .nothing) ∨
    ∃ a l b, ls = a ++ l :: b ∧ (∀ x ∈ a, firstWord S x ≠ some tRuby) ∧ firstWord S l = some tRuby ∧
      ((secondWord S l = none ∧ m = .invalid) ∨ ∃ v, secondWord S l = some v ∧ m = .found v) := by
  have main : ∀ ls, ((∀ l ∈ ls, firstWord S l ≠ some tRuby) ∧ toolMarker S ls = .nothing) ∨
      ∃ a l b, ls = a ++ l :: b ∧ (∀ x ∈ a, firstWord S x ≠ some tRuby) ∧ firstWord S l = some tRuby ∧
        ((secondWord S l = none ∧ toolMarker S ls = .invalid) ∨ ∃ v, secondWord S l = some v ∧ toolMarker S ls = .found v) := by
    intro ls
    induction ls with
    | nil => exact .inl ⟨(fun l hl => by cases hl), rfl⟩
    | cons l ls ih =>
      by_cases h : firstWord S l = some tRuby
      · right
        refine ⟨[], l, ls, rfl, (fun x hx => by cases hx), h, ?_⟩
        simp only [toolMarker]
        rw [if_pos h]
        cases e : secondWord S l with
        | none => exact .inl ⟨rfl, rfl⟩
        | some v => exact .inr ⟨v, rfl, rfl⟩
      · have hstep : toolMarker S (l :: ls) = toolMarker S ls := by simp only [toolMarker]; rw [if_neg h]
        rw [hstep]
        rcases ih with ⟨h1, h2⟩ | ⟨a, l', b, h1, h2, h3⟩
        · left
          refine ⟨fun x hx => ?_, h2⟩
          rcases List.mem_cons.1 hx with rfl | hx
          · exact h
          · exact h1 x hx
        · right
          refine ⟨l :: a, l', b, by rw [h1]; rfl, fun x hx => ?_, h3⟩
          rcases List.mem_cons.1 hx with rfl | hx
          · exact h
          · exact h2 x hx
  have uniq : ∀ (a l b a' l' b'), a ++ l :: b = a' ++ l' :: b' → (∀ x ∈ a, firstWord S x ≠ some tRuby) → firstWord S l = some tRuby →
      (∀ x ∈ a', firstWord S x ≠ some tRuby) → firstWord S l' = some tRuby → l = l' := by
    intro a
    induction a with
    | nil =>
      intro l b a' l' b' e _ hl ha' hl'
      cases a' with
      | nil => injection e
      | cons x a' =>
        injection e with e _
        exact absurd (e ▸ hl) (ha' x List.mem_cons_self)
    | cons y a ih =>
      intro l b a' l' b' e ha hl ha' hl'
      cases a' with
      | nil =>
        injection e with e _
        exact absurd (e ▸ hl') (ha y List.mem_cons_self)
      | cons x a' =>
        injection e with _ e
        exact ih l b a' l' b' e (fun z hz => ha z (List.mem_cons_of_mem _ hz)) hl (fun z hz => ha' z (List.mem_cons_of_mem _ hz)) hl'
  constructor
  · rintro rfl
    exact main ls
  · intro h
    rcases main ls with ⟨h1, h2⟩ | ⟨a, l, b, h1, h2, h3, h4⟩
    · rcases h with ⟨_, rfl⟩ | ⟨a', l', b', rfl, _, h7, _⟩
      · exact h2
      · exact absurd h7 (h1 l' (by simp))
    · rcases h with ⟨h5, _⟩ | ⟨a', l', b', h5, h6, h7, h8⟩
      · exact absurd h3 (h5 l (by rw [h1]; simp))
      · have := uniq a l b a' l' b' (h1 ▸ h5) h2 h3 h6 h7
        subst this
        rcases h4 with ⟨h4, h4'⟩ | ⟨v, h4, h4'⟩ <;> rcases h8 with ⟨h8, rfl⟩ | ⟨v', h8, rfl⟩
        · exact h4'
        · rw [h4] at h8; cases h8
        · rw [h4] at h8; cases h8
        · rw [h4] at h8; injection h8 with h8; rw [h4', h8]

/-- **C85 (files).** `.ruby-version` decides whenever it exists; only otherwise `.tool-versions` does. -/
theorem c85_files (S : Space) : (∀ t tools, projectMarker S (some t) tools = if trim S t = [] then .invalid else .found (trim S t)) ∧
    (∀ t, projectMarker S none (some t) = toolMarker S (split '\n' t)) ∧ projectMarker S none none = .nothing :=
  ⟨fun _ _ => rfl, fun _ => rfl, rfl⟩

/-! ### Cases -/

def mri331 : Runtime := ⟨.mri, txt "3.3", txt "3.3", txt "3.3.1", 1, .rbenv, true⟩
def jr94 : Runtime := ⟨.jruby, txt "9.4", txt "3.1", txt "9.4.5.0", 2, .path, true⟩

theorem c85_example : parseOutput unicode (txt "ruby 3.3.1 (2024-04-23 revision c56cd86388) [x86_64-linux]\n") 1 .rbenv = some mri331 ∧
    parseOutput unicode (txt "jruby 9.4.5.0 (3.1.4) 2023-11-02 1abae2700f OpenJDK\n") 2 .path = some jr94 ∧
    parseOutput unicode (txt "truffleruby 24.0.1, like ruby 3.2.2, Oracle GraalVM\n") 3 .asdf =
      some ⟨.truffleruby, txt "24.0", txt "3.2", txt "24.0.1", 3, .asdf, true⟩ ∧
    parseOutput unicode (txt "truffleruby 21.0.0,, like java (2.7.2)") 3 .asdf =
      some ⟨.truffleruby, txt "21.0", txt "2.7", txt "21.0.0", 3, .asdf, true⟩ ∧
    parseOutput unicode (txt "jruby 9.4.5.0 (3.3.1)") 2 .path = none ∧
    parseOutput unicode (txt "jruby 11.2.0.0 (5.0.1)") 2 .path = some ⟨.jruby, txt "11.2", txt "5.0", txt "11.2.0.0", 2, .path, false⟩ ∧
    parseOutput unicode (txt "rubinius 5.0") 2 .path = none ∧
    select unicode (txt " 3.3.1\n") [jr94, mri331] = .one mri331 ∧ select unicode (txt "jruby-9.4.5.0") [jr94, mri331] = .one jr94 ∧
    select unicode (txt "system") [jr94, mri331] = .nothing ∧ select unicode (txt "3.2.0") [jr94, mri331] = .nothing ∧
    select unicode (txt "rbx-5.0") [jr94, mri331] = .invalid ∧
    select unicode (txt "ruby-3.3.1") [{ mri331 with exe := 7 }, mri331] = .ambiguous [1, 7] ∧
    select unicode (txt "ruby-3.3.1") [{ mri331 with exe := 7, source := .path }, mri331] = .one { mri331 with exe := 7, source := .path } ∧
    projectMarker unicode (some (txt "3.3.1\n")) (some (txt "ruby 2.7.0")) = .found (txt "3.3.1") ∧
    projectMarker unicode none (some (txt "# ruby 1.9\nnodejs 20.1\nruby 2.7.0 3.0.0\nruby 3.1.0\n")) = .found (txt "2.7.0") ∧
    projectMarker unicode none (some (txt "ruby\n")) = .invalid := by
  decide +kernel

/-- **C85 fails for previews**: a preview is recognised as the release, and is selected for it. -/
theorem c85_preview_fails : ∃ r, parseOutput unicode (txt "ruby 3.4.0preview1 (2024-05-16 master 9d69619623) [x86_64-linux]") 1 .path = some r ∧
    r.engine = txt "3.4.0" ∧ select unicode (txt "3.4.0") [r] = .one r ∧ select unicode (txt "3.4.0-preview1") [r] = .invalid :=
  ⟨⟨.mri, txt "3.4", txt "3.4", txt "3.4.0", 1, .path, true⟩, by decide +kernel, by decide +kernel, by decide +kernel, by decide +kernel⟩

/-- **C85 fails for snapshots**: a snapshot of JRuby is not recognised. -/
theorem c85_snapshot_fails : parseOutput unicode (txt "jruby 9.4.6.0-SNAPSHOT (3.1.4) 2024-01-01") 1 .path = none := by
  decide +kernel

/-- **C85 fails for equal versions**: a marker with a leading zero, or with fewer numbers, names the same version and does not select it. -/
theorem c85_equal_fails : parseVersion (txt "9.04.5.0") = parseVersion (txt "9.4.5.0") ∧ select unicode (txt "jruby-9.04.5.0") [jr94] = .nothing ∧
    select unicode (txt "jruby-9.4") [jr94] = .nothing ∧ select unicode (txt "3.3") [mri331] = .nothing := by
  decide +kernel

/-- **C85 fails for comments**: a second line in `.ruby-version`, or nothing in it, makes the marker invalid even when `.tool-versions` has one. -/
theorem c85_comment_fails : (∃ m, projectMarker unicode (some (txt "3.3.1\n# pinned\n")) none = .found m ∧ select unicode m [mri331] = .invalid) ∧
    projectMarker unicode (some (txt "\n")) (some (txt "ruby 3.3.1\n")) = .invalid :=
  ⟨⟨txt "3.3.1\n# pinned", by decide +kernel, by decide +kernel⟩, by decide +kernel⟩

end Verif.Runtimes
