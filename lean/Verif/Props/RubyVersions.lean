import Verif.Spec.RubyVersions
import Verif.Props.Runtimes
import Verif.Lemmas.ArchiveNames
/-!
C89: which version of Ruby a workspace is taken to have.
-/
namespace Verif.RubyVersions
open Verif.JavaSource (Text joinWith)
open Verif.Archive (Padded)
open Verif.Runtimes (Space Impl split strip trim after before behind forFamily Series tJrubyDash tTruffleDash tRubyDash tRubyBlank tLikeRuby
  split_ne split_join split_plain split_cons strip_iff strip_none unicode txt)

/-! ### Numbers -/

theorem digits_iff (t : Text) (n : Nat) : digits t = some n ↔
    t ≠ [] ∧ (∀ c ∈ t, c.isDigit = true) ∧ Nat.ofDigitChars 10 t 0 = n ∧ n < 256 := by
  unfold digits
  split
  · rename_i h
    simp only [reduceCtorEq, false_iff, not_and]
    intro h1 h2 h3 h4
    rcases h with h | h | h
    · exact h1 h
    · rw [List.all_eq_true.2 h2] at h; cases h
    · omega
  · rename_i h
    simp only [not_or] at h
    have h2 : t.all Char.isDigit = true := by
      cases e : t.all Char.isDigit with
      | true => rfl
      | false => exact absurd e h.2.1
    constructor
    · intro e
      injection e with e
      exact ⟨h.1, List.all_eq_true.1 h2, e, by omega⟩
    · rintro ⟨_, _, e, _⟩; rw [e]

theorem byte_iff (t : Text) (n : Nat) : byte t = some n ↔ Byte t n := by
  cases t with
  | nil =>
    simp only [byte, reduceCtorEq, false_iff]
    rintro ⟨ds, h | h, h1, _⟩
    · exact h1 h.symm
    · cases h
  | cons c cs =>
    simp only [byte]
    by_cases hc : c = '+'
    · rw [if_pos hc, digits_iff]
      constructor
      · intro h; exact ⟨cs, Or.inr (by rw [hc]), h⟩
      · rintro ⟨ds, h | h, h1, h2, h3⟩
        · have := h2 c (by rw [← h]; exact List.mem_cons_self)
          rw [hc] at this
          exact absurd this (by decide)
        · injection h with _ h
          rw [h]; exact ⟨h1, h2, h3⟩
    · rw [if_neg hc, digits_iff]
      constructor
      · intro h; exact ⟨c :: cs, Or.inl rfl, h⟩
      · rintro ⟨ds, h | h, h1⟩
        · rw [h]; exact h1
        · injection h with h _
          exact absurd h hc

theorem byte_chars {t : Text} {n : Nat} (h : Byte t n) : t ≠ [] ∧ ∀ c ∈ t, c.isDigit = true ∨ c = '+' := by
  obtain ⟨ds, h | h, h1, h2, _⟩ := h
  · subst h; exact ⟨h1, fun c hc => Or.inl (h2 c hc)⟩
  · subst h
    refine ⟨by simp, fun c hc => ?_⟩
    rcases List.mem_cons.1 hc with e | e
    · exact Or.inr e
    · exact Or.inl (h2 c e)

theorem byte_nodot {t : Text} {n : Nat} (h : Byte t n) : '.' ∉ t := by
  intro hm
  rcases (byte_chars h).2 _ hm with e | e
  · exact absurd e (by decide)
  · exact absurd e (by decide)

/-- A version is two numbers below 256 with a dot between them; what comes behind a second dot does not matter. -/
theorem c89_parse (t : Text) (p : Nat × Nat) : parse t = some p ↔ Numbered t p := by
  constructor
  · intro h
    unfold parse at h
    cases e : split '.' t with
    | nil => rw [e] at h; cases h
    | cons a l =>
      cases l with
      | nil => rw [e] at h; cases h
      | cons b rest =>
        rw [e] at h
        simp only at h
        cases ea : byte a with
        | none => rw [ea] at h; cases h
        | some m =>
          cases eb : byte b with
          | none => rw [ea, eb] at h; cases h
          | some n =>
            rw [ea, eb] at h
            injection h with h
            subst h
            refine ⟨a, b, (byte_iff a m).1 ea, (byte_iff b n).1 eb, ?_⟩
            have hj := split_join '.' t
            rw [e] at hj
            cases rest with
            | nil => left; rw [← hj]; rfl
            | cons c cs => right; exact ⟨joinWith '.' (c :: cs), by rw [← hj]; rfl⟩
  · rintro ⟨a, b, ha, hb, h⟩
    have ha' := (byte_iff _ _).2 ha
    have hb' := (byte_iff _ _).2 hb
    rcases h with h | ⟨rest, h⟩
    · unfold parse
      rw [h, split_cons '.' _ _ (byte_nodot ha), split_plain '.' _ (byte_nodot hb)]
      simp only [ha', hb']
    · unfold parse
      rw [h, split_cons '.' _ _ (byte_nodot ha), split_cons '.' _ _ (byte_nodot hb)]
      simp only [ha', hb']

theorem numbered_head {t : Text} {p : Nat × Nat} (h : Numbered t p) : ∃ c r, t = c :: r ∧ (c.isDigit = true ∨ c = '+') := by
  obtain ⟨a, b, ha, _, h⟩ := h
  obtain ⟨h1, h2⟩ := byte_chars ha
  cases a with
  | nil => exact absurd rfl h1
  | cons c cs =>
    have := h2 c List.mem_cons_self
    rcases h with h | ⟨r, h⟩ <;> exact ⟨c, _, h, this⟩

theorem numbered_less {t : Text} {p : Nat × Nat} (h : Numbered t p) : p.1 < 256 ∧ p.2 < 256 := by
  obtain ⟨a, b, ⟨_, _, _, _, _, h1⟩, ⟨_, _, _, _, _, h2⟩, _⟩ := h
  exact ⟨h1, h2⟩

/-! ### Engines -/

theorem jruby_iff (e p : Nat × Nat) : jrubyMri e = some p ↔ (e, p) ∈ jrubyTable := by
  obtain ⟨a, b⟩ := e
  obtain ⟨m, n⟩ := p
  unfold jrubyMri
  by_cases h : (a, b) = (1, 7)
  · injection h with h1 h2
    subst h1 h2
    simp [jrubyTable, eq_comm]
  · rw [if_neg h]
    simp only [Prod.mk.injEq, not_and] at h
    unfold forFamily
    split <;> rename_i e <;> simp [jrubyTable, Series.compat, eq_comm] <;> simp_all [eq_comm]

theorem truffle_iff (e p : Nat × Nat) : truffleMri e = some p ↔ (e.1, p) ∈ truffleTable := by
  obtain ⟨a, b⟩ := e
  obtain ⟨m, n⟩ := p
  simp only [truffleMri, truffleTable, List.mem_cons, Prod.mk.injEq, List.not_mem_nil, or_false]
  repeat' split
  all_goals (simp only [Option.some.injEq, Prod.mk.injEq, reduceCtorEq, false_iff]; omega)

theorem map_impl {o : Option (Nat × Nat)} {i : Impl} {v : Version} : o.map (withImpl i) = some v ↔ o = some (v.major, v.minor) ∧ v.impl = i := by
  cases o with
  | none => simp
  | some p =>
    obtain ⟨a, b⟩ := p
    obtain ⟨m, n, j⟩ := v
    simp only [Option.map_some, withImpl, Option.some.injEq, Version.mk.injEq, Prod.mk.injEq]
    constructor
    · rintro ⟨h1, h2, h3⟩; exact ⟨⟨h1, h2⟩, h3.symm⟩
    · rintro ⟨⟨h1, h2⟩, h3⟩; exact ⟨h1, h2, h3.symm⟩

theorem bind_iff {α β : Type} {o : Option α} {f : α → Option β} {b : β} : o.bind f = some b ↔ ∃ a, o = some a ∧ f a = some b := by
  cases o <;> simp

theorem not_numbered {c : Char} {r : Text} {p : Nat × Nat} (h1 : c.isDigit = false) (h2 : c ≠ '+') : ¬ Numbered (c :: r) p := by
  intro h
  obtain ⟨d, s, e, hd⟩ := numbered_head h
  injection e with e _
  subst e
  rcases hd with hd | hd
  · rw [h1] at hd; cases hd
  · exact h2 hd

/-- A marker says a version exactly when it is one with the prefix of an engine or of Ruby or without a prefix; the engines' versions are
those of the tables. -/
theorem c89_marker (t : Text) (v : Version) : fromFull t = some v ↔ Says t v := by
  have hj : "jruby-".toList = tJrubyDash := by decide
  have ht : "truffleruby-".toList = tTruffleDash := by decide
  have hr : "ruby-".toList = tRubyDash := by decide
  obtain ⟨m, n, i⟩ := v
  unfold fromFull
  cases e1 : strip tJrubyDash t with
  | some r =>
    have e1' := (strip_iff _ _ _).1 e1
    simp only
    rw [map_impl, bind_iff]
    constructor
    · rintro ⟨⟨e, h1, h2⟩, h3⟩
      simp only at h3
      subst h3
      exact ⟨r, e, by rw [hj]; exact e1', (c89_parse _ _).1 h1, (jruby_iff _ _).1 h2⟩
    · intro h
      cases i with
      | mri =>
        rcases h with h | ⟨r', h, _⟩
        · rw [e1'] at h
          exact absurd h (not_numbered (by decide) (by decide))
        · rw [e1', hr] at h
          exact absurd h (by simp [tJrubyDash, tRubyDash])
      | jruby =>
        obtain ⟨r', e, h, h1, h2⟩ := h
        rw [hj, e1'] at h
        have := List.append_cancel_left h
        subst this
        exact ⟨⟨e, (c89_parse _ _).2 h1, (jruby_iff _ _).2 h2⟩, rfl⟩
      | truffleruby =>
        obtain ⟨r', e, h, _⟩ := h
        rw [e1', ht] at h
        exact absurd h (by simp [tJrubyDash, tTruffleDash])
  | none =>
    simp only
    cases e2 : strip tTruffleDash t with
    | some r =>
      have e2' := (strip_iff _ _ _).1 e2
      simp only
      rw [map_impl, bind_iff]
      constructor
      · rintro ⟨⟨e, h1, h2⟩, h3⟩
        simp only at h3
        subst h3
        exact ⟨r, e, by rw [ht]; exact e2', (c89_parse _ _).1 h1, (truffle_iff _ _).1 h2⟩
      · intro h
        cases i with
        | mri =>
          rcases h with h | ⟨r', h, _⟩
          · rw [e2'] at h
            exact absurd h (not_numbered (by decide) (by decide))
          · rw [e2', hr] at h
            exact absurd h (by simp [tTruffleDash, tRubyDash])
        | jruby =>
          obtain ⟨r', e, h, _⟩ := h
          rw [hj] at h
          exact absurd h ((strip_none _ _).1 e1 r')
        | truffleruby =>
          obtain ⟨r', e, h, h1, h2⟩ := h
          rw [ht, e2'] at h
          have := List.append_cancel_left h
          subst this
          exact ⟨⟨e, (c89_parse _ _).2 h1, (truffle_iff _ _).2 h2⟩, rfl⟩
    | none =>
      simp only
      rw [map_impl]
      constructor
      · rintro ⟨h1, h3⟩
        simp only at h3
        subst h3
        have h1' := (c89_parse _ _).1 h1
        cases e3 : strip tRubyDash t with
        | none => rw [e3] at h1'; exact Or.inl h1'
        | some r => rw [e3] at h1'; exact Or.inr ⟨r, by rw [hr]; exact (strip_iff _ _ _).1 e3, h1'⟩
      · intro h
        cases i with
        | mri =>
          refine ⟨(c89_parse _ _).2 ?_, rfl⟩
          rcases h with h | ⟨r', h, h1⟩
          · cases e3 : strip tRubyDash t with
            | none => exact h
            | some r =>
              rw [(strip_iff _ _ _).1 e3] at h
              exact absurd h (not_numbered (by decide) (by decide))
          · rw [hr] at h
            rw [(strip_iff _ _ _).2 h]
            exact h1
        | jruby =>
          obtain ⟨r', e, h, _⟩ := h
          rw [hj] at h
          exact absurd h ((strip_none _ _).1 e1 r')
        | truffleruby =>
          obtain ⟨r', e, h, _⟩ := h
          rw [ht] at h
          exact absurd h ((strip_none _ _).1 e2 r')

/-! ### Words -/

theorem pieces_ne (S : Space) (t : Text) : pieces S t ≠ [] := by
  cases t with
  | nil => simp [pieces]
  | cons c cs =>
    simp only [pieces]
    split
    · simp
    · split <;> simp

theorem pieces_cut (S : Space) (c : Char) (hc : S.ws c = true) (r : Text) : ∀ p : Text, pieces S (p ++ c :: r) = pieces S p ++ pieces S r
  | [] => by simp only [List.nil_append, pieces, hc, if_true, List.cons_append]
  | d :: p => by
    have ih := pieces_cut S c hc r p
    simp only [List.cons_append, pieces]
    split
    · rw [ih]; rfl
    · rw [ih]
      cases e : pieces S p with
      | nil => exact absurd e (pieces_ne S p)
      | cons s ss => rfl

theorem pieces_plain (S : Space) : ∀ w : Text, (∀ c ∈ w, S.ws c = false) → pieces S w = [w]
  | [], _ => rfl
  | c :: cs, h => by
    simp only [pieces, h c List.mem_cons_self, Bool.false_eq_true, if_false,
      pieces_plain S cs (fun d hd => h d (List.mem_cons_of_mem _ hd))]

theorem words_nil (S : Space) : words S [] = [] := rfl

theorem words_cut (S : Space) (c : Char) (hc : S.ws c = true) (p r : Text) : words S (p ++ c :: r) = words S p ++ words S r := by
  unfold words
  rw [pieces_cut S c hc, List.filter_append]

theorem words_plain (S : Space) (w : Text) (h0 : w ≠ []) (h : ∀ c ∈ w, S.ws c = false) : words S w = [w] := by
  unfold words
  rw [pieces_plain S w h]
  cases w with
  | nil => exact absurd rfl h0
  | cons c cs => rfl

theorem words_after (S : Space) (w post : Text) (h0 : w ≠ []) (h : ∀ c ∈ w, S.ws c = false)
    (hp : post = [] ∨ ∃ c p, post = c :: p ∧ S.ws c = true) : words S (w ++ post) = w :: words S post := by
  rcases hp with hp | ⟨c, p, hp, hc⟩
  · rw [hp, List.append_nil, words_plain S w h0 h]; rfl
  · have h2 := words_cut S c hc [] p
    rw [hp, words_cut S c hc, words_plain S w h0 h]
    rw [List.nil_append] at h2
    rw [h2]; rfl

theorem words_at {S : Space} {t pre w post : Text} (h : WordAt S t pre w post) : words S t = words S pre ++ w :: words S post := by
  obtain ⟨ht, h0, hw, h1, h2⟩ := h
  have ha := words_after S w post h0 hw h2
  rcases h1 with h1 | ⟨p, c, h1, hc⟩
  · rw [ht, h1, List.nil_append, ha]; rfl
  · have e1 := words_cut S c hc p (w ++ post)
    have e2 := words_cut S c hc p []
    rw [words_nil, List.append_nil] at e2
    rw [ht, h1, e2, ← ha, ← e1]
    congr 1
    simp

theorem words_blank (S : Space) : ∀ a b : Text, (∀ c ∈ a, S.ws c = true) → words S (a ++ b) = words S b
  | [], _, _ => rfl
  | c :: a, b, h => by
    have h2 := words_cut S c (h c List.mem_cons_self) [] (a ++ b)
    rw [words_nil, List.nil_append, List.nil_append] at h2
    rw [List.cons_append, h2]
    exact words_blank S a b (fun d hd => h d (List.mem_cons_of_mem _ hd))

theorem head_dropWhile {q : Char → Bool} : ∀ (l : Text) (c : Char) (r : Text), l.dropWhile q = c :: r → q c = false
  | [], c, r, h => by cases h
  | d :: l, c, r, h => by
    simp only [List.dropWhile_cons] at h
    split at h
    · exact head_dropWhile l c r h
    · rename_i hq
      injection h with h _
      subst h
      simpa using hq

/-- A text is white space, or white space, a word and a rest. -/
theorem first_parts (S : Space) (t : Text) : (∀ c ∈ t, S.ws c = true) ∨ ∃ a w post, t = a ++ (w ++ post) ∧ (∀ c ∈ a, S.ws c = true) ∧ w ≠ [] ∧
    (∀ c ∈ w, S.ws c = false) ∧ (post = [] ∨ ∃ c p, post = c :: p ∧ S.ws c = true) := by
  have ht := List.takeWhile_append_dropWhile (p := S.ws) (l := t)
  have hs : ∀ c ∈ t.takeWhile S.ws, S.ws c = true := Runtimes.mem_takeWhile t
  cases e : t.dropWhile S.ws with
  | nil =>
    left
    rw [e, List.append_nil] at ht
    rw [ht] at hs
    exact hs
  | cons c r =>
    right
    have hc := head_dropWhile t c r e
    have hr := List.takeWhile_append_dropWhile (p := fun d => !S.ws d) (l := c :: r)
    refine ⟨t.takeWhile S.ws, (c :: r).takeWhile (fun d => !S.ws d), (c :: r).dropWhile (fun d => !S.ws d), ?_, hs, ?_, ?_, ?_⟩
    · rw [hr, ← e, ht]
    · simp [hc]
    · intro d hd
      have := Runtimes.mem_takeWhile (p := fun d => !S.ws d) (c :: r) d hd
      simpa using this
    · cases e2 : (c :: r).dropWhile (fun d => !S.ws d) with
      | nil => exact Or.inl rfl
      | cons d p =>
        have := head_dropWhile _ _ _ e2
        exact Or.inr ⟨d, p, rfl, by simpa using this⟩

theorem words_all_blank (S : Space) (a : Text) (h : ∀ c ∈ a, S.ws c = true) : words S a = [] := by
  have := words_blank S a [] h
  rw [List.append_nil] at this
  rw [this]; rfl

theorem ends_blank (S : Space) (a : Text) (h : ∀ c ∈ a, S.ws c = true) : a = [] ∨ ∃ p c, a = p ++ [c] ∧ S.ws c = true := by
  rcases List.eq_nil_or_concat a with h0 | ⟨p, c, h0⟩
  · exact Or.inl h0
  · rw [List.concat_eq_append] at h0
    exact Or.inr ⟨p, c, h0, h c (by rw [h0]; simp)⟩

theorem words_split (S : Space) : ∀ (l : List Text) (t w : Text) (l2 : List Text), words S t = l ++ w :: l2 →
    ∃ pre post, WordAt S t pre w post ∧ words S pre = l
  | [], t, w, l2, h => by
    rcases first_parts S t with hb | ⟨a, w0, post, rfl, ha, h0, hw, hp⟩
    · rw [words_all_blank S t hb] at h; cases h
    · rw [words_blank S _ _ ha, words_after S _ _ h0 hw hp, List.nil_append] at h
      injection h with h _
      subst h
      exact ⟨a, post, ⟨by simp, h0, hw, ends_blank S a ha, hp⟩, words_all_blank S a ha⟩
  | x :: l, t, w, l2, h => by
    rcases first_parts S t with hb | ⟨a, w0, post, rfl, ha, h0, hw, hp⟩
    · rw [words_all_blank S t hb] at h; cases h
    · rw [words_blank S _ _ ha, words_after S _ _ h0 hw hp, List.cons_append] at h
      injection h with hx h
      subst hx
      obtain ⟨pre, post', ⟨e, g0, gw, g1, g2⟩, hl⟩ := words_split S l post w l2 h
      rcases g1 with g1 | ⟨p, c, g1, hc⟩
      · exfalso
        subst g1
        cases w with
        | nil => exact g0 rfl
        | cons d w =>
          rcases hp with hp | ⟨c, p, hp, hc⟩
          · rw [hp] at e; cases e
          · rw [hp] at e
            simp only [List.nil_append, List.cons_append] at e
            injection e with e _
            rw [e, gw d List.mem_cons_self] at hc
            cases hc
      · refine ⟨a ++ (w0 ++ pre), post', ⟨by rw [e]; simp, g0, gw, Or.inr ⟨a ++ (w0 ++ p), c, by rw [g1]; simp, hc⟩, g2⟩, ?_⟩
        rw [words_blank S _ _ ha]
        have hpre : pre = [] ∨ ∃ c p, pre = c :: p ∧ S.ws c = true := by
          cases pre with
          | nil => exact Or.inl rfl
          | cons d q =>
            refine Or.inr ⟨d, q, rfl, ?_⟩
            rcases hp with hp | ⟨c', p', hp, hc'⟩
            · rw [hp] at e; cases e
            · rw [hp] at e
              simp only [List.cons_append] at e
              injection e with e _
              rw [← e]; exact hc'
        rw [words_after S _ _ h0 hw hpre, hl]

/-- The words of a text are its longest parts without white space. -/
theorem c89_words (S : Space) (t w : Text) : w ∈ words S t ↔ ∃ pre post, WordAt S t pre w post := by
  constructor
  · intro h
    obtain ⟨l, l2, e⟩ := List.append_of_mem h
    obtain ⟨pre, post, h, _⟩ := words_split S l t w l2 e
    exact ⟨pre, post, h⟩
  · rintro ⟨pre, post, h⟩
    rw [words_at h]
    simp

theorem inside {S : Space} {t pre w post pre' w' post' : Text} (h : WordAt S t pre w post) (h' : WordAt S t pre' w' post')
    (hl : pre'.length < pre.length) : ∃ u, WordAt S pre pre' w' u := by
  obtain ⟨e, _, _, h1, _⟩ := h
  obtain ⟨e', h0', hw', h1', h2'⟩ := h'
  rcases h1 with h1 | ⟨p, c, h1, hc⟩
  · rw [h1] at hl; simp at hl
  · have e2 : pre' ++ (w' ++ post') = pre ++ (w ++ post) := by rw [← List.append_assoc, ← e', e, List.append_assoc]
    rcases List.append_eq_append_iff.1 e2 with ⟨u, hu, hu'⟩ | ⟨u, hu, _⟩
    · -- the rest of the text before the word begins with the other word
      rcases List.append_eq_append_iff.1 hu' with ⟨v, hv, hv'⟩ | ⟨v, hv, hv'⟩
      · refine ⟨v, by rw [hu, hv, List.append_assoc], h0', hw', h1', ?_⟩
        cases v with
        | nil => exact Or.inl rfl
        | cons d q =>
          refine Or.inr ⟨d, q, rfl, ?_⟩
          rcases h2' with h2' | ⟨c', p', h2', hc'⟩
          · rw [h2'] at hv'; cases hv'
          · rw [h2'] at hv'
            simp only [List.cons_append] at hv'
            injection hv' with e _
            rw [← e]; exact hc'
      · exfalso
        rcases List.eq_nil_or_concat u with hn | ⟨q, d, hn⟩
        · rw [hu, hn] at hl; simp at hl
        · rw [List.concat_eq_append] at hn
          rw [h1, hn, ← List.append_assoc] at hu
          have hd := List.append_inj' hu rfl
          have : c = d := by simpa using hd.2
          have hm := hw' d (by rw [hv, hn]; simp)
          rw [← this, hc] at hm
          cases hm
    · exfalso
      rw [hu, List.length_append] at hl
      omega

/-- The first word that is accepted. -/
theorem c89_first {α : Type} (S : Space) (f : Text → Option α) (t : Text) (v : α) : (words S t).findSome? f = some v ↔
    ∃ pre w post, WordAt S t pre w post ∧ f w = some v ∧
      ∀ pre' w' post', WordAt S t pre' w' post' → pre'.length < pre.length → f w' = none := by
  rw [List.findSome?_eq_some_iff]
  constructor
  · rintro ⟨l, w, l2, e, hv, hn⟩
    obtain ⟨pre, post, h, hl⟩ := words_split S l t w l2 e
    refine ⟨pre, w, post, h, hv, fun pre' w' post' h' hlt => ?_⟩
    obtain ⟨u, hu⟩ := inside h h' hlt
    exact hn w' (by rw [← hl]; exact (c89_words S pre w').2 ⟨pre', u, hu⟩)
  · rintro ⟨pre, w, post, h, hv, hn⟩
    refine ⟨words S pre, w, words S post, words_at h, hv, fun x hx => ?_⟩
    obtain ⟨p, q, hx0, hx1, hx2, hx3, hx4⟩ := (c89_words S pre x).1 hx
    obtain ⟨e, h0, hw, h1, h2⟩ := h
    refine hn p x (q ++ (w ++ post)) ⟨by rw [e, hx0]; simp, hx1, hx2, hx3, ?_⟩ ?_
    · rcases hx4 with hq | ⟨c, q', hq, hc⟩
      · exfalso
        subst hq
        rw [List.append_nil] at hx0
        rcases h1 with h1 | ⟨p', c, h1, hc⟩
        · rw [h1] at hx0
          exact hx1 (List.append_eq_nil_iff.1 hx0.symm).2
        · rcases List.eq_nil_or_concat x with hn | ⟨y, d, hy⟩
          · exact hx1 hn
          · rw [List.concat_eq_append] at hy
            rw [h1, hy, ← List.append_assoc] at hx0
            have hd := List.append_inj' hx0 rfl
            have : c = d := by simpa using hd.2
            have hm := hx2 d (by rw [hy]; simp)
            rw [← this, hc] at hm
            cases hm
      · exact Or.inr ⟨c, q' ++ (w ++ post), by rw [hq]; rfl, hc⟩
    · rw [hx0]
      have : 0 < x.length := List.length_pos_iff.2 hx1
      simp only [List.length_append]
      omega

theorem with_iff {α : Type} {S : Space} {f : Text → Option α} {R : Text → α → Prop} (h : ∀ w v, f w = some v ↔ R w v) (t : Text) (v : α) :
    (words S t).findSome? f = some v ↔ FirstWith S R t v := by
  have hn : ∀ w, f w = none ↔ ∀ u, ¬ R w u := by
    intro w
    cases e : f w with
    | none => simp only [true_iff]; intro u hu; rw [(h w u).2 hu] at e; cases e
    | some u => simp only [reduceCtorEq, false_iff]; exact fun hu => hu u ((h w u).1 e)
  rw [c89_first]
  unfold FirstWith
  simp only [h, hn]

/-! ### Occurrences -/

theorem behind_iff (p : Text) : ∀ t r : Text, behind p t = some r ↔ Behind p t r
  | [], r => by
    simp only [behind, strip_iff]
    constructor
    · intro h; exact ⟨[], h, fun _ _ _ => Nat.zero_le _⟩
    · rintro ⟨a, h, _⟩
      have := List.append_eq_nil_iff.1 h.symm
      rw [this.1] at h; exact h
  | c :: cs, r => by
    have ih := behind_iff p cs
    simp only [behind]
    cases e : strip p (c :: cs) with
    | some x =>
      have e' := (strip_iff _ _ _).1 e
      simp only [Option.some.injEq]
      constructor
      · rintro rfl; exact ⟨[], e', fun _ _ _ => Nat.zero_le _⟩
      · rintro ⟨a, h, hm⟩
        have := hm [] x e'
        have ha : a = [] := List.length_eq_zero_iff.1 (Nat.le_zero.1 this)
        subst ha
        rw [e', List.nil_append] at h
        exact List.append_cancel_left h
    | none =>
      have e' := (strip_none _ _).1 e
      simp only [ih]
      constructor
      · rintro ⟨a, h, hm⟩
        refine ⟨c :: a, by rw [h]; rfl, fun a' r' h' => ?_⟩
        cases a' with
        | nil => exact absurd h' (e' r')
        | cons d a' =>
          injection h' with _ h'
          have := hm a' r' h'
          simp only [List.length_cons]
          omega
      · rintro ⟨a, h, hm⟩
        cases a with
        | nil => exact absurd h (e' r)
        | cons d a =>
          injection h with h1 h
          refine ⟨a, h, fun a' r' h' => ?_⟩
          have := hm (c :: a') r' (by rw [h']; rfl)
          simp only [List.length_cons] at this
          omega

theorem occurs_first {p : Text} : ∀ {t : Text}, Occurs p t → ∃ r, behind p t = some r
  | [], ⟨a, b, h⟩ => by
    have := List.append_eq_nil_iff.1 h.symm
    rw [this.1] at h
    exact ⟨b, (strip_iff _ _ _).2 h⟩
  | c :: cs, ⟨a, b, h⟩ => by
    simp only [behind]
    cases e : strip p (c :: cs) with
    | some x => exact ⟨x, rfl⟩
    | none =>
      cases a with
      | nil => exact absurd h ((strip_none _ _).1 e b)
      | cons d a =>
        injection h with _ h
        exact occurs_first ⟨a, b, h⟩

theorem contains_iff (p t : Text) : contains p t = true ↔ Occurs p t := by
  unfold contains
  rw [Option.isSome_iff_exists]
  constructor
  · rintro ⟨r, h⟩
    obtain ⟨a, h, _⟩ := (behind_iff p t r).1 h
    exact ⟨a, r, h⟩
  · exact occurs_first

theorem upTo_iff (p t : Text) : UpTo p t (upTo p t) := by
  induction t with
  | nil =>
    by_cases h : Occurs p []
    · obtain ⟨a, b, h⟩ := h
      have := List.append_eq_nil_iff.1 h.symm
      rw [this.1] at h
      exact Or.inr ⟨b, h, fun _ _ _ => Nat.zero_le _⟩
    · exact Or.inl ⟨rfl, h⟩
  | cons c cs ih =>
    simp only [upTo]
    cases e : strip p (c :: cs) with
    | some x =>
      simp only [Option.isSome_some, if_true]
      exact Or.inr ⟨x, (strip_iff p (c :: cs) x).1 e, fun _ _ _ => Nat.zero_le _⟩
    | none =>
      have e' := (strip_none _ _).1 e
      simp only [Option.isSome_none, Bool.false_eq_true, if_false]
      rcases ih with ⟨h, hn⟩ | ⟨r, h, hm⟩
      · refine Or.inl ⟨by rw [h], ?_⟩
        rintro ⟨a, b, ho⟩
        cases a with
        | nil => exact e' b ho
        | cons d a => injection ho with _ ho; exact hn ⟨a, b, ho⟩
      · refine Or.inr ⟨r, by rw [List.cons_append, ← h], fun a' r' h' => ?_⟩
        cases a' with
        | nil => exact absurd h' (e' r')
        | cons d a' =>
          injection h' with _ h'
          have := hm a' r' h'
          simp only [List.length_cons]
          omega

theorem upTo_unique {p t m m' : Text} (h : UpTo p t m) (h' : UpTo p t m') : m = m' := by
  rcases h with ⟨h, hn⟩ | ⟨r, h, hm⟩
  · rcases h' with ⟨h', _⟩ | ⟨r', h', _⟩
    · rw [h, h']
    · exact absurd ⟨m', r', h'⟩ hn
  · rcases h' with ⟨_, hn⟩ | ⟨r', h', hm'⟩
    · exact absurd ⟨m, r, h⟩ hn
    · have h1 := hm m' r' h'
      have h2 := hm' m r h
      exact (List.append_inj (h.symm.trans h') (by omega)).1

theorem after_iff (c : Char) : ∀ t r : Text, after c t = some r ↔ ∃ a, t = a ++ c :: r ∧ c ∉ a
  | [], r => by simp [after]
  | d :: ds, r => by
    have ih := after_iff c ds
    simp only [after]
    by_cases h : d = c
    · rw [if_pos h]
      constructor
      · intro e; injection e with e; exact ⟨[], by rw [h, e]; rfl, by simp⟩
      · rintro ⟨a, e, hn⟩
        cases a with
        | nil => injection e with _ e; rw [e]
        | cons x a =>
          injection e with e _
          exact absurd (by rw [← h, e]; exact List.mem_cons_self) hn
    · rw [if_neg h, ih]
      constructor
      · rintro ⟨a, e, hn⟩
        refine ⟨d :: a, by rw [e]; rfl, ?_⟩
        intro hm
        rcases List.mem_cons.1 hm with hm | hm
        · exact h hm.symm
        · exact hn hm
      · rintro ⟨a, e, hn⟩
        cases a with
        | nil => injection e with e _; exact absurd e h
        | cons x a =>
          injection e with _ e
          exact ⟨a, e, fun hm => hn (List.mem_cons_of_mem _ hm)⟩

theorem before_iff (c : Char) : ∀ t a : Text, before c t = some a ↔ ∃ r, t = a ++ c :: r ∧ c ∉ a
  | [], a => by simp [before]
  | d :: ds, a => by
    have ih := before_iff c ds
    simp only [before]
    by_cases h : d = c
    · rw [if_pos h]
      constructor
      · intro e; injection e with e; subst e; exact ⟨ds, by rw [h]; rfl, by simp⟩
      · rintro ⟨r, e, hn⟩
        cases a with
        | nil => rfl
        | cons x a =>
          injection e with e _
          exact absurd (by rw [← h, e]; exact List.mem_cons_self) hn
    · rw [if_neg h, Option.map_eq_some_iff]
      constructor
      · rintro ⟨b, e, rfl⟩
        obtain ⟨r, e, hn⟩ := (ih b).1 e
        refine ⟨r, by rw [e]; rfl, ?_⟩
        intro hm
        rcases List.mem_cons.1 hm with hm | hm
        · exact h hm.symm
        · exact hn hm
      · rintro ⟨r, e, hn⟩
        cases a with
        | nil => injection e with e _; exact absurd e h
        | cons x a =>
          injection e with e1 e
          exact ⟨a, (ih a).2 ⟨r, e, fun hm => hn (List.mem_cons_of_mem _ hm)⟩, by rw [e1]⟩

/-! ### The output of a Ruby -/

theorem parens_iff (t : Text) (p : Nat × Nat) : ((after '(' t).bind (before ')')).bind parse = some p ↔ Parens t p := by
  rw [bind_iff]
  constructor
  · rintro ⟨b, h, hp⟩
    rw [bind_iff] at h
    obtain ⟨r, h1, h2⟩ := h
    obtain ⟨a, h1, hn⟩ := (after_iff _ _ _).1 h1
    obtain ⟨c, h2, hm⟩ := (before_iff _ _ _).1 h2
    exact ⟨a, b, c, by rw [h1, h2], hn, hm, (c89_parse _ _).1 hp⟩
  · rintro ⟨a, b, c, h, hn, hm, hp⟩
    refine ⟨b, bind_iff.2 ⟨_, (after_iff _ _ _).2 ⟨a, h, hn⟩, (before_iff _ _ _).2 ⟨c, rfl, hm⟩⟩, (c89_parse _ _).2 hp⟩

theorem like_iff (S : Space) (t : Text) (p : Nat × Nat) :
    (behind tLikeRuby t).bind (fun t => (words S t).findSome? parse) = some p ↔ LikeRuby S t p := by
  have hl : "like ruby ".toList = tLikeRuby := by decide
  unfold LikeRuby
  rw [bind_iff, hl]
  simp only [behind_iff, with_iff c89_parse]

theorem either {α : Type} {a b : Option α} {P Q : α → Prop} (ha : ∀ v, a = some v ↔ P v) (hb : ∀ v, b = some v ↔ Q v) (v : α) :
    orElse a b = some v ↔ P v ∨ (∀ u, ¬ P u) ∧ Q v := by
  unfold orElse
  cases e : a with
  | some x =>
    simp only [Option.some.injEq]
    constructor
    · rintro rfl; exact Or.inl ((ha x).1 e)
    · rintro (h | ⟨h, _⟩)
      · rw [(ha v).2 h] at e
        injection e with e; exact e.symm
      · exact absurd ((ha x).1 e) (h x)
  | none =>
    simp only
    rw [hb]
    have hn : ∀ u, ¬ P u := fun u hu => by rw [(ha u).2 hu] at e; cases e
    constructor
    · intro h; exact Or.inr ⟨hn, h⟩
    · rintro (h | ⟨_, h⟩)
      · exact absurd h (hn v)
      · exact h

theorem bind_rel {α β γ : Type} {f : α → Option β} {g : β → Option γ} {R : α → β → Prop} {T : β → γ → Prop} (hf : ∀ a b, f a = some b ↔ R a b)
    (hg : ∀ b c, g b = some c ↔ T b c) (a : α) (c : γ) : (f a).bind g = some c ↔ ∃ b, R a b ∧ T b c := by
  rw [bind_iff]
  simp only [hf, hg]

/-- What the output of a Ruby says: the first version in it, for JRuby the one in parentheses, for TruffleRuby the one it is like; when these are
missing the first version in the output for which the table of the engine has an entry. -/
theorem c89_output (S : Space) (t : Text) (v : Version) : parseOutput S t = some v ↔ OutputSays S t v := by
  have hj : "jruby".toList = tJruby := by decide
  have ht : "truffleruby".toList = tTruffle := by decide
  obtain ⟨m, n, i⟩ := v
  unfold parseOutput OutputSays
  rw [hj, ht]
  by_cases h1 : contains tJruby t = true
  · have h1' := (contains_iff _ _).1 h1
    rw [if_pos h1, map_impl]
    unfold jrubyOutput
    rw [either (parens_iff t) (with_iff (bind_rel c89_parse jruby_iff) t)]
    cases i <;> simp [h1']
  · have h1' : ¬ Occurs tJruby t := fun h => h1 ((contains_iff _ _).2 h)
    rw [if_neg h1]
    by_cases h2 : contains tTruffle t = true
    · have h2' := (contains_iff _ _).1 h2
      rw [if_pos h2, map_impl]
      unfold truffleOutput
      rw [either (like_iff S t) (with_iff (bind_rel c89_parse truffle_iff) t)]
      cases i <;> simp [h1', h2']
    · have h2' : ¬ Occurs tTruffle t := fun h => h2 ((contains_iff _ _).2 h)
      rw [if_neg h2, map_impl, with_iff c89_parse]
      cases i <;> simp [h1', h2']

/-! ### Sources -/

theorem trim_padded (S : Space) (t x : Text) : trim S t = x ↔ Padded S.ws x t := Archive.trim_iff S.ws t x

theorem quote_eq (c : Char) : quoteChar c = quoteMark c := by
  unfold quoteChar quoteMark
  simp only [List.mem_cons, List.not_mem_nil, or_false, Bool.decide_or]
  simp only [Bool.or_assoc]
  rfl

theorem unquote_padded (t x : Text) : unquote t = x ↔ Padded quoteMark x t := by
  have : quoteChar = quoteMark := funext quote_eq
  unfold unquote
  rw [this]
  exact Archive.trim_iff quoteMark t x

theorem blank_of_words {S : Space} {t : Text} (h : words S t = []) : ∀ c ∈ t, S.ws c = true := by
  rcases first_parts S t with hb | ⟨a, w, post, rfl, ha, h0, hw, hp⟩
  · exact hb
  · rw [words_blank S _ _ ha, words_after S _ _ h0 hw hp] at h; cases h

theorem head_word (S : Space) (t w : Text) : (words S t).head? = some w ↔ FirstWord S t w := by
  constructor
  · intro h
    cases e : words S t with
    | nil => rw [e] at h; cases h
    | cons x l =>
      rw [e] at h
      injection h with h
      subst h
      obtain ⟨pre, post, h, hl⟩ := words_split S [] t x l e
      exact ⟨pre, post, h, blank_of_words hl⟩
  · rintro ⟨pre, post, h, hb⟩
    rw [words_at h, words_all_blank S pre hb]
    rfl

theorem second_word (S : Space) (t w : Text) : (words S t)[1]? = some w ↔ SecondWord S t w := by
  constructor
  · intro h
    cases e : words S t with
    | nil => rw [e] at h; cases h
    | cons x l =>
      cases l with
      | nil => rw [e] at h; cases h
      | cons y l =>
        rw [e] at h
        have h : y = w := by simpa using h
        subst h
        obtain ⟨pre, post, ⟨ht, h0, hw, h1, h2⟩, hl⟩ := words_split S [x] t y l e
        obtain ⟨a, b, hx, ha⟩ := words_split S [] pre x [] hl
        have hb := words_at hx
        rw [hl, ha, List.nil_append] at hb
        injection hb with _ hb
        obtain ⟨hp, hx0, hxw, _, hx2⟩ := hx
        refine ⟨a, x, b, post, by rw [ht, hp]; simp, blank_of_words ha, hx0, hxw, ?_, blank_of_words hb.symm, h0, hw, h2⟩
        rintro rfl
        rw [List.append_nil] at hp
        rcases h1 with h1 | ⟨p, c, h1, hc⟩
        · rw [h1] at hp
          exact hx0 (List.append_eq_nil_iff.1 hp.symm).2
        · rcases List.eq_nil_or_concat x with hn | ⟨q, d, hn⟩
          · exact hx0 hn
          · rw [List.concat_eq_append] at hn
            rw [h1, hn, ← List.append_assoc] at hp
            have hd := List.append_inj' hp rfl
            have : c = d := by simpa using hd.2
            have hm := hxw d (by rw [hn]; simp)
            rw [← this, hc] at hm
            cases hm
  · rintro ⟨a, x, b, post, ht, ha, hx0, hx, hb0, hb, h0, hw, hp⟩
    have h2 : b ++ (w ++ post) = [] ∨ ∃ c p, b ++ (w ++ post) = c :: p ∧ S.ws c = true := by
      cases b with
      | nil => exact absurd rfl hb0
      | cons c b => exact Or.inr ⟨c, _, rfl, hb c List.mem_cons_self⟩
    rw [ht, words_blank S _ _ ha, words_after S _ _ hx0 hx h2, words_blank S _ _ hb, words_after S _ _ h0 hw hp]
    rfl

theorem words_end (S : Space) (t : Text) : ∀ b : Text, (∀ c ∈ b, S.ws c = true) → words S (t ++ b) = words S t
  | [], _ => by rw [List.append_nil]
  | c :: b, h => by
    rw [words_cut S c (h c List.mem_cons_self), words_all_blank S b (fun d hd => h d (List.mem_cons_of_mem _ hd)), List.append_nil]

theorem ruby_visible (S : Space) : ∀ c ∈ (['r', 'u', 'b', 'y'] : Text), S.ws c = false := by
  intro c hc
  simp only [List.mem_cons, List.not_mem_nil, or_false] at hc
  rcases hc with rfl | rfl | rfl | rfl <;> exact S.visible _ (by decide) (by decide)

theorem words_ruby (S : Space) (r : Text) : words S (tRubyBlank ++ r) = ['r', 'u', 'b', 'y'] :: words S r := by
  have h := words_cut S ' ' S.blank ['r', 'u', 'b', 'y'] r
  rw [words_plain S _ (by simp) (ruby_visible S)] at h
  exact h

theorem directive_iff (S : Space) (l : Text) (v : Version) : directive S l = some v ↔ Directive S l v := by
  have hr : "ruby ".toList = tRubyBlank := by decide
  unfold directive Directive
  rw [hr]
  obtain ⟨a, b, hl, ha, hb, hv1, hv2⟩ := (trim_padded S l _).1 rfl
  constructor
  · intro h
    split at h
    · rename_i hs
      obtain ⟨r, hs⟩ := Option.isSome_iff_exists.1 hs
      have hs := (strip_iff _ _ _).1 hs
      rw [hs, words_ruby] at h
      obtain ⟨w, h1, h2⟩ := bind_iff.1 h
      have h1 : (words S r).head? = some w := by
        rw [List.getElem?_cons_succ] at h1
        rw [List.head?_eq_getElem?]; exact h1
      obtain ⟨pre, post, ⟨e, h0, hw, g1, g2⟩, hp⟩ := (head_word S r w).1 h1
      refine ⟨a, r ++ b, w, unquote w, ?_, ha, ⟨pre, post ++ b, ⟨by rw [e]; simp, h0, hw, g1, ?_⟩, hp⟩, (unquote_padded _ _).1 rfl, (c89_marker _ _).1 h2⟩
      · rw [hs] at hl
        rw [hl]; simp
      · rcases g2 with g2 | ⟨c, p, g2, hc⟩
        · rw [g2, List.nil_append]
          cases b with
          | nil => exact Or.inl rfl
          | cons c b => exact Or.inr ⟨c, b, rfl, hb c List.mem_cons_self⟩
        · exact Or.inr ⟨c, p ++ b, by rw [g2]; rfl, hc⟩
    · cases h
  · rintro ⟨a', rest, w, x, e, ha', ⟨pre, post, ⟨e', h0, hw, g1, g2⟩, hpre⟩, hx, hv⟩
    obtain ⟨a2, b2, e2, ha2, hb2, hy1, hy2⟩ := (trim_padded S (w ++ post) _).1 rfl
    generalize hy : trim S (w ++ post) = y at *
    have ha0 : a2 = [] := by
      cases a2 with
      | nil => rfl
      | cons c a2 =>
        exfalso
        cases w with
        | nil => exact h0 rfl
        | cons d w =>
          injection e2 with e2 _
          have h1 := hw d List.mem_cons_self
          rw [e2, ha2 c List.mem_cons_self] at h1
          cases h1
    subst ha0
    rw [List.nil_append] at e2
    have hwy : words S y = w :: words S post := by
      rw [← words_end S y b2 hb2, ← e2]
      exact words_after S w post h0 hw g2
    have hy0 : y ≠ [] := by
      rintro rfl
      rw [words_nil] at hwy; cases hwy
    have ht : trim S l = tRubyBlank ++ (pre ++ y) := by
      rw [trim_padded]
      refine ⟨a', b2, by rw [e, e', List.append_assoc pre, e2]; simp, ha', hb2, ?_, ?_⟩
      · intro c s hc
        injection hc with hc _
        rw [← hc]
        exact ruby_visible S 'r' List.mem_cons_self
      · intro c s hc
        rcases List.eq_nil_or_concat y with hn | ⟨q, d, hn⟩
        · exact absurd hn hy0
        · rw [List.concat_eq_append] at hn
          have hc' : (tRubyBlank ++ (pre ++ q)) ++ [d] = s ++ [c] := by rw [← hc, hn]; simp
          have hd := List.append_inj' hc' rfl
          have : d = c := by simpa using hd.2
          exact this ▸ hy2 d q hn
    rw [ht, (strip_iff _ _ _).2 rfl, words_ruby, words_blank S _ _ hpre, hwy]
    simp only [Option.isSome_some, if_true]
    have hu := (unquote_padded _ _).2 hx
    show fromFull (unquote w) = some v
    rw [hu]
    exact (c89_marker _ _).2 hv

theorem says_ne {x : Text} {v : Version} (h : Says x v) : x ≠ [] := by
  rintro rfl
  obtain ⟨m, n, i⟩ := v
  cases i with
  | mri =>
    rcases h with h | ⟨r, h, _⟩
    · obtain ⟨c, r, h, _⟩ := numbered_head h; cases h
    · exact absurd h (by simp)
  | jruby => obtain ⟨r, e, h, _⟩ := h; exact absurd h (by simp)
  | truffleruby => obtain ⟨r, e, h, _⟩ := h; exact absurd h (by simp)

theorem rvm_iff (S : Space) (l : Text) (v : Version) : rvmLine S l = some v ↔ RvmLine S l v := by
  have hr : "ruby-".toList = tRubyDash := by decide
  unfold rvmLine RvmLine
  rw [hr, bind_iff]
  constructor
  · rintro ⟨r, h, hv⟩
    cases e : (words S (upTo tRubyDash r)).head? with
    | none =>
      rw [e] at hv
      exact absurd rfl (says_ne ((c89_marker _ _).1 hv))
    | some w =>
      rw [e] at hv
      exact ⟨r, _, w, (behind_iff _ _ _).1 h, upTo_iff _ _, (head_word S _ _).1 e, (c89_marker _ _).1 hv⟩
  · rintro ⟨r, m, w, h, hm, hw, hv⟩
    refine ⟨r, (behind_iff _ _ _).2 h, ?_⟩
    rw [upTo_unique (upTo_iff tRubyDash r) hm, (head_word S _ _).2 hw]
    exact (c89_marker _ _).2 hv

theorem lines_iff {f : Text → Option Version} {R : Text → Version → Prop} (h : ∀ l v, f l = some v ↔ R l v) (t : Text) (v : Version) :
    (lines t).findSome? f = some v ↔ FirstLine R t v := by
  have hn : ∀ w, f w = none ↔ ∀ u, ¬ R w u := by
    intro w
    cases e : f w with
    | none => simp only [true_iff]; intro u hu; rw [(h w u).2 hu] at e; cases e
    | some u => simp only [reduceCtorEq, false_iff]; exact fun hu => hu u ((h w u).1 e)
  rw [List.findSome?_eq_some_iff]
  unfold lines FirstLine
  constructor
  · rintro ⟨l1, l, l2, e, hv, hx⟩
    refine ⟨l1, l, l2, by rw [← e, split_join], ?_, (h l v).1 hv, fun x hx' => (hn x).1 (hx x hx')⟩
    intro x hx'
    rw [← e] at hx'
    exact (Runtimes.split_parts _ _ x hx').1
  · rintro ⟨l1, l, l2, e, hp, hv, hx⟩
    exact ⟨l1, l, l2, by rw [e, Runtimes.split_of_join _ _ (by simp) hp], (h l v).2 hv, fun x hx' => (hn x).2 (hx x hx')⟩

/-- A Gemfile says what the first of its lines says that begins with `ruby` and has a version as the next word. -/
theorem c89_gemfile (S : Space) (t : Text) (v : Version) : fromGemfile S t = some v ↔ FirstLine (Directive S) t v :=
  lines_iff (directive_iff S) t v

/-- What holds for lists of attempts and of what they find. -/
inductive Matches : List (Option Version) → List (Version → Prop) → Prop where
  | nil : Matches [] []
  | cons {o P os ps} : (∀ v, o = some v ↔ P v) → Matches os ps → Matches (o :: os) (P :: ps)

theorem matches_first {os : List (Option Version)} {ps : List (Version → Prop)} (h : Matches os ps) (v : Version) :
    os.findSome? id = some v ↔ ∃ a P b, ps = a ++ P :: b ∧ P v ∧ ∀ Q ∈ a, ∀ u, ¬ Q u := by
  induction h with
  | nil => simp
  | @cons o P os ps ho _ ih =>
    cases e : o with
    | some x =>
      simp only [List.findSome?_cons, id_eq, Option.some.injEq]
      constructor
      · rintro rfl; exact ⟨[], P, ps, rfl, (ho x).1 e, by simp⟩
      · rintro ⟨a, Q, b, h1, h2, h3⟩
        cases a with
        | nil =>
          injection h1 with h1 _
          subst h1
          rw [(ho v).2 h2] at e
          injection e with e; exact e.symm
        | cons R a =>
          injection h1 with h1 _
          exact absurd ((ho x).1 e) (h1 ▸ h3 R List.mem_cons_self x)
    | none =>
      simp only [List.findSome?_cons, id_eq]
      rw [ih]
      have hn : ∀ u, ¬ P u := fun u hu => by rw [(ho u).2 hu] at e; cases e
      constructor
      · rintro ⟨a, Q, b, h1, h2, h3⟩
        refine ⟨P :: a, Q, b, by rw [h1]; rfl, h2, ?_⟩
        intro R hR
        rcases List.mem_cons.1 hR with rfl | hR
        · exact hn
        · exact h3 R hR
      · rintro ⟨a, Q, b, h1, h2, h3⟩
        cases a with
        | nil =>
          injection h1 with h1 _
          subst h1
          exact absurd h2 (hn v)
        | cons R a =>
          injection h1 with _ h1
          exact ⟨a, Q, b, h1, h2, fun T hT => h3 T (List.mem_cons_of_mem _ hT)⟩

/-- The attempts one after the other. -/
def attempts (S : Space) (w : World) : List (Option Version) :=
  [w.rubyVersion.bind (fun t => fromFull (trim S t)), w.gemfile.bind (fromGemfile S), w.rbenvFile.bind (fun t => fromFull (trim S t)),
   w.rbenvCommand.bind (fun t => (words S t).head?.bind fromFull), w.rvmrc.bind (fun t => (lines t).findSome? (rvmLine S)),
   w.rvmCommand.bind (fun t => (strip tRubyDash t).bind (fun v => fromFull (trim S v))), w.system.bind (parseOutput S),
   w.system.bind (fun t => ((words S t)[1]?).bind fromFull)]

theorem detect_attempts (S : Space) (w : World) : detect S w = (attempts S w).findSome? id := by
  unfold detect attempts fromRbenv fromRvm fromSystem
  have hs : w.system.bind (fun t => orElse (parseOutput S t) (((words S t)[1]?).bind fromFull)) =
      orElse (w.system.bind (parseOutput S)) (w.system.bind (fun t => ((words S t)[1]?).bind fromFull)) := by
    cases w.system <;> rfl
  rw [hs]
  generalize w.rubyVersion.bind (fun t => fromFull (trim S t)) = o1
  generalize w.gemfile.bind (fromGemfile S) = o2
  generalize w.rbenvFile.bind (fun t => fromFull (trim S t)) = o3
  generalize w.rbenvCommand.bind (fun t => (words S t).head?.bind fromFull) = o4
  generalize w.rvmrc.bind (fun t => (lines t).findSome? (rvmLine S)) = o5
  generalize w.rvmCommand.bind (fun t => (strip tRubyDash t).bind (fun v => fromFull (trim S v))) = o6
  generalize w.system.bind (parseOutput S) = o7
  generalize w.system.bind (fun t => ((words S t)[1]?).bind fromFull) = o8
  cases o1 <;> cases o2 <;> cases o3 <;> cases o4 <;> cases o5 <;> cases o6 <;> cases o7 <;> cases o8 <;> rfl

theorem padded_says (S : Space) (t : Text) (v : Version) : fromFull (trim S t) = some v ↔ ∃ x, Padded S.ws x t ∧ Says x v := by
  rw [c89_marker]
  constructor
  · intro h; exact ⟨_, (trim_padded S t _).1 rfl, h⟩
  · rintro ⟨x, h, hv⟩
    rw [(trim_padded S t x).2 h]; exact hv

theorem attempts_match (S : Space) (w : World) : Matches (attempts S w) (sources S w) := by
  have hr : "ruby-".toList = tRubyDash := by decide
  unfold attempts sources
  refine .cons ?_ (.cons ?_ (.cons ?_ (.cons ?_ (.cons ?_ (.cons ?_ (.cons ?_ (.cons ?_ .nil))))))) <;> intro v <;> rw [bind_iff]
  · simp only [padded_says, exists_and_left]
  · simp only [c89_gemfile]
  · simp only [padded_says, exists_and_left]
  · simp only [bind_iff, head_word, c89_marker, exists_and_left]
  · simp only [lines_iff (rvm_iff S)]
  · simp only [bind_iff, padded_says, strip_iff, hr, exists_and_left]
  · simp only [c89_output]
  · simp only [bind_iff, second_word, c89_marker, exists_and_left]

/-- The version of a workspace is what the first source says that says something. -/
theorem c89_detect (S : Space) (w : World) (v : Version) : detect S w = some v ↔
    ∃ a P b, sources S w = a ++ P :: b ∧ P v ∧ ∀ Q ∈ a, ∀ u, ¬ Q u := by
  rw [detect_attempts]
  exact matches_first (attempts_match S w) v

/-- There is none exactly when no source says one. -/
theorem c89_silent (S : Space) (w : World) : detect S w = none ↔ ∀ P ∈ sources S w, ∀ v, ¬ P v := by
  have key : ∀ {os ps}, Matches os ps → (os.findSome? id = none ↔ ∀ P ∈ ps, ∀ v, ¬ P v) := by
    intro os ps h
    induction h with
    | nil => simp
    | @cons o P os ps ho _ ih =>
      cases e : o with
      | some x =>
        simp only [List.findSome?_cons, id_eq, reduceCtorEq, false_iff]
        exact fun h => h P List.mem_cons_self x ((ho x).1 e)
      | none =>
        have hn : ∀ u, ¬ P u := fun u hu => by rw [(ho u).2 hu] at e; cases e
        simp only [List.findSome?_cons, id_eq]
        rw [ih]
        constructor
        · intro h Q hQ
          rcases List.mem_cons.1 hQ with rfl | hQ
          · exact hn
          · exact h Q hQ
        · exact fun h Q hQ => h Q (List.mem_cons_of_mem _ hQ)
  rw [detect_attempts]
  exact key (attempts_match S w)

/-- The selected runtime goes first, without a fallback, then the setting, which is a version of MRI, then the detection. -/
theorem c89_effective (S : Space) (rt : Option (Impl × Text)) (setting : Text) (w : World) (v : Version) : effective S rt setting w = some v ↔
    (∃ c, rt = some (v.impl, c) ∧ Numbered c (v.major, v.minor)) ∨
    (rt = none ∧ v.impl = .mri ∧ Numbered setting (v.major, v.minor)) ∨
    (rt = none ∧ (∀ p, ¬ Numbered setting p) ∧ detect S w = some v) := by
  have hc : ∀ u, configured setting = some u ↔ u.impl = .mri ∧ Numbered setting (u.major, u.minor) := by
    intro u
    unfold configured
    split
    · rename_i h
      simp only [reduceCtorEq, false_iff, not_and]
      intro _ hn
      rw [h] at hn
      exact not_numbered (by decide) (by decide) hn
    · rw [map_impl, c89_parse]
      exact And.comm
  unfold effective
  cases rt with
  | some ic =>
    obtain ⟨i, c⟩ := ic
    simp only
    rw [map_impl, c89_parse]
    constructor
    · rintro ⟨h1, h2⟩; exact Or.inl ⟨c, by rw [h2], h1⟩
    · rintro (⟨c', h1, h2⟩ | ⟨h, _⟩ | ⟨h, _⟩)
      · injection h1 with h1
        injection h1 with h3 h4
        subst h4
        exact ⟨h2, h3.symm⟩
      · cases h
      · cases h
  | none =>
    simp only
    rw [either hc (fun _ => Iff.rfl)]
    constructor
    · rintro (⟨h1, h2⟩ | ⟨h1, h2⟩)
      · exact Or.inr (Or.inl ⟨trivial, h1, h2⟩)
      · exact Or.inr (Or.inr ⟨trivial, fun p hp => h1 (withImpl .mri p) ⟨rfl, hp⟩, h2⟩)
    · rintro (⟨c, h, _⟩ | ⟨_, h1, h2⟩ | ⟨_, h1, h2⟩)
      · cases h
      · exact Or.inl ⟨h1, h2⟩
      · exact Or.inr ⟨fun u hu => h1 _ hu.2, h2⟩

/-- Every supported series of JRuby is read from a marker as the Ruby that its output reports. -/
theorem c89_agree (S : Space) (s : Series) (m out : Text) (hm : Numbered m s.family) (ho : Occurs "jruby".toList out) (hp : Parens out s.compat) :
    fromFull ("jruby-".toList ++ m) = parseOutput S out := by
  have h1 : fromFull ("jruby-".toList ++ m) = some (withImpl .jruby s.compat) :=
    (c89_marker _ _).2 ⟨m, s.family, rfl, hm, by cases s <;> decide⟩
  have h2 : parseOutput S out = some (withImpl .jruby s.compat) := (c89_output S _ _).2 ⟨ho, Or.inl hp⟩
  rw [h1, h2]

def bare : World := ⟨none, none, none, none, none, none, none⟩

/-- Versions in files and outputs. -/
theorem c89_example :
    detect unicode { bare with rubyVersion := some (txt "jruby-9.4.5.0\n"), gemfile := some (txt "ruby '3.2.1'\n") } = some ⟨3, 1, .jruby⟩ ∧
    detect unicode { bare with rubyVersion := some (txt "system\n"), gemfile := some (txt "source 'x'\n  ruby '3.2.1'\n") } = some ⟨3, 2, .mri⟩ ∧
    detect unicode { bare with system := some (txt "truffleruby 23.1.1, like ruby 3.2.2, GraalVM CE Native [x86_64-darwin]\n") } =
      some ⟨3, 2, .truffleruby⟩ ∧
    detect unicode { bare with system := some (txt "ruby 3.0.0p0 (2020-12-25 revision 95aff21468) [x86_64-darwin20]\n") } = some ⟨3, 0, .mri⟩ ∧
    detect unicode { bare with rbenvCommand := some (txt "2.7.6 (set by /x/.ruby-version)\n") } = some ⟨2, 7, .mri⟩ ∧
    effective unicode (some (.jruby, txt "3.4")) (txt "2.7") bare = some ⟨3, 4, .jruby⟩ ∧
    effective unicode none (txt "auto") { bare with rvmCommand := some (txt "ruby-3.3.0\n") } = some ⟨3, 3, .mri⟩ := by decide +kernel

/-- A requirement with an operator and a blank, which the comment in the code names as supported, says nothing, and neither does a version of
two numbers with a comma behind it. -/
theorem c89_requirement_fails : fromGemfile unicode (txt "ruby \"~> 3.0\"\n") = none ∧ fromGemfile unicode (txt "ruby \"3.2\", engine: \"ruby\"\n") = none ∧
    fromGemfile unicode (txt "ruby(\"3.2.1\")\n") = none := by decide +kernel

/-- The engine that a Gemfile names is not used. -/
theorem c89_engine_fails : fromGemfile unicode (txt "ruby \"3.1.4\", engine: \"jruby\", engine_version: \"9.4.5.0\"\n") = some ⟨3, 1, .mri⟩ := by
  decide +kernel

/-- JRuby and TruffleRuby in a .rvmrc file are taken for a Ruby with the number of the engine. -/
theorem c89_rvmrc_fails : detect unicode { bare with rvmrc := some (txt "rvm use jruby-9.4.5.0\n") } = some ⟨9, 4, .mri⟩ ∧
    detect unicode { bare with rvmrc := some (txt "rvm use truffleruby-23.1.1\n") } = some ⟨23, 1, .mri⟩ := by decide +kernel

/-- A newer engine has a version when it is run and none when it is named. -/
theorem c89_newer_fails : fromFull (txt "jruby-10.2.0.0") = none ∧ parseOutput unicode (txt "jruby 10.2.0.0 (4.0.1) 2027-01-01") = some ⟨4, 0, .jruby⟩ ∧
    fromFull (txt "truffleruby-24.1.0") = none ∧ parseOutput unicode (txt "truffleruby 24.1.0, like ruby 3.3.5, GraalVM CE") = some ⟨3, 3, .truffleruby⟩ := by
  decide +kernel

end Verif.RubyVersions
