import Mathlib.Tactic.Tauto
import Verif.Lemmas.YardTags
/-!
Lemmas about YARD comments: the lines before a method, and the type at a position.
-/
namespace Verif.Yard
open Verif.Positions (byteLen utf16Sum)

/-! ### Lines -/

theorem linesGo_line {l : Text} (h : '\n' ∉ l) (s cur : Text) :
    linesGo (l ++ '\n' :: s) cur = (if (cur ++ l).getLast? = some '\r' then (cur ++ l).dropLast else cur ++ l) :: linesGo s [] := by
  induction l generalizing cur with
  | nil => simp [linesGo]
  | cons c l ih =>
    have hc : c ≠ '\n' := fun e => h (by simp [e])
    have := ih (fun e => h (List.mem_cons_of_mem _ e)) (cur ++ [c])
    simp only [List.cons_append, linesGo, if_neg hc, this, List.append_assoc, List.nil_append]

theorem linesGo_last {l : Text} (h : '\n' ∉ l) (cur : Text) : linesGo l cur = if cur ++ l = [] then [] else [cur ++ l] := by
  induction l generalizing cur with
  | nil => simp [linesGo]
  | cons c l ih =>
    have hc : c ≠ '\n' := fun e => h (by simp [e])
    have := ih (fun e => h (List.mem_cons_of_mem _ e)) (cur ++ [c])
    simp only [linesGo, if_neg hc, this, List.append_assoc, List.cons_append, List.nil_append]

/-- The lines of a text. -/
def allLines (ls : List (Text × Bool)) (last : Text) : List Text := ls.map (·.1) ++ if last = [] then [] else [last]

theorem lines_assemble {ls : List (Text × Bool)} {last : Text} (h : ∀ p ∈ ls, IsLine p.1) (hl : '\n' ∉ last) :
    lines (assemble ls ++ last) = allLines ls last := by
  unfold lines
  induction ls with
  | nil => simp [assemble, allLines, linesGo_last hl]
  | cons p ls ih =>
    obtain ⟨l, b⟩ := p
    have ih := ih fun q hq => h q (List.mem_cons_of_mem _ hq)
    have h0 := h (l, b) (List.mem_cons_self ..)
    cases b with
    | false =>
      have e : assemble ((l, false) :: ls) ++ last = l ++ '\n' :: (assemble ls ++ last) := by simp [assemble]
      rw [e, linesGo_line h0.1, List.nil_append, if_neg h0.2, ih]
      simp [allLines]
    | true =>
      have e : assemble ((l, true) :: ls) ++ last = (l ++ ['\r']) ++ '\n' :: (assemble ls ++ last) := by simp [assemble]
      rw [e, linesGo_line (by simp only [List.mem_append, List.mem_singleton]; rintro (h | h); exact h0.1 h; revert h; decide), List.nil_append,
        if_pos (by simp), ih]
      simp [allLines]

theorem count_assemble {ls : List (Text × Bool)} {last : Text} (h : ∀ p ∈ ls, IsLine p.1) (hl : '\n' ∉ last) :
    (assemble ls ++ last).count '\n' = ls.length := by
  induction ls with
  | nil => simpa [assemble] using List.count_eq_zero.2 hl
  | cons p ls ih =>
    obtain ⟨l, b⟩ := p
    have ih := ih fun q hq => h q (List.mem_cons_of_mem _ hq)
    have h0 : l.count '\n' = 0 := List.count_eq_zero.2 (h (l, b) (List.mem_cons_self ..)).1
    rw [List.count_append] at ih
    cases b <;> simp [assemble, List.count_append, h0] <;> omega

theorem assemble_last {ls : List (Text × Bool)} (h : ls ≠ []) : (assemble ls).getLast? = some '\n' := by
  induction ls with
  | nil => exact absurd rfl h
  | cons p ls ih =>
    obtain ⟨l, b⟩ := p
    by_cases hn : ls = []
    · subst hn; cases b <;> simp [assemble]
    · have := ih hn
      simp only [assemble, List.append_assoc]
      rw [← List.append_assoc, List.getLast?_append, this]; rfl

/-- The loop from the last line of the lines on. -/
def collectAll (L : List Text) : List Comment := (collectGo L.reverse (L.length - 1)).reverse

theorem collect_assemble {ls : List (Text × Bool)} {last : Text} (h : ∀ p ∈ ls, IsLine p.1) (hl : '\n' ∉ last) :
    collect (assemble ls ++ last) ls.length = some (collectAll (allLines ls last)) := by
  unfold collect collectAll
  rw [lines_assemble h hl]
  by_cases hn : last = []
  · subst hn
    have hall : allLines ls [] = ls.map (·.1) := by simp [allLines]
    rw [hall, List.append_nil]
    by_cases he : ls = []
    · subst he; rfl
    · rw [assemble_last he, if_pos rfl, if_neg (by simp [he])]; simp
  · rw [List.getLast?_append]
    have : last.getLast? ≠ some '\n' := fun e => hl (List.mem_of_getLast? e)
    have e : last.getLast?.or (assemble ls).getLast? = last.getLast? := by rw [List.getLast?_eq_some_getLast hn]; rfl
    rw [e, if_neg this]
    simp [allLines, hn]

/-! ### A comment -/

theorem mem_takeWhile_p {p : Char → Bool} {s : Text} {c : Char} (h : c ∈ s.takeWhile p) : p c = true := by
  induction s with
  | nil => simp at h
  | cons d s ih =>
    rw [List.takeWhile_cons] at h
    split at h
    · rename_i hd
      rcases List.mem_cons.1 h with rfl | h
      · exact hd
      · exact ih h
    · simp at h

theorem dropWhile_nil {p : Char → Bool} {s : Text} (h : s.dropWhile p = []) : ∀ c ∈ s, p c = true := by
  have e := List.takeWhile_append_dropWhile (p := p) (l := s)
  rw [h, List.append_nil] at e
  intro c hc
  rw [← e] at hc
  exact mem_takeWhile_p hc

theorem trimEnd_split (s : Text) : ∃ q post, s = q ++ post ∧ Blank post ∧ ∀ x, q.getLast? = some x → ws x = false := by
  refine ⟨(s.reverse.dropWhile ws).reverse, (s.reverse.takeWhile ws).reverse, ?_, ?_, ?_⟩
  · rw [← List.reverse_append, List.takeWhile_append_dropWhile, List.reverse_reverse]
  · intro c hc
    exact mem_takeWhile_p (List.mem_reverse.1 hc)
  · intro x hx
    rw [List.getLast?_reverse] at hx
    have := List.head?_dropWhile_not ws s.reverse
    rw [hx] at this
    simpa using this

theorem dropWhile_head {p : Char → Bool} {s : Text} {x : Char} (h : (s.dropWhile p).head? = some x) : p x = false := by
  have := List.head?_dropWhile_not p s
  rw [h] at this
  simpa using this

theorem tight_of_ends {s : Text} (hne : s ≠ []) (h1 : ∀ x, s.head? = some x → ws x = false) (h2 : ∀ x, s.getLast? = some x → ws x = false) :
    Tight s := by
  cases s with
  | nil => exact absurd rfl hne
  | cons c r =>
    refine ⟨c, r, rfl, h1 c rfl, (c :: r).getLast hne, (c :: r).dropLast, (List.dropLast_concat_getLast hne).symm, h2 _ ?_⟩
    exact List.getLast?_eq_some_getLast hne

theorem hash_ws : ws '#' = false := by decide

theorem mem_head {h : Text} (hne : h ≠ []) (hh : ∀ x ∈ h, x = '#') : ∃ r, h = '#' :: r := by
  cases h with
  | nil => exact absurd rfl hne
  | cons c r => exact ⟨r, by rw [hh c (List.mem_cons_self ..)]⟩

theorem Describes.trim {l : Text} {c : Comment} (hd : Describes l c) :
    ∃ a h b post, l = a ++ (h ++ b ++ c.content) ++ post ∧ Verif.Yard.trim l = h ++ b ++ c.content ∧ (h ++ b ++ c.content).dropWhile (· == '#') = b ++ c.content ∧
      (b ++ c.content).dropWhile ws = c.content ∧ trimStart l = h ++ b ++ c.content ++ post ∧ h ≠ [] ∧ (∀ x ∈ h, x = '#') ∧
      c.start = byteLen (a ++ h ++ b) ∧ c.length = byteLen l := by
  obtain ⟨a, h, b, post, hl, ha, hne, hh, hb, hp, h1, h2, h3, h4, h5, h6⟩ := hd
  obtain ⟨r, rfl⟩ := mem_head hne hh
  have hlast : ∀ x, ('#' :: r ++ b ++ c.content).getLast? = some x → ws x = false := by
    intro x hx
    by_cases hc : c.content = []
    · rw [hc, h4 hc, List.append_nil, List.append_nil] at hx
      have := hh x (List.mem_of_getLast? hx)
      rw [this]; exact hash_ws
    · rw [List.getLast?_append, List.getLast?_eq_some_getLast hc] at hx
      refine h3 x ?_
      rw [List.getLast?_eq_some_getLast hc]
      simpa using hx
  have htight : Tight ('#' :: r ++ b ++ c.content) := tight_of_ends (by simp) (by intro x hx; simp at hx; rw [← hx]; exact hash_ws) hlast
  have hl' : l = a ++ ('#' :: r ++ b ++ c.content) ++ post := by rw [hl]; simp
  refine ⟨a, '#' :: r, b, post, hl', ?_, ?_, ?_, ?_, hne, hh, h5, h6⟩
  · rw [hl']; exact trim_pad ha htight hp
  · rw [List.append_assoc]
    refine (span_stop (p := (· == '#')) (fun x hx => by simp [hh x hx]) ?_).2
    intro x hx
    cases b with
    | nil =>
      have := h2 rfl
      rw [List.nil_append] at hx
      simp only [beq_eq_false_iff_ne]
      rintro rfl; exact this hx
    | cons y b =>
      simp only [List.cons_append, List.head?_cons, Option.some.injEq] at hx
      have := hb y (List.mem_cons_self ..)
      subst hx
      simp only [beq_eq_false_iff_ne]
      rintro rfl; rw [hash_ws] at this; cases this
  · exact (span_stop (p := ws) hb h1).2
  · rw [hl', List.append_assoc]
    unfold trimStart
    rw [dropWhile_blank ha, dropWhile_tight htight]

theorem Describes.eq {l : Text} {c : Comment} (hd : Describes l c) : commentOf l c.line = c := by
  obtain ⟨a, h, b, post, hl, h1, h2, h3, h4, hne, hh, h5, h6⟩ := hd.trim
  obtain ⟨content, line, start, len⟩ := c
  simp only at *
  unfold commentOf
  simp only [h1, h2, h4]
  unfold trimStart
  simp only [h3, Comment.mk.injEq, true_and, h6, and_true, h5]
  subst hl
  simp only [Verif.Positions.byteLen_append]
  omega

theorem exists_describes {l : Text} (h : IsComment l) (n : Nat) : ∃ c, c.line = n ∧ Describes l c := by
  obtain ⟨a, r, ha, rfl⟩ := h
  obtain ⟨q, post, hq, hp, hlast⟩ := trimEnd_split ('#' :: r)
  have hqne : ∃ q', q = '#' :: q' := by
    cases q with
    | nil =>
      rw [List.nil_append] at hq
      have := hp '#' (by rw [← hq]; exact List.mem_cons_self ..)
      rw [hash_ws] at this; cases this
    | cons c q => simp only [List.cons_append, List.cons.injEq] at hq; exact ⟨q, by rw [hq.1]⟩
  let h := q.takeWhile (· == '#')
  let k := q.dropWhile (· == '#')
  let b := k.takeWhile ws
  let content := k.dropWhile ws
  have e1 : h ++ k = q := List.takeWhile_append_dropWhile
  have e2 : b ++ content = k := List.takeWhile_append_dropWhile
  have hb : Blank b := fun c hc => mem_takeWhile_p hc
  have hh : ∀ x ∈ h, x = '#' := fun x hx => by simpa using mem_takeWhile_p hx
  refine ⟨⟨content, n, byteLen (a ++ h ++ b), byteLen (a ++ '#' :: r)⟩, rfl, a, h, b, post, ?_, ha, ?_, hh, hb, hp, ?_, ?_, ?_, ?_, rfl, rfl⟩
  · rw [hq, ← e1, ← e2]; simp
  · obtain ⟨q', hq'⟩ := hqne
    simp [h, hq']
  · intro x hx; exact dropWhile_head hx
  · intro hbe hx
    rw [hbe, List.nil_append] at e2
    simp only at hx
    rw [e2] at hx
    have := dropWhile_head hx
    simp at this
  · intro x hx
    refine hlast x ?_
    rw [← e1, ← e2, ← List.append_assoc, List.getLast?_append]
    simp only at hx
    rw [hx]; rfl
  · intro hc
    simp only at hc
    rw [hc, List.append_nil] at e2
    by_cases hbe : b = []
    · exact hbe
    · exfalso
      have := hlast (b.getLast hbe) (by rw [← e1, ← e2, List.getLast?_append, List.getLast?_eq_some_getLast hbe]; rfl)
      rw [hb _ (List.getLast_mem hbe)] at this; cases this

theorem trimEnd_prefix (s : Text) : trimEnd s <+: s := by
  unfold trimEnd
  refine ⟨(s.reverse.takeWhile ws).reverse, ?_⟩
  rw [← List.reverse_append, List.takeWhile_append_dropWhile, List.reverse_reverse]

theorem trim_head_iff {l : Text} : (trim l).head? = some '#' ↔ IsComment l := by
  constructor
  · intro h
    obtain ⟨q, hq⟩ := trimEnd_prefix (trimStart l)
    have e : l = l.takeWhile ws ++ trimStart l := by unfold trimStart; rw [List.takeWhile_append_dropWhile]
    cases ht : trim l with
    | nil => rw [ht] at h; simp at h
    | cons c s =>
      rw [ht] at h
      simp only [List.head?_cons, Option.some.injEq] at h
      subst h
      refine ⟨l.takeWhile ws, s ++ q, fun c hc => mem_takeWhile_p hc, ?_⟩
      unfold trim at ht
      rw [ht] at hq
      rw [← List.cons_append, hq]; exact e
  · intro h
    obtain ⟨c, _, hd⟩ := exists_describes h 0
    obtain ⟨a, h, b, post, hl, h1, h2, h3, h4, hne, hh, h5, h6⟩ := hd.trim
    obtain ⟨r, rfl⟩ := mem_head hne hh
    rw [h1]; rfl

theorem trim_nil_iff {l : Text} : trim l = [] ↔ Blank l := by
  constructor
  · intro h
    unfold trim trimEnd at h
    rw [List.reverse_eq_nil_iff] at h
    have h := dropWhile_nil h
    have e : l = l.takeWhile ws ++ trimStart l := by unfold trimStart; rw [List.takeWhile_append_dropWhile]
    intro c hc
    rw [e] at hc
    rcases List.mem_append.1 hc with hc | hc
    · exact mem_takeWhile_p hc
    · exact h c (List.mem_reverse.2 hc)
  · exact trim_blank

/-! ### The block -/

theorem collectAll_snoc (L : List Text) (l : Text) :
    collectAll (L ++ [l]) =
      if (trim l).head? = some '#' then collectAll L ++ [commentOf l L.length] else if trim l ≠ [] then [] else collectAll L := by
  have hz : (if L.length = 0 then [] else collectGo L.reverse (L.length - 1)) = collectGo L.reverse (L.length - 1) := by
    split
    · rename_i h; rw [List.length_eq_zero_iff] at h; subst h; rfl
    · rfl
  unfold collectAll
  rw [List.reverse_append, List.length_append]
  simp only [List.reverse_cons, List.reverse_nil, List.nil_append, List.cons_append, List.length_cons, List.length_nil, Nat.zero_add, Nat.add_sub_cancel,
    collectGo, hz]
  split
  · simp
  · split <;> simp

theorem append_singleton_cases {A B : List Text} {l x : Text} {L : List Text} (h : L ++ [x] = A ++ l :: B) :
    (B = [] ∧ A = L ∧ l = x) ∨ ∃ B', B = B' ++ [x] ∧ L = A ++ l :: B' := by
  rcases List.eq_nil_or_concat B with rfl | ⟨B', y, hB⟩
  · left
    have := List.append_inj' h rfl
    exact ⟨rfl, this.1.symm, by simpa using this.2.symm⟩
  · right
    rw [List.concat_eq_append] at hB
    subst hB
    rw [← List.cons_append, ← List.append_assoc] at h
    have := List.append_inj' h rfl
    exact ⟨B', by simpa using this.2.symm, this.1⟩

theorem mem_collectAll (L : List Text) (c : Comment) :
    c ∈ collectAll L ↔ ∃ A l B, L = A ++ l :: B ∧ (∀ x ∈ B, Blank x ∨ IsComment x) ∧ IsComment l ∧ c.line = A.length ∧ Describes l c := by
  induction hn : L.length generalizing L with
  | zero =>
    rw [List.length_eq_zero_iff] at hn
    subst hn
    constructor
    · intro h; simp [collectAll, collectGo] at h
    · rintro ⟨A, l, B, h, _⟩; simp at h
  | succ n ih =>
    rcases List.eq_nil_or_concat L with rfl | ⟨L', x, hL⟩
    · simp at hn
    rw [List.concat_eq_append] at hL
    subst hL
    have ih := ih L' (by simpa using hn)
    rw [collectAll_snoc]
    by_cases h1 : (trim x).head? = some '#'
    · rw [if_pos h1, List.mem_append, List.mem_singleton, ih]
      rw [trim_head_iff] at h1
      constructor
      · rintro (⟨A, l, B, rfl, hB, hl, hc⟩ | rfl)
        · refine ⟨A, l, B ++ [x], by simp, ?_, hl, hc⟩
          intro y hy
          rcases List.mem_append.1 hy with hy | hy
          · exact hB y hy
          · rw [List.mem_singleton] at hy; subst hy; exact .inr h1
        · obtain ⟨c, hc, hd⟩ := exists_describes h1 L'.length
          have := hd.eq
          rw [hc] at this
          rw [this]
          exact ⟨L', x, [], rfl, by simp, h1, hc, hd⟩
      · rintro ⟨A, l, B, h, hB, hl, hc, hd⟩
        rcases append_singleton_cases h with ⟨rfl, rfl, rfl⟩ | ⟨B', rfl, rfl⟩
        · right; rw [← hc]; exact hd.eq.symm
        · left; exact ⟨A, l, B', rfl, fun y hy => hB y (List.mem_append_left _ hy), hl, hc, hd⟩
    · rw [if_neg h1]
      have h1' := mt trim_head_iff.2 h1
      by_cases h2 : trim x ≠ []
      · rw [if_pos h2]
        have h2' := mt trim_nil_iff.2 h2
        simp only [List.not_mem_nil, false_iff]
        rintro ⟨A, l, B, h, hB, hl, hc, hd⟩
        rcases append_singleton_cases h with ⟨rfl, rfl, rfl⟩ | ⟨B', rfl, rfl⟩
        · exact h1' hl
        · rcases hB x (by simp) with h | h
          · exact h2' h
          · exact h1' h
      · rw [if_neg h2, ih]
        have h2' := trim_nil_iff.1 (not_not.1 h2)
        constructor
        · rintro ⟨A, l, B, rfl, hB, hl, hc⟩
          refine ⟨A, l, B ++ [x], by simp, ?_, hl, hc⟩
          intro y hy
          rcases List.mem_append.1 hy with hy | hy
          · exact hB y hy
          · rw [List.mem_singleton] at hy; subst hy; exact .inl h2'
        · rintro ⟨A, l, B, h, hB, hl, hc⟩
          rcases append_singleton_cases h with ⟨rfl, rfl, rfl⟩ | ⟨B', rfl, rfl⟩
          · exact absurd hl h1'
          · exact ⟨A, l, B', rfl, fun y hy => hB y (List.mem_append_left _ hy), hl, hc⟩

theorem sorted_collectAll (L : List Text) : (collectAll L).Pairwise (fun a b => a.line < b.line) ∧ ∀ c ∈ collectAll L, c.line < L.length := by
  refine ⟨?_, fun c hc => ?_⟩
  · induction hn : L.length generalizing L with
    | zero =>
      rw [List.length_eq_zero_iff] at hn
      subst hn
      simp [collectAll, collectGo]
    | succ n ih =>
      rcases List.eq_nil_or_concat L with rfl | ⟨L', x, hL⟩
      · simp at hn
      rw [List.concat_eq_append] at hL
      subst hL
      have ih := ih L' (by simpa using hn)
      rw [collectAll_snoc]
      split
      · rw [List.pairwise_append]
        refine ⟨ih, by simp, fun a ha b hb => ?_⟩
        rw [List.mem_singleton] at hb
        subst hb
        obtain ⟨A, l, B, rfl, _, _, hc, _⟩ := (mem_collectAll L' a).1 ha
        rw [hc]
        simp [commentOf]
      · split
        · simp
        · exact ih
  · obtain ⟨A, l, B, rfl, _, _, hc, _⟩ := (mem_collectAll L c).1 hc
    simp [hc]

/-! ### The documentation -/

theorem foldl_docOf {W : Words} (l : List (Item × Comment)) (h : ∀ p ∈ l, ItemLine W p.1 p.2.content) (d : Doc) (ts : List Text) (flag : Bool) :
    ((l.map (·.2)).foldl (linesStep W.word true) (d, ts, flag)).1 = docOf l d ∧
    ((l.map (·.2)).foldl (linesStep W.word true) (d, ts, flag)).2.1 = ts ++ (if flag then descriptionOf (l.map (·.1)) else []) := by
  induction l generalizing d ts flag with
  | nil => cases flag <;> simp [docOf, descriptionOf]
  | cons p l ih =>
    obtain ⟨i, c⟩ := p
    have h0 := h (i, c) (List.mem_cons_self ..)
    have ih := fun d ts flag => ih (fun p hp => h p (List.mem_cons_of_mem _ hp)) d ts flag
    simp only [List.map_cons, List.foldl_cons]
    simp only at h0
    cases hi : h0 with
    | text _ ht =>
      simp only [docOf, descriptionOf]
      by_cases he : c.content = []
      · have : linesStep W.word true (d, ts, flag) c = (d, ts, flag) := by simp [linesStep, he]
        rw [this, if_pos he]; exact ih d ts flag
      · cases flag with
        | true =>
          have : linesStep W.word true (d, ts, true) c = (d, ts ++ [c.content], true) := by simp [linesStep, he, ht]
          rw [this, if_neg he]
          obtain ⟨h1, h2⟩ := ih d (ts ++ [c.content]) true
          exact ⟨h1, by rw [h2]; simp⟩
        | false =>
          have : linesStep W.word true (d, ts, false) c = (d, ts, false) := by simp [linesStep, he, ht]
          rw [this]
          obtain ⟨h1, h2⟩ := ih d ts false
          exact ⟨h1, by rw [h2]; simp⟩
    | tag lead t _ ht h1 =>
      have hp := parseTag_tag ht h1 d c true
      obtain ⟨r, hr, _⟩ := h1
      have : linesStep W.word true (d, ts, flag) c = (parseTag W.word c.content d c true, ts, false) := by simp [linesStep, hr]
      rw [this, hp]
      simp only [docOf, descriptionOf, colsOf, typeColsOf, if_true]
      obtain ⟨h1, h2⟩ := ih (t.add (some ⟨c.line, c.start, c.length⟩)
        (some ⟨c.line, c.start + byteLen lead, c.start + byteLen (lead ++ '[' :: (t.types ++ [']']))⟩) d) ts false
      refine ⟨h1, ?_⟩
      rw [h2]; simp
    | other _ h1 h2 =>
      have hp := parseTag_other (w := W.word) h1 h2 d c true
      obtain ⟨r, hr, _⟩ := h1
      have : linesStep W.word true (d, ts, flag) c = (parseTag W.word c.content d c true, ts, false) := by simp [linesStep, hr]
      rw [this, hp]
      simp only [docOf, descriptionOf]
      obtain ⟨h1, h2⟩ := ih d ts false
      refine ⟨h1, ?_⟩
      rw [h2]; simp

theorem docOf_description (l : List (Item × Comment)) (d : Doc) (hd : d.description = none) : (docOf l d).description = none := by
  induction l generalizing d with
  | nil => exact hd
  | cons p l ih =>
    obtain ⟨i, c⟩ := p
    cases i with
    | text s => exact ih d hd
    | other => exact ih d hd
    | tag lead t => simp only [docOf]; apply ih; cases t <;> simpa [Tag.add] using hd

/-- There is something else than what is said of a block. -/
def Doc.says (d : Doc) : Prop :=
  d.params ≠ [] ∨ d.returns ≠ [] ∨ d.options ≠ [] ∨ d.description.isSome ∨ d.deprecated.isSome ∨ d.unavailable.isSome ∨ d.absent.isSome ∨ d.raises ≠ []

theorem Tag.add_says (t : Tag) {d : Doc} (x y : Option Cols) (h : d.says) : (t.add x y d).says := by
  unfold Doc.says at h ⊢
  cases t <;> simp only [Tag.add] <;> simp <;> tauto

theorem Tag.add_new {t : Tag} (ht : ¬ t.isYield) (d : Doc) (x y : Option Cols) : (t.add x y d).says := by
  unfold Doc.says
  cases t <;> first | exact absurd trivial ht | simp [Tag.add]

theorem docOf_says {l : List (Item × Comment)} {d : Doc} (h : d.says ∨ ∃ lead t c, (Item.tag lead t, c) ∈ l ∧ ¬ t.isYield) : (docOf l d).says := by
  induction l generalizing d with
  | nil =>
    rcases h with h | ⟨_, _, _, h, _⟩
    · exact h
    · simp at h
  | cons p l ih =>
    obtain ⟨i, c⟩ := p
    have tail : ∀ (d' : Doc), (d.says → d'.says) → (∀ lead t, i = .tag lead t → ¬ t.isYield → d'.says) →
        d'.says ∨ ∃ lead t c, (Item.tag lead t, c) ∈ l ∧ ¬ t.isYield := by
      intro d' h1 h2
      rcases h with h | ⟨lead, t, c', hm, ht⟩
      · exact .inl (h1 h)
      · rcases List.mem_cons.1 hm with e | hm
        · simp only [Prod.mk.injEq] at e
          exact .inl (h2 lead t e.1.symm ht)
        · exact .inr ⟨lead, t, c', hm, ht⟩
    cases i with
    | text s => exact ih (tail d id (fun _ _ e => nomatch e))
    | other => exact ih (tail d id (fun _ _ e => nomatch e))
    | tag lead t =>
      simp only [docOf]
      refine ih (tail _ (fun h => t.add_says _ _ h) fun lead' t' e ht => ?_)
      simp only [Item.tag.injEq] at e
      rw [← e.2] at ht
      exact Tag.add_new ht _ _ _

end Verif.Yard
