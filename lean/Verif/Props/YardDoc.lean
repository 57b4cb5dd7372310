import Verif.Lemmas.YardAt
import Verif.Props.YardTypes
/-!
C61: the comment before a method is found, and its tags are read, as YARD defines them; and the type at a position is that which is
written there.
-/
namespace Verif.Yard
open Verif.Positions (byteLen utf16Sum)

/-- C61. The comments that are found for a method are exactly the comments before it with nothing but blank lines and comments
between them and the method, in their order, each with its line, its text and the place of its text; and there is no panic. The
text before the method is given by its lines `ls` and the beginning `last` of the line of the method. -/
theorem c61_block {ls : List (Text × Bool)} {last : Text} (h : ∀ p ∈ ls, IsLine p.1) (hl : '\n' ∉ last) :
    ∃ cs, collect (assemble ls ++ last) ((assemble ls ++ last).count '\n') = some cs ∧ cs.Pairwise (fun a b => a.line < b.line) ∧
      ∀ c, c ∈ cs ↔ ∃ A l B, ls.map (·.1) ++ (if last = [] then [] else [last]) = A ++ l :: B ∧ (∀ x ∈ B, Blank x ∨ IsComment x) ∧
        IsComment l ∧ c.line = A.length ∧ Describes l c := by
  rw [count_assemble h hl]
  exact ⟨_, collect_assemble h hl, (sorted_collectAll _).1, mem_collectAll _⟩

/-- C61. A tag, alone on its line, adds exactly what it says, whatever other tags are there; the ranges are only noted on demand. -/
theorem c61_tag {W : Words} {lead s : Text} {t : Tag} (h : TagLine W lead t s) (hs : OneTag s) (doc : Doc) (c : Comment) :
    parseTag W.word s doc c true = t.add (some ⟨c.line, c.start, c.length⟩)
      (some ⟨c.line, c.start + byteLen lead, c.start + byteLen (lead ++ '[' :: (t.types ++ [']']))⟩) doc ∧
    parseTag W.word s doc c false = t.add none none doc := by
  exact ⟨parseTag_tag h hs doc c true, parseTag_tag h hs doc c false⟩

/-- C61. The documentation of a comment whose lines are texts, tags and unknown tags is that of its tags, in order, and the
description is that of the texts before the first tag. -/
theorem c61_doc {W : Words} (l : List (Item × Comment)) (h : ∀ p ∈ l, ItemLine W p.1 p.2.content) :
    parseLines W.word (l.map (·.2)) true =
      { docOf l {} with description := if descriptionOf (l.map (·.1)) = [] then none else some (List.intercalate [' '] (descriptionOf (l.map (·.1)))) } := by
  obtain ⟨h1, h2⟩ := foldl_docOf l h {} [] true
  simp only [if_true, List.nil_append] at h2
  unfold parseLines
  simp only [h1, h2]
  split
  · have hd := docOf_description l {} rfl
    cases hdoc : docOf l {}
    rw [hdoc] at hd
    simp only at hd
    rw [hd]
  · rw [joinBlank_eq]

/-- C61. So the documentation of a method is that of the lines of its comments, if it has a description or a tag that is not about
a block. -/
theorem c61_source {W : Words} {before : Text} {l : List (Item × Comment)} (hc : collect before (before.count '\n') = some (l.map (·.2)))
    (h : ∀ p ∈ l, ItemLine W p.1 p.2.content) (hs : descriptionOf (l.map (·.1)) ≠ [] ∨ ∃ lead t c, (Item.tag lead t, c) ∈ l ∧ ¬ t.isYield) :
    extractFromSource W.word before = some (some
      { docOf l {} with description := if descriptionOf (l.map (·.1)) = [] then none else some (List.intercalate [' '] (descriptionOf (l.map (·.1)))) }) := by
  have hl : l.map (·.2) ≠ [] := by
    intro e
    rw [List.map_eq_nil_iff] at e
    subst e
    rcases hs with hs | ⟨_, _, _, hs, _⟩
    · exact hs rfl
    · simp at hs
  have hb : before ≠ [] := by
    rintro rfl
    simp [collect, lines, linesGo, collectGo] at hc
    exact hl (by rw [hc]; rfl)
  unfold extractFromSource extract
  rw [if_neg hb, hc]
  simp only [Option.map_some, if_neg hl, c61_doc l h]
  congr 1
  refine if_pos ?_
  rcases hs with hs | hs
  · simp [if_neg hs]
  · have := docOf_says (d := {}) (.inr hs)
    unfold Doc.says at this
    rcases this with h | h | h | h | h | h | h | h
    · exact .inl h
    · exact .inr (.inl h)
    · exact .inr (.inr (.inl h))
    · by_cases he : descriptionOf (l.map (·.1)) = []
      · exfalso
        have e := docOf_description l {} rfl
        rw [e] at h; simp at h
      · exact .inr (.inr (.inr (.inl (by rw [if_neg he]; rfl))))
    · exact .inr (.inr (.inr (.inr (.inl h))))
    · exact .inr (.inr (.inr (.inr (.inr (.inl h)))))
    · exact .inr (.inr (.inr (.inr (.inr (.inr (.inl h))))))
    · exact .inr (.inr (.inr (.inr (.inr (.inr (.inr h))))))

/-- C61. The range of the types of a tag is where the types are, with their brackets: in bytes of the line, and in columns of an
editor if the line is in ASCII up to there. -/
theorem c61_columns {W : Words} {l lead : Text} {t : Tag} {c : Comment} (hd : Describes l c) (h : TagLine W lead t c.content) (ht : t.types ≠ []) :
    ∃ pre rest, l = pre ++ '[' :: (t.types ++ ']' :: rest) ∧ c.start + byteLen lead = byteLen pre ∧
      c.start + byteLen (lead ++ '[' :: (t.types ++ [']'])) = byteLen (pre ++ '[' :: (t.types ++ [']'])) ∧
      ((∀ x ∈ pre ++ t.types, x.toNat < 128) → byteLen pre = utf16Sum pre ∧
        byteLen (pre ++ '[' :: (t.types ++ [']'])) = utf16Sum (pre ++ '[' :: (t.types ++ [']']))) := by
  obtain ⟨a, hh, b, post, hl, _, _, _, _, _, _, _, _, _, hstart, _⟩ := hd
  have hc : ∃ r, c.content = lead ++ '[' :: (t.types ++ ']' :: r) := by
    generalize c.content = s at h
    cases h <;> first | exact absurd rfl ht | exact ⟨_, rfl⟩
  obtain ⟨r, hr⟩ := hc
  refine ⟨a ++ hh ++ b ++ lead, r ++ post, ?_, ?_, ?_, ?_⟩
  · rw [hl, hr]; simp
  · rw [hstart]; simp [Nat.add_assoc]
  · rw [hstart]; simp [Nat.add_assoc]
  · intro hascii
    have key : ∀ s : Text, (∀ x ∈ s, x.toNat < 128) → byteLen s = utf16Sum s := by
      intro s
      induction s with
      | nil => intro _; rfl
      | cons x s ih =>
        intro hs
        have hx := hs x (List.mem_cons_self ..)
        have := ih fun y hy => hs y (List.mem_cons_of_mem _ hy)
        rw [Verif.Positions.byteLen_cons, Verif.Positions.utf16Sum_cons, this]
        congr 1
        have h1 : x.utf8Size = 1 := by
          unfold Char.utf8Size
          have : x.val ≤ 127 := by
            have e : x.toNat = x.val.toNat := rfl
            rw [e] at hx
            exact UInt32.le_iff_toNat_le.2 (by simpa using (by omega : x.val.toNat ≤ 127))
          simp [this]
        have h2 : Verif.Positions.utf16Len x = 1 := by
          unfold Verif.Positions.utf16Len
          rw [if_pos (by omega)]
        rw [h1, h2]
    refine ⟨key _ fun x hx => hascii x (by simp only [List.mem_append] at hx ⊢; exact .inl hx), key _ fun x hx => ?_⟩
    rcases List.mem_append.1 hx with hx | hx
    · exact hascii x (List.mem_append_left _ hx)
    · rcases List.mem_cons.1 hx with rfl | hx
      · decide
      · rcases List.mem_append.1 hx with hx | hx
        · exact hascii x (List.mem_append_right _ hx)
        · rw [List.mem_singleton] at hx; subst hx; decide

/-- C61. The type at a place in the brackets of a comment line is the class of the type that is written there, and the range is that
of the type with the white space around it. `u` is what is before the type, ending with a comma; `v` is what is behind it. -/
theorem c61_at {U : Unicode} {ls : List (Text × Bool)} {last l pre u a w b v post : Text} {t : YT} {line col : Nat}
    (hls : ∀ p ∈ ls, IsLine p.1) (hlast : '\n' ∉ last) (hline : (ls.map (·.1) ++ (if last = [] then [] else [last]))[line]? = some l)
    (hcom : IsComment l) (hl : l = pre ++ '[' :: (u ++ (a ++ w ++ b) ++ v ++ ']' :: post)) (hpre : Closed pre)
    (hin : ']' ∉ u ++ (a ++ w ++ b) ++ v) (hu : u = [] ∨ ∃ ts r, WritesList U ts r ∧ noArrows ts ∧ u = r ++ [','])
    (ha : Blank a) (hw : Writes U t w) (hb : Blank b) (hv : (v = [] ∧ t.lateArrow) ∨ ((∃ r, v = ',' :: r) ∧ t.noArrow))
    (hcol : byteLen (pre ++ '[' :: u) ≤ col) (hcol' : col < byteLen (pre ++ '[' :: (u ++ (a ++ w ++ b)))) :
    findType (assemble ls ++ last) line col =
      some (t.head w, byteLen (pre ++ '[' :: u), byteLen (pre ++ '[' :: (u ++ (a ++ w ++ b)))) := by
  have hbr : '['.utf8Size = 1 := rfl
  have hlines := lines_assemble hls hlast
  unfold allLines at hlines
  have hhead : (trimStart l).head? = some '#' := by
    obtain ⟨c, _, hd⟩ := exists_describes hcom 0
    obtain ⟨a, h, b, post, _, _, _, _, h4, hne, hh, _⟩ := hd.trim
    obtain ⟨r, rfl⟩ := mem_head hne hh
    rw [h4]; rfl
  have hne : InBrackets (u ++ (a ++ w ++ b) ++ v) := ⟨by simp [hw.tight.ne], hin⟩
  unfold findType
  rw [hlines, hline]
  simp only [hhead, if_true]
  obtain ⟨ps, k, hps, hk, hlt⟩ := bracketMatches_closed hpre ('[' :: (u ++ (a ++ w ++ b) ++ v ++ ']' :: post)) (l.length + 1) (by rw [hl]; simp; omega) 0
  obtain ⟨rest, hrest⟩ := bracketMatches_first (pre := []) (post := post) (by simp) hne k (by rw [hl] at hk; simp at hk; simp; omega) (0 + byteLen pre)
  simp only [List.nil_append] at hrest
  have hm : bracketMatches (l.length + 1) l 0 = ps ++ (0 + byteLen pre, u ++ (a ++ w ++ b) ++ v) :: rest := by
    have e : bracketMatches (l.length + 1) l 0 = bracketMatches (l.length + 1) (pre ++ '[' :: (u ++ (a ++ w ++ b) ++ v ++ ']' :: post)) 0 :=
      congrArg (fun x => bracketMatches (l.length + 1) x 0) hl
    rw [e, hps, hrest]; simp
  simp only [Verif.Positions.byteLen_append, Verif.Positions.byteLen_cons, hbr] at hcol hcol'
  rw [hm, bracketAt_skip (fun p hp => by have := hlt p hp; omega), bracketAt]
  rw [if_pos (by simp only [Verif.Positions.byteLen_append]; omega)]
  -- the parts
  have hparts : ∃ ps q, partsGo (u ++ (a ++ w ++ b) ++ v) 0 0 0 [] = ps ++ (byteLen u, byteLen u + byteLen (a ++ w ++ b), a ++ w ++ b) :: q ∧
      ∀ x ∈ ps, x.2.1 ≤ byteLen u := by
    have hpiece : ∀ p, ∃ q, partsGo (a ++ w ++ b ++ v) p p 0 [] = (p, p + byteLen (a ++ w ++ b), a ++ w ++ b) :: q := by
      intro p
      rcases hv with ⟨rfl, hlate⟩ | ⟨⟨r, rfl⟩, hno⟩
      · obtain ⟨k, hk⟩ := hw.goesL hlate
        have e : a ++ w ++ b ++ [] = a ++ (w ++ (b ++ [])) := by simp
        rw [e, partsGo_atom ha.atom, hk _ _ _ _ _ (by omega), partsGo_atom hb.atom, partsGo]
        have hpos : 0 < byteLen w := by
          rcases Nat.eq_zero_or_pos (byteLen w) with h | h
          · exact absurd (Verif.Positions.byteLen_eq_zero.1 h) hw.tight.ne
          · exact h
        rw [if_pos (by omega)]
        exact ⟨[], by simp [Nat.add_assoc]⟩
      · exact ⟨_, partsGo_piece ha hw hb hno p r⟩
    rcases hu with rfl | ⟨ts, r, hr, hts, rfl⟩
    · obtain ⟨q, hq⟩ := hpiece 0
      exact ⟨[], q, by simpa using hq, by simp⟩
    · obtain ⟨ps, h1, h2⟩ := partsGo_before hr hts 0 (a ++ w ++ b ++ v)
      obtain ⟨q, hq⟩ := hpiece (0 + byteLen r + 1)
      have e : byteLen (r ++ [',']) = 0 + byteLen r + 1 := by
        simp only [Verif.Positions.byteLen_append, Verif.Positions.byteLen_cons, Verif.Positions.byteLen_nil, size_special.2.2.2.2.1]; omega
      refine ⟨ps, q, ?_, fun x hx => by have := h2 x hx; omega⟩
      rw [e, ← hq, ← h1]
      simp
  obtain ⟨ps, q, hps, hlt⟩ := hparts
  rw [hps, partAt_before (fun x hx => by have := hlt x hx; omega) (by simp), partAt, trim_pad ha hw.tight hb, hw.base]
  rw [if_pos ⟨by omega, by simp only [Verif.Positions.byteLen_append]; omega, hw.head_ne⟩]
  simp only [Verif.Positions.byteLen_append, Verif.Positions.byteLen_cons, hbr, Option.some.injEq, Prod.mk.injEq, true_and]
  omega

/-- C61. There is no type at a place that is on no comment line, or in no brackets of its line. -/
theorem c61_outside {ls : List (Text × Bool)} {last : Text} {line col : Nat} (hls : ∀ p ∈ ls, IsLine p.1) (hlast : '\n' ∉ last)
    (h : ∀ l, (ls.map (·.1) ++ (if last = [] then [] else [last]))[line]? = some l → IsComment l →
      ∀ pre t post, l = pre ++ '[' :: (t ++ ']' :: post) → InBrackets t → col < byteLen pre ∨ byteLen (pre ++ '[' :: (t ++ [']'])) ≤ col) :
    findType (assemble ls ++ last) line col = none := by
  have hlines := lines_assemble hls hlast
  unfold allLines at hlines
  unfold findType
  rw [hlines]
  split
  · rfl
  · rename_i l hl
    split
    · rename_i hh
      have hcom : IsComment l := by
        have e : l = l.takeWhile ws ++ trimStart l := (List.takeWhile_append_dropWhile).symm
        cases hd : trimStart l with
        | nil => rw [hd] at hh; cases hh
        | cons c r =>
          rw [hd] at hh e
          cases hh
          exact ⟨_, r, fun x hx => mem_takeWhile_p hx, e⟩
      refine bracketAt_none fun p hp => ?_
      obtain ⟨p, t⟩ := p
      obtain ⟨pre, post, e, ht, hpos⟩ := mem_bracketMatches hp
      have := h l hl hcom pre t post e ht
      have b1 : '['.utf8Size = 1 := rfl
      have b2 : ']'.utf8Size = 1 := rfl
      simp only [Verif.Positions.byteLen_append, Verif.Positions.byteLen_cons, Verif.Positions.byteLen_nil, b1, b2] at this
      simp only
      omega
    · rfl

/-! ### Concrete cases and counterexamples -/

/-- The words with only ASCII characters. -/
def asciiW : Words where
  word := fun c => asciiWord c && c.toNat < 128
  ascii := by intro c h; simp [h]
  notWs := by
    intro c h
    simp only [asciiWord, asciiUpper, ws, Bool.and_eq_true, Bool.or_eq_true, decide_eq_true_eq, beq_iff_eq] at h ⊢
    simp only [Bool.or_eq_false_iff, Bool.and_eq_false_iff, decide_eq_false_iff_not, beq_eq_false_iff_ne]
    omega

/-- A method with two tags. -/
def sample : Text := "  # Adds one.\n  # @param x [Integer, nil] the number\n  # @return [Integer]\n  ".toList

/-- Its parameter and what it returns. -/
def sampleParam : Param := ⟨['x'], [tInteger, tNil], some "the number".toList, some ⟨1, 4, 38⟩, some ⟨1, 13, 27⟩⟩
def sampleReturn : Param := ⟨[], [tInteger], none, some ⟨2, 4, 21⟩, some ⟨2, 12, 21⟩⟩

example : extractFromSource asciiW.word sample =
    some (some { description := some "Adds one.".toList, params := [sampleParam], returns := [sampleReturn] }) := by decide +kernel

example : findType sample 1 24 = some (tNil, 22, 26) ∧ findType sample 1 15 = some (tInteger, 14, 21) := by decide +kernel

example : findType sample 1 27 = none ∧ findType "  puts [String]".toList 0 9 = none ∧
    findType "# [Integer] or [String]".toList 0 17 = some (tString, 16, 22) := by decide +kernel

example : (parseLines asciiW.word [⟨"Adds".toList, 0, 2, 6⟩, ⟨"one.".toList, 1, 2, 6⟩] true).description = some "Adds one.".toList := by
  decide +kernel

/-- C61, counterexample: the tags are searched anywhere in a line, so that the description of a `@return` tag that mentions a
`@param` tag makes a parameter of it, and the return type is lost; and a `@see` tag can make a method deprecated. -/
theorem c61_anywhere_fails :
    (parseLines asciiW.word [⟨"@return [Integer] the value given by @param x [String]".toList, 0, 2, 60⟩] true).returns = [] ∧
    (parseLines asciiW.word [⟨"@return [Integer] the value given by @param x [String]".toList, 0, 2, 60⟩] true).params.map (fun p => (p.name, p.typesRange)) =
      [(['x'], some ⟨0, 48, 56⟩)] ∧
    (parseLines asciiW.word [⟨"@see Foo which replaces the @deprecated Bar".toList, 0, 2, 60⟩] true).deprecated = some ['B', 'a', 'r'] := by
  decide +kernel

/-- C61, counterexample: what is said of a block alone is lost. -/
theorem c61_yield_fails :
    (parseLines asciiW.word [⟨"@yieldparam x [Integer]".toList, 0, 2, 25⟩] true).yieldParams.map (·.name) = [['x']] ∧
    extractFromSource asciiW.word "# @yieldparam x [Integer]\n".toList = some none := by decide +kernel

/-- C61, counterexample: for `private def foo` nothing of the comment above is found. -/
theorem c61_modifier_fails :
    extractFromSource asciiW.word "# @return [Integer]\nprivate ".toList = some none ∧
    (extractFromSource asciiW.word "# @return [Integer]\n".toList).isSome ∧
    extractFromSource asciiW.word "# @return [Integer]\n".toList ≠ some none := by decide +kernel

/-- C61, counterexample: blank lines do not end a comment, so that the magic comment and the licence at the top of a file become the
description of the method, and an `@deprecated` of what was there before is one of the method. -/
theorem c61_blank_fails :
    extractFromSource asciiW.word "# frozen_string_literal: true\n\n# @deprecated all of this file\n\n\n# Adds one.\n".toList =
      some (some { description := some "frozen_string_literal: true".toList, deprecated := some "all of this file".toList }) := by decide +kernel

/-- C61, counterexample: columns are counted in bytes, so that with a name that is not in ASCII before them the types are not where
the range says: here the bracket is in column 15 for an editor; and column 23, which is behind the comma, is taken to be in `Integer`. -/
theorem c61_bytes_fails :
    (parseLines (fun c => asciiWord c || 128 ≤ c.toNat) [⟨"@param größe [Integer]".toList, 0, 2, 26⟩] true).params.map (·.typesRange) =
      [some ⟨0, 17, 26⟩] ∧ utf16Sum "# @param größe ".toList = 15 ∧
    findType "# größe größe [Integer, String]".toList 0 23 = some (tInteger, 19, 26) ∧ utf16Sum "# größe größe [Integer,".toList = 23 := by
  decide +kernel

/-- C61, counterexample: behind a hash with braces the type at a position is not found; and on the closing bracket the whole list is
taken for a name. -/
theorem c61_braces_fails :
    findType "# @return [Hash{Symbol => String}, nil]".toList 0 36 = some (tHash, 11, 38) ∧
    findType "# @return [String, nil]".toList 0 22 = some ("String, nil".toList, 11, 22) := by decide +kernel

end Verif.Yard
