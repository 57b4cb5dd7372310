import Verif.Spec.YardDoc
import Verif.Lemmas.YardTypes
import Verif.Lemmas.Positions
/-!
Lemmas about the reading of the tags of YARD comments.
-/
namespace Verif.Yard
open Verif.Positions (byteLen utf16Sum)

/-- The text does not go on with a character of the class. -/
def Stops (p : Char → Bool) (s : Text) : Prop := ∀ c, s.head? = some c → p c = false

theorem span_stop {p : Char → Bool} {a r : Text} (ha : ∀ c ∈ a, p c = true) (hr : Stops p r) :
    (a ++ r).takeWhile p = a ∧ (a ++ r).dropWhile p = r := by
  induction a with
  | nil =>
    cases r with
    | nil => simp
    | cons c r => have := hr c rfl; simp [this]
  | cons c a ih =>
    have hc := ha c (List.mem_cons_self ..)
    obtain ⟨h1, h2⟩ := ih fun d hd => ha d (List.mem_cons_of_mem _ hd)
    simp [hc, h1, h2]

theorem Stops.cons {p : Char → Bool} {c : Char} {s : Text} (h : p c = false) : Stops p (c :: s) := by
  intro d hd; simp only [List.head?_cons, Option.some.injEq] at hd; subst hd; exact h

theorem Stops.nil {p : Char → Bool} : Stops p [] := by intro d hd; simp at hd

theorem spaces1_eq {a r : Text} (ha : Spaces a) (hr : Stops ws r) : spaces1 (a ++ r) = some (a, r) := by
  obtain ⟨h1, h2⟩ := span_stop ha.2 hr
  unfold spaces1
  rw [h1, h2, if_neg ha.1]

theorem spaces1_none {r : Text} (hr : Stops ws r) : spaces1 r = none := by
  have := (span_stop (a := []) (p := ws) (by simp) hr).1
  unfold spaces1
  rw [if_pos (by simpa using this)]

theorem word1_eq {W : Words} {a r : Text} (ha : Name W a) (hr : Stops W.word r) : word1 W.word (a ++ r) = some (a, r) := by
  obtain ⟨h1, h2⟩ := span_stop ha.2 hr
  unfold word1
  rw [h1, h2, if_neg ha.1]

theorem word1_none {W : Words} {r : Text} (hr : Stops W.word r) : word1 W.word r = none := by
  have := (span_stop (a := []) (p := W.word) (by simp) hr).1
  unfold word1
  rw [if_pos (by simpa using this)]

theorem literal_append (t r : Text) : literal t (t ++ r) = some r := by
  unfold literal
  rw [if_pos (by simp [List.isPrefixOf_iff_prefix])]
  simp

theorem literal_none {t s : Text} (h : ¬ t <+: s) : literal t s = none := by
  unfold literal
  rw [if_neg (by rw [List.isPrefixOf_iff_prefix]; exact h)]

theorem brackets_eq {t r : Text} (ht : InBrackets t) : brackets ('[' :: (t ++ ']' :: r)) = some (t, r) := by
  obtain ⟨h1, h2⟩ := span_stop (p := (· != ']')) (a := t) (r := ']' :: r) (fun c hc => by
    have : c ≠ ']' := fun e => ht.2 (e ▸ hc)
    simpa using this) (Stops.cons (by simp))
  unfold brackets
  simp only [h1, h2]
  rw [if_neg ht.1]

theorem Name.stops {W : Words} {n r : Text} (h : Name W n) : Stops ws (n ++ r) := by
  cases n with
  | nil => exact absurd rfl h.1
  | cons c n => exact Stops.cons (W.notWs c (h.2 c (List.mem_cons_self ..)))

theorem Spaces.stops {W : Words} {a r : Text} (h : Spaces a) : Stops W.word (a ++ r) := by
  cases a with
  | nil => exact absurd rfl h.1
  | cons c a =>
    refine Stops.cons ?_
    cases hw : W.word c with
    | false => rfl
    | true => have := W.notWs c hw; rw [h.2 c (List.mem_cons_self ..)] at this; cases this

theorem word_ascii {W : Words} {c : Char} (h : c.toNat < 128) (hc : asciiWord c = false) : W.word c = false := by rw [W.ascii c h, hc]

/-! ### Descriptions -/

theorem DescIs.nonEmpty {rest d : Text} (h : DescIs rest d) : nonEmpty (trimStart rest) = optional d := by
  obtain ⟨a, b, ha, hb, rfl, hd⟩ := h
  unfold Verif.Yard.nonEmpty optional
  rcases hd with rfl | hd
  · have : trim (trimStart (a ++ [] ++ b)) = [] := by
      unfold trimStart
      rw [List.append_nil, dropWhile_blank ha]
      have h2 := dropWhile_blank (s := []) hb
      rw [List.append_nil] at h2
      rw [h2]; rfl
    rw [this]
  · have hd : Tight d := hd
    have : trim (trimStart (a ++ d ++ b)) = d := by
      unfold trimStart
      rw [List.append_assoc, dropWhile_blank ha, dropWhile_tight hd]
      exact trim_pad (a := []) (by intro c h; cases h) hd hb
    rw [this, if_neg hd.ne]

theorem nonEmpty_eq (s : Text) : nonEmpty s = optional (trim s) := rfl

/-! ### The search -/

theorem search_none {α : Type} {m : Text → Option α} {s : Text} (h : ∀ t, t <:+ s → m t = none) (pre : Text) : search m pre s = none := by
  induction s generalizing pre with
  | nil => simp [search, h [] (List.suffix_refl _)]
  | cons c s ih =>
    simp only [search, h _ (List.suffix_refl _)]
    exact ih (fun t ht => h t (ht.trans (List.suffix_cons ..))) _

/-- A regex that begins with `@`. -/
def Tagged {α : Type} (m : Text → Option α) : Prop := ∀ t : Text, t.head? ≠ some '@' → m t = none

theorem search_at {α : Type} {m : Text → Option α} (hm : Tagged m) {s : Text} (hs : OneTag s) : search m [] s = (m s).map (([] : Text), ·) := by
  obtain ⟨r, rfl, hr⟩ := hs
  simp only [search]
  cases h : m ('@' :: r) with
  | some a => rfl
  | none =>
    simp only [Option.map_none]
    refine search_none (fun t ht => hm t ?_) _
    intro hd
    apply hr
    obtain ⟨q, rfl⟩ := ht
    cases t with
    | nil => simp at hd
    | cons c t => simp only [List.head?_cons, Option.some.injEq] at hd; simp [hd]

theorem literal_tagged {tag : Text} (htag : tag.head? = some '@') : ∀ t : Text, t.head? ≠ some '@' → literal tag t = none := by
  intro t ht
  refine literal_none ?_
  rintro ⟨q, rfl⟩
  cases tag with
  | nil => simp at htag
  | cons c tag => exact ht (by simpa using htag)

theorem matchNamed_tagged (w : Char → Bool) {tag : Text} (h : tag.head? = some '@') : Tagged (matchNamed w tag) := by
  intro t ht; simp [matchNamed, literal_tagged h t ht]
theorem matchAlt_tagged (w : Char → Bool) : Tagged (matchAlt w) := by
  intro t ht; simp [matchAlt, literal_tagged (tag := tParam) rfl t ht]
theorem matchPlain_tagged {tag : Text} (h : tag.head? = some '@') : Tagged (matchPlain tag) := by
  intro t ht; simp [matchPlain, literal_tagged h t ht]
theorem matchOption_tagged (w : Char → Bool) : Tagged (matchOption w) := by
  intro t ht; simp [matchOption, literal_tagged (tag := tOption) rfl t ht]
theorem matchRaise_tagged : Tagged matchRaise := by
  intro t ht; simp [matchRaise, literal_tagged (tag := tRaise) rfl t ht]
theorem matchNote_tagged {tag : Text} (h : tag.head? = some '@') : Tagged (matchNote tag) := by
  intro t ht; simp [matchNote, literal_tagged h t ht]

/-! ### The matches -/

theorem matchNamed_eq {W : Words} {tag a n b t rest : Text} (ha : Spaces a) (hn : Name W n) (hb : Spaces b) (ht : InBrackets t) :
    matchNamed W.word tag (tag ++ a ++ n ++ b ++ '[' :: (t ++ ']' :: rest)) = some ⟨tag ++ a ++ n ++ b, n, t, trimStart rest⟩ := by
  have hbr : Stops ws ('[' :: (t ++ ']' :: rest)) := Stops.cons (by decide)
  simp only [matchNamed, List.append_assoc, literal_append, spaces1_eq ha hn.stops, word1_eq hn hb.stops, spaces1_eq hb hbr,
    brackets_eq ht, Option.bind_eq_bind, Option.bind_some]
  rfl

theorem matchAlt_eq {W : Words} {a n b t rest : Text} (ha : Blank a) (hn : Name W n) (hb : Blank b) (ht : InBrackets t)
    (hr : Stops W.word rest) :
    matchAlt W.word (tParam ++ a ++ '[' :: (t ++ ']' :: (b ++ n ++ rest))) = some ⟨tParam ++ a, n, t, trimStart rest⟩ := by
  have hbr : Stops ws ('[' :: (t ++ ']' :: (b ++ n ++ rest))) := Stops.cons (by decide)
  obtain ⟨h1, h2⟩ := span_stop (p := ws) ha hbr
  have h3 : (b ++ n ++ rest).dropWhile ws = n ++ rest := by
    rw [List.append_assoc]; exact (span_stop (p := ws) hb hn.stops).2
  simp only [matchAlt, List.append_assoc, literal_append, Option.bind_eq_bind, Option.bind_some, trimStart] at *
  simp only [h1, h2, brackets_eq ht, Option.bind_some, h3, word1_eq hn hr]
  rfl

theorem matchNamed_alt {W : Words} {a s : Text} (ha : Blank a) : matchNamed W.word tParam (tParam ++ a ++ '[' :: s) = none := by
  have hbr : Stops ws ('[' :: s) := Stops.cons (by decide)
  simp only [matchNamed, List.append_assoc, literal_append, Option.bind_eq_bind, Option.bind_some]
  by_cases h : a = []
  · subst h; simp [spaces1_none hbr]
  · rw [spaces1_eq ⟨h, ha⟩ hbr]
    have : word1 W.word ('[' :: s) = none := word1_none (Stops.cons (word_ascii (by decide) (by decide)))
    simp [this]

theorem matchPlain_eq {tag a t rest : Text} (ha : Spaces a) (ht : InBrackets t) :
    matchPlain tag (tag ++ a ++ '[' :: (t ++ ']' :: rest)) = some ⟨tag ++ a, [], t, trimStart rest⟩ := by
  have hbr : Stops ws ('[' :: (t ++ ']' :: rest)) := Stops.cons (by decide)
  simp only [matchPlain, List.append_assoc, literal_append, spaces1_eq ha hbr, brackets_eq ht, Option.bind_eq_bind, Option.bind_some]
  rfl

theorem matchRaise_eq {a t rest : Text} (ha : Spaces a) (ht : InBrackets t) :
    matchRaise (tRaise ++ a ++ '[' :: (t ++ ']' :: rest)) = some t := by
  have hbr : Stops ws ('[' :: (t ++ ']' :: rest)) := Stops.cons (by decide)
  simp only [matchRaise, List.append_assoc, literal_append, spaces1_eq ha hbr, brackets_eq ht, Option.bind_eq_bind, Option.bind_some]
  rfl

theorem matchNote_eq (tag rest : Text) : matchNote tag (tag ++ rest) = some (trimStart rest) := by
  simp [matchNote, literal_append]

theorem matchOption_eq {W : Words} {a n b t c k rest : Text} (ha : Spaces a) (hn : Name W n) (hb : Spaces b) (ht : InBrackets t)
    (hc : Spaces c) (hk : Name W k) (hr : Stops W.word rest) :
    matchOption W.word (tOption ++ a ++ n ++ b ++ '[' :: (t ++ ']' :: (c ++ ':' :: (k ++ rest)))) =
      some (n, t, k, (defaultValue rest).1, trimStart (defaultValue rest).2) := by
  have hbr : Stops ws ('[' :: (t ++ ']' :: (c ++ ':' :: (k ++ rest)))) := Stops.cons (by decide)
  have hcol : Stops ws (':' :: (k ++ rest)) := Stops.cons (by decide)
  have hlit : literal [':'] (':' :: (k ++ rest)) = some (k ++ rest) := literal_append [':'] _
  simp only [matchOption, List.append_assoc, literal_append, spaces1_eq ha hn.stops, word1_eq hn hb.stops, spaces1_eq hb hbr,
    brackets_eq ht, spaces1_eq hc hcol, hlit, word1_eq hk hr, Option.bind_eq_bind, Option.bind_some]
  rfl

theorem defaultValue_none {rest d : Text} (h : DescIs rest d) (hd : d.head? ≠ some '(') : defaultValue rest = (none, rest) := by
  obtain ⟨a, b, ha, hb, rfl, ht⟩ := h
  unfold defaultValue
  by_cases hs : (a ++ d ++ b).takeWhile ws = []
  · simp only [spaces1, if_pos hs]
  · simp only [spaces1, if_neg hs]
    have : ((a ++ d ++ b).dropWhile ws).head? ≠ some '(' := by
      rw [List.append_assoc, dropWhile_blank ha]
      rcases ht with rfl | ht
      · have h2 := dropWhile_blank (s := []) hb
        rw [List.append_nil] at h2
        simp [h2]
      · have ht : Tight d := ht
        rw [dropWhile_tight ht]
        obtain ⟨c, r, rfl, _⟩ := ht
        simpa using hd
    split
    · rename_i heq
      simp only [Option.some.injEq, Prod.mk.injEq] at heq
      rw [heq.2] at this
      simp at this
    · rfl

theorem defaultValue_some {e v rest : Text} (he : Spaces e) (hv : ')' ∉ v) : defaultValue (e ++ '(' :: (v ++ ')' :: rest)) = (some v, rest) := by
  have hbr : Stops ws ('(' :: (v ++ ')' :: rest)) := Stops.cons (by decide)
  obtain ⟨h1, h2⟩ := span_stop (p := (· != ')')) (a := v) (r := ')' :: rest) (fun c hc => by
    have : c ≠ ')' := fun e => hv (e ▸ hc)
    simpa using this) (Stops.cons (by simp))
  unfold defaultValue
  simp only [spaces1_eq he hbr, h1, h2]

/-! ### The tags -/

theorem not_prefix {k t r : Text} (h : k.isPrefixOf t = false ∧ t.isPrefixOf k = false) : ¬ k <+: t ++ r := by
  intro hp
  rcases Nat.le_total k.length t.length with hl | hl
  · have := List.prefix_of_prefix_length_le hp (List.prefix_append t r) hl
    rw [← List.isPrefixOf_iff_prefix] at this
    rw [h.1] at this; cases this
  · have := List.prefix_of_prefix_length_le (List.prefix_append t r) hp hl
    rw [← List.isPrefixOf_iff_prefix] at this
    rw [h.2] at this; cases this

theorem matchNamed_other {w : Char → Bool} {k t r : Text} (h : k.isPrefixOf t = false ∧ t.isPrefixOf k = false) : matchNamed w k (t ++ r) = none := by
  simp [matchNamed, literal_none (not_prefix h)]
theorem matchAlt_other {w : Char → Bool} {t r : Text} (h : tParam.isPrefixOf t = false ∧ t.isPrefixOf tParam = false) : matchAlt w (t ++ r) = none := by
  simp [matchAlt, literal_none (not_prefix h)]
theorem matchPlain_other {k t r : Text} (h : k.isPrefixOf t = false ∧ t.isPrefixOf k = false) : matchPlain k (t ++ r) = none := by
  simp [matchPlain, literal_none (not_prefix h)]
theorem matchOption_other {w : Char → Bool} {t r : Text} (h : tOption.isPrefixOf t = false ∧ t.isPrefixOf tOption = false) : matchOption w (t ++ r) = none := by
  simp [matchOption, literal_none (not_prefix h)]
theorem matchRaise_other {t r : Text} (h : tRaise.isPrefixOf t = false ∧ t.isPrefixOf tRaise = false) : matchRaise (t ++ r) = none := by
  simp [matchRaise, literal_none (not_prefix h)]
theorem matchNote_other {k t r : Text} (h : k.isPrefixOf t = false ∧ t.isPrefixOf k = false) : matchNote k (t ++ r) = none := by
  simp [matchNote, literal_none (not_prefix h)]

/-- The result of `parse_tag` for a line with one `@`. -/
theorem parseTag_one {w : Char → Bool} {s : Text} (hs : OneTag s) (doc : Doc) (info : Comment) (track : Bool) :
    parseTag w s doc info track =
      match (matchNamed w tParam s).or (matchAlt w s) with
      | some m => { doc with params := doc.params ++ [mkParam m.name m.types m.rest (lineRange info track) (typesRange info track m.lead m.types)] }
      | none => match matchOption w s with
      | some (n, t, k, d, rest) => { doc with options := doc.options ++ [⟨n, k, parseTypeList t, d.bind nonEmpty, nonEmpty rest, lineRange info track⟩] }
      | none => match matchPlain tReturn s with
      | some m => { doc with returns := doc.returns ++ [mkParam [] m.types m.rest (lineRange info track) (typesRange info track m.lead m.types)] }
      | none => match matchNamed w tYieldParam s with
      | some m => { doc with yieldParams := doc.yieldParams ++ [mkParam m.name m.types m.rest none none] }
      | none => match matchPlain tYieldReturn s with
      | some m => { doc with yieldReturns := doc.yieldReturns ++ [mkParam [] m.types m.rest none none] }
      | none => match matchRaise s with
      | some t => { doc with raises := doc.raises ++ [t] }
      | none => match matchNote tDeprecated s with
      | some r => { doc with deprecated := noteText (nonEmpty r) dDeprecated }
      | none => match matchNote tUnavailable s with
      | some r => { doc with unavailable := noteText (nonEmpty r) dUnavailable }
      | none => match matchNote tAbsent s with
      | some r => { doc with absent := noteText (nonEmpty r) dAbsent }
      | none => doc := by
  unfold parseTag
  rw [search_at (matchNamed_tagged w rfl) hs, search_at (matchAlt_tagged w) hs, search_at (matchOption_tagged w) hs,
    search_at (matchPlain_tagged rfl) hs, search_at (matchNamed_tagged w rfl) hs, search_at (matchPlain_tagged rfl) hs,
    search_at matchRaise_tagged hs, search_at (matchNote_tagged rfl) hs, search_at (matchNote_tagged rfl) hs, search_at (matchNote_tagged rfl) hs]
  cases matchNamed w tParam s <;> cases matchAlt w s <;> simp only [Option.map_none, Option.map_some, Option.or_none, Option.some_or, Option.none_or, List.nil_append]
  cases matchOption w s <;> simp only [Option.map_none, Option.map_some]
  cases matchPlain tReturn s <;> simp only [Option.map_none, Option.map_some, List.nil_append]
  cases matchNamed w tYieldParam s <;> simp only [Option.map_none, Option.map_some]
  cases matchPlain tYieldReturn s <;> simp only [Option.map_none, Option.map_some]
  cases matchRaise s <;> simp only [Option.map_none, Option.map_some]
  cases matchNote tDeprecated s <;> simp only [Option.map_none, Option.map_some]
  cases matchNote tUnavailable s <;> simp only [Option.map_none, Option.map_some]
  cases matchNote tAbsent s <;> simp only [Option.map_none, Option.map_some]

/-- The ranges of a tag and of its types. -/
def colsOf (track : Bool) (info : Comment) : Option Cols := if track then some ⟨info.line, info.start, info.length⟩ else none
def typeColsOf (track : Bool) (info : Comment) (lead types : Text) : Option Cols :=
  if track then some ⟨info.line, info.start + byteLen lead, info.start + byteLen (lead ++ '[' :: (types ++ [']']))⟩ else none

theorem typesRange_eq (info : Comment) (track : Bool) (lead types : Text) : typesRange info track lead types = typeColsOf track info lead types := by
  unfold typesRange typeColsOf
  split
  · simp only [Option.some.injEq, Cols.mk.injEq, true_and, Verif.Positions.byteLen_append, Verif.Positions.byteLen_cons, Verif.Positions.byteLen_nil]
    have h1 : '['.utf8Size = 1 := rfl
    have h2 : ']'.utf8Size = 1 := rfl
    rw [h1, h2]
    omega
  · rfl

theorem lineRange_eq (info : Comment) (track : Bool) : lineRange info track = colsOf track info := rfl

theorem note_eq {rest d other : Text} (h : DescIs rest d) : noteText (nonEmpty (trimStart rest)) other = some (if d = [] then other else d) := by
  rw [h.nonEmpty]
  unfold noteText optional
  split <;> simp

theorem parseTag_tag {W : Words} {lead s : Text} {t : Tag} (h : TagLine W lead t s) (hs : OneTag s) (doc : Doc) (info : Comment) (track : Bool) :
    parseTag W.word s doc info track = t.add (colsOf track info) (typeColsOf track info lead t.types) doc := by
  rw [parseTag_one hs]
  cases h with
  | param a n b t rest d ha hn hb ht hd =>
    rw [matchNamed_eq ha hn hb ht]
    simp only [Option.some_or, mkParam, hd.nonEmpty, typesRange_eq, lineRange_eq, Tag.add, Tag.types]
  | paramAlt a n b t rest d ha hn hb ht hd hr =>
    rw [matchNamed_alt ha, matchAlt_eq ha hn hb ht hr]
    simp only [Option.none_or, mkParam, hd.nonEmpty, typesRange_eq, lineRange_eq, Tag.add, Tag.types]
  | option a n b t c k rest d ha hn hb ht hc hk hd hr hp =>
    rw [matchOption_eq ha hn hb ht hc hk hr, defaultValue_none hd hp]
    simp only [List.append_assoc]
    rw [matchNamed_other (by decide), matchAlt_other (by decide)]
    simp only [Option.none_or, hd.nonEmpty, lineRange_eq, Tag.add, Option.bind_none]
  | optionDefault a n b t c k e v rest d ha hn hb ht hc hk he hv hd =>
    rw [matchOption_eq ha hn hb ht hc hk he.stops, defaultValue_some he hv]
    simp only [List.append_assoc]
    rw [matchNamed_other (by decide), matchAlt_other (by decide)]
    simp only [Option.none_or, hd.nonEmpty, lineRange_eq, Tag.add, Option.bind_some, nonEmpty_eq v]
  | ret a t rest d ha ht hd =>
    rw [matchPlain_eq ha ht]
    simp only [List.append_assoc]
    rw [matchNamed_other (by decide), matchAlt_other (by decide), matchOption_other (by decide)]
    simp only [Option.none_or, mkParam, hd.nonEmpty, typesRange_eq, lineRange_eq, Tag.add, Tag.types]
  | yieldParam a n b t rest d ha hn hb ht hd =>
    rw [matchNamed_eq ha hn hb ht]
    simp only [List.append_assoc]
    rw [matchNamed_other (by decide), matchAlt_other (by decide), matchOption_other (by decide), matchPlain_other (by decide)]
    simp only [Option.none_or, mkParam, hd.nonEmpty, Tag.add]
  | yieldReturn a t rest d ha ht hd =>
    rw [matchPlain_eq (tag := tYieldReturn) ha ht]
    simp only [List.append_assoc]
    rw [matchNamed_other (by decide), matchAlt_other (by decide), matchOption_other (by decide), matchPlain_other (by decide), matchNamed_other (by decide)]
    simp only [Option.none_or, mkParam, hd.nonEmpty, Tag.add]
  | raise a t rest ha ht =>
    rw [matchRaise_eq ha ht]
    simp only [List.append_assoc]
    rw [matchNamed_other (by decide), matchAlt_other (by decide), matchOption_other (by decide), matchPlain_other (by decide),
      matchNamed_other (by decide), matchPlain_other (by decide)]
    simp only [Option.none_or, Tag.add]
  | deprecated rest d hd =>
    rw [matchNote_eq, matchNamed_other (by decide), matchAlt_other (by decide), matchOption_other (by decide), matchPlain_other (by decide),
      matchNamed_other (by decide), matchPlain_other (by decide), matchRaise_other (by decide)]
    simp only [Option.none_or, note_eq hd, Tag.add]
  | unavailable rest d hd =>
    rw [matchNote_eq, matchNamed_other (by decide), matchAlt_other (by decide), matchOption_other (by decide), matchPlain_other (by decide),
      matchNamed_other (by decide), matchPlain_other (by decide), matchRaise_other (by decide), matchNote_other (by decide)]
    simp only [Option.none_or, note_eq hd, Tag.add]
  | absent rest d hd =>
    rw [matchNote_eq, matchNamed_other (by decide), matchAlt_other (by decide), matchOption_other (by decide), matchPlain_other (by decide),
      matchNamed_other (by decide), matchPlain_other (by decide), matchRaise_other (by decide), matchNote_other (by decide), matchNote_other (by decide)]
    simp only [Option.none_or, note_eq hd, Tag.add]

theorem parseTag_other {w : Char → Bool} {s : Text} (hs : OneTag s)
    (h : ∀ k ∈ [tParam, tReturn, tYieldParam, tYieldReturn, tOption, tRaise, tDeprecated, tUnavailable, tAbsent], ¬ k <+: s)
    (doc : Doc) (info : Comment) (track : Bool) : parseTag w s doc info track = doc := by
  rw [parseTag_one hs]
  have hk : ∀ k ∈ [tParam, tReturn, tYieldParam, tYieldReturn, tOption, tRaise, tDeprecated, tUnavailable, tAbsent], literal k s = none :=
    fun k hk => literal_none (h k hk)
  simp only [List.mem_cons, List.not_mem_nil, or_false, forall_eq_or_imp, forall_eq] at hk
  obtain ⟨h1, h2, h3, h4, h5, h6, h7, h8, h9⟩ := hk
  simp [matchNamed, matchAlt, matchPlain, matchOption, matchRaise, matchNote, h1, h2, h3, h4, h5, h6, h7, h8, h9]

end Verif.Yard
